import Verif.Model.Plummer
import Verif.Proof.Round
import Mathlib.Tactic.Linarith
import Mathlib.Tactic.Ring

/-! Facts about the initial data of the benchmarks, for C86. -/
namespace Rakau
variable {K : Type} [Field K] [LinearOrder K] [IsStrictOrderedRing K]

omit [Field K] [LinearOrder K] [IsStrictOrderedRing K] in
/-- Writes to different places: every place holds one of the values written to it, or the old one if there are none. -/
theorem putAll_spec (ws : List (Nat × Fl K)) (v : List (Fl K)) (h : ∀ w ∈ ws, w.1 < v.length) :
    ∃ v', putAll ws v = .ok v' ∧ v'.length = v.length ∧ ∀ i < v.length, (∃ x, (i, x) ∈ ws ∧ v'[i]? = some x) ∨ (v'[i]? = v[i]? ∧ ∀ x, (i, x) ∉ ws) := by
  induction ws generalizing v with
  | nil => exact ⟨v, rfl, rfl, fun i _ => .inr ⟨rfl, fun x h => by cases h⟩⟩
  | cons w ws ih =>
    obtain ⟨k, y⟩ := w
    have hk : k < v.length := h (k, y) (by simp)
    obtain ⟨v', e1, e2, e3⟩ := ih (v.set k y) (fun w hw => by rw [List.length_set]; exact h w (by simp [hw]))
    rw [List.length_set] at e2 e3
    refine ⟨v', by rw [putAll, if_pos hk]; exact e1, e2, fun i hi => ?_⟩
    rcases e3 i hi with ⟨x, x1, x2⟩ | ⟨x1, x2⟩
    · exact .inl ⟨x, by simp [x1], x2⟩
    · by_cases hki : k = i
      · subst hki
        exact .inl ⟨y, by simp, by rw [x1]; simp [hk]⟩
      · rw [List.getElem?_set_ne hki] at x1
        refine .inr ⟨x1, fun x hx => ?_⟩
        rcases List.mem_cons.1 hx with e | e
        · exact hki (congrArg Prod.fst e).symm
        · exact x2 x e

/-- The points of the particles `i`, …, `i + k - 1` and their writes; other writes are to masses. -/
structure Placed (S : Sphere K) (A : Arith K) (a lim : Fl K) (n i k : Nat) (ws : List (Nat × Fl K)) (P : Nat → Fl K × Fl K × Fl K) : Prop where
  cand : ∀ l, i ≤ l → l < i + k → S.Cand A a (P l) ∧ inLimit lim (P l) = true
  only : ∀ w ∈ ws, (i ≤ w.1 ∧ w.1 < i + k ∧ S.mass w.2) ∨ ∃ l, i ≤ l ∧ l < i + k ∧ w ∈ putPoint n l (P l)
  put : ∀ l, i ≤ l → l < i + k → ∀ w ∈ putPoint n l (P l), w ∈ ws

variable {S : Sphere K} {A : Arith K} {a lim : Fl K} {n : Nat}

omit [IsStrictOrderedRing K] in
theorem Placed.cons {i k : Nat} {ws : List (Nat × Fl K)} {P : Nat → Fl K × Fl K × Fl K} (H : Placed S A a lim n (i + 1) k ws P) {p : Fl K × Fl K × Fl K} (h1 : S.Cand A a p) (h2 : inLimit lim p = true) :
    Placed S A a lim n i (k + 1) (putPoint n i p ++ ws) (fun l => if l = i then p else P l) where
  cand := by
    intro l l1 l2
    by_cases h : l = i
    · rw [if_pos h]; exact ⟨h1, h2⟩
    · rw [if_neg h]; exact H.cand l (by omega) (by omega)
  only := by
    intro w hw
    rcases List.mem_append.1 hw with h | h
    · exact .inr ⟨i, le_rfl, by omega, by rw [if_pos rfl]; exact h⟩
    · rcases H.only w h with ⟨a1, a2, a3⟩ | ⟨l, a1, a2, a3⟩
      · exact .inl ⟨by omega, by omega, a3⟩
      · exact .inr ⟨l, by omega, by omega, by rw [if_neg (by omega)]; exact a3⟩
  put := by
    intro l l1 l2 w hw
    rw [List.mem_append]
    by_cases h : l = i
    · rw [if_pos h, h] at hw; exact .inl hw
    · rw [if_neg h] at hw; exact .inr (H.put l (by omega) (by omega) w hw)

omit [IsStrictOrderedRing K] in
theorem Placed.mass {i k l : Nat} {ws : List (Nat × Fl K)} {P : Nat → Fl K × Fl K × Fl K} (H : Placed S A a lim n i k ws P) {m : Fl K} (hm : S.mass m) (h1 : i ≤ l) (h2 : l < i + k) :
    Placed S A a lim n i k ((l, m) :: ws) P where
  cand := H.cand
  only := by
    intro w hw
    rcases List.mem_cons.1 hw with rfl | h
    · exact .inl ⟨h1, h2, hm⟩
    · exact H.only w h
  put := fun l l1 l2 w hw => List.mem_cons_of_mem _ (H.put l l1 l2 w hw)

omit [IsStrictOrderedRing K] in
theorem Placed.nil {i : Nat} (P : Nat → Fl K × Fl K × Fl K) : Placed S A a lim n i 0 [] P :=
  ⟨fun l _ _ => by omega, (fun w hw => by cases hw), fun l _ _ => by omega⟩

omit [IsStrictOrderedRing K] in
theorem Placed.append {i k k' : Nat} {ws ws' : List (Nat × Fl K)} {P P' : Nat → Fl K × Fl K × Fl K} (H : Placed S A a lim n i k ws P) (H' : Placed S A a lim n (i + k) k' ws' P') :
    Placed S A a lim n i (k + k') (ws ++ ws') (fun l => if l < i + k then P l else P' l) where
  cand := by
    intro l l1 l2
    split
    · exact H.cand l l1 (by assumption)
    · exact H'.cand l (by omega) (by omega)
  only := by
    intro w hw
    rcases List.mem_append.1 hw with h | h
    · rcases H.only w h with ⟨a1, a2, a3⟩ | ⟨l, a1, a2, a3⟩
      · exact .inl ⟨a1, by omega, a3⟩
      · exact .inr ⟨l, a1, by omega, by rw [if_pos a2]; exact a3⟩
    · rcases H'.only w h with ⟨a1, a2, a3⟩ | ⟨l, a1, a2, a3⟩
      · exact .inl ⟨by omega, by omega, a3⟩
      · exact .inr ⟨l, by omega, by omega, by rw [if_neg (by omega)]; exact a3⟩
  put := by
    intro l l1 l2 w hw
    rw [List.mem_append]
    split at hw
    · exact .inl (H.put l l1 (by assumption) w hw)
    · exact .inr (H'.put l (by omega) (by omega) w hw)

omit [IsStrictOrderedRing K] in
theorem serial_placed {i k : Nat} {ws : List (Nat × Fl K)} (h : S.Serial A a lim n i k ws) : ∃ P, Placed S A a lim n i k ws P := by
  induction h with
  | done i => exact ⟨fun _ => (.nan, .nan, .nan), .nil _⟩
  | keep i k p ws h1 h2 _ ih => obtain ⟨P, H⟩ := ih; exact ⟨_, H.cons h1 h2⟩
  | drop i k p ws _ _ _ ih => exact ih

omit [IsStrictOrderedRing K] in
theorem block_placed {i k : Nat} {ws : List (Nat × Fl K)} (h : S.Block A a lim n i k ws) :
    (∃ P, Placed S A a lim n i k ws P) ∧ ∀ l, i ≤ l → l < i + k → ∃ m, (l, m) ∈ ws := by
  induction h with
  | done i => exact ⟨⟨fun _ => (.nan, .nan, .nan), .nil _⟩, fun l _ _ => by omega⟩
  | keep i k m p ws hm h1 h2 _ ih =>
    obtain ⟨⟨P, H⟩, ih⟩ := ih
    refine ⟨⟨_, (H.cons h1 h2).mass hm le_rfl (by omega)⟩, fun l l1 l2 => ?_⟩
    by_cases h : l = i
    · exact ⟨m, by rw [h]; simp⟩
    · obtain ⟨m', h'⟩ := ih l (by omega) (by omega)
      exact ⟨m', by simp [h']⟩
  | drop i k m p ws hm _ _ _ ih =>
    obtain ⟨⟨P, H⟩, ih⟩ := ih
    refine ⟨⟨_, H.mass hm le_rfl (by omega)⟩, fun l l1 l2 => ?_⟩
    obtain ⟨m', h'⟩ := ih l l1 l2
    exact ⟨m', by simp [h']⟩

omit [IsStrictOrderedRing K] in
theorem blocks_placed {i : Nat} {ws : List (Nat × Fl K)} (h : S.Blocks A a lim n i ws) :
    i ≤ n ∧ (∃ P, Placed S A a lim n i (n - i) ws P) ∧ ∀ l, i ≤ l → l < n → ∃ m, (l, m) ∈ ws := by
  induction h with
  | done => exact ⟨le_rfl, ⟨fun _ => (.nan, .nan, .nan), by rw [Nat.sub_self]; exact .nil _⟩, fun l _ _ => by omega⟩
  | block i k ws ws' hik hb _ ih =>
    obtain ⟨h1, ⟨P', H'⟩, m'⟩ := ih
    obtain ⟨⟨P, H⟩, m⟩ := block_placed hb
    refine ⟨by omega, ⟨_, by rw [show n - i = k + (n - (i + k)) by omega]; exact H.append H'⟩, fun l l1 l2 => ?_⟩
    by_cases h : l < i + k
    · obtain ⟨x, hx⟩ := m l l1 h
      exact ⟨x, by simp [hx]⟩
    · obtain ⟨x, hx⟩ := m' l (by omega) l2
      exact ⟨x, by simp [hx]⟩

omit [IsStrictOrderedRing K] in
/-- The vector after all writes. -/
theorem Placed.result {ws ws' : List (Nat × Fl K)} {P : Nat → Fl K × Fl K × Fl K} (H : Placed S A a lim n 0 n ws P) (hm : ∀ l < n, ∃ m, (l, m) ∈ ws) (hn : n * 4 < 2 ^ 64) (hp : ∀ w, w ∈ ws' ↔ w ∈ ws) :
    ∃ v, putAll ws' (List.replicate (n * 4 % 2 ^ 64) (.fin 0)) = .ok v ∧ v.length = 4 * n ∧
      ∀ l < n, (∃ m, S.mass m ∧ v[l]? = some m) ∧ v[n + l]? = some (P l).1 ∧ v[2 * n + l]? = some (P l).2.1 ∧ v[3 * n + l]? = some (P l).2.2 := by
  rw [Nat.mod_eq_of_lt hn]
  have hin : ∀ w ∈ ws', w.1 < (List.replicate (n * 4) (Fl.fin (0 : K))).length := by
    intro w hw
    rw [List.length_replicate]
    rcases H.only w ((hp w).1 hw) with ⟨_, a2, _⟩ | ⟨l, _, a2, a3⟩
    · omega
    · simp only [putPoint, List.mem_cons, List.not_mem_nil, or_false] at a3
      rcases a3 with rfl | rfl | rfl <;> (show _ < _; simp only; omega)
  obtain ⟨v, e1, e2, e3⟩ := putAll_spec ws' _ hin
  rw [List.length_replicate] at e2 e3
  -- a coordinate is written with one value only
  have one : ∀ i x, n ≤ i → i < 4 * n → (i, x) ∈ ws → ∃ l < n, (i, x) ∈ putPoint n l (P l) := by
    intro i x h1 _ hx
    rcases H.only _ hx with ⟨_, a2, _⟩ | ⟨l, _, a2, a3⟩
    · simp only at a2; omega
    · exact ⟨l, by omega, a3⟩
  have at_ : ∀ l < n, ∀ w ∈ putPoint n l (P l), v[w.1]? = some w.2 := by
    intro l hl w hw
    have hws := H.put l (by omega) (by omega) w hw
    have hw4 : w.1 < n * 4 := by have := hin w ((hp w).2 hws); rwa [List.length_replicate] at this
    rcases e3 w.1 hw4 with ⟨x, x1, x2⟩ | ⟨_, x2⟩
    · rw [x2, Option.some.injEq]
      have hn : n ≤ w.1 := by
        simp only [putPoint, List.mem_cons, List.not_mem_nil, or_false] at hw
        rcases hw with rfl | rfl | rfl <;> (show _ ≤ _; simp only; omega)
      obtain ⟨l', hl', q⟩ := one w.1 x hn (by omega) ((hp _).1 x1)
      simp only [putPoint, List.mem_cons, List.not_mem_nil, or_false, Prod.mk.injEq] at q hw
      rcases hw with rfl | rfl | rfl <;> rcases q with ⟨q1, rfl⟩ | ⟨q1, rfl⟩ | ⟨q1, rfl⟩ <;> simp only at q1 ⊢ <;>
        first
        | (obtain rfl : l = l' := by omega); rfl
        | omega
    · exact absurd ((hp _).2 hws) (x2 w.2)
  refine ⟨v, e1, by omega, fun l hl => ⟨?_, at_ l hl (n + l, _) (by simp [putPoint]), at_ l hl (2 * n + l, _) (by simp [putPoint]), at_ l hl (3 * n + l, _) (by simp [putPoint])⟩⟩
  obtain ⟨m, hmw⟩ := hm l hl
  rcases e3 l (by omega) with ⟨x, x1, x2⟩ | ⟨_, x2⟩
  · refine ⟨x, ?_, x2⟩
    rcases H.only _ ((hp _).1 x1) with ⟨_, _, a3⟩ | ⟨l', _, _, a3⟩
    · exact a3
    · simp only [putPoint, List.mem_cons, List.not_mem_nil, or_false, Prod.mk.injEq] at a3
      rcases a3 with ⟨q, _⟩ | ⟨q, _⟩ | ⟨q, _⟩ <;> omega
  · exact absurd ((hp _).2 hmw) (x2 m)

/-- A finite number times one of size at most one. -/
theorem mul_small (L : A.Laws) (hodd : ∀ q, A.rnd q = .fin q → A.rnd (-q) = .fin (-q)) {q c : K} (hq : A.rnd q = .fin q) (hc : |c| ≤ 1) :
    ∃ p, A.mul (.fin q) (.fin c) = .fin p ∧ A.rnd p = .fin p := by
  have key : ∀ q : K, 0 ≤ q → A.rnd q = .fin q → A.rnd (-q) = .fin (-q) → ∀ c, |c| ≤ 1 → ∃ p, A.rnd (q * c) = .fin p := by
    intro q h0 h1 h2 c hc
    obtain ⟨c1, c2⟩ := abs_le.1 hc
    have m1 := L.mono (-q) (q * c) (by nlinarith)
    have m2 := L.mono (q * c) q (by nlinarith)
    rw [h2] at m1
    rw [h1] at m2
    have hn := L.notNan (q * c)
    cases hx : A.rnd (q * c) with
    | nan => exact absurd hx hn
    | fin p => exact ⟨p, rfl⟩
    | inf s =>
      rw [hx] at m1 m2
      cases s <;> simp [Fl.le, Fl.ge, Fl.lt] at m1 m2
  have : ∃ p, A.rnd (q * c) = .fin p := by
    rcases le_total 0 q with h | h
    · exact key q h hq (hodd q hq) c hc
    · have := key (-q) (by linarith) (hodd q hq) (by rw [neg_neg]; exact hq) (-c) (by rwa [abs_neg])
      rwa [neg_mul_neg] at this
  obtain ⟨p, hp⟩ := this
  exact ⟨p, hp, L.idem _ _ hp⟩

/-- Every candidate has coordinates that are finite or NaN, if sines and cosines are at most one or NaN. -/
theorem cand_finite (L : A.Laws) (hodd : ∀ q, A.rnd q = .fin q → A.rnd (-q) = .fin (-q)) (hs : ∀ x, S.sin x = .nan ∨ ∃ c, S.sin x = .fin c ∧ |c| ≤ 1)
    (hc : ∀ x, S.cos x = .nan ∨ ∃ c, S.cos x = .fin c ∧ |c| ≤ 1) {p : Fl K × Fl K × Fl K} (h : S.Cand A a p) (hl : inLimit lim p = true) :
    ∃ x y z, p = (.fin x, .fin y, .fin z) := by
  have step : ∀ y z : Fl K, (y = .nan ∨ ∃ q, y = .fin q ∧ A.rnd q = .fin q) → (z = .nan ∨ ∃ c, z = .fin c ∧ |c| ≤ 1) → A.mul y z = .nan ∨ ∃ q, A.mul y z = .fin q ∧ A.rnd q = .fin q := by
    rintro y z (rfl | ⟨q, rfl, hq⟩) (rfl | ⟨c, rfl, hc⟩)
    · exact .inl rfl
    · exact .inl rfl
    · exact .inl rfl
    · exact .inr (mul_small L hodd hq hc)
  cases h with
  | mk u0 u v _ hf _ _ =>
    have hr : S.radius A a u0 = .nan ∨ ∃ q, S.radius A a u0 = .fin q ∧ A.rnd q = .fin q := by
      cases hx : S.radius A a u0 with
      | nan => exact .inl rfl
      | inf s => rw [hx] at hf; cases hf
      | fin q =>
        refine .inr ⟨q, rfl, ?_⟩
        unfold Sphere.radius at hx
        generalize A.fsqrt (A.sub (S.pow u0) (.fin 1)) = y at hx
        cases a with
        | nan => cases y <;> cases hx
        | inf s => cases y <;> cases hx
        | fin a =>
          cases y with
          | nan => cases hx
          | inf s => obtain rfl : 0 = q := by simpa [Arith.div] using hx
                     exact L.zero
          | fin y =>
            unfold Arith.div at hx
            simp only at hx
            split at hx
            · split at hx <;> cases hx
            · exact L.idem _ _ hx
    unfold Sphere.point at hl ⊢
    have e1 := step _ _ (step _ _ hr (hc (S.lon A u))) (hs (S.colat A v))
    have e2 := step _ _ (step _ _ hr (hs (S.lon A u))) (hs (S.colat A v))
    have e3 := step _ _ hr (hc (S.colat A v))
    have ng : ∀ l : Fl K, Fl.ge .nan l = false := fun l => by cases l <;> rfl
    rcases e1 with e1 | ⟨x, e1, _⟩
    · rw [e1] at hl; simp [inLimit, ng] at hl
    rcases e2 with e2 | ⟨y, e2, _⟩
    · rw [e2] at hl; simp [inLimit, ng] at hl
    rcases e3 with e3 | ⟨z, e3, _⟩
    · rw [e3] at hl; simp [inLimit, ng] at hl
    exact ⟨x, y, z, by rw [e1, e2, e3]⟩

end Rakau
