import Verif.Proof.Plummer
import Verif.Props.AccBench

/-!
C86: the initial data of the benchmarks (benchmark/common.hpp:36-121). Whatever random numbers are drawn, and however the threads interleave, every particle gets a mass and one point that was drawn as a whole and lies in the limits.
-/
namespace Rakau
open Spec

section
variable {K : Type} [Field K] [LinearOrder K] [IsStrictOrderedRing K] {S : Sphere K} {A : Arith K} {n : Nat} {a size : Fl K} {par : Bool} {r : Except Err (List (Fl K))}

/-- Any outcome of `get_plummer_sphere`, up to `2 ^ 62 - 1` particles: `std::invalid_argument` exactly if `a` is not positive or `size` is negative (or not finite), otherwise `4 n` numbers, masses first.
The coordinates of a particle are finite and come from one candidate, and they are within `size / 2 - size / 100` (as rounded) unless the size is zero.
The sines and cosines are any functions with values in `[-1, 1]` or NaN.
Missing from the full claim (defined and returning for any number of particles and any accepted size): it is false, see `C86_fails_wrap` and `C86_fails_size`. -/
theorem C86_data_partial (L : A.Laws) (hodd : ∀ q, A.rnd q = .fin q → A.rnd (-q) = .fin (-q)) (hs : ∀ x, S.sin x = .nan ∨ ∃ c, S.sin x = .fin c ∧ |c| ≤ 1)
    (hc : ∀ x, S.cos x = .nan ∨ ∃ c, S.cos x = .fin c ∧ |c| ≤ 1) (hn : n * 4 < 2 ^ 64) (h : Plummer S A n a size par r) :
    (r = .error .invalidArg ∧ ¬ ∃ qa qs, a = .fin qa ∧ 0 < qa ∧ size = .fin qs ∧ 0 ≤ qs) ∨
    ((∃ qa qs, a = .fin qa ∧ 0 < qa ∧ size = .fin qs ∧ 0 ≤ qs) ∧ ∃ v, r = .ok v ∧ v.length = 4 * n ∧ ∀ l < n, (∃ m, S.mass m ∧ v[l]? = some m) ∧
      ∃ x y z, S.Cand A a (.fin x, .fin y, .fin z) ∧ v[n + l]? = some (.fin x) ∧ v[2 * n + l]? = some (.fin y) ∧ v[3 * n + l]? = some (.fin z) ∧
        ∀ q, size ≠ .fin 0 → A.sub (A.div size (.fin 2)) (A.div size (.fin 100)) = .fin q → (-q ≤ x ∧ x < q) ∧ (-q ≤ y ∧ y < q) ∧ (-q ≤ z ∧ z < q)) := by
  have args : ¬ (a.isFinite = false ∨ a.le (.fin 0) = true) → ¬ (size.isFinite = false ∨ size.lt (.fin 0) = true) → ∃ qa qs, a = .fin qa ∧ 0 < qa ∧ size = .fin qs ∧ 0 ≤ qs := by
    intro h1 h2
    cases a with
    | nan => exact absurd (.inl rfl) h1
    | inf s => exact absurd (.inl rfl) h1
    | fin qa =>
      cases size with
      | nan => exact absurd (.inl rfl) h2
      | inf s => exact absurd (.inl rfl) h2
      | fin qs =>
        refine ⟨qa, qs, rfl, ?_, rfl, ?_⟩
        · by_contra h
          exact h1 (.inr (by simpa [Fl.le] using h))
        · by_contra h
          exact h2 (.inr (by simpa [Fl.lt] using h))
  have fin : ∀ ws ws' P, ¬ (a.isFinite = false ∨ a.le (.fin 0) = true) → ¬ (size.isFinite = false ∨ size.lt (.fin 0) = true) → Placed S A a (sizeLimit A size) n 0 n ws P → (∀ l < n, ∃ m, (l, m) ∈ ws) →
      (∀ w, w ∈ ws' ↔ w ∈ ws) → r = putAll ws' (List.replicate (n * 4 % 2 ^ 64) (.fin 0)) →
      ((∃ qa qs, a = .fin qa ∧ 0 < qa ∧ size = .fin qs ∧ 0 ≤ qs) ∧ ∃ v, r = .ok v ∧ v.length = 4 * n ∧ ∀ l < n, (∃ m, S.mass m ∧ v[l]? = some m) ∧
      ∃ x y z, S.Cand A a (.fin x, .fin y, .fin z) ∧ v[n + l]? = some (.fin x) ∧ v[2 * n + l]? = some (.fin y) ∧ v[3 * n + l]? = some (.fin z) ∧
        ∀ q, size ≠ .fin 0 → A.sub (A.div size (.fin 2)) (A.div size (.fin 100)) = .fin q → (-q ≤ x ∧ x < q) ∧ (-q ≤ y ∧ y < q) ∧ (-q ≤ z ∧ z < q)) := by
    intro ws ws' P h1 h2 H hm hp hr
    obtain ⟨v, e1, e2, e3⟩ := H.result hm hn hp
    refine ⟨args h1 h2, v, hr.trans e1, e2, fun l hl => ?_⟩
    obtain ⟨c1, c2, c3, c4⟩ := e3 l hl
    obtain ⟨d1, d2⟩ := H.cand l (by omega) (by omega)
    obtain ⟨x, y, z, e⟩ := cand_finite L hodd hs hc d1 d2
    rw [e] at d1 d2 c2 c3 c4
    refine ⟨c1, x, y, z, d1, c2, c3, c4, fun q h0 hq => ?_⟩
    obtain ⟨_, qs, _, _, rfl, hqs⟩ := args h1 h2
    have hpos : 0 < qs := lt_of_le_of_ne hqs (fun e => h0 (by rw [← e]))
    have : sizeLimit A (.fin qs) = .fin q := by
      unfold sizeLimit
      rw [if_pos (by simpa [Fl.gt, Fl.lt] using hpos)]
      exact hq
    rw [this] at d2
    simp only [inLimit, Fl.ge, Fl.lt, Fl.neg, Bool.and_eq_true, decide_eq_true_eq, Bool.not_eq_true', decide_eq_false_iff_not, not_lt] at d2
    obtain ⟨⟨⟨⟨⟨b1, b2⟩, b3⟩, b4⟩, b5⟩, b6⟩ := d2
    exact ⟨⟨b1, b2⟩, ⟨b3, b4⟩, b5, b6⟩
  cases h with
  | badA _ h =>
    refine .inl ⟨rfl, ?_⟩
    rintro ⟨qa, qs, rfl, h1, rfl, h2⟩
    rcases h with h | h
    · cases h
    · simp only [Fl.le, Fl.ge, Fl.lt, Bool.not_eq_true', decide_eq_false_iff_not, not_lt] at h; exact absurd h (not_le.2 h1)
  | badSize _ _ h =>
    refine .inl ⟨rfl, ?_⟩
    rintro ⟨qa, qs, rfl, h1, rfl, h2⟩
    rcases h with h | h
    · cases h
    · simp only [Fl.lt, decide_eq_true_eq] at h; exact absurd h (not_lt.2 h2)
  | serial ms ws h1 h2 hl hms hw =>
    obtain ⟨P, H⟩ := serial_placed hw
    have zip : ∀ i m, (i, m) ∈ (List.range n).zip ms → i < n ∧ S.mass m := fun i m h =>
      ⟨List.mem_range.1 (List.of_mem_zip h).1, hms m (List.of_mem_zip h).2⟩
    refine .inr (fin ((List.range n).zip ms ++ ws) _ P h1 h2 ⟨H.cand, ?_, fun l l1 l2 w hw => List.mem_append_right _ (H.put l l1 l2 w hw)⟩ (fun l hl' => ?_) (fun w => Iff.rfl) rfl)
    · rintro ⟨i, m⟩ hw
      rcases List.mem_append.1 hw with h | h
      · exact .inl ⟨by omega, by rw [Nat.zero_add]; exact (zip i m h).1, (zip i m h).2⟩
      · exact H.only _ h
    · refine ⟨ms[l]'(by omega), List.mem_append_left _ ?_⟩
      rw [List.mem_iff_getElem]
      exact ⟨l, by simp [hl]; exact hl', by simp⟩
  | parallel ws ws' h1 h2 hb hp =>
    obtain ⟨_, ⟨P, H⟩, hm⟩ := blocks_placed hb
    exact .inr (fin ws ws' P h1 h2 (by simpa using H) (fun l hl => hm l (by omega) hl) (fun w => hp.mem_iff) rfl)

omit [IsStrictOrderedRing K] in
/-- If one candidate is within the limits, or the size is zero and there are no limits, there is an outcome that is no error, for any number of particles and in both versions. -/
theorem C86_exists {qa qs : K} (ha : 0 < qa) (hsz : 0 ≤ qs) {m : Fl K} (hm : S.mass m) {x y z : K} (hp : S.Cand A (.fin qa) (.fin x, .fin y, .fin z))
    (hq : qs = 0 ∨ ∃ q, A.sub (A.div (.fin qs) (.fin 2)) (A.div (.fin qs) (.fin 100)) = .fin q ∧ (-q ≤ x ∧ x < q) ∧ (-q ≤ y ∧ y < q) ∧ (-q ≤ z ∧ z < q)) (n : Nat) (par : Bool) :
    ∃ r, Plummer S A n (.fin qa) (.fin qs) par r ∧ r ≠ .error .invalidArg := by
  obtain ⟨p, hp, hl⟩ : ∃ p, S.Cand A (.fin qa) p ∧ inLimit (sizeLimit A (.fin qs)) p = true := by
    refine ⟨_, hp, ?_⟩
    by_cases h0 : qs = 0
    · have : sizeLimit A (.fin qs) = .inf false := by
        unfold sizeLimit
        rw [if_neg (by simp [Fl.gt, Fl.lt, h0])]
      rw [this]; rfl
    · obtain ⟨q, e, ⟨b1, b2⟩, ⟨b3, b4⟩, b5, b6⟩ := hq.resolve_left h0
      have : sizeLimit A (.fin qs) = .fin q := by
        unfold sizeLimit
        rw [if_pos (by simpa [Fl.gt, Fl.lt] using lt_of_le_of_ne hsz (Ne.symm h0))]
        exact e
      rw [this]
      simp [inLimit, Fl.ge, Fl.lt, Fl.neg, not_lt.2 b1, not_lt.2 b3, not_lt.2 b5, b2, b4, b6]
  have h1 : ¬ ((Fl.fin qa).isFinite = false ∨ (Fl.fin qa).le (.fin 0) = true) := by
    rintro (h | h)
    · cases h
    · simp only [Fl.le, Fl.ge, Fl.lt, Bool.not_eq_true', decide_eq_false_iff_not, not_lt] at h; exact absurd h (not_le.2 ha)
  have h2 : ¬ ((Fl.fin qs).isFinite = false ∨ (Fl.fin qs).lt (.fin 0) = true) := by
    rintro (h | h)
    · cases h
    · simp only [Fl.lt, decide_eq_true_eq] at h; exact absurd h (not_lt.2 hsz)
  have put : ∀ (ws : List (Nat × Fl K)) v, putAll ws v ≠ .error .invalidArg := by
    intro ws
    induction ws with
    | nil => intro v h; cases h
    | cons w ws ih => intro v h; obtain ⟨i, x⟩ := w; unfold putAll at h; split at h; exacts [ih _ h, nomatch h]
  cases par with
  | false =>
    have : ∀ k i, ∃ ws, S.Serial A (.fin qa) (sizeLimit A (.fin qs)) n i k ws := by
      intro k
      induction k with
      | zero => exact fun i => ⟨_, .done i⟩
      | succ k ih => exact fun i => let ⟨ws, h⟩ := ih (i + 1); ⟨_, .keep i k p ws hp hl h⟩
    obtain ⟨ws, h⟩ := this n 0
    exact ⟨_, .serial (List.replicate n m) ws h1 h2 (by simp) (fun x hx => by rw [List.eq_of_mem_replicate hx]; exact hm) h, put _ _⟩
  | true =>
    have : ∀ k i, ∃ ws, S.Block A (.fin qa) (sizeLimit A (.fin qs)) n i k ws := by
      intro k
      induction k with
      | zero => exact fun i => ⟨_, .done i⟩
      | succ k ih => exact fun i => let ⟨ws, h⟩ := ih (i + 1); ⟨_, .keep i k m p ws hm hp hl h⟩
    obtain ⟨ws, h⟩ := this n 0
    have hb : S.Blocks A (.fin qa) (sizeLimit A (.fin qs)) n 0 (ws ++ []) := .block 0 n ws [] (by omega) h (by rw [Nat.zero_add]; exact .done)
    exact ⟨_, .parallel _ _ h1 h2 hb (List.Perm.refl _), put _ _⟩

omit [IsStrictOrderedRing K] in
/-- `2 ^ 62` particles: the size of the vector wraps around to zero, so no outcome is defined unless the arguments are rejected. -/
theorem C86_fails_wrap (h : Plummer S A (2 ^ 62) a size par r) : r = .error .ub ∨ r = .error .invalidArg := by
  have put : ∀ (ws : List (Nat × Fl K)) w, w ∈ ws → putAll ws (List.replicate (2 ^ 62 * 4 % 2 ^ 64) (.fin 0)) = .error .ub := by
    intro ws w hw
    rw [show 2 ^ 62 * 4 % 2 ^ 64 = 0 by norm_num]
    cases ws with
    | nil => cases hw
    | cons w' ws => obtain ⟨i, x⟩ := w'; rfl
  cases h with
  | badA => exact .inr rfl
  | badSize => exact .inr rfl
  | serial ms ws h1 h2 hl hms hw =>
    obtain ⟨P, H⟩ := serial_placed hw
    exact .inl (put _ (2 ^ 62 + 0, (P 0).1) (List.mem_append_right _ (H.put 0 le_rfl (by norm_num) _ (by simp [putPoint]))))
  | parallel ws ws' h1 h2 hb hp =>
    obtain ⟨_, ⟨P, H⟩, hm⟩ := blocks_placed hb
    obtain ⟨m, hm⟩ := hm 0 le_rfl (by norm_num)
    exact .inl (put _ _ (hp.mem_iff.2 hm))

end

/-- The smallest positive `double` as size: the limit is rounded to zero, no point is within it, and the call never returns. -/
theorem C86_fails_size {S : Sphere ℚ} {fused : Bool} {n : Nat} (hn : n ≠ 0) {qa : ℚ} (ha : 0 < qa) {par : Bool} {r : Except Err (List (Fl ℚ))} :
    ¬ Plummer S (binary64.ieee fused) n (.fin qa) (.fin (1 / 2 ^ 1074)) par r := by
  have hlim : sizeLimit (binary64.ieee fused) (.fin (1 / 2 ^ 1074)) = .fin 0 := by
    cases fused <;> decide +kernel
  have h1 : ¬ ((Fl.fin qa).isFinite = false ∨ (Fl.fin qa).le (.fin 0) = true) := by
    rintro (h | h)
    · cases h
    · simp only [Fl.le, Fl.ge, Fl.lt, Bool.not_eq_true', decide_eq_false_iff_not, not_lt] at h; exact absurd h (not_le.2 ha)
  have h2 : ¬ ((Fl.fin (1 / 2 ^ 1074 : ℚ)).isFinite = false ∨ (Fl.fin (1 / 2 ^ 1074 : ℚ)).lt (.fin 0) = true) := by
    decide +kernel
  have no : ∀ p : Fl ℚ × Fl ℚ × Fl ℚ, inLimit (.fin 0) p = false := by
    rintro ⟨x, y, z⟩
    cases x with
    | nan => rfl
    | inf s => cases s <;> simp [inLimit, Fl.ge, Fl.lt, Fl.neg]
    | fin x =>
      simp only [inLimit, Fl.ge, Fl.lt, Fl.neg, neg_zero]
      by_cases h : 0 ≤ x
      · simp [not_lt.2 h]
      · simp only [not_le] at h; simp [h]
  intro h
  cases h with
  | badA _ h => exact h1 h
  | badSize _ _ h => exact h2 h
  | serial ms ws _ _ _ _ hw =>
    rw [hlim] at hw
    obtain ⟨P, H⟩ := serial_placed hw
    have := (H.cand 0 le_rfl (by omega)).2
    rw [no] at this
    cases this
  | parallel ws ws' _ _ hb _ =>
    rw [hlim] at hb
    obtain ⟨_, ⟨P, H⟩, _⟩ := blocks_placed hb
    have := (H.cand 0 le_rfl (by omega)).2
    rw [no] at this
    cases this

section
variable {K : Type} [Field K] [LinearOrder K] [IsStrictOrderedRing K] {S : Sphere K} {A : Arith K} {n : Nat} {a size : Fl K} {par : Bool}

/-- Without rounding the constructor accepts the data: with a box of the given size, and with a deduced one if some coordinate is not zero. -/
theorem C86_accept (hA : A.Exact) (hs : ∀ x, S.sin x = .nan ∨ ∃ c, S.sin x = .fin c ∧ |c| ≤ 1) (hc : ∀ x, S.cos x = .nan ∨ ∃ c, S.cos x = .fin c ∧ |c| ≤ 1) (hM : ∀ m, S.mass m → m.isFinite = true)
    (hn : n * 4 < 2 ^ 64) {v : List (Fl K)} (h : Plummer S A n a size par (.ok v)) {maxLeaf ncrit : Nat} (hml : maxLeaf ≠ 0) (hnc : ncrit ≠ 0) :
    (size ≠ .fin 0 → ValidInput 3 (some size) maxLeaf ncrit (benchParts 3 n v)) ∧
    ((∃ i, n ≤ i ∧ i < 4 * n ∧ v[i]? ≠ some (.fin 0)) → ValidInput 3 none maxLeaf ncrit (benchParts 3 n v)) := by
  rcases C86_data_partial hA.laws (fun q _ => hA (-q)) hs hc hn h with ⟨e, _⟩ | ⟨⟨qa, qs, rfl, ha, rfl, hq⟩, v', e, hv, H⟩
  · cases e
  cases e
  have hlen : ∀ u ∈ benchParts 3 n v, u.length = n := by
    intro u hu
    unfold benchParts at hu
    rcases List.mem_append.1 hu with h | h
    · obtain ⟨j, hj, rfl⟩ := List.mem_map.1 h
      rw [List.mem_range] at hj
      rw [List.length_take, List.length_drop, hv]
      interval_cases j <;> omega
    · rw [List.mem_singleton.1 h, List.length_take, hv]
      omega
  have coord : ∀ j < 3, ∀ k < n, ∃ x : K, v[(j + 1) * n + k]? = some (.fin x) ∧ (qs ≠ 0 → InBox qs x) := by
    intro j hj k hk
    obtain ⟨_, x, y, z, _, h1, h2, h3, hb⟩ := H k hk
    have hx : qs ≠ 0 → InBox qs x ∧ InBox qs y ∧ InBox qs z := by
      intro h0
      have hp : 0 < qs := lt_of_le_of_ne hq (Ne.symm h0)
      obtain ⟨⟨a1, a2⟩, ⟨a3, a4⟩, a5, a6⟩ := hb (qs / 2 - qs / 100) (by simpa using h0) (by simp [Arith.sub, Arith.add, Fl.neg, Arith.div, show ∀ q, A.rnd q = .fin q from hA, sub_eq_add_neg])
      unfold InBox
      refine ⟨⟨?_, ?_⟩, ⟨?_, ?_⟩, ?_, ?_⟩ <;> linarith
    interval_cases j
    · exact ⟨x, by simpa using h1, fun h => (hx h).1⟩
    · exact ⟨y, h2, fun h => (hx h).2.1⟩
    · exact ⟨z, h3, fun h => (hx h).2.2⟩
  have mem : ∀ u ∈ (benchParts 3 n v).take 3, ∀ x ∈ u, ∃ j < 3, ∃ k < n, v[(j + 1) * n + k]? = some x := by
    intro u hu x hx
    rw [benchParts, List.take_left' (by simp)] at hu
    obtain ⟨j, hj, rfl⟩ := List.mem_map.1 hu
    obtain ⟨k, hk, rfl⟩ := List.getElem_of_mem hx
    refine ⟨j, List.mem_range.1 hj, k, by simp at hk; omega, ?_⟩
    rw [List.getElem_take, List.getElem_drop, List.getElem?_eq_getElem]
  have fin : ∀ u ∈ benchParts 3 n v, ∀ x ∈ u, x.isFinite = true := by
    intro u hu x hx
    unfold benchParts at hu
    rcases List.mem_append.1 hu with h | h
    · obtain ⟨j, hj, k, hk, e⟩ := mem u (by rw [benchParts, List.take_left' (by simp)]; exact h) x hx
      obtain ⟨y, e', _⟩ := coord j hj k hk
      rw [e, Option.some.injEq] at e'
      rw [e']; rfl
    · rw [List.mem_singleton.1 h] at hx
      obtain ⟨k, hk, rfl⟩ := List.getElem_of_mem hx
      have hkn : k < n := by simp at hk; omega
      obtain ⟨⟨m, m1, m2⟩, _⟩ := H k hkn
      rw [List.getElem_take]
      rw [List.getElem?_eq_getElem (by omega), Option.some.injEq] at m2
      rw [m2]; exact hM m m1
  have same : ∀ u ∈ benchParts 3 n v, ∀ u' ∈ benchParts 3 n v, u.length = u'.length := fun u hu u' hu' => (hlen u hu).trans (hlen u' hu').symm
  constructor
  · intro h0
    refine ⟨hml, hnc, same, fin, qs, rfl, hq, fun u hu x hx y e => ?_⟩
    obtain ⟨j, hj, k, hk, e1⟩ := mem u hu x hx
    obtain ⟨y', e2, e3⟩ := coord j hj k hk
    rw [e1, e, Option.some.injEq, Fl.fin.injEq] at e2
    rw [e2]
    exact e3 (fun h => h0 (by rw [h]))
  · rintro ⟨i, i1, i2, i3⟩
    refine ⟨hml, hnc, same, fin, .inr ?_⟩
    have hn0 : 0 < n := by omega
    obtain ⟨j, k, hj, hk, rfl⟩ : ∃ j k, j < 3 ∧ k < n ∧ i = (j + 1) * n + k := by
      refine ⟨i / n - 1, i % n, ?_, Nat.mod_lt _ hn0, ?_⟩
      · have : i / n < 4 := by rw [Nat.div_lt_iff_lt_mul hn0]; exact i2
        omega
      · have : 1 ≤ i / n := by rw [Nat.le_div_iff_mul_le hn0]; omega
        rw [Nat.sub_add_cancel this, Nat.mul_comm]
        exact (Nat.div_add_mod i n).symm
    have hx : v[(j + 1) * n + k]? = some (v[(j + 1) * n + k]'(by omega)) := List.getElem?_eq_getElem _
    rw [hx, Ne, Option.some.injEq] at i3
    refine ⟨(v.drop ((j + 1) * n)).take n, ?_, _, ?_, i3⟩
    · rw [benchParts, List.take_left' (by simp)]
      exact List.mem_map.2 ⟨j, List.mem_range.2 hj, rfl⟩
    · rw [List.mem_iff_getElem]
      exact ⟨k, by simp; omega, by simp⟩

end

/-- A candidate at distance one: sines are 0, cosines are 1. -/
def axisSphere : Sphere ℚ := ⟨fun _ => .fin 2, fun _ => .fin 0, fun _ => .fin 1, id, .fin 6, fun u => u = .fin (1 / 2), fun m => m = .fin 1⟩

theorem axis_cand : axisSphere.Cand (binary64.ieee false) (.fin 1) (.fin 0, .fin 0, .fin 1) := by
  have := Sphere.Cand.mk (S := axisSphere) (A := binary64.ieee false) (a := .fin 1) (.fin (1 / 2)) (.fin (1 / 2)) (.fin (1 / 2)) rfl (by decide +kernel) rfl rfl
  rwa [show axisSphere.point (binary64.ieee false) (axisSphere.radius (binary64.ieee false) (.fin 1) (.fin (1 / 2))) (.fin (1 / 2)) (.fin (1 / 2)) = (.fin 0, .fin 0, .fin 1) by decide +kernel] at this

theorem axis_lim : (binary64.ieee false).sub ((binary64.ieee false).div (.fin 10) (.fin 2)) ((binary64.ieee false).div (.fin 10) (.fin 100)) = .fin (2758454771764429 / 562949953421312) := by decide +kernel

example (n : Nat) (par : Bool) : ∃ r, Plummer axisSphere (binary64.ieee false) n (.fin 1) (.fin 0) par r ∧ r ≠ .error .invalidArg :=
  C86_exists (by norm_num) le_rfl (m := .fin 1) rfl axis_cand (.inl rfl) n par

example (n : Nat) (par : Bool) : ∃ r, Plummer axisSphere (binary64.ieee false) n (.fin 1) (.fin 10) par r ∧ r ≠ .error .invalidArg :=
  C86_exists (by norm_num) (by norm_num) (m := .fin 1) rfl axis_cand (.inr ⟨_, axis_lim, by decide +kernel⟩) n par

theorem ieee_odd (f : Format) (fused : Bool) (q : ℚ) (h : (f.ieee fused).rnd q = .fin q) : (f.ieee fused).rnd (-q) = .fin (-q) := by
  have e : ∀ q, (f.ieee fused).rnd q = f.rnd q := fun _ => rfl
  rw [e, Format.rnd] at h ⊢
  rw [Format.near_neg, abs_neg]
  split at h
  · cases h
  · rename_i h'
    rw [if_neg h']
    rw [Fl.fin.injEq] at h ⊢
    rw [h]

example {r : Except Err (List (Fl ℚ))} (h : Plummer axisSphere (binary64.ieee false) 5 (.fin 1) (.fin 10) true r) := C86_data_partial (Format.arith_laws binary64_ok _ _) (ieee_odd binary64 false)
  (fun _ => .inr ⟨0, rfl, by norm_num⟩) (fun _ => .inr ⟨1, rfl, by norm_num⟩) (by norm_num) h

example {v : List (Fl ℚ)} (h : Plummer axisSphere ⟨.fin, .fin, false⟩ 5 (.fin 1) (.fin 10) false (.ok v)) : ValidInput 3 (some (.fin 10)) 16 128 (benchParts 3 5 v) :=
  (C86_accept (A := ⟨.fin, .fin, false⟩) (fun _ => rfl) (fun _ => .inr ⟨0, rfl, by norm_num⟩) (fun _ => .inr ⟨1, rfl, by norm_num⟩) (fun m hm => by rw [show m = .fin 1 from hm]; rfl) (by norm_num) h
    (by decide) (by decide)).1 (by decide +kernel)

example : ∃ r, Plummer axisSphere (binary64.ieee false) (2 ^ 62) (.fin 1) (.fin 10) false r ∧ r = .error .ub := by
  obtain ⟨r, h, hr⟩ := C86_exists (S := axisSphere) (A := binary64.ieee false) (qa := 1) (qs := 10) (by norm_num) (by norm_num) (m := .fin 1) rfl axis_cand (.inr ⟨_, axis_lim, by decide +kernel⟩) (2 ^ 62) false
  exact ⟨r, h, (C86_fails_wrap h).resolve_right hr⟩

example (r : Except Err (List (Fl ℚ))) : ¬ Plummer axisSphere (binary64.ieee true) 1 (.fin 1) (.fin (1 / 2 ^ 1074)) false r := C86_fails_size (by decide) (by norm_num)

end Rakau
