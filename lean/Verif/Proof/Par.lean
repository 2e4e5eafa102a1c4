import Verif.Spec.Races
import Mathlib.Tactic.Tauto

/-! Programs whose tasks have separate footprints have no races, and all their executions end in the same way. -/
namespace Rakau
namespace Par
open Spec

variable {L V : Type}

/-- `Safe p F W n m o`: started with memory `m`, while nobody else writes to `F`, the program accesses `F` only and writes to `W` only, takes at most `n` steps, and ends with
contents `o` of `F`, or with an exception (`none`). -/
inductive Safe [DecidableEq L] : P L V → Set L → Set L → Nat → (L → V) → Option (L → V) → Prop
  | skip {F W : Set L} {n : Nat} {m m' : L → V} : (∀ l ∈ F, m' l = m l) → Safe .skip F W n m (some m')
  | throw {F W : Set L} {n : Nat} {m : L → V} : Safe .throw F W n m none
  | read {F W : Set L} {n : Nat} {m : L → V} {o : Option (L → V)} {l : L} {k : V → P L V} : l ∈ F → Safe (k (m l)) F W n m o → Safe (.read l k) F W (n + 1) m o
  | write {F W : Set L} {n : Nat} {m m' : L → V} {l : L} {v : V} : l ∈ W → l ∈ F → (∀ x ∈ F, m' x = update m l v x) → Safe (.write l v) F W (n + 1) m (some m')
  | seq {F W : Set L} {n n' : Nat} {m m' : L → V} {o : Option (L → V)} {p q : P L V} : Safe p F W n m (some m') → Safe q F W n' m' o → Safe (.seq p q) F W (n + n') m o
  | seqThrow {F W : Set L} {n : Nat} {m : L → V} {p q : P L V} : Safe p F W n m none → Safe (.seq p q) F W n m none
  | par {F W F1 W1 F2 W2 : Set L} {n n' : Nat} {m : L → V} {o1 o2 o : Option (L → V)} {p q : P L V} :
      F1 ⊆ F → F2 ⊆ F → W1 ⊆ W → W2 ⊆ W → (∀ l ∈ W1, l ∉ F2) → (∀ l ∈ W2, l ∉ F1) → Safe p F1 W1 n m o1 → Safe q F2 W2 n' m o2 →
      (o = none → o1 = none ∨ o2 = none) → (∀ m', o = some m' → ∃ m1 m2, o1 = some m1 ∧ o2 = some m2 ∧ (∀ l ∈ F1, m' l = m1 l) ∧ (∀ l ∈ F2, m' l = m2 l) ∧
        ∀ l ∈ F, l ∉ F1 → l ∉ F2 → m' l = m l) → Safe (.par p q) F W (n + n') m o

variable [DecidableEq L]

theorem Safe.congr {p : P L V} {F W : Set L} {n : Nat} {m : L → V} {o : Option (L → V)} (h : Safe p F W n m o) :
    ∀ {x : L → V} {o' : Option (L → V)}, (∀ l ∈ F, x l = m l) → (o' = none ↔ o = none) → (∀ a b, o = some a → o' = some b → ∀ l ∈ F, b l = a l) → Safe p F W n x o' := by
  induction h with
  | skip h =>
    intro x o' hx hn hs
    cases o' with
    | none => exact absurd (hn.1 rfl) (by simp)
    | some b => exact .skip fun l hl => by rw [hs _ b rfl rfl l hl, h l hl, hx l hl]
  | throw =>
    intro x o' hx hn hs
    rw [hn.2 rfl]
    exact .throw
  | @read F W n m o l k hl h ih =>
    intro x o' hx hn hs
    refine .read hl ?_
    rw [hx l hl]
    exact ih hx hn hs
  | @write F W n m m' l v h1 h2 h3 =>
    intro x o' hx hn hs
    cases o' with
    | none => exact absurd (hn.1 rfl) (by simp)
    | some b =>
      refine .write h1 h2 fun y hy => ?_
      rw [hs _ b rfl rfl y hy, h3 y hy]
      unfold update
      split
      · rfl
      · exact (hx y hy).symm
  | seq h1 h2 ih1 ih2 =>
    intro x o' hx hn hs
    exact .seq (ih1 hx Iff.rfl (fun a b ha hb l _ => by rw [ha] at hb; cases hb; rfl)) (ih2 (fun _ _ => rfl) hn hs)
  | seqThrow h ih =>
    intro x o' hx hn hs
    rw [hn.2 rfl]
    exact .seqThrow (ih hx Iff.rfl (fun a b ha => by cases ha))
  | @par F W F1 W1 F2 W2 n n' m o1 o2 o p q f1 f2 w1 w2 d1 d2 h1 h2 hnone hsome ih1 ih2 =>
    intro x o' hx hn hs
    refine .par f1 f2 w1 w2 d1 d2 (ih1 (fun l hl => hx l (f1 hl)) Iff.rfl (fun a b ha hb l _ => by rw [ha] at hb; cases hb; rfl))
      (ih2 (fun l hl => hx l (f2 hl)) Iff.rfl (fun a b ha hb l _ => by rw [ha] at hb; cases hb; rfl)) (fun h => hnone (hn.1 h)) ?_
    intro b hb
    cases o with
    | none => rw [hn.2 rfl] at hb; cases hb
    | some a =>
      obtain ⟨m1, m2, e1, e2, e3, e4, e5⟩ := hsome a rfl
      exact ⟨m1, m2, e1, e2, fun l hl => by rw [hs a b rfl hb l (f1 hl), e3 l hl], fun l hl => by rw [hs a b rfl hb l (f2 hl), e4 l hl],
        fun l hl k1 k2 => by rw [hs a b rfl hb l hl, e5 l hl k1 k2, hx l hl]⟩

theorem Safe.start {p : P L V} {F W : Set L} {n : Nat} {m x : L → V} {o : Option (L → V)} (h : Safe p F W n m o) (hx : ∀ l ∈ F, x l = m l) : Safe p F W n x o :=
  h.congr hx Iff.rfl (fun a b ha hb l _ => by rw [ha] at hb; cases hb; rfl)

/-- More steps may be allowed. -/
theorem Safe.more {p : P L V} {F W : Set L} {n : Nat} {m : L → V} {o : Option (L → V)} (h : Safe p F W n m o) : ∀ {n'}, n ≤ n' → Safe p F W n' m o := by
  induction h with
  | skip h => exact fun _ => .skip h
  | throw => exact fun _ => .throw
  | read hl _ ih =>
    intro n' hn
    obtain ⟨k, rfl⟩ : ∃ k, n' = k + 1 := ⟨n' - 1, by omega⟩
    exact .read hl (ih (by omega))
  | write h1 h2 h3 =>
    intro n' hn
    obtain ⟨k, rfl⟩ : ∃ k, n' = k + 1 := ⟨n' - 1, by omega⟩
    exact .write h1 h2 h3
  | @seq F W n n2 m m' o p q h1 h2 ih1 ih2 =>
    intro n' hn
    obtain ⟨k, rfl⟩ : ∃ k, n' = n + k := ⟨n' - n, by omega⟩
    exact .seq h1 (ih2 (by omega))
  | seqThrow h ih => exact fun hn => .seqThrow (ih hn)
  | @par F W F1 W1 F2 W2 n n2 m o1 o2 o p q f1 f2 w1 w2 d1 d2 h1 h2 hn hs ih1 ih2 =>
    intro n' hn'
    obtain ⟨k, rfl⟩ : ∃ k, n' = n + k := ⟨n' - n, by omega⟩
    exact .par f1 f2 w1 w2 d1 d2 h1 (ih2 (by omega)) hn hs

/-- A program that has finished does nothing, and has not thrown. -/
theorem Safe.done {p : P L V} {F W : Set L} {n : Nat} {m : L → V} {o : Option (L → V)} (h : Safe p F W n m o) (hf : p.fin = true) : ∃ m', o = some m' ∧ ∀ l ∈ F, m' l = m l := by
  induction h with
  | skip h => exact ⟨_, rfl, h⟩
  | throw => cases hf
  | read => cases hf
  | write => cases hf
  | seq h1 h2 ih1 ih2 =>
    simp only [P.fin, Bool.and_eq_true] at hf
    obtain ⟨a, ha, ha'⟩ := ih1 hf.1
    obtain ⟨b, hb, hb'⟩ := ih2 hf.2
    cases ha
    exact ⟨b, hb, fun l hl => by rw [hb' l hl, ha' l hl]⟩
  | seqThrow h ih =>
    simp only [P.fin, Bool.and_eq_true] at hf
    obtain ⟨a, ha, _⟩ := ih hf.1
    cases ha
  | @par F W F1 W1 F2 W2 n n' m o1 o2 o p q f1 f2 w1 w2 d1 d2 h1 h2 hn hs ih1 ih2 =>
    simp only [P.fin, Bool.and_eq_true] at hf
    obtain ⟨a, ha, ha'⟩ := ih1 hf.1
    obtain ⟨b, hb, hb'⟩ := ih2 hf.2
    cases o with
    | none => rcases hn rfl with h | h <;> simp_all
    | some c =>
      obtain ⟨m1, m2, e1, e2, e3, e4, e5⟩ := hs c rfl
      rw [ha] at e1; rw [hb] at e2
      cases e1; cases e2
      refine ⟨c, rfl, fun l hl => ?_⟩
      by_cases k1 : l ∈ F1
      · rw [e3 l k1, ha' l k1]
      · by_cases k2 : l ∈ F2
        · rw [e4 l k2, hb' l k2]
        · exact e5 l hl k1 k2

theorem Safe.step' {p : P L V} {F W : Set L} {n : Nat} {m : L → V} {o : Option (L → V)} (h : Safe p F W n m o) :
    ∀ {x : L → V}, (∀ l ∈ F, x l = m l) → ∀ {a : Access L} {m' : L → V} {p' : P L V}, (a, m', p') ∈ p.steps x →
      a.1 ∈ F ∧ (a.2 = true → a.1 ∈ W) ∧ (∀ l, l ∉ F ∨ l ∉ W → m' l = x l) ∧ ∃ n0, n = n0 + 1 ∧ Safe p' F W n0 m' o := by
  induction h with
  | skip h => intro x hx a m' p' hs; cases hs
  | throw => intro x hx a m' p' hs; cases hs
  | @read F W n m o l k hl h ih =>
    intro x hx a m' p' hs
    simp only [P.steps, List.mem_singleton, Prod.mk.injEq] at hs
    obtain ⟨rfl, rfl, rfl⟩ := hs
    refine ⟨hl, by simp, fun _ _ => rfl, _, rfl, ?_⟩
    rw [hx l hl]
    exact h.start hx
  | write h1 h2 h3 =>
    intro x hx a m' p' hs
    simp only [P.steps, List.mem_singleton, Prod.mk.injEq] at hs
    obtain ⟨rfl, rfl, rfl⟩ := hs
    refine ⟨h2, fun _ => h1, fun l hl => ?_, _, rfl, .skip fun l hl => ?_⟩
    · unfold update
      rw [if_neg]
      rintro rfl
      rcases hl with hl | hl
      · exact hl h2
      · exact hl h1
    · rw [h3 l hl]
      unfold update
      split
      · rfl
      · exact (hx l hl).symm
  | @seq F W n n' m mm o p q h1 h2 ih1 ih2 =>
    intro x hx a m' p' hs
    simp only [P.steps] at hs
    split at hs
    · rename_i hf
      obtain ⟨y, hy, hy'⟩ := h1.done hf
      cases hy
      obtain ⟨k1, k2, k3, n0, rfl, k5⟩ := ih2 (fun l hl => by rw [hx l hl, hy' l hl]) hs
      exact ⟨k1, k2, k3, n + n0, rfl, k5.more (by omega)⟩
    · obtain ⟨⟨b, y, r⟩, hb, he⟩ := List.mem_map.1 hs
      simp only [Prod.mk.injEq] at he
      obtain ⟨rfl, rfl, rfl⟩ := he
      obtain ⟨k1, k2, k3, n0, rfl, k5⟩ := ih1 hx hb
      exact ⟨k1, k2, k3, n0 + n', by omega, .seq k5 h2⟩
  | @seqThrow F W n m p q h ih =>
    intro x hx a m' p' hs
    simp only [P.steps] at hs
    split at hs
    · rename_i hf
      obtain ⟨x, hx, _⟩ := h.done hf
      cases hx
    · obtain ⟨⟨b, y, r⟩, hb, he⟩ := List.mem_map.1 hs
      simp only [Prod.mk.injEq] at he
      obtain ⟨rfl, rfl, rfl⟩ := he
      obtain ⟨k1, k2, k3, n0, rfl, k5⟩ := ih hx hb
      exact ⟨k1, k2, k3, n0, rfl, .seqThrow k5⟩
  | @par F W F1 W1 F2 W2 n n' m o1 o2 o p q f1 f2 w1 w2 d1 d2 h1 h2 hn hs ih1 ih2 =>
    intro x hx a m' p' hst
    simp only [P.steps, List.mem_append, List.mem_map] at hst
    rcases hst with ⟨⟨b, y, r⟩, hb, he⟩ | ⟨⟨b, y, r⟩, hb, he⟩
    · simp only [Prod.mk.injEq] at he
      obtain ⟨rfl, rfl, rfl⟩ := he
      obtain ⟨k1, k2, k3, n0, rfl, k5⟩ := ih1 (fun l hl => hx l (f1 hl)) hb
      refine ⟨f1 k1, fun h => w1 (k2 h), fun l hl => k3 l (hl.imp (fun h h' => h (f1 h')) (fun h h' => h (w1 h'))), n0 + n', by omega,
        .par f1 f2 w1 w2 d1 d2 k5 (h2.start fun l hl => by rw [k3 l (.inr fun h => d1 l h hl), hx l (f2 hl)]) hn ?_⟩
      intro c hc
      obtain ⟨m1, m2, e1, e2, e3, e4, e5⟩ := hs c hc
      exact ⟨m1, m2, e1, e2, e3, e4, fun l hl q1 q2 => by rw [e5 l hl q1 q2, k3 l (.inl q1), hx l hl]⟩
    · simp only [Prod.mk.injEq] at he
      obtain ⟨rfl, rfl, rfl⟩ := he
      obtain ⟨k1, k2, k3, n0, rfl, k5⟩ := ih2 (fun l hl => hx l (f2 hl)) hb
      refine ⟨f2 k1, fun h => w2 (k2 h), fun l hl => k3 l (hl.imp (fun h h' => h (f2 h')) (fun h h' => h (w2 h'))), n + n0, by omega,
        .par f1 f2 w1 w2 d1 d2 (h1.start fun l hl => by rw [k3 l (.inr fun h => d2 l h hl), hx l (f1 hl)]) k5 hn ?_⟩
      intro c hc
      obtain ⟨m1, m2, e1, e2, e3, e4, e5⟩ := hs c hc
      exact ⟨m1, m2, e1, e2, e3, e4, fun l hl q1 q2 => by rw [e5 l hl q1 q2, k3 l (.inl q2), hx l hl]⟩

/-- Every step stays within the footprint, and what is left is safe again. -/
theorem Safe.step {p : P L V} {F W : Set L} {n : Nat} {m : L → V} {o : Option (L → V)} (h : Safe p F W n m o)
    {a : Access L} {m' : L → V} {p' : P L V} (hs : (a, m', p') ∈ p.steps m) :
    a.1 ∈ F ∧ (a.2 = true → a.1 ∈ W) ∧ (∀ l, l ∉ F ∨ l ∉ W → m' l = m l) ∧ ∃ n0, n = n0 + 1 ∧ Safe p' F W n0 m' o := h.step' (fun _ _ => rfl) hs

/-- No two enabled accesses conflict. -/
theorem Safe.noRace' {p : P L V} {F W : Set L} {n : Nat} {m : L → V} {o : Option (L → V)} (h : Safe p F W n m o) : ∀ {x : L → V}, (∀ l ∈ F, x l = m l) → ¬ Race p x := by
  have single : ∀ {a : Access L × (L → V) × P L V} {l : List (Access L × (L → V) × P L V)} {i j : Nat} {b c}, l = [a] → i < j → l[i]? = some b → l[j]? = some c → False := by
    rintro a l i j b c rfl hij hb hc
    have h1 := (List.getElem?_eq_some_iff.1 hc).1
    simp at h1
    omega
  have mapped : ∀ (p' : P L V) (x : L → V) (f : (Access L × (L → V) × P L V) → (Access L × (L → V) × P L V)), (∀ s, (f s).1 = s.1) → ¬ Race p' x →
      ∀ (i j : Nat) (a b : Access L × (L → V) × P L V), i < j → ((p'.steps x).map f)[i]? = some a → ((p'.steps x).map f)[j]? = some b → a.1.1 = b.1.1 → (a.1.2 = true ∨ b.1.2 = true) → False := by
    intro p' x f hf hn i j a b hij ha hb e1 e2
    rw [List.getElem?_map, Option.map_eq_some_iff] at ha hb
    obtain ⟨a', ha', rfl⟩ := ha
    obtain ⟨b', hb', rfl⟩ := hb
    rw [hf, hf] at e1 e2
    exact hn ⟨i, j, a', b', hij, ha', hb', e1, e2⟩
  induction h with
  | skip h => rintro x hx ⟨i, j, a, b, hij, ha, _⟩; simp [P.steps] at ha
  | throw => rintro x hx ⟨i, j, a, b, hij, ha, _⟩; simp [P.steps] at ha
  | read hl h ih => rintro x hx ⟨i, j, a, b, hij, ha, hb, _⟩; exact single rfl hij ha hb
  | write h1 h2 h3 => rintro x hx ⟨i, j, a, b, hij, ha, hb, _⟩; exact single rfl hij ha hb
  | @seq F W n n' m m' o p q h1 h2 ih1 ih2 =>
    rintro x hx ⟨i, j, a, b, hij, ha, hb, e1, e2⟩
    simp only [P.steps] at ha hb
    split at ha
    · rename_i hf
      rw [if_pos hf] at hb
      obtain ⟨y, hy, hy'⟩ := h1.done hf
      cases hy
      exact ih2 (fun l hl => by rw [hx l hl, hy' l hl]) ⟨i, j, a, b, hij, ha, hb, e1, e2⟩
    · rename_i hf
      rw [if_neg hf] at hb
      exact mapped _ x (fun s => (s.1, s.2.1, .seq s.2.2 q)) (fun _ => rfl) (ih1 hx) i j a b hij ha hb e1 e2
  | @seqThrow F W n m p q h ih =>
    rintro x hx ⟨i, j, a, b, hij, ha, hb, e1, e2⟩
    simp only [P.steps] at ha hb
    split at ha
    · rename_i hf
      obtain ⟨y, hy, _⟩ := h.done hf
      cases hy
    · rename_i hf
      rw [if_neg hf] at hb
      exact mapped _ x (fun s => (s.1, s.2.1, .seq s.2.2 q)) (fun _ => rfl) (ih hx) i j a b hij ha hb e1 e2
  | @par F W F1 W1 F2 W2 n n' m o1 o2 o p q f1 f2 w1 w2 d1 d2 h1 h2 hn hs ih1 ih2 =>
    rintro x hx ⟨i, j, a, b, hij, ha, hb, e1, e2⟩
    have x1 : ∀ l ∈ F1, x l = m l := fun l hl => hx l (f1 hl)
    have x2 : ∀ l ∈ F2, x l = m l := fun l hl => hx l (f2 hl)
    simp only [P.steps] at ha hb
    rw [List.getElem?_append] at ha hb
    split at hb
    · rename_i hj
      rw [if_pos (by omega)] at ha
      exact mapped _ x (fun s => (s.1, s.2.1, .par s.2.2 q)) (fun _ => rfl) (ih1 x1) i j a b hij ha hb e1 e2
    · split at ha
      · rw [List.getElem?_map, Option.map_eq_some_iff] at ha hb
        obtain ⟨a', ha', rfl⟩ := ha
        obtain ⟨b', hb', rfl⟩ := hb
        obtain ⟨k1, k2, _⟩ := h1.step' x1 (List.mem_of_getElem? ha')
        obtain ⟨r1, r2, _⟩ := h2.step' x2 (List.mem_of_getElem? hb')
        simp only at e1 e2
        rcases e2 with e | e
        · exact d1 _ (k2 e) (e1 ▸ r1)
        · exact d2 _ (r2 e) (e1 ▸ k1)
      · exact mapped _ x (fun s => (s.1, s.2.1, .par p s.2.2)) (fun _ => rfl) (ih2 x2) _ _ a b (by omega) ha hb e1 e2

theorem Safe.noRace {p : P L V} {F W : Set L} {n : Nat} {m : L → V} {o : Option (L → V)} (h : Safe p F W n m o) : ¬ Race p m := h.noRace' (fun _ _ => rfl)

/-- A program that is to end normally does not throw. -/
theorem Safe.noThrow {p : P L V} {F W : Set L} {n : Nat} {m : L → V} {o : Option (L → V)} (h : Safe p F W n m o) : ∀ {m' : L → V}, o = some m' → p.threw = false := by
  induction h with
  | skip h => exact fun _ => rfl
  | throw => intro _ h; cases h
  | read => exact fun _ => rfl
  | write => exact fun _ => rfl
  | seq h1 h2 ih1 ih2 => intro x hx; simp [P.threw, ih1 rfl, ih2 hx]
  | seqThrow h ih => intro _ h; cases h
  | par f1 f2 w1 w2 d1 d2 h1 h2 hn hs ih1 ih2 =>
    intro x hx
    obtain ⟨m1, m2, e1, e2, _⟩ := hs x hx
    simp [P.threw, ih1 e1, ih2 e2]

/-- Something can be done unless the program has finished or a task has thrown. -/
theorem progress (p : P L V) (x : L → V) : p.fin = true ∨ p.threw = true ∨ p.steps x ≠ [] := by
  induction p with
  | skip => exact .inl rfl
  | throw => exact .inr (.inl rfl)
  | read => exact .inr (.inr (by simp [P.steps]))
  | write => exact .inr (.inr (by simp [P.steps]))
  | seq p q ih1 ih2 =>
    simp only [P.fin, P.threw, P.steps, Bool.and_eq_true, Bool.or_eq_true]
    cases hf : p.fin with
    | true => rw [if_pos rfl]; tauto
    | false =>
      rw [if_neg (by simp)]
      rcases ih1 with h | h | h
      · rw [hf] at h; cases h
      · exact .inr (.inl (.inl h))
      · exact .inr (.inr (by simpa using h))
  | par p q ih1 ih2 =>
    simp only [P.fin, P.threw, P.steps, Bool.and_eq_true, Bool.or_eq_true, ne_eq, List.append_eq_nil_iff, List.map_eq_nil_iff, not_and_or]
    tauto

/-- What holds of all executions of a program with separate footprints. -/
theorem Safe.exec {p : P L V} {F W : Set L} {n : Nat} {m : L → V} {o : Option (L → V)} (h : Safe p F W n m o) {k : Nat} {p' : P L V} {m' : L → V} (he : Exec k p m p' m') :
    ∃ n', n = n' + k ∧ Safe p' F W n' m' o ∧ ∀ l, l ∉ W → m' l = m l := by
  induction he generalizing n with
  | refl p m => exact ⟨n, rfl, h, fun _ _ => rfl⟩
  | step hs _ ih =>
    obtain ⟨_, _, k3, n0, rfl, k5⟩ := h.step hs
    obtain ⟨n', rfl, r2, r3⟩ := ih k5
    exact ⟨n', by omega, r2, fun l hl => by rw [r3 l hl, k3 l (.inr hl)]⟩

omit [DecidableEq L] in
theorem fin_iff (p : P L V) : p.fin = true ↔ Done p := by
  constructor
  · induction p with
    | skip => intro _; exact .skip
    | seq p q hp hq => intro h; simp only [P.fin, Bool.and_eq_true] at h; exact .seq (hp h.1) (hq h.2)
    | par p q hp hq => intro h; simp only [P.fin, Bool.and_eq_true] at h; exact .par (hp h.1) (hq h.2)
    | throw => intro h; cases h
    | read l k => intro h; cases h
    | write l v => intro h; cases h
  · intro h
    induction h with
    | skip => rfl
    | seq _ _ h1 h2 => simp [P.fin, h1, h2]
    | par _ _ h1 h2 => simp [P.fin, h1, h2]

omit [DecidableEq L] in
theorem threw_iff (p : P L V) : p.threw = true ↔ Thrown p := by
  constructor
  · induction p with
    | throw => intro _; exact .throw
    | seq p q hp hq =>
      intro h
      simp only [P.threw, Bool.or_eq_true, Bool.and_eq_true] at h
      rcases h with h | ⟨h1, h2⟩
      · exact .first (hp h)
      · exact .second ((fin_iff p).1 h1) (hq h2)
    | par p q hp hq =>
      intro h
      simp only [P.threw, Bool.or_eq_true] at h
      rcases h with h | h
      · exact .left (hp h)
      · exact .right (hq h)
    | skip => intro h; cases h
    | read l k => intro h; cases h
    | write l v => intro h; cases h
  · intro h
    induction h with
    | throw => rfl
    | first _ h => simp [P.threw, h]
    | second h1 _ h => simp [P.threw, h, (fin_iff _).2 h1]
    | left _ h => simp [P.threw, h]
    | right _ h => simp [P.threw, h]

/-- Programs with separate footprints are correct. -/
theorem Safe.schedules {p : P L V} {F W B : Set L} {n : Nat} {m : L → V} {o : Option (L → V)} (h : Safe p F W n m o) (hB : F ⊆ B) {r : Option (L → V)}
    (hr : r.isSome = o.isSome) (ho : ∀ a b, o = some a → r = some b → (∀ l ∈ F, b l = a l) ∧ ∀ l, l ∉ F → b l = m l) (hWF : W ⊆ F) : Schedules p m B W r where
  race he := by obtain ⟨_, _, h, _⟩ := h.exec he; exact h.noRace
  bounds he s hs := by
    obtain ⟨_, _, h, _⟩ := h.exec he
    obtain ⟨a, x, q⟩ := s
    obtain ⟨h1, h2, _⟩ := h.step hs
    exact ⟨hB h1, h2⟩
  frame he := by obtain ⟨_, _, _, h⟩ := h.exec he; exact h
  ends := ⟨n, fun he => by obtain ⟨_, h, _⟩ := h.exec he; omega⟩
  quiet {k p' m'} he hs := by
    obtain ⟨_, _, h, _⟩ := h.exec he
    cases o with
    | none => rw [hr] at hs; cases hs
    | some a => rw [← threw_iff, h.noThrow rfl]; decide
  outcome {k p' m'} he hs := by
    obtain ⟨_, _, h', hf⟩ := h.exec he
    cases o with
    | some a =>
      obtain ⟨b, rfl⟩ := Option.isSome_iff_exists.1 hr
      rcases progress p' m' with q | q | q
      · refine ⟨(fin_iff _).1 q, ?_⟩
        obtain ⟨c, e, hc⟩ := h'.done q
        cases e
        obtain ⟨e1, e2⟩ := ho a b rfl rfl
        funext l
        by_cases hl : l ∈ F
        · rw [e1 l hl, hc l hl]
        · rw [e2 l hl, hf l fun h => hl (hWF h)]
      · rw [h'.noThrow rfl] at q; cases q
      · exact absurd hs q
    | none =>
      have : r = none := by cases r with
        | none => rfl
        | some _ => cases hr
      subst this
      rcases progress p' m' with q | q | q
      · obtain ⟨c, e, _⟩ := h'.done q; cases e
      · exact (threw_iff _).1 q
      · exact absurd hs q

open Classical in
/-- The memory `m` with the contents of `g` in `W`. -/
noncomputable def upd (W : Set L) (g m : L → V) : L → V := fun l => if l ∈ W then g l else m l

omit [DecidableEq L] in
theorem upd_in {W : Set L} {g m : L → V} {l : L} (h : l ∈ W) : upd W g m l = g l := if_pos h
omit [DecidableEq L] in
theorem upd_out {W : Set L} {g m : L → V} {l : L} (h : l ∉ W) : upd W g m l = m l := if_neg h

open Classical in
/-- The program, run on memory `m` while nobody else writes to `F`, accesses `F` only, and either ends with the contents of `g` in `W` and nothing else changed, or, if `bad`, with an exception. -/
def Does (p : P L V) (F W : Set L) (m g : L → V) (bad : Prop) : Prop := W ⊆ F ∧ ∃ n, Safe p F W n m (if bad then none else some (upd W g m))

theorem Does.ok' {p : P L V} {F W B : Set L} {m g : L → V} (h : Does p F W m g False) (hB : F ⊆ B) : ∃ r, Schedules p m B W (some r) ∧ (∀ l ∈ W, r l = g l) ∧ ∀ l, l ∉ W → r l = m l := by
  obtain ⟨hWF, n, h⟩ := h
  rw [if_neg id] at h
  refine ⟨upd W g m, h.schedules hB rfl ?_ hWF, fun l hl => upd_in hl, fun l hl => upd_out hl⟩
  rintro a b e1 e2
  cases e1; cases e2
  exact ⟨fun _ _ => rfl, fun l hl => upd_out fun h => hl (hWF h)⟩

theorem Does.ok {p : P L V} {F W B : Set L} {m g : L → V} (h : Does p F W m g False) (hB : F ⊆ B) : ∃ r, Schedules p m B W (some r) ∧ ∀ l ∈ W, r l = g l := by
  obtain ⟨r, h1, h2, _⟩ := h.ok' hB
  exact ⟨r, h1, h2⟩

theorem Does.error {p : P L V} {F W B : Set L} {m g : L → V} {bad : Prop} (h : Does p F W m g bad) (hb : bad) (hB : F ⊆ B) : Schedules p m B W none := by
  obtain ⟨hWF, n, h⟩ := h
  rw [if_pos hb] at h
  refine h.schedules hB rfl ?_ hWF
  rintro a b e1 e2
  cases e1

theorem Does.skip (m g : L → V) : Does (.skip : P L V) ∅ ∅ m g False := ⟨fun _ h => h, 0, by rw [if_neg id]; exact .skip (by simp)⟩

theorem Does.throw (F : Set L) (m g : L → V) : Does (.throw : P L V) F ∅ m g True := ⟨by simp, 0, by rw [if_pos trivial]; exact .throw⟩

theorem Does.write {l : L} {v : V} {m g : L → V} (h : g l = v) : Does (.write l v) {l} {l} m g False := by
  refine ⟨fun _ h => h, 1, ?_⟩
  rw [if_neg id]
  refine .write rfl rfl ?_
  rintro x rfl
  rw [upd_in (show x ∈ ({x} : Set L) from rfl), update, if_pos rfl, h]

theorem Does.congr {p : P L V} {F W : Set L} {m g m' g' : L → V} {bad bad' : Prop} (h : Does p F W m g bad) (h1 : ∀ l ∈ F, m' l = m l) (h2 : ∀ l ∈ W, g' l = g l) (h3 : bad' ↔ bad) :
    Does p F W m' g' bad' := by
  classical
  obtain ⟨hw, n, h⟩ := h
  refine ⟨hw, n, h.congr h1 ?_ ?_⟩
  · by_cases hb : bad <;> simp [h3, hb]
  · intro a b ha hb l hl
    by_cases hbad : bad
    · simp [hbad] at ha
    · simp only [h3, hbad, if_false, Option.some.injEq] at ha hb
      subst ha hb
      by_cases hlw : l ∈ W
      · rw [upd_in hlw, upd_in hlw, h2 l hlw]
      · rw [upd_out hlw, upd_out hlw, h1 l hl]

theorem Does.read {l : L} {k : V → P L V} {F W : Set L} {m g : L → V} {bad : Prop} (hl : l ∈ F) (h : Does (k (m l)) F W m g bad) : Does (.read l k) F W m g bad := by
  obtain ⟨hw, n, h⟩ := h
  exact ⟨hw, n + 1, .read hl h⟩

theorem Safe.mono' {p : P L V} {F W : Set L} {n : Nat} {m : L → V} {o : Option (L → V)} (h : Safe p F W n m o) : ∀ {F' W' : Set L} {x : L → V} {o' : Option (L → V)}, F ⊆ F' → W ⊆ W' →
    (∀ l ∈ F, x l = m l) → (o' = none ↔ o = none) → (∀ a b, o = some a → o' = some b → (∀ l ∈ F, b l = a l) ∧ ∀ l ∈ F', l ∉ F → b l = x l) → Safe p F' W' n x o' := by
  classical
  induction h with
  | @skip F W n m m' h =>
    intro F' W' x o' hF hW hx hn hs
    cases o' with
    | none => exact absurd (hn.1 rfl) (by simp)
    | some b =>
      obtain ⟨h1, h2⟩ := hs _ b rfl rfl
      refine .skip fun l hl => ?_
      by_cases k : l ∈ F
      · rw [h1 l k, h l k, hx l k]
      · exact h2 l hl k
  | throw => intro F' W' x o' hF hW hx hn hs; rw [hn.2 rfl]; exact .throw
  | @read F W n m o l k hl h ih =>
    intro F' W' x o' hF hW hx hn hs
    refine .read (hF hl) ?_
    rw [hx l hl]
    exact ih hF hW hx hn hs
  | @write F W n m m' l v h1 h2 h3 =>
    intro F' W' x o' hF hW hx hn hs
    cases o' with
    | none => exact absurd (hn.1 rfl) (by simp)
    | some b =>
      obtain ⟨k1, k2⟩ := hs _ b rfl rfl
      refine .write (hW h1) (hF h2) fun y hy => ?_
      by_cases k : y ∈ F
      · rw [k1 y k, h3 y k]
        unfold update
        split
        · rfl
        · exact (hx y k).symm
      · rw [k2 y hy k, update, if_neg]
        rintro rfl
        exact k h2
  | @seq F W n n' m m' o p q h1 h2 ih1 ih2 =>
    intro F' W' x o' hF hW hx hn hs
    refine .seq (m' := fun l => if l ∈ F then m' l else x l) (ih1 hF hW hx (by simp) ?_) (ih2 hF hW ?_ hn ?_)
    · rintro a b ha hb
      simp only [Option.some.injEq] at ha hb
      subst ha hb
      exact ⟨fun l hl => by simp [hl], fun l _ hl => by simp [hl]⟩
    · intro l hl
      simp [hl]
    · intro a b ha hb
      obtain ⟨k1, k2⟩ := hs a b ha hb
      exact ⟨k1, fun l hl k => by rw [k2 l hl k]; simp [k]⟩
  | seqThrow h ih => intro F' W' x o' hF hW hx hn hs; rw [hn.2 rfl]; exact .seqThrow (ih hF hW hx Iff.rfl (by simp))
  | @par F W F1 W1 F2 W2 n n' m o1 o2 o p q f1 f2 w1 w2 d1 d2 h1 h2 hn hs ih1 ih2 =>
    intro F' W' x o' hF hW hx hn' hs'
    refine .par (f1.trans hF) (f2.trans hF) (w1.trans hW) (w2.trans hW) d1 d2 (h1.start fun l hl => hx l (f1 hl)) (h2.start fun l hl => hx l (f2 hl)) (fun h => hn (hn'.1 h)) ?_
    intro b hb
    cases o with
    | none => rw [hn'.2 rfl] at hb; cases hb
    | some a =>
      obtain ⟨m1, m2, e1, e2, e3, e4, e5⟩ := hs a rfl
      obtain ⟨k1, k2⟩ := hs' a b rfl hb
      refine ⟨m1, m2, e1, e2, fun l hl => by rw [k1 l (f1 hl), e3 l hl], fun l hl => by rw [k1 l (f2 hl), e4 l hl], fun l hl q1 q2 => ?_⟩
      by_cases k : l ∈ F
      · rw [k1 l k, e5 l k q1 q2, hx l k]
      · exact k2 l hl k

/-- A larger footprint. -/
theorem Does.mono {p : P L V} {F W F' W' : Set L} {m g : L → V} {bad : Prop} (h : Does p F W m g bad) (hF : F ⊆ F') (hW : W ⊆ W') (hWF : W' ⊆ F') (hg : ∀ l ∈ W', l ∉ W → g l = m l) :
    Does p F' W' m g bad := by
  classical
  obtain ⟨hw, n, h⟩ := h
  refine ⟨hWF, n, h.mono' hF hW (fun _ _ => rfl) ?_ ?_⟩
  · by_cases hb : bad <;> simp [hb]
  · intro a b ha hb
    by_cases hbad : bad
    · simp [hbad] at ha
    · simp only [hbad, if_false, Option.some.injEq] at ha hb
      subst ha hb
      have hout : ∀ l, l ∉ W → upd W' g m l = m l := by
        intro l hl
        by_cases k : l ∈ W'
        · rw [upd_in k, hg l k hl]
        · rw [upd_out k]
      refine ⟨fun l hl => ?_, fun l hl k => hout l fun h => k (hw h)⟩
      by_cases k : l ∈ W
      · rw [upd_in k, upd_in (hW k)]
      · rw [upd_out k, hout l k]

/-- One program after the other. The second may depend on what the first has done. -/
theorem Does.seq {p q : P L V} {F W : Set L} {m g1 g : L → V} {bad : Prop} (h1 : Does p F W m g1 False) (h2 : Does q F W (upd W g1 m) g bad) : Does (.seq p q) F W m g bad := by
  classical
  obtain ⟨hw, n, h1⟩ := h1
  obtain ⟨_, n', h2⟩ := h2
  rw [if_neg id] at h1
  refine ⟨hw, n + n', .seq h1 (h2.congr (fun _ _ => rfl) ?_ ?_)⟩
  · by_cases hb : bad <;> simp [hb]
  · intro a b ha hb
    by_cases hbad : bad
    · simp [hbad] at ha
    · simp only [hbad, if_false, Option.some.injEq] at ha hb
      subst ha hb
      intro l _
      by_cases k : l ∈ W
      · rw [upd_in k, upd_in k]
      · rw [upd_out k, upd_out k, upd_out k]

theorem Does.seqThrow {p q : P L V} {F W : Set L} {m g g' : L → V} (h : Does p F W m g True) : Does (.seq p q) F W m g' True := by
  obtain ⟨hw, n, h⟩ := h
  rw [if_pos trivial] at h
  exact ⟨hw, n, by rw [if_pos trivial]; exact .seqThrow h⟩

/-- Two programs with separate footprints at the same time. -/
theorem Does.par {p q : P L V} {F1 W1 F2 W2 : Set L} {m g : L → V} {b1 b2 : Prop} (h1 : Does p F1 W1 m g b1) (h2 : Does q F2 W2 m g b2) (d1 : ∀ l ∈ W1, l ∉ F2) (d2 : ∀ l ∈ W2, l ∉ F1) :
    Does (.par p q) (F1 ∪ F2) (W1 ∪ W2) m g (b1 ∨ b2) := by
  classical
  obtain ⟨hw1, n, h1⟩ := h1
  obtain ⟨hw2, n', h2⟩ := h2
  refine ⟨fun l hl => hl.imp (fun h => hw1 h) (fun h => hw2 h), n + n', .par (fun _ => .inl) (fun _ => .inr) (fun _ => .inl) (fun _ => .inr) d1 d2 h1 h2 ?_ ?_⟩
  · by_cases k1 : b1 <;> by_cases k2 : b2 <;> simp [k1, k2]
  · intro m' hm
    by_cases k1 : b1
    · simp [k1] at hm
    · by_cases k2 : b2
      · simp [k2] at hm
      · simp only [k1, k2, or_self, if_false, Option.some.injEq] at hm
        subst hm
        refine ⟨_, _, if_neg k1, if_neg k2, fun l hl => ?_, fun l hl => ?_, fun l _ q1 q2 => ?_⟩
        · by_cases k : l ∈ W1
          · rw [upd_in k, upd_in (.inl k)]
          · rw [upd_out k, upd_out]
            rintro (h | h)
            · exact k h
            · exact d2 l h hl
        · by_cases k : l ∈ W2
          · rw [upd_in k, upd_in (.inr k)]
          · rw [upd_out k, upd_out]
            rintro (h | h)
            · exact d1 l h hl
            · exact k h
        · rw [upd_out]
          rintro (h | h)
          · exact q1 (hw1 h)
          · exact q2 (hw2 h)

/-- Separate footprints of indexed programs. -/
def Apart {ι : Type} (F W : ι → Set L) (is : List ι) : Prop := is.Pairwise (fun i j => (∀ l ∈ W i, l ∉ F j) ∧ ∀ l ∈ W j, l ∉ F i)

/-- Union over a list. -/
def union {ι : Type} (F : ι → Set L) (is : List ι) : Set L := {l | ∃ i ∈ is, l ∈ F i}

omit [DecidableEq L] in
theorem union_cons {ι : Type} (F : ι → Set L) (i : ι) (is : List ι) : union F (i :: is) = F i ∪ union F is := by
  ext l
  simp [union]

/-- Tasks with separate footprints. -/
theorem Does.all {ι : Type} {F W : ι → Set L} {m g : L → V} {bad : ι → Prop} {prog : ι → P L V} : ∀ {is : List ι}, Apart F W is → (∀ i ∈ is, Does (prog i) (F i) (W i) m g (bad i)) →
    Does (P.all (is.map prog)) (union F is) (union W is) m g (∃ i ∈ is, bad i)
  | [], _, _ => by
    have : ∀ (F : ι → Set L), union F [] = ∅ := fun F => by ext; simp [union]
    rw [this, this]
    exact (Does.skip m g).congr (fun _ _ => rfl) (fun _ _ => rfl) (by simp)
  | i :: is, ha, h => by
    obtain ⟨a1, a2⟩ := List.pairwise_cons.1 ha
    rw [union_cons, union_cons]
    refine ((h i (by simp)).par (Does.all a2 fun j hj => h j (by simp [hj])) ?_ ?_).congr (fun _ _ => rfl) (fun _ _ => rfl) (by simp)
    · rintro l hl ⟨j, hj, hl'⟩
      exact (a1 j hj).1 l hl hl'
    · rintro l ⟨j, hj, hl'⟩ hl
      exact (a1 j hj).2 l hl' hl

/-- A loop whose iterations have separate footprints. -/
theorem Does.loop {F W : Nat → Set L} {m g : L → V} {bad : Nat → Prop} {body : Nat → P L V} : ∀ {is : List Nat}, Apart F W is → (∀ i ∈ is, Does (body i) (F i) (W i) m g (bad i)) →
    Does (P.loop body is) (union F is) (union W is) m g (∃ i ∈ is, bad i)
  | [], _, _ => by
    have : ∀ (F : Nat → Set L), union F [] = ∅ := fun F => by ext; simp [union]
    rw [this, this]
    exact (Does.skip m g).congr (fun _ _ => rfl) (fun _ _ => rfl) (by simp)
  | i :: is, ha, h => by
    classical
    obtain ⟨a1, a2⟩ := List.pairwise_cons.1 ha
    have hi := h i (by simp)
    have his := Does.loop a2 fun j hj => h j (by simp [hj])
    have hwf : W i ∪ union W is ⊆ F i ∪ union F is := fun l hl => hl.imp (fun h => hi.1 h) (fun h => his.1 h)
    have d2 : ∀ l ∈ W i, l ∉ union F is := by
      rintro l hl ⟨j, hj, hl'⟩
      exact (a1 j hj).1 l hl hl'
    rw [union_cons, union_cons]
    by_cases hb : bad i
    · refine Does.congr (bad := True) (Does.seqThrow (g := fun l => if l ∈ W i then g l else m l) ?_) (fun _ _ => rfl) (fun _ _ => rfl) (by simp [hb])
      refine Does.mono (hi.congr (fun _ _ => rfl) ?_ (by simp [hb])) (fun _ => .inl) (fun _ => .inl) hwf ?_
      · intro l hl; simp [hl]
      · intro l _ hl; simp [hl]
    · refine Does.seq (g1 := fun l => if l ∈ W i then g l else m l) ?_ ?_
      · refine Does.mono (hi.congr (fun _ _ => rfl) ?_ (by simp [hb])) (fun _ => .inl) (fun _ => .inl) hwf ?_
        · intro l hl; simp [hl]
        · intro l _ hl; simp [hl]
      · refine Does.mono (Does.congr his ?_ (fun _ _ => rfl) (by simp [hb])) (fun _ => .inr) (fun _ => .inr) hwf ?_
        · intro l hl
          have : l ∉ W i := fun k => d2 l k hl
          by_cases k : l ∈ W i ∪ union W is
          · rw [upd_in k]; simp [this]
          · rw [upd_out k]
        · rintro l hl k
          rw [upd_in hl]
          rcases hl with hl | hl
          · simp [hl]
          · exact absurd hl k

/-- A parallel loop whose iterations have separate footprints, however the range is split into blocks. -/
theorem Does.pfor {F W : Nat → Set L} {m g : L → V} {bad : Nat → Prop} {body : Nat → P L V} {blocks : List (List Nat)} (ha : Apart F W blocks.flatten)
    (h : ∀ i ∈ blocks.flatten, Does (body i) (F i) (W i) m g (bad i)) :
    Does (P.pfor blocks body) (union F blocks.flatten) (union W blocks.flatten) m g (∃ i ∈ blocks.flatten, bad i) := by
  unfold Apart at ha
  rw [List.pairwise_flatten] at ha
  have e : ∀ (F : Nat → Set L), union F blocks.flatten = union (union F) blocks := by
    intro F
    ext l
    simp only [union, List.mem_flatten, Set.mem_ofPred_eq]
    constructor
    · rintro ⟨i, ⟨b, hb, hi⟩, hl⟩; exact ⟨b, hb, i, hi, hl⟩
    · rintro ⟨b, hb, i, hi, hl⟩; exact ⟨i, ⟨b, hb, hi⟩, hl⟩
  rw [e, e]
  refine (Does.all (F := union F) (W := union W) (bad := fun b => ∃ i ∈ b, bad i) (prog := P.loop body) ?_ fun b hb => Does.loop (ha.1 b hb) fun i hi => h i (List.mem_flatten.2 ⟨b, hb, hi⟩)).congr
    (fun _ _ => rfl) (fun _ _ => rfl) ?_
  · refine ha.2.imp ?_
    rintro b c hbc
    constructor
    · rintro l ⟨i, hi, hl⟩ ⟨j, hj, hl'⟩
      exact (hbc i hi j hj).1 l hl hl'
    · rintro l ⟨j, hj, hl'⟩ ⟨i, hi, hl⟩
      exact (hbc i hi j hj).2 l hl' hl
  · simp only [List.mem_flatten]
    constructor
    · rintro ⟨i, ⟨b, hb, hi⟩, hl⟩; exact ⟨b, hb, i, hi, hl⟩
    · rintro ⟨b, hb, i, hi, hl⟩; exact ⟨i, ⟨b, hb, hi⟩, hl⟩

end Par
end Rakau
