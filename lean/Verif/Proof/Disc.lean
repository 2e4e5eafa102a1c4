import Verif.Model.Disc
import Verif.Props.Morton
import Verif.Proof.State
import Mathlib.Tactic.Linarith
import Mathlib.Tactic.FieldSimp
import Mathlib.Tactic.Ring
import Mathlib.Tactic.Positivity

/-! Lemmas on floating-point operations and discretisation. -/
set_option linter.unusedSectionVars false
set_option linter.unnecessarySeqFocus false

namespace Rakau

variable {K : Type} [Field K] [LinearOrder K]

namespace Fl

theorem isFinite_iff {a : Fl K} : a.isFinite = true ↔ ∃ q, a = .fin q := by
  cases a <;> simp [isFinite]

theorem not_isFinite_iff {a : Fl K} : a.isFinite = false ↔ ∀ q, a ≠ .fin q := by
  cases a <;> simp [isFinite]

@[simp] theorem lt_fin {a b : K} : lt (.fin a) (.fin b) = decide (a < b) := rfl
@[simp] theorem ge_fin {a b : K} : ge (.fin a) (.fin b) = decide (b ≤ a) := by
  simp only [ge, lt, ← decide_not, not_lt]
@[simp] theorem le_fin {a b : K} : le (.fin a) (.fin b) = decide (a ≤ b) := by simp [le]

/-- On non-NaN values `le` is a total preorder. -/
theorem le_trans' {a b c : Fl K} (h1 : le a b = true) (h2 : le b c = true) : le a c = true := by
  cases a <;> cases b <;> cases c <;> simp_all [le, ge, lt]
  all_goals first
    | (rename_i x y z; exact _root_.le_trans h1 h2)
    | (rename_i x y z; cases x <;> cases y <;> cases z <;> simp_all)

theorem le_refl' {a : Fl K} (h : a ≠ .nan) : le a a = true := by
  cases a with
  | nan => exact absurd rfl h
  | inf s => cases s <;> rfl
  | fin q => simp [le, ge, lt]

end Fl

/-! ### Range of the discretisation -/

section Range
variable [IsStrictOrderedRing K] [FloorRing K]

theorem castUInt_ok {w cb : Nat} (hcb : cb ≤ w) {q : K} (h0 : 0 ≤ q) (h1 : q < 2 ^ cb) :
    castUInt w (.fin q) = .ok ⌊q⌋.toNat ∧ ⌊q⌋.toNat < 2 ^ cb := by
  have h2 : q < 2 ^ w := lt_of_lt_of_le h1 (pow_le_pow_right₀ (by norm_num) hcb)
  have hf : 0 ≤ ⌊q⌋ := Int.floor_nonneg.2 h0
  refine ⟨by simp only [castUInt]; rw [if_pos ⟨by linarith, h2⟩], ?_⟩
  have : ⌊q⌋ < (2 ^ cb : ℤ) := by
    rw [Int.floor_lt]; push_cast; exact h1
  have h3 : ((⌊q⌋.toNat : ℤ)) < ((2 ^ cb : Nat) : ℤ) := by
    rw [Int.toNat_of_nonneg hf]; push_cast; exact this
  exact_mod_cast h3

/-- Full description of `disc_single_coord` without clamping, for any arithmetic. -/
theorem discSingle_cases (A : Arith K) {w cb : Nat} (hcb : cb ≤ w) (x inv : Fl K) :
    (∃ q, discScaled A cb x inv = .fin q ∧ 0 ≤ q ∧ q < 2 ^ cb ∧ discSingle A w cb x inv = .ok ⌊q⌋.toNat) ∨
    ((∀ q, discScaled A cb x inv = .fin q → q < 0 ∨ 2 ^ cb ≤ q) ∧ discSingle A w cb x inv = .error .invalidArg) := by
  unfold discSingle
  cases h : discScaled A cb x inv with
  | nan => right; simp [Fl.isFinite]
  | inf s => right; simp [Fl.isFinite]
  | fin q =>
    simp only [Fl.isFinite, Bool.not_true, Bool.false_eq_true, if_false, Fl.lt_fin, Fl.ge_fin]
    by_cases hq : 0 ≤ q ∧ q < 2 ^ cb
    · left
      obtain ⟨h1, h2⟩ := castUInt_ok hcb hq.1 hq.2
      refine ⟨q, rfl, hq.1, hq.2, ?_⟩
      rw [if_neg (by simp; exact ⟨hq.1, hq.2⟩), h1]
      simp only [bind, Except.bind]
      rw [if_neg (by omega)]
    · right
      have hq' : q < 0 ∨ 2 ^ cb ≤ q := by
        rcases not_and_or.1 hq with h | h
        · exact .inl (not_le.1 h)
        · exact .inr (not_lt.1 h)
      refine ⟨fun q' h' => by simp at h'; subst h'; exact hq', ?_⟩
      rw [if_pos (by simpa using hq')]

theorem discClamp_cases (A : Arith K) {w cb : Nat} (hcb : cb ≤ w) {top : K} (h0 : 0 ≤ top) (h1 : top < 2 ^ cb) (x inv : Fl K) :
    (∃ q, discScaled A cb x inv = .fin q ∧ discClamp A w cb top x inv = .ok ⌊max 0 (min q top)⌋.toNat ∧
      ⌊max 0 (min q top)⌋.toNat < 2 ^ cb) ∨
    ((discScaled A cb x inv).isFinite = false ∧ discClamp A w cb top x inv = .error .invalidArg) := by
  unfold discClamp
  cases h : discScaled A cb x inv with
  | nan => right; simp [Fl.isFinite]
  | inf s => right; simp [Fl.isFinite]
  | fin q =>
    left
    have hc : Fl.clamp (.fin q) (.fin 0) (.fin top) = .fin (max 0 (min q top)) := by
      unfold Fl.clamp
      simp only [Fl.lt_fin, decide_eq_true_eq]
      split
      · rename_i h; rw [min_eq_left (by linarith), max_eq_left (by linarith)]
      · rename_i h
        have hq : 0 ≤ q := not_lt.1 h
        split
        · rename_i h; rw [min_eq_right (by linarith), max_eq_right h0]
        · rename_i h; rw [min_eq_left (by linarith [not_lt.1 h]), max_eq_right hq]
    have hb : 0 ≤ max 0 (min q top) ∧ max 0 (min q top) < 2 ^ cb :=
      ⟨le_max_left _ _, max_lt (by positivity) (lt_of_le_of_lt (min_le_right _ _) h1)⟩
    obtain ⟨c1, c2⟩ := castUInt_ok hcb hb.1 hb.2
    refine ⟨q, rfl, ?_, c2⟩
    simp only [Fl.isFinite, Bool.not_true, Bool.false_eq_true, if_false, hc, c1, bind, Except.bind]
    rw [if_neg (by omega)]

end Range

/-! ### Non-finite operands -/

theorem add_nonfin (A : Arith K) {a b : Fl K} (ha : a.isFinite = false) (hb : b.isFinite = true) : (A.add a b).isFinite = false := by
  cases a <;> cases b <;> simp_all [Fl.isFinite, Arith.add]

theorem mulPre_nonfin {a b : Fl K} (ha : a.isFinite = false) : ∀ q, Arith.mulPre a b ≠ .fin q := by
  cases a <;> cases b <;> simp_all [Fl.isFinite, Arith.mulPre] <;> (intro q; split <;> simp)

theorem mulPre_nonfin' {a b : Fl K} (hb : b.isFinite = false) : ∀ q, Arith.mulPre a b ≠ .fin q := by
  cases a <;> cases b <;> simp_all [Fl.isFinite, Arith.mulPre] <;> (intro q; split <;> simp)

theorem mul_nonfin (A : Arith K) {a b : Fl K} (h : a.isFinite = false ∨ b.isFinite = false) : (A.mul a b).isFinite = false := by
  have : ∀ q, Arith.mulPre a b ≠ .fin q := h.elim mulPre_nonfin mulPre_nonfin'
  unfold Arith.mul
  cases hm : Arith.mulPre a b with
  | nan => rfl
  | inf s => rfl
  | fin q => exact absurd hm (this q)

theorem fma_nonfin (A : Arith K) {a b : Fl K} {c : K} (h : a.isFinite = false ∨ b.isFinite = false) :
    (A.fma a b (.fin c)).isFinite = false := by
  unfold Arith.fma
  split
  · have : ∀ q, Arith.mulPre a b ≠ .fin q := h.elim mulPre_nonfin mulPre_nonfin'
    cases hm : Arith.mulPre a b with
    | nan => rfl
    | inf s => rfl
    | fin q => exact absurd hm (this q)
  · exact add_nonfin A (mul_nonfin A h) rfl

theorem discScaled_nonfin (A : Arith K) {cb : Nat} {x inv : Fl K} (h : x.isFinite = false ∨ inv.isFinite = false) :
    (discScaled A cb x inv).isFinite = false := mul_nonfin A (.inl (fma_nonfin A h))

/-! ### Monotonicity -/

section Mono
variable [IsStrictOrderedRing K] {A : Arith K}

theorem Arith.Laws.fin_le (L : A.Laws) {a b qa qb : K} (h : a ≤ b) (ha : A.rnd a = .fin qa) (hb : A.rnd b = .fin qb) : qa ≤ qb := by
  have := L.mono a b h
  rw [ha, hb] at this
  simpa using this

theorem add_mono (L : A.Laws) {a b : Fl K} {c : K} (hab : Fl.le a b = true) :
    Fl.le (A.add a (.fin c)) (A.add b (.fin c)) = true := by
  cases a with
  | nan => cases b <;> simp [Fl.le, Fl.ge] at hab
  | inf s =>
    cases b with
    | nan => simp [Fl.le, Fl.ge] at hab
    | inf t => exact hab
    | fin q =>
      have hs : s = true := by cases s <;> simp_all [Fl.le, Fl.ge, Fl.lt]
      subst hs
      have := L.notNan (q + c)
      show Fl.le (.inf true) (A.rnd (q + c)) = true
      cases h : A.rnd (q + c) with
      | nan => exact absurd h this
      | inf t => cases t <;> rfl
      | fin r => rfl
  | fin p =>
    cases b with
    | nan => simp [Fl.le, Fl.ge] at hab
    | inf t =>
      have hs : t = false := by cases t <;> simp_all [Fl.le, Fl.ge, Fl.lt]
      subst hs
      have := L.notNan (p + c)
      show Fl.le (A.rnd (p + c)) (.inf false) = true
      cases h : A.rnd (p + c) with
      | nan => exact absurd h this
      | inf t => cases t <;> rfl
      | fin r => rfl
    | fin q =>
      have : p ≤ q := by simpa using hab
      exact L.mono _ _ (by linarith)

theorem fma_mono (L : A.Laws) {x y i c : K} (hi : 0 ≤ i) (hxy : x ≤ y) :
    Fl.le (A.fma (.fin x) (.fin i) (.fin c)) (A.fma (.fin y) (.fin i) (.fin c)) = true := by
  have h : x * i ≤ y * i := mul_le_mul_of_nonneg_right hxy hi
  unfold Arith.fma
  split
  · exact L.mono _ _ (by linarith)
  · exact add_mono L (L.mono _ _ h)

theorem mul_mono (L : A.Laws) {a b : Fl K} {c : K} (hc : 0 < c) (hab : Fl.le a b = true) :
    Fl.le (A.mul a (.fin c)) (A.mul b (.fin c)) = true := by
  have hcn : ¬ c < 0 := not_lt.2 hc.le
  cases a with
  | nan => cases b <;> simp [Fl.le, Fl.ge] at hab
  | inf s =>
    cases b with
    | nan => simp [Fl.le, Fl.ge] at hab
    | inf t => simpa [Arith.mul, Arith.mulPre, hc.ne', hcn] using hab
    | fin q =>
      have hs : s = true := by cases s <;> simp_all [Fl.le, Fl.ge, Fl.lt]
      subst hs
      have := L.notNan (q * c)
      simp only [Arith.mul, Arith.mulPre, hc.ne', if_false, hcn, decide_false, Bool.xor_false]
      cases h : A.rnd (q * c) with
      | nan => exact absurd h this
      | inf t => cases t <;> rfl
      | fin r => rfl
  | fin p =>
    cases b with
    | nan => simp [Fl.le, Fl.ge] at hab
    | inf t =>
      have hs : t = false := by cases t <;> simp_all [Fl.le, Fl.ge, Fl.lt]
      subst hs
      have := L.notNan (p * c)
      simp only [Arith.mul, Arith.mulPre, hc.ne', if_false, hcn, decide_false, Bool.xor_false]
      cases h : A.rnd (p * c) with
      | nan => exact absurd h this
      | inf t => cases t <;> rfl
      | fin r => rfl
    | fin q =>
      have : p ≤ q := by simpa using hab
      exact L.mono _ _ (mul_le_mul_of_nonneg_right this hc.le)

theorem discScaled_mono (L : A.Laws) {cb : Nat} {x y i : K} (hi : 0 ≤ i) (hxy : x ≤ y) :
    Fl.le (discScaled A cb (.fin x) (.fin i)) (discScaled A cb (.fin y) (.fin i)) = true :=
  mul_mono L (by positivity) (fma_mono L hi hxy)

theorem invBox_nonneg (L : A.Laws) {b i : K} (hb : 0 ≤ b) (h : invBox A (.fin b) = .fin i) : 0 ≤ i := by
  unfold invBox Arith.div at h
  simp only at h
  split at h
  · simp at h
  · exact L.fin_le (by positivity) L.zero h

end Mono

/-! ### Exact arithmetic -/

/-- Exact arithmetic: results are not rounded. -/
def Arith.Exact (A : Arith K) : Prop := ∀ q, A.rnd q = .fin q

theorem Arith.Exact.laws [IsStrictOrderedRing K] {A : Arith K} (h : A.Exact) : A.Laws where
  notNan := by intro q; rw [h]; simp
  mono := by intro a b hab; rw [h, h]; simpa using hab
  zero := h _
  half := h _
  pow := fun k _ => h _
  idem := fun q r hr => by rw [h]

section Exact
variable {A : Arith K} (hA : A.Exact)
include hA

theorem ex_mul (a b : K) : A.mul (.fin a) (.fin b) = .fin (a * b) := hA _
theorem ex_add (a b : K) : A.add (.fin a) (.fin b) = .fin (a + b) := hA _
theorem ex_sub (a b : K) : A.sub (.fin a) (.fin b) = .fin (a - b) := by rw [sub_eq_add_neg]; exact hA _
theorem ex_div {a b : K} (hb : b ≠ 0) : A.div (.fin a) (.fin b) = .fin (a / b) := by
  simp only [Arith.div, if_neg hb]; exact hA _
theorem ex_fma (a b c : K) : A.fma (.fin a) (.fin b) (.fin c) = .fin (a * b + c) := by
  unfold Arith.fma
  split
  · exact hA _
  · rw [ex_mul hA, ex_add hA]

theorem ex_discScaled {cb : Nat} {x b : K} (hb : b ≠ 0) :
    discScaled A cb (.fin x) (invBox A (.fin b)) = .fin ((x / b + 1 / 2) * 2 ^ cb) := by
  unfold discScaled invBox
  rw [ex_div hA hb, ex_fma hA, ex_mul hA, mul_one_div]

end Exact

/-! ### Codes -/

section Codes
variable [IsStrictOrderedRing K] [FloorRing K]

theorem discSingle_lt (A : Arith K) {w cb : Nat} (hcb : cb ≤ w) {x inv : Fl K} {v : Nat} (h : discSingle A w cb x inv = .ok v) :
    v < 2 ^ cb := by
  rcases discSingle_cases A hcb x inv with ⟨q, _, h0, h1, e⟩ | ⟨_, e⟩
  · rw [e] at h
    simp only [Except.ok.injEq] at h
    rw [← h]; exact (castUInt_ok hcb h0 h1).2
  · rw [e] at h; simp at h

/-- All outcomes of computing the code of a particle. -/
theorem codeOf_cases (A : Arith K) {w d : Nat} (hs : Supported w d) {box : Fl K} {c : List (Fl K)} (hc : c.length = d) :
    (∃ xs v, List.Forall₂ (fun x r => discSingle A w (cbits w d) x (invBox A box) = .ok r) c xs ∧
      (∀ r ∈ xs, r < 2 ^ cbits w d) ∧ mortonEncode w xs = some v ∧ Spec.Interleaves (cbits w d) xs v ∧ codeOf A w d box c = .ok v) ∨
    ((∃ x ∈ c, discSingle A w (cbits w d) x (invBox A box) = .error .invalidArg) ∧ codeOf A w d box c = .error .invalidArg) := by
  unfold codeOf
  rw [if_neg (by simpa using hc)]
  by_cases hall : ∀ x ∈ c, ∃ r, discSingle A w (cbits w d) x (invBox A box) = .ok r
  · left
    obtain ⟨xs, hxs⟩ := mapM_ok_of hall
    have hf := mapM_ok_iff.1 hxs
    have hl : xs.length = d := by rw [← hf.length_eq]; exact hc
    have hb : ∀ r ∈ xs, r < 2 ^ cbits w d := by
      intro r hr
      obtain ⟨i, hi, rfl⟩ := List.getElem_of_mem hr
      have h2 := (forall₂_getElem hf).2 i (by have := hf.length_eq; omega) hi
      exact discSingle_lt A (cbits_le _ _) h2
    obtain ⟨m, h1, h2, _⟩ := C06_encode (w := w) (xs := xs) (by rw [hl]; exact hs) (by rw [hl]; exact hb)
    rw [hl] at h2
    exact ⟨xs, m, hf, hb, h1, h2, by simp [hxs, h1, ofUB, bind, Except.bind]⟩
  · right
    have hcase : ∀ x, (∃ r, discSingle A w (cbits w d) x (invBox A box) = .ok r) ∨
        discSingle A w (cbits w d) x (invBox A box) = .error .invalidArg := fun x =>
      (discSingle_cases A (cbits_le _ _) x (invBox A box)).imp (fun ⟨_, _, _, _, e⟩ => ⟨_, e⟩) (·.2)
    simp only [not_forall] at hall
    obtain ⟨x, hx, hn⟩ := hall
    refine ⟨⟨x, hx, (hcase x).resolve_left hn⟩, ?_⟩
    have aux : ∀ l : List (Fl K), x ∈ l → l.mapM (fun x => discSingle A w (cbits w d) x (invBox A box)) = .error .invalidArg := by
      intro l
      induction l with
      | nil => simp
      | cons a l ih =>
        intro hx
        rw [List.mapM_cons]
        rcases hcase a with ⟨r, hr⟩ | he
        · rcases List.mem_cons.1 hx with rfl | hx
          · exact absurd ⟨r, hr⟩ hn
          · rw [hr, ih hx]; rfl
        · rw [he]; rfl
    rw [aux c hx]; rfl

end Codes

/-! ### Deduction of the box size -/

/-- `m` is the largest absolute value of the finite values in `l` (0 if there are none). -/
def IsMaxAbs (l : List (Fl K)) (m : K) : Prop :=
  0 ≤ m ∧ (∀ x ∈ l, ∃ q, x = .fin q ∧ |q| ≤ m) ∧ (m = 0 ∨ ∃ q, .fin q ∈ l ∧ |q| = m)

theorem IsMaxAbs.unique {l : List (Fl K)} {m m' : K} (h : IsMaxAbs l m) (h' : IsMaxAbs l m') : m = m' := by
  obtain ⟨a1, a2, a3⟩ := h
  obtain ⟨b1, b2, b3⟩ := h'
  apply le_antisymm
  · rcases a3 with rfl | ⟨q, hq, rfl⟩
    · exact b1
    · obtain ⟨q', e, hq'⟩ := b2 _ hq
      cases e; exact hq'
  · rcases b3 with rfl | ⟨q, hq, rfl⟩
    · exact a1
    · obtain ⟨q', e, hq'⟩ := a2 _ hq
      cases e; exact hq'

section Deduce
variable [IsStrictOrderedRing K]

theorem fl_abs (q : K) : Fl.abs (.fin q) = .fin |q| := by
  show Fl.fin (if q < 0 then -q else q) = _
  split
  · rename_i h; rw [abs_of_neg h]
  · rename_i h; rw [abs_of_nonneg (not_lt.1 h)]

theorem fl_max (a b : K) : Fl.max (.fin a) (.fin b) = .fin (Max.max a b) := by
  unfold Fl.max
  simp only [Fl.lt_fin, decide_eq_true_eq]
  split
  · rename_i h; rw [max_eq_right h.le]
  · rename_i h; rw [max_eq_left (not_lt.1 h)]

theorem IsMaxAbs.nil : IsMaxAbs ([] : List (Fl K)) 0 := ⟨le_refl _, by simp, .inl rfl⟩

theorem IsMaxAbs.append {l l' : List (Fl K)} {m m' : K} (h : IsMaxAbs l m) (h' : IsMaxAbs l' m') :
    IsMaxAbs (l ++ l') (Max.max m m') := by
  obtain ⟨a1, a2, a3⟩ := h
  obtain ⟨b1, b2, b3⟩ := h'
  refine ⟨le_max_of_le_left a1, ?_, ?_⟩
  · intro x hx
    rcases List.mem_append.1 hx with hx | hx
    · obtain ⟨q, e, h⟩ := a2 x hx; exact ⟨q, e, h.trans (le_max_left _ _)⟩
    · obtain ⟨q, e, h⟩ := b2 x hx; exact ⟨q, e, h.trans (le_max_right _ _)⟩
  · rcases le_total m m' with h | h
    · rw [max_eq_right h]
      rcases b3 with e | ⟨q, hq, e⟩
      · exact .inl e
      · exact .inr ⟨q, List.mem_append_right _ hq, e⟩
    · rw [max_eq_left h]
      rcases a3 with e | ⟨q, hq, e⟩
      · exact .inl e
      · exact .inr ⟨q, List.mem_append_left _ hq, e⟩

theorem IsMaxAbs.single (q : K) : IsMaxAbs [Fl.fin q] |q| :=
  ⟨abs_nonneg _, by simp, .inr ⟨q, by simp, rfl⟩⟩

theorem IsMaxAbs.perm {l l' : List (Fl K)} {m : K} (h : IsMaxAbs l m) (hp : l.Perm l') : IsMaxAbs l' m := by
  obtain ⟨a1, a2, a3⟩ := h
  refine ⟨a1, fun x hx => a2 x (hp.mem_iff.2 hx), a3.imp id (fun ⟨q, hq, e⟩ => ⟨q, hp.mem_iff.1 hq, e⟩)⟩

/-- The values of coordinate `j` of the particles `[b, e)`. -/
def slice (parts : List (List (Fl K))) (j b e : Nat) : List (Fl K) := ((parts.getD j []).drop b).take (e - b)

/-- State of the maxima after the particles `[b, e)`. -/
def MaxUpTo (d : Nat) (parts : List (List (Fl K))) (b e : Nat) (mc : List (Fl K)) : Prop :=
  mc.length = d ∧ ∀ j < d, ∃ m, mc[j]? = some (.fin m) ∧ IsMaxAbs (slice parts j b e) m

/-- Some coordinate of the particles `[b, e)` is not finite. -/
def SomeNonfin (d : Nat) (parts : List (List (Fl K))) (b e : Nat) : Prop :=
  ∃ j < d, ∃ x ∈ slice parts j b e, x.isFinite = false

structure Rect (d n : Nat) (parts : List (List (Fl K))) : Prop where
  arr : d ≤ parts.length
  len : ∀ v ∈ parts, v.length = n

theorem slice_append {parts : List (List (Fl K))} {j b m e : Nat} (h1 : b ≤ m) (h2 : m ≤ e) :
    slice parts j b e = slice parts j b m ++ slice parts j m e := by
  unfold slice
  rw [show e - b = (m - b) + (e - m) by omega, List.take_add, List.drop_drop]
  congr 3; omega

theorem slice_single {d n : Nat} {parts : List (List (Fl K))} (hR : Rect d n parts) {j i : Nat} (hj : j < d) (hi : i < n)
    {c : List (Fl K)} (hc : coordsAt d parts i = some c) (hjc : j < c.length) : slice parts j i (i + 1) = [c[j]] := by
  have hj' : j < parts.length := lt_of_lt_of_le hj hR.arr
  have hf := forall₂_getElem (mapM_some_iff.1 hc)
  have hjt : j < (parts.take d).length := by rw [List.length_take]; have := hR.arr; omega
  have hv := hf.2 j hjt hjc
  rw [List.getElem_take] at hv
  have hil : i < (parts[j]).length := by rw [hR.len _ (List.getElem_mem hj')]; exact hi
  unfold slice
  rw [List.getD_eq_getElem?_getD, List.getElem?_eq_getElem hj', Option.getD_some, Nat.add_sub_cancel_left]
  rw [List.getElem?_eq_getElem hil, Option.some.injEq] at hv
  rw [← hv]
  rw [List.drop_eq_getElem_cons hil]; rfl

theorem maxStep_spec {d : Nat} {cur c : List (Fl K)} {ms : Nat → K} (h1 : cur.length = d) (h2 : c.length = d)
    (hc : ∀ j < d, cur[j]? = some (.fin (ms j))) :
    (∃ qs : Nat → K, (∀ j < d, c[j]? = some (.fin (qs j))) ∧ ∃ r, maxStep cur c = .ok r ∧ r.length = d ∧
      ∀ j < d, r[j]? = some (.fin (Max.max (ms j) |qs j|))) ∨
    ((∃ j, ∃ hj : j < c.length, (c[j]).isFinite = false) ∧ maxStep cur c = .error .invalidArg) := by
  by_cases hfin : ∀ x ∈ c, x.isFinite = true
  · left
    have hq : ∀ j < d, ∃ q, c[j]? = some (.fin q) := by
      intro j hj
      obtain ⟨q, hq⟩ := Fl.isFinite_iff.1 (hfin _ (List.getElem_mem (by omega : j < c.length)))
      exact ⟨q, by rw [List.getElem?_eq_getElem (by omega), hq]⟩
    choose! qs hqs using hq
    refine ⟨qs, hqs, ?_⟩
    have hr : ∃ r, maxStep cur c = .ok r := by
      apply mapM_ok_of
      rintro ⟨a, b⟩ hp
      have hb := hfin b (List.of_mem_zip hp).2
      obtain ⟨q, rfl⟩ := Fl.isFinite_iff.1 hb
      refine ⟨_, if_neg ?_⟩
      simp [fl_abs, Fl.isFinite]
    obtain ⟨r, hr⟩ := hr
    refine ⟨r, hr, ?_⟩
    obtain ⟨g1, g2⟩ := forall₂_getElem (mapM_ok_iff.1 hr)
    have hl : r.length = d := by rw [← g1, List.length_zip]; omega
    refine ⟨hl, fun j hj => ?_⟩
    have := g2 j (by rw [List.length_zip]; omega) (by omega)
    have e1 := hc j hj
    have e2 := hqs j hj
    rw [List.getElem?_eq_getElem (by omega), Option.some.injEq] at e1 e2
    simp only [List.getElem_zip, e1, e2, fl_abs, Fl.isFinite, Bool.not_true, Bool.false_eq_true, if_false, fl_max, Except.ok.injEq] at this
    rw [List.getElem?_eq_getElem (by omega), ← this]
  · right
    simp only [not_forall] at hfin
    obtain ⟨x, hx, hxf⟩ := hfin
    obtain ⟨j, hj, rfl⟩ := List.getElem_of_mem hx
    have hxf' : (c[j]).isFinite = false := by simpa using hxf
    refine ⟨⟨j, hj, hxf'⟩, ?_⟩
    unfold maxStep
    have aux : ∀ (l : List (Fl K × Fl K)), (∃ p ∈ l, p.2.isFinite = false) →
        l.mapM (fun p => if !p.2.abs.isFinite then (.error .invalidArg : Except Err (Fl K)) else .ok (p.1.max p.2.abs)) = .error .invalidArg := by
      intro l
      induction l with
      | nil => rintro ⟨p, hp, _⟩; simp at hp
      | cons a l ih =>
        rintro ⟨p, hp, hpf⟩
        rw [List.mapM_cons]
        by_cases ha : a.2.isFinite = false
        · have : a.2.abs.isFinite = false := by
            cases h : a.2 <;> simp_all [Fl.abs, Fl.isFinite]
          simp [this, bind, Except.bind]
        · have hp' : p ∈ l := by
            rcases List.mem_cons.1 hp with rfl | h
            · exact absurd hpf ha
            · exact h
          rw [ih ⟨p, hp', hpf⟩]
          have : a.2.abs.isFinite = true := by
            cases h : a.2 <;> simp_all [Fl.abs, Fl.isFinite]
          simp [this, bind, Except.bind]
    apply aux
    have hjz : j < (cur.zip c).length := by rw [List.length_zip]; omega
    exact ⟨(cur.zip c)[j], List.getElem_mem hjz, by rw [List.getElem_zip]; exact hxf'⟩

theorem maxBody_spec {d n : Nat} {parts : List (List (Fl K))} (hR : Rect d n parts) (b : Nat) :
    ∀ (len m : Nat) (cur : List (Fl K)), b ≤ m → m + len ≤ n → MaxUpTo d parts b m cur →
      (∃ mc, maxBody d parts m (m + len) cur = .ok mc ∧ MaxUpTo d parts b (m + len) mc) ∨
      (maxBody d parts m (m + len) cur = .error .invalidArg ∧ SomeNonfin d parts m (m + len)) := by
  intro len
  induction len with
  | zero =>
    intro m cur hm hn hu
    left
    exact ⟨cur, by simp [maxBody, pure, Except.pure], hu⟩
  | succ len ih =>
    intro m cur hm hn hu
    obtain ⟨u1, u2⟩ := hu
    choose! ms hms using u2
    obtain ⟨c, hc⟩ : ∃ c, coordsAt d parts m = some c := by
      apply mapM_some_of
      intro v hv
      have : m < v.length := by rw [hR.len v (List.mem_of_mem_take hv)]; omega
      exact ⟨v[m], List.getElem?_eq_getElem this⟩
    have hcl : c.length = d := by
      have := (mapM_some_iff.1 hc).length_eq
      rw [List.length_take] at this
      have := hR.arr; omega
    have hbody : maxBody d parts m (m + (len + 1)) cur =
        (do let r ← maxStep cur c; maxBody d parts (m + 1) (m + 1 + len) r) := by
      unfold maxBody
      rw [Nat.add_sub_cancel_left, Nat.add_sub_cancel_left, List.range'_succ, List.foldlM_cons, hc]
      rfl
    rw [hbody]
    have hsl : ∀ j < d, ∀ hj : j < c.length, slice parts j m (m + 1) = [c[j]] :=
      fun j hj hj' => slice_single hR hj (by omega) hc hj'
    rcases maxStep_spec u1 hcl (fun j hj => (hms j hj).1) with ⟨qs, hqs, r, hr, hrl, hrs⟩ | ⟨⟨j, hj, hjf⟩, he⟩
    · rw [hr]
      have hu' : MaxUpTo d parts b (m + 1) r := by
        refine ⟨hrl, fun j hj => ⟨_, hrs j hj, ?_⟩⟩
        rw [slice_append hm (by omega : m ≤ m + 1)]
        refine (hms j hj).2.append ?_
        rw [hsl j hj (by omega)]
        have e2 := hqs j hj
        rw [List.getElem?_eq_getElem (by omega), Option.some.injEq] at e2
        rw [e2]
        exact IsMaxAbs.single _
      rcases ih (m + 1) r (by omega) (by omega) hu' with ⟨mc, h1, h2⟩ | ⟨h1, j, hj, x, hx, hxf⟩
      · left
        refine ⟨mc, h1, ?_⟩
        rw [show m + (len + 1) = m + 1 + len by omega]
        exact h2
      · right
        refine ⟨h1, j, hj, x, ?_, hxf⟩
        rw [show m + (len + 1) = m + 1 + len by omega, slice_append (by omega : m ≤ m + 1) (by omega)]
        exact List.mem_append_right _ hx
    · right
      rw [he]
      refine ⟨rfl, j, by omega, c[j], ?_, hjf⟩
      rw [slice_append (by omega : m ≤ m + 1) (by omega), hsl j (by omega) hj]
      simp

theorem MaxUpTo.init (d : Nat) (parts : List (List (Fl K))) (b : Nat) : MaxUpTo d parts b b (List.replicate d (.fin 0)) := by
  refine ⟨by simp, fun j hj => ⟨0, by simp [hj], ?_⟩⟩
  have : slice parts j b b = [] := by simp [slice]
  rw [this]; exact IsMaxAbs.nil

theorem MaxUpTo.allFin {d : Nat} {parts : List (List (Fl K))} {b e : Nat} {mc : List (Fl K)} (h : MaxUpTo d parts b e mc) :
    ¬ SomeNonfin d parts b e := by
  rintro ⟨j, hj, x, hx, hxf⟩
  obtain ⟨m, _, _, h2, _⟩ := h.2 j hj
  obtain ⟨q, rfl, _⟩ := h2 x hx
  simp [Fl.isFinite] at hxf

theorem MaxUpTo.unique {d : Nat} {parts : List (List (Fl K))} {b e : Nat} {mc mc' : List (Fl K)} (h : MaxUpTo d parts b e mc)
    (h' : MaxUpTo d parts b e mc') : mc = mc' := by
  apply List.ext_getElem?
  intro j
  by_cases hj : j < d
  · obtain ⟨m, e1, h1⟩ := h.2 j hj
    obtain ⟨m', e2, h2⟩ := h'.2 j hj
    rw [e1, e2, h1.unique h2]
  · rw [List.getElem?_eq_none (by rw [h.1]; omega), List.getElem?_eq_none (by rw [h'.1]; omega)]

/-- Every outcome of the reduction. -/
theorem reduce_spec {d n : Nat} {parts : List (List (Fl K))} (hR : Rect d n parts) {b e : Nat} {r : Except Err (List (Fl K))}
    (h : MaxReduce d parts b e r) (he : e ≤ n) :
    b ≤ e ∧ ((∃ mc, r = .ok mc ∧ MaxUpTo d parts b e mc) ∨ (r = .error .invalidArg ∧ SomeNonfin d parts b e)) := by
  induction h with
  | leaf b e hbe =>
    refine ⟨hbe, ?_⟩
    have := maxBody_spec hR b (e - b) b _ (le_refl _) (by omega) (MaxUpTo.init d parts b)
    rw [show b + (e - b) = e by omega] at this
    rcases this with ⟨mc, h1, h2⟩ | h
    · exact .inl ⟨mc, h1, h2⟩
    · exact .inr h
  | cont b m e v hme _ ih =>
    obtain ⟨hbm, ih⟩ := ih (by omega)
    refine ⟨by omega, ?_⟩
    rcases ih with ⟨mc, h1, h2⟩ | ⟨h1, _⟩
    · simp only [Except.ok.injEq] at h1; subst h1
      have := maxBody_spec hR b (e - m) m v hbm (by omega) h2
      rw [show m + (e - m) = e by omega] at this
      rcases this with ⟨mc, h1, h2⟩ | ⟨h1, j, hj, x, hx, hxf⟩
      · exact .inl ⟨mc, h1, h2⟩
      · refine .inr ⟨h1, j, hj, x, ?_, hxf⟩
        rw [slice_append hbm hme]; exact List.mem_append_right _ hx
    · simp at h1
  | join b m e v u _ _ ih1 ih2 =>
    obtain ⟨hme, ih2⟩ := ih2 he
    obtain ⟨hbm, ih1⟩ := ih1 (by omega)
    refine ⟨by omega, .inl ⟨_, rfl, ?_⟩⟩
    rcases ih1 with ⟨mc, h1, h2⟩ | ⟨h1, _⟩ <;> [skip; simp at h1]
    rcases ih2 with ⟨mc', k1, k2⟩ | ⟨k1, _⟩ <;> [skip; simp at k1]
    simp only [Except.ok.injEq] at h1 k1; subst h1 k1
    refine ⟨by simp [maxJoin, h2.1, k2.1], fun j hj => ?_⟩
    obtain ⟨m1, e1, i1⟩ := h2.2 j hj
    obtain ⟨m2, e2, i2⟩ := k2.2 j hj
    refine ⟨Max.max m1 m2, ?_, ?_⟩
    · have hz : (v.zip u)[j]? = some (.fin m1, .fin m2) := by
        rw [List.getElem?_zip_eq_some]; exact ⟨e1, e2⟩
      simp [maxJoin, hz, fl_max]
    · rw [slice_append hbm hme]; exact i1.append i2
  | throwL b m e er hme _ ih =>
    obtain ⟨hbm, ih⟩ := ih (by omega)
    refine ⟨by omega, ?_⟩
    rcases ih with ⟨mc, h1, _⟩ | ⟨h1, j, hj, x, hx, hxf⟩
    · simp at h1
    · refine .inr ⟨h1, j, hj, x, ?_, hxf⟩
      rw [slice_append hbm hme]; exact List.mem_append_left _ hx
  | throwR b m e er hbm _ ih =>
    obtain ⟨hme, ih⟩ := ih he
    refine ⟨by omega, ?_⟩
    rcases ih with ⟨mc, h1, _⟩ | ⟨h1, j, hj, x, hx, hxf⟩
    · simp at h1
    · refine .inr ⟨h1, j, hj, x, ?_, hxf⟩
      rw [slice_append hbm hme]; exact List.mem_append_right _ hx

theorem maxElement_spec {l : List (Fl K)} (hne : l ≠ []) (hf : ∀ x ∈ l, ∃ q, x = .fin q) :
    ∃ m, maxElement l = some (.fin m) ∧ .fin m ∈ l ∧ ∀ q, .fin q ∈ l → q ≤ m := by
  cases l with
  | nil => exact absurd rfl hne
  | cons a l =>
    obtain ⟨qa, rfl⟩ := hf a (by simp)
    have key : ∀ (l : List (Fl K)) (qa : K), (∀ x ∈ l, ∃ q, x = .fin q) →
        ∃ m, l.foldl (fun m x => if m.lt x then x else m) (.fin qa) = .fin m ∧ (m = qa ∨ .fin m ∈ l) ∧ qa ≤ m ∧ ∀ q, .fin q ∈ l → q ≤ m := by
      intro l
      induction l with
      | nil => intro qa _; exact ⟨qa, rfl, .inl rfl, le_refl _, by simp⟩
      | cons b l ih =>
        intro qa hf
        obtain ⟨qb, rfl⟩ := hf b (by simp)
        simp only [List.foldl_cons, Fl.lt_fin, decide_eq_true_eq]
        by_cases h : qa < qb
        · rw [if_pos h]
          obtain ⟨m, h1, h2, h3, h4⟩ := ih qb (fun x hx => hf x (List.mem_cons_of_mem _ hx))
          refine ⟨m, h1, .inr ?_, h.le.trans h3, ?_⟩
          · rcases h2 with rfl | h2
            · simp
            · exact List.mem_cons_of_mem _ h2
          · intro q hq
            rcases List.mem_cons.1 hq with e | hq
            · cases e; exact h3
            · exact h4 q hq
        · rw [if_neg h]
          obtain ⟨m, h1, h2, h3, h4⟩ := ih qa (fun x hx => hf x (List.mem_cons_of_mem _ hx))
          refine ⟨m, h1, h2.imp id (List.mem_cons_of_mem _), h3, ?_⟩
          intro q hq
          rcases List.mem_cons.1 hq with e | hq
          · cases e; exact (not_lt.1 h).trans h3
          · exact h4 q hq
    obtain ⟨m, h1, h2, h3, h4⟩ := key l qa (fun x hx => hf x (List.mem_cons_of_mem _ hx))
    refine ⟨m, by simp [maxElement, h1], ?_, ?_⟩
    · rcases h2 with rfl | h2
      · simp
      · exact List.mem_cons_of_mem _ h2
    · intro q hq
      rcases List.mem_cons.1 hq with e | hq
      · cases e; exact h3
      · exact h4 q hq

theorem slice_all {d n : Nat} {parts : List (List (Fl K))} (hR : Rect d n parts) {j : Nat} (hj : j < d) :
    ∃ hj' : j < parts.length, slice parts j 0 n = parts[j] := by
  have hj' : j < parts.length := lt_of_lt_of_le hj hR.arr
  refine ⟨hj', ?_⟩
  have := hR.len _ (List.getElem_mem hj')
  unfold slice
  rw [List.getD_eq_getElem?_getD, List.getElem?_eq_getElem hj']
  simp [← this]

/-- The largest absolute coordinate of a particle set, coordinates being the first `d` arrays. -/
theorem maxOf_spec {d n : Nat} {parts : List (List (Fl K))} (hd : 0 < d) (hR : Rect d n parts) {mc : List (Fl K)}
    (h : MaxUpTo d parts 0 n mc) : ∃ m, maxElement mc = some (.fin m) ∧ IsMaxAbs (parts.take d).flatten m := by
  obtain ⟨h1, h2⟩ := h
  have hfin : ∀ x ∈ mc, ∃ q, x = .fin q := by
    intro x hx
    obtain ⟨j, hj, rfl⟩ := List.getElem_of_mem hx
    obtain ⟨m, e, _⟩ := h2 j (by omega)
    rw [List.getElem?_eq_getElem hj, Option.some.injEq] at e
    exact ⟨m, e⟩
  obtain ⟨m, e, hm, hle⟩ := maxElement_spec (by intro e; subst e; simp at h1; omega) hfin
  refine ⟨m, e, ?_⟩
  have hmem : ∀ j, j < d → ∀ x ∈ slice parts j 0 n, x ∈ (parts.take d).flatten := by
    intro j hj x hx
    obtain ⟨hj', e⟩ := slice_all hR hj
    rw [e] at hx
    rw [List.mem_flatten]
    refine ⟨parts[j], ?_, hx⟩
    rw [List.mem_take_iff_getElem]
    exact ⟨j, by omega, rfl⟩
  obtain ⟨j, hj, hmj⟩ := List.getElem_of_mem hm
  obtain ⟨m', e', i1, i2, i3⟩ := h2 j (by omega)
  rw [List.getElem?_eq_getElem hj, hmj, Option.some.injEq, Fl.fin.injEq] at e'
  subst e'
  refine ⟨i1, ?_, ?_⟩
  · intro x hx
    rw [List.mem_flatten] at hx
    obtain ⟨v, hv, hxv⟩ := hx
    rw [List.mem_take_iff_getElem] at hv
    obtain ⟨k, hk, rfl⟩ := hv
    have hkd : k < d := by omega
    obtain ⟨mk, ek, k1, k2, k3⟩ := h2 k hkd
    obtain ⟨_, es⟩ := slice_all hR hkd
    obtain ⟨q, rfl, hq⟩ := k2 x (by rw [es]; exact hxv)
    exact ⟨q, rfl, hq.trans (hle _ (List.mem_of_getElem? ek))⟩
  · exact i3.imp id (fun ⟨q, hq, e⟩ => ⟨q, hmem j (by omega) _ hq, e⟩)

/-- All outcomes of the box size deduction before the final arithmetic, for any schedule. -/
theorem reduce_cases {d n : Nat} {parts : List (List (Fl K))} (hd : 0 < d) (hR : Rect d n parts) {r : Except Err (List (Fl K))}
    (h : MaxReduce d parts 0 n r) :
    (∃ mc m, r = .ok mc ∧ maxElement mc = some (.fin m) ∧ IsMaxAbs (parts.take d).flatten m ∧ MaxUpTo d parts 0 n mc) ∨
    (r = .error .invalidArg ∧ ∃ x ∈ (parts.take d).flatten, x.isFinite = false) := by
  rcases (reduce_spec hR h (le_refl _)).2 with ⟨mc, h1, h2⟩ | ⟨h1, j, hj, x, hx, hxf⟩
  · obtain ⟨m, h3, h4⟩ := maxOf_spec hd hR h2
    exact .inl ⟨mc, m, h1, h3, h4, h2⟩
  · obtain ⟨hj', e⟩ := slice_all hR hj
    rw [e] at hx
    refine .inr ⟨h1, x, ?_, hxf⟩
    rw [List.mem_flatten]
    exact ⟨parts[j], by rw [List.mem_take_iff_getElem]; exact ⟨j, by omega, rfl⟩, hx⟩

theorem reduce_unique {d n : Nat} {parts : List (List (Fl K))} (hR : Rect d n parts) {r r' : Except Err (List (Fl K))}
    (h : MaxReduce d parts 0 n r) (h' : MaxReduce d parts 0 n r') : r = r' := by
  rcases (reduce_spec hR h (le_refl _)).2 with ⟨mc, h1, h2⟩ | ⟨h1, h2⟩ <;>
    rcases (reduce_spec hR h' (le_refl _)).2 with ⟨mc', k1, k2⟩ | ⟨k1, k2⟩
  · rw [h1, k1, h2.unique k2]
  · exact absurd k2 h2.allFin
  · exact absurd h2 k2.allFin
  · rw [h1, k1]

/-- The deduced box depends on the multiset of coordinates only. -/
theorem deduceBox_cases (A : Arith K) {d n : Nat} {parts : List (List (Fl K))} (hd : 0 < d) (hR : Rect d n parts) :
    (∃ m, IsMaxAbs (parts.take d).flatten m ∧ deduceBox A d parts = boxFromMax A [.fin m]) ∨
    ((∃ x ∈ (parts.take d).flatten, x.isFinite = false) ∧ deduceBox A d parts = .error .invalidArg) := by
  have hn : (parts.headD []).length = n := by
    have h0 : 0 < parts.length := lt_of_lt_of_le hd hR.arr
    cases parts with
    | nil => simp at h0
    | cons a l => exact hR.len a (by simp)
  unfold deduceBox
  rw [hn]
  rcases reduce_cases hd hR (MaxReduce.leaf 0 n (Nat.zero_le _)) with ⟨mc, m, h1, h2, h3, _⟩ | ⟨h1, h2⟩
  · left
    refine ⟨m, h3, ?_⟩
    rw [h1]
    show boxFromMax A mc = _
    unfold boxFromMax
    rw [h2]
    rfl
  · right
    rw [h1]
    exact ⟨h2, rfl⟩

end Deduce

end Rakau
