import Verif.Spec.Tree
import Verif.Proof.Bits
import Mathlib.Data.List.Basic

/-! Counting lemmas: particle paths, node counts and particle ranges. -/
namespace Rakau
open Spec

theorem digits_length (d cb c : Nat) : (digits d cb c).length = cb := by
  induction cb generalizing c with
  | zero => rfl
  | succ cb ih => simp [digits, ih]

theorem digits_ok (d cb c : Nat) : Path.Ok d (digits d cb c) := by
  induction cb generalizing c with
  | zero => intro i hi; simp [digits] at hi
  | succ cb ih =>
    intro i hi
    simp only [digits, List.mem_append, List.mem_singleton] at hi
    rcases hi with hi | rfl
    · exact ih _ i hi
    · exact Nat.mod_lt _ (Nat.two_pow_pos d)

theorem digits_take (d cb l c : Nat) (hl : l ≤ cb) :
    (digits d cb c).take l = digits d l (c / 2 ^ ((cb - l) * d)) := by
  induction cb generalizing c with
  | zero => have : l = 0 := by omega
            subst this; simp [digits]
  | succ cb ih =>
    rcases Nat.lt_or_ge l (cb + 1) with h | h
    · have h' : l ≤ cb := by omega
      simp only [digits]
      rw [List.take_append_of_le_length (by rw [digits_length]; exact h'), ih _ h', Nat.div_div_eq_div_mul, ← pow_add]
      congr 3
      have : cb + 1 - l = (cb - l) + 1 := by omega
      rw [this]; ring
    · have : l = cb + 1 := by omega
      subst this
      rw [List.take_of_length_le (by rw [digits_length])]
      simp

/-- Positional value of a path. -/
def pv (d : Nat) (p : Path) : Nat := posVal d p.length p

theorem pv_snoc (d : Nat) (p : Path) (i : Nat) : pv d (p ++ [i]) = pv d p * 2 ^ d + i := by
  have h1 := code_append d p i
  rw [code_eq, code_eq] at h1
  have : 2 ^ ((p ++ [i]).length * d) = 2 ^ (p.length * d) * 2 ^ d := by
    rw [← pow_add]; congr 1; simp; ring
  rw [this, add_mul] at h1
  unfold pv; omega

theorem pv_nil (d : Nat) : pv d [] = 0 := rfl

theorem pv_lt (d : Nat) (p : Path) (hp : Path.Ok d p) : pv d p < 2 ^ (p.length * d) :=
  posVal_lt d _ p hp le_rfl

theorem code_pv (d : Nat) (p : Path) : Path.code d p = 2 ^ (p.length * d) + pv d p := code_eq d p

theorem ok_append {d : Nat} {p q : Path} : Path.Ok d (p ++ q) ↔ Path.Ok d p ∧ Path.Ok d q := by
  simp [Path.Ok, or_imp, forall_and]

theorem ok_snoc {d : Nat} {p : Path} {i : Nat} : Path.Ok d (p ++ [i]) ↔ Path.Ok d p ∧ i < 2 ^ d := by
  rw [ok_append]; simp [Path.Ok]

theorem ok_nil (d : Nat) : Path.Ok d [] := by intro i hi; simp at hi

theorem pv_digits (d l c : Nat) (hc : c < 2 ^ (l * d)) : pv d (digits d l c) = c := by
  induction l generalizing c with
  | zero => simp at hc; subst hc; rfl
  | succ l ih =>
    simp only [digits]
    have e : 2 ^ ((l + 1) * d) = 2 ^ (l * d) * 2 ^ d := by rw [← pow_add]; congr 1; ring
    rw [pv_snoc, ih _ (by rw [Nat.div_lt_iff_lt_mul (Nat.two_pow_pos d), ← e]; exact hc)]
    rw [mul_comm]; exact Nat.div_add_mod c (2 ^ d)

theorem pv_inj {d : Nat} (hd : 0 < d) {p q : Path} (hp : Path.Ok d p) (hq : Path.Ok d q) (hl : p.length = q.length)
    (h : pv d p = pv d q) : p = q := by
  apply code_inj d hd p q hp hq
  rw [code_pv, code_pv, hl, h]

theorem inNode_iff {d cb c : Nat} (hd : 0 < d) {p : Path} (hp : Path.Ok d p) (hl : p.length ≤ cb) (hc : c < 2 ^ (cb * d)) :
    InNode d cb p c ↔ c / 2 ^ ((cb - p.length) * d) = pv d p := by
  unfold InNode
  rw [List.prefix_iff_eq_take, digits_take d cb p.length c hl]
  have hlt : c / 2 ^ ((cb - p.length) * d) < 2 ^ (p.length * d) := by
    rw [Nat.div_lt_iff_lt_mul (Nat.two_pow_pos _), ← pow_add, ← Nat.add_mul, Nat.add_sub_cancel' hl]; exact hc
  constructor
  · intro h
    rw [← pv_digits d p.length _ hlt, ← h]
  · intro h
    apply pv_inj hd hp (digits_ok _ _ _) (digits_length _ _ _).symm
    rw [pv_digits d p.length _ hlt, h]

/-- Number of codes whose level-`l` prefix is below `v`. -/
def below (d cb : Nat) (codes : List Nat) (l v : Nat) : Nat :=
  codes.countP (fun c => decide (c / 2 ^ ((cb - l) * d) < v))

/-- First particle of a node. -/
def lo (d cb : Nat) (codes : List Nat) (p : Path) : Nat := below d cb codes p.length (pv d p)
/-- One past the last particle of a node. -/
def hi (d cb : Nat) (codes : List Nat) (p : Path) : Nat := below d cb codes p.length (pv d p + 1)

theorem countP_mono {l : List Nat} {p q : Nat → Bool} (h : ∀ c, p c = true → q c = true) : l.countP p ≤ l.countP q :=
  List.countP_mono_left (fun c _ => h c)

theorem below_mono (d cb : Nat) (codes : List Nat) (l : Nat) {v v' : Nat} (h : v ≤ v') :
    below d cb codes l v ≤ below d cb codes l v' := by
  apply countP_mono; intro c; simp only [decide_eq_true_eq]; omega

theorem below_step (d cb : Nat) (codes : List Nat) (l v : Nat) (hl : l < cb) :
    below d cb codes (l + 1) (v * 2 ^ d) = below d cb codes l v := by
  unfold below
  congr 1; funext c
  have e : (cb - l) * d = (cb - (l + 1)) * d + d := by
    have : cb - l = (cb - (l + 1)) + 1 := by omega
    rw [this]; ring
  rw [e, pow_add, ← Nat.div_div_eq_div_mul]
  congr 1
  rw [eq_iff_iff, Nat.div_lt_iff_lt_mul (Nat.two_pow_pos d)]

theorem lo_le_hi (d cb : Nat) (codes : List Nat) (p : Path) : lo d cb codes p ≤ hi d cb codes p :=
  below_mono _ _ _ _ (by omega)

theorem lo_first (d cb : Nat) (codes : List Nat) (p : Path) (hl : p.length < cb) :
    lo d cb codes (p ++ [0]) = lo d cb codes p := by
  unfold lo; rw [pv_snoc, List.length_append, List.length_singleton, Nat.add_zero (pv d p * 2 ^ d), below_step _ _ _ _ _ hl]

theorem hi_next (d cb : Nat) (codes : List Nat) (p : Path) (i : Nat) :
    hi d cb codes (p ++ [i]) = lo d cb codes (p ++ [i + 1]) := by
  unfold lo hi; rw [pv_snoc, pv_snoc]; simp [Nat.add_assoc]

theorem lo_end (d cb : Nat) (codes : List Nat) (p : Path) (hl : p.length < cb) :
    lo d cb codes (p ++ [2 ^ d]) = hi d cb codes p := by
  unfold lo hi; rw [pv_snoc, List.length_append, List.length_singleton]
  have : pv d p * 2 ^ d + 2 ^ d = (pv d p + 1) * 2 ^ d := by ring
  rw [this, below_step _ _ _ _ _ hl]

theorem lo_snoc_mono (d cb : Nat) (codes : List Nat) (p : Path) {i j : Nat} (h : i ≤ j) :
    lo d cb codes (p ++ [i]) ≤ lo d cb codes (p ++ [j]) := by
  unfold lo; rw [pv_snoc, pv_snoc]
  have : (p ++ [i]).length = (p ++ [j]).length := by simp
  rw [this]; exact below_mono _ _ _ _ (by omega)

/-- The range of a child lies in the range of its parent. -/
theorem child_range (d cb : Nat) (codes : List Nat) (p : Path) {i : Nat} (hl : p.length < cb) (hi' : i < 2 ^ d) :
    lo d cb codes p ≤ lo d cb codes (p ++ [i]) ∧ lo d cb codes (p ++ [i]) ≤ hi d cb codes (p ++ [i]) ∧
    hi d cb codes (p ++ [i]) ≤ hi d cb codes p := by
  refine ⟨?_, lo_le_hi _ _ _ _, ?_⟩
  · rw [← lo_first d cb codes p hl]; exact lo_snoc_mono _ _ _ _ (Nat.zero_le i)
  · rw [hi_next, ← lo_end d cb codes p hl]; exact lo_snoc_mono _ _ _ _ hi'

theorem lo_nil (d cb : Nat) (codes : List Nat) : lo d cb codes [] = 0 := by
  simp [lo, below, pv_nil]

theorem hi_nil (d cb : Nat) (codes : List Nat) (hc : ∀ c ∈ codes, c < 2 ^ (cb * d)) :
    hi d cb codes [] = codes.length := by
  unfold hi below
  rw [List.countP_eq_length]
  intro c h
  have := hc c h
  rw [decide_eq_true_eq, Nat.div_lt_iff_lt_mul (Nat.two_pow_pos _)]
  simpa [pv_nil] using this

theorem countP_lt_succ (codes : List Nat) (f : Nat → Nat) (v : Nat) :
    codes.countP (fun c => decide (f c < v + 1)) =
      codes.countP (fun c => decide (f c < v)) + codes.countP (fun c => decide (f c = v)) := by
  induction codes with
  | nil => rfl
  | cons c cs ih =>
    simp only [List.countP_cons, ih, decide_eq_true_eq]
    split_ifs <;> omega

theorem count_eq {d cb : Nat} (hd : 0 < d) {codes : List Nat} (hc : ∀ c ∈ codes, c < 2 ^ (cb * d)) {p : Path}
    (hp : Path.Ok d p) (hl : p.length ≤ cb) :
    count d cb codes p = hi d cb codes p - lo d cb codes p := by
  have h1 : count d cb codes p = codes.countP (fun c => decide (c / 2 ^ ((cb - p.length) * d) = pv d p)) := by
    unfold count
    apply List.countP_congr
    intro c h
    simp only [decide_eq_true_eq]
    exact inNode_iff hd hp hl (hc c h)
  unfold hi lo below
  rw [h1, countP_lt_succ]; omega

/-- In a sorted list the elements satisfying a downward closed predicate are the first `countP` ones. -/
theorem sorted_countP {l : List Nat} (hs : l.Pairwise (· ≤ ·)) {q : Nat → Bool}
    (hq : ∀ a b, a ≤ b → q b = true → q a = true) (k : Nat) (hk : k < l.length) :
    q l[k] = true ↔ k < l.countP q := by
  induction l generalizing k with
  | nil => simp at hk
  | cons a l ih =>
    rw [List.pairwise_cons] at hs
    rw [List.countP_cons]
    cases k with
    | zero =>
      simp only [List.getElem_cons_zero]
      constructor
      · intro h; simp [h]
      · intro h
        by_contra hn
        have : l.countP q = 0 := by
          rw [List.countP_eq_zero]
          intro b hb hqb
          exact hn (hq a b (hs.1 b hb) hqb)
        simp [this, hn] at h
    | succ k =>
      simp only [List.getElem_cons_succ]
      have hk' : k < l.length := by simpa using hk
      rw [ih hs.2 k hk']
      constructor
      · intro h
        have : q a = true := by
          apply hq a l[k] (hs.1 _ (List.getElem_mem _))
          exact (ih hs.2 k hk').2 h
        simp [this]; exact h
      · intro h
        split_ifs at h <;> omega

theorem lt_below {d cb : Nat} {codes : List Nat} (hs : codes.Pairwise (· ≤ ·)) (l v k : Nat) (hk : k < codes.length) :
    codes[k] / 2 ^ ((cb - l) * d) < v ↔ k < below d cb codes l v := by
  unfold below
  rw [← sorted_countP hs (q := fun c => decide (c / 2 ^ ((cb - l) * d) < v)) _ k hk]
  · simp
  · intro a b hab
    simp only [decide_eq_true_eq]
    intro h
    exact lt_of_le_of_lt (Nat.div_le_div_right hab) h

theorem below_le_length (d cb : Nat) (codes : List Nat) (l v : Nat) : below d cb codes l v ≤ codes.length :=
  List.countP_le_length

theorem hi_le_length (d cb : Nat) (codes : List Nat) (p : Path) : hi d cb codes p ≤ codes.length :=
  below_le_length _ _ _ _ _

/-- Sorted codes: the particles of a node are exactly the index range `[lo, hi)`. -/
theorem mem_range_iff {d cb : Nat} (hd : 0 < d) {codes : List Nat} (hs : codes.Pairwise (· ≤ ·))
    (hc : ∀ c ∈ codes, c < 2 ^ (cb * d)) {p : Path} (hp : Path.Ok d p) (hl : p.length ≤ cb) (k : Nat)
    (hk : k < codes.length) :
    (lo d cb codes p ≤ k ∧ k < hi d cb codes p) ↔ InNode d cb p codes[k] := by
  rw [inNode_iff hd hp hl (hc _ (List.getElem_mem _))]
  unfold lo hi
  rw [← lt_below hs _ _ _ hk, ← not_lt, ← lt_below hs _ _ _ hk]
  omega

theorem count_pos_ok {d cb : Nat} {codes : List Nat} {p : Path} (h : 0 < count d cb codes p) : Path.Ok d p := by
  unfold count at h
  obtain ⟨c, _, h2⟩ := List.countP_pos_iff.1 h
  have h2 : InNode d cb p c := by simpa using h2
  intro i hi
  exact digits_ok d cb c i (h2.subset hi)

/-- A node contains at least the particles of its descendants. -/
theorem count_anti {d cb : Nat} {codes : List Nat} {p q : Path} (h : p <+: q) :
    count d cb codes q ≤ count d cb codes p := by
  apply countP_mono
  intro c
  simp only [decide_eq_true_eq]
  exact fun h' => h.trans h'

theorem count_nil (d cb : Nat) (codes : List Nat) : count d cb codes [] = codes.length := by
  unfold count; rw [List.countP_eq_length]; intro c _; simp [InNode]

end Rakau
