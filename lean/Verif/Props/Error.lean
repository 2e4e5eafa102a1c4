import Verif.Props.Gpu
import Verif.Proof.Monopole
import Mathlib.Analysis.Real.Sqrt

/-!
Property theorems on the error of the tree approximation, in exact arithmetic: C51 (potential), C55 (acceleration).
-/
set_option linter.unusedSectionVars false

namespace Rakau
open Spec

variable {K : Type} [Field K] [LinearOrder K] [IsStrictOrderedRing K] [FloorRing K]

/-- The distances of mode `M` are right at `q`. -/
def RootAt (M : Mode K) (q : K) : Prop := ∃ r : K, 0 < r ∧ r * r = q ∧ M.inv1 q = 1 / r ∧ M.inv3 q = (1 / r) ^ 3

omit [LinearOrder K] [IsStrictOrderedRing K] [FloorRing K] in
theorem range'_sum (f : Nat → K) (a b : Nat) : ((List.range' a (b - a)).map f).sum = ∑ l ∈ Finset.Ico a b, f l := by
  rw [Finset.sum_Ico_eq_sum_range, List.range'_eq_map_range, List.map_map, ← sum_range_list]
  rfl

omit [LinearOrder K] [IsStrictOrderedRing K] [FloorRing K] in
theorem list_sum_snd {ι : Type} (l : List ι) (f : ι → Val K) : (l.map f).sum.2 = (l.map (fun i => (f i).2)).sum := by
  induction l with
  | nil => rfl
  | cons a l ih => rw [List.map_cons, List.sum_cons, List.map_cons, List.sum_cons, ← ih]; rfl

/-- The value `v` computed through the tree for particle `k`, and the value `v'` of the particles `L` it stands for. -/
structure Close (κ : K) (d : Nat) (e : K) (x : Nat → Nat → K) (k : Nat) (v v' : Val K) (L : List Nat) : Prop where
  sign : v.2 ≤ 0
  pot : |v.2 - v'.2| ≤ κ ^ 2 / (1 - κ) * -v.2
  acc : ∀ j < d, |v.1 j - v'.1 j| ≤ accErr κ * (1 + κ) ^ 2 * (L.map (fun l => x d l / D2 d e (fun j => x j k) (fun j => x j l))).sum

omit [FloorRing K] in
theorem Close.add {κ : K} {d : Nat} {e : K} {x : Nat → Nat → K} {k : Nat} {v v' u u' : Val K} {L L' : List Nat} (h : Close κ d e x k v v' L)
    (h' : Close κ d e x k u u' L') : Close κ d e x k (v + u) (v' + u') (L ++ L') where
  sign := add_nonpos h.sign h'.sign
  pot := by
    show |v.2 + u.2 - (v'.2 + u'.2)| ≤ κ ^ 2 / (1 - κ) * -(v.2 + u.2)
    calc |v.2 + u.2 - (v'.2 + u'.2)| = |(v.2 - v'.2) + (u.2 - u'.2)| := by congr 1; ring
      _ ≤ |v.2 - v'.2| + |u.2 - u'.2| := abs_add_le _ _
      _ ≤ _ := by linarith [h.pot, h'.pot]
  acc := by
    intro j hj
    show |v.1 j + u.1 j - (v'.1 j + u'.1 j)| ≤ _
    rw [List.map_append, List.sum_append, mul_add]
    calc |v.1 j + u.1 j - (v'.1 j + u'.1 j)| = |(v.1 j - v'.1 j) + (u.1 j - u'.1 j)| := by congr 1; ring
      _ ≤ |v.1 j - v'.1 j| + |u.1 j - u'.1 j| := abs_add_le _ _
      _ ≤ _ := add_le_add (h.acc j hj) (h'.acc j hj)

omit [FloorRing K] in
theorem accErr_nonneg {κ : K} (h1 : κ < 1) : 0 ≤ accErr κ := by
  have : 0 < 1 - κ := by linarith
  unfold accErr
  positivity

section
variable {κ : K} {d : Nat} {e : K} {x : Nat → Nat → K} {k : Nat}

omit [FloorRing K] in
theorem pull_sum_sign {M : Mode K} {L : List Nat} (hmk : 0 ≤ x d k) (hm : ∀ l ∈ L, 0 ≤ x d l)
    (hr : ∀ l ∈ L, RootAt M (D2 d e (fun j => x j k) (fun j => x j l))) : (L.map (pull M d e x k)).sum.2 ≤ 0 := by
  induction L with
  | nil => exact le_rfl
  | cons l L ih =>
    rw [List.map_cons, List.sum_cons]
    obtain ⟨r, r0, rr, r1, _⟩ := hr l List.mem_cons_self
    refine add_nonpos ?_ (ih (fun l' h => hm l' (List.mem_cons_of_mem _ h)) (fun l' h => hr l' (List.mem_cons_of_mem _ h)))
    show -(x d k * x d l * M.inv1 _) ≤ 0
    rw [r1]
    have := mul_nonneg (mul_nonneg hmk (hm l List.mem_cons_self)) (one_div_pos.2 r0).le
    linarith

omit [FloorRing K] in
/-- Particles that are summed one by one. -/
theorem Close.direct (h1 : κ < 1) {M : Mode K} {L : List Nat} (hmk : 0 ≤ x d k) (hm : ∀ l ∈ L, 0 ≤ x d l)
    (hr : ∀ l ∈ L, RootAt M (D2 d e (fun j => x j k) (fun j => x j l))) :
    Close κ d e x k (L.map (pull M d e x k)).sum (L.map (pull M d e x k)).sum L where
  sign := by
    exact pull_sum_sign hmk hm hr
  pot := by
    rw [sub_self, abs_zero]
    apply mul_nonneg (div_nonneg (sq_nonneg _) (by linarith))
    rw [neg_nonneg]
    exact pull_sum_sign hmk hm hr
  acc := by
    intro j hj
    rw [sub_self, abs_zero]
    apply mul_nonneg (mul_nonneg (accErr_nonneg h1) (sq_nonneg _))
    apply List.sum_nonneg
    intro y hy
    obtain ⟨l, hl, rfl⟩ := List.mem_map.1 hy
    obtain ⟨r, r0, rr, _⟩ := hr l hl
    exact div_nonneg (hm l hl) (by rw [← rr]; positivity)

end

section Node
variable {A : Arith K} {simd : Option (Simd K)} {mac : Mac} {w d : Nat} {s : TS (rakauEnv A simd mac w d)}
  {rsqrt : Option (Fl K → Fl K)} {over : Overshift} {x : Nat → Nat → K} {b mv e : K}

/-- Mass and centre of mass of a node, for non-negative masses (and also for massless nodes). -/
theorem Sit.com_mean (H : Sit s rsqrt over x b mv e) (hm : ∀ k < s.n, 0 ≤ x d k) {i : Nat} (hi : i < s.tree.length) :
    s.cm i = ∑ l ∈ Finset.Ico s.tree[i].beg s.tree[i].fin, x d l ∧
    ∀ j < d, ∑ l ∈ Finset.Ico s.tree[i].beg s.tree[i].fin, x d l * x j l = s.cm i * s.cx i j := by
  obtain ⟨hp, m1, m2, m3⟩ := C17_exact H.exact H.batch H.supp H.reach H.size H.box H.data hi
  obtain ⟨_, _, _, _, p, _, _, _, _, p5, p6, _⟩ := reach_node (rakauEnv_ok A simd mac H.supp) H.reach H.size hi
  have e1 : s.cm i = ∑ l ∈ Finset.Ico s.tree[i].beg s.tree[i].fin, x d l := by
    unfold TS.cm
    rw [List.getElem?_eq_getElem hp, Option.map_some, Option.getD_some, m1]
    rfl
  refine ⟨e1, ?_⟩
  intro j hj
  rw [e1]
  by_cases h0 : ∑ l ∈ Finset.Ico s.tree[i].beg s.tree[i].fin, x d l = 0
  · have hz : ∀ l ∈ Finset.Ico s.tree[i].beg s.tree[i].fin, x d l = 0 :=
      (Finset.sum_eq_zero_iff_of_nonneg (fun l hl => hm l (by rw [Finset.mem_Ico] at hl; omega))).1 h0
    rw [h0, zero_mul]
    apply Finset.sum_eq_zero
    intro l hl
    rw [hz l hl, zero_mul]
  · have e2 : s.cx i j = (∑ k ∈ Finset.Ico s.tree[i].beg s.tree[i].fin, x d k * x j k) / ∑ k ∈ Finset.Ico s.tree[i].beg s.tree[i].fin, x d k := by
      unfold TS.cx
      rw [List.getElem?_eq_getElem hp, Option.map_some, Option.getD_some, m2 h0, List.getD_eq_getElem?_getD,
        List.getElem?_eq_getElem (by simpa using hj), Option.getD_some, List.getElem_map, List.getElem_range]
      rfl
    rw [e2, mul_div_cancel₀ _ h0]

/-- The particles of a node are within the size of the node's cube of its centre of mass, in every coordinate. -/
theorem Sit.spread (H : Sit s rsqrt over x b mv e) (hm : ∀ k < s.n, 0 ≤ x d k) {i : Nat} (hi : i < s.tree.length) {l : Nat} (h1 : s.tree[i].beg ≤ l)
    (h2 : l < s.tree[i].fin) {j : Nat} (hj : j < d) : |x j l - s.cx i j| ≤ s.cdim b i := by
  obtain ⟨hp, com, cen, c1, c2, c3, c4, c5, c6⟩ := C18_com_inside H.exact H.batch H.supp H.reach H.size H.box H.bpos H.data hm hi
  obtain ⟨cen', d1, d2, _, d4⟩ := C19_particles H.exact H.supp H.reach H.size H.box H.bpos H.data hi
  obtain ⟨_, _, _, _, p, _, _, _, _, p5, p6, _⟩ := reach_node (rakauEnv_ok A simd mac H.supp) H.reach H.size hi
  have hinj : Function.Injective (List.map (Fl.fin (K := K))) := List.map_injective_iff.2 (fun a b h => by simpa using h)
  rw [c3, Except.ok.injEq] at d2
  obtain rfl := hinj d2
  have hcx : s.cx i j = com[j]'(by omega) := by
    unfold TS.cx
    rw [List.getElem?_eq_getElem hp, Option.map_some, Option.getD_some, c2, List.getD_eq_getElem?_getD,
      List.getElem?_eq_getElem (by simpa [c1] using hj), Option.getD_some, List.getElem_map]
    rfl
  have hcd : s.cdim b i = b / 2 ^ s.tree[i].level := by
    unfold TS.cdim
    rw [List.getElem?_eq_getElem hi]
    rfl
  rw [hcx, hcd]
  have a1 := abs_le.1 (c6 j (by omega) (by omega))
  have a2 := (d4 l (by omega)).1 ⟨h1, h2⟩ j (by omega)
  rw [abs_le]
  constructor <;> linarith [a1.1, a1.2, a2.1, a2.2]

/-- An accepted node: the distances of its particles from its centre of mass are at most `κ` times the (softened) distance of the target, if `√d · θ ≤ κ`. -/
theorem Sit.accepted_spread {t κ : K} (ht : 0 < t) (H : Sit s rsqrt over x b (invTheta mac t) e) (hm : ∀ k < s.n, 0 ≤ x d k) (hκ : d * t ^ 2 ≤ κ ^ 2)
    {i : Nat} (hi : i < s.tree.length) {y : Nat → K} (hacc : s.bound b (invTheta mac t) i < s.cdist2 y i) {R : K} (hR2 : R * R = D2 d e y (s.cx i))
    {l : Nat} (h1 : s.tree[i].beg ≤ l) (h2 : l < s.tree[i].fin) : ∑ j ∈ Finset.range d, (x j l - s.cx i j) ^ 2 ≤ (κ * R) ^ 2 := by
  have hdim : 0 ≤ s.cdim b i := by
    unfold TS.cdim
    exact div_nonneg H.bpos.le (by positivity)
  have a1 : ∑ j ∈ Finset.range d, (x j l - s.cx i j) ^ 2 ≤ d * s.cdim b i ^ 2 := by
    have : ∑ j ∈ Finset.range d, (x j l - s.cx i j) ^ 2 ≤ ∑ _j ∈ Finset.range d, s.cdim b i ^ 2 := by
      apply Finset.sum_le_sum
      intro j hj
      have := abs_le.1 (H.spread hm hi h1 h2 (Finset.mem_range.1 hj))
      exact sq_le_sq' this.1 this.2
    simpa using this
  have a2 : (s.cdim b i / t) ^ 2 ≤ s.bound b (invTheta mac t) i := by
    unfold TS.bound invTheta
    by_cases hmac : mac = .bh
    · rw [if_pos hmac]
      rw [if_pos hmac, div_pow, mul_one_div, sq t]
    · rw [if_neg hmac]
      have hg : mac = .bhGeom := by cases mac <;> simp_all
      have hdl := (H.delta_le hm hg hi).1
      rw [if_neg hmac, mul_one_div]
      apply pow_le_pow_left₀ (div_nonneg hdim ht.le)
      linarith
  have a3 : s.cdist2 y i ≤ R ^ 2 := by
    rw [sq, hR2]
    unfold TS.cdist2 D2
    linarith [H.soft]
  have a4 : s.cdim b i ^ 2 ≤ t ^ 2 * R ^ 2 := by
    have := (a2.trans hacc.le).trans a3
    rw [div_pow, div_le_iff₀ (by positivity)] at this
    linarith
  calc _ ≤ d * s.cdim b i ^ 2 := a1
    _ ≤ d * (t ^ 2 * R ^ 2) := by gcongr
    _ = d * t ^ 2 * R ^ 2 := by ring
    _ ≤ κ ^ 2 * R ^ 2 := by gcongr
    _ = (κ * R) ^ 2 := by ring

/-- C51 for a node: for non-negative masses and an accepted node, the potential (per unit mass of the target) of the node's mass at its centre of mass and the potential of the
particles of the node differ by at most `κ² / (1 - κ)` times the former, where `κ = √d · θ < 1`: the dipole vanishes, the error is of second order in `θ`. -/
theorem C51_node {t κ : K} (ht : 0 < t) (H : Sit s rsqrt over x b (invTheta mac t) e) (hm : ∀ k < s.n, 0 ≤ x d k) (h0 : 0 ≤ κ) (h1 : κ < 1) (hκ : d * t ^ 2 ≤ κ ^ 2)
    {i : Nat} (hi : i < s.tree.length) {y : Nat → K} (hacc : s.bound b (invTheta mac t) i < s.cdist2 y i) {R : K} (hR : 0 < R) (hR2 : R * R = D2 d e y (s.cx i))
    {r : Nat → K} (hr : ∀ l, s.tree[i].beg ≤ l → l < s.tree[i].fin → 0 < r l ∧ r l * r l = D2 d e y (fun j => x j l)) :
    |∑ l ∈ Finset.Ico s.tree[i].beg s.tree[i].fin, x d l / r l - s.cm i / R| ≤ κ ^ 2 / (1 - κ) * (s.cm i / R) := by
  obtain ⟨_, _, _, _, p, _, _, _, _, p5, p6, _⟩ := reach_node (rakauEnv_ok A simd mac H.supp) H.reach H.size hi
  obtain ⟨m1, m2⟩ := H.com_mean hm hi
  rw [m1] at m2 ⊢
  refine monopole_error (z := fun l j => x j l) H.soft (fun l hl => hm l (by rw [Finset.mem_Ico] at hl; omega)) m2 hR hR2 (fun l hl => ?_) h0 h1 (fun l hl => ?_)
  · rw [Finset.mem_Ico] at hl; exact hr l hl.1 hl.2
  · rw [Finset.mem_Ico] at hl; exact H.accepted_spread ht hm hκ hi hacc hR2 hl.1 hl.2

/-- C55 for a node: each component of the acceleration due to an accepted node differs from that due to the particles of the node by at most a factor of second order in `θ` times the magnitude `M / R²`. -/
theorem C55_node {t κ : K} (ht : 0 < t) (H : Sit s rsqrt over x b (invTheta mac t) e) (hm : ∀ k < s.n, 0 ≤ x d k) (h0 : 0 ≤ κ) (h1 : κ < 1) (hκ : d * t ^ 2 ≤ κ ^ 2)
    {i : Nat} (hi : i < s.tree.length) {y : Nat → K} (hacc : s.bound b (invTheta mac t) i < s.cdist2 y i) {R : K} (hR : 0 < R) (hR2 : R * R = D2 d e y (s.cx i))
    {r : Nat → K} (hr : ∀ l, s.tree[i].beg ≤ l → l < s.tree[i].fin → 0 < r l ∧ r l * r l = D2 d e y (fun j => x j l)) {j : Nat} (hj : j < d) :
    |∑ l ∈ Finset.Ico s.tree[i].beg s.tree[i].fin, x d l * (x j l - y j) / r l ^ 3 - s.cm i * (s.cx i j - y j) / R ^ 3| ≤ accErr κ * (s.cm i / R ^ 2) := by
  obtain ⟨_, _, _, _, p, _, _, _, _, p5, p6, _⟩ := reach_node (rakauEnv_ok A simd mac H.supp) H.reach H.size hi
  obtain ⟨m1, m2⟩ := H.com_mean hm hi
  rw [m1] at m2 ⊢
  refine monopole_acc (z := fun l j => x j l) H.soft (fun l hl => hm l (by rw [Finset.mem_Ico] at hl; omega)) m2 hR hR2 (fun l hl => ?_) h0 h1 (fun l hl => ?_) hj
  · rw [Finset.mem_Ico] at hl; exact hr l hl.1 hl.2
  · rw [Finset.mem_Ico] at hl; exact H.accepted_spread ht hm hκ hi hacc hR2 hl.1 hl.2

/-- An accepted node and the particles it stands for. -/
theorem Sit.close_com {t κ : K} (ht : 0 < t) (H : Sit s rsqrt over x b (invTheta mac t) e) (hm : ∀ k < s.n, 0 ≤ x d k) (h0 : 0 ≤ κ) (h1 : κ < 1) (hκ : d * t ^ 2 ≤ κ ^ 2)
    {M : Mode K} {k : Nat} (hk : k < s.n) {i : Nat} (hi : i < s.tree.length) (hacc : s.bound b (invTheta mac t) i < s.cdist2 (fun j => x j k) i)
    (hM : RootAt M (D2 d e (fun j => x j k) (s.cx i)))
    (hr : ∀ l, s.tree[i].beg ≤ l → l < s.tree[i].fin → RootAt M (D2 d e (fun j => x j k) (fun j => x j l))) :
    Close κ d e x k (s.cpull M e x k i) ((List.range' s.tree[i].beg (s.tree[i].fin - s.tree[i].beg)).map (pull M d e x k)).sum
      (List.range' s.tree[i].beg (s.tree[i].fin - s.tree[i].beg)) := by
  obtain ⟨_, _, _, _, p, _, _, _, _, p5, p6, _⟩ := reach_node (rakauEnv_ok A simd mac H.supp) H.reach H.size hi
  obtain ⟨R, R0, RR, R1, R3⟩ := hM
  have hch : ∃ r : Nat → K, ∀ l, s.tree[i].beg ≤ l → l < s.tree[i].fin → 0 < r l ∧ r l * r l = D2 d e (fun j => x j k) (fun j => x j l) ∧
      M.inv1 (D2 d e (fun j => x j k) (fun j => x j l)) = 1 / r l ∧ M.inv3 (D2 d e (fun j => x j k) (fun j => x j l)) = (1 / r l) ^ 3 := by
    have : ∀ l, ∃ r : K, s.tree[i].beg ≤ l → l < s.tree[i].fin → 0 < r ∧ r * r = D2 d e (fun j => x j k) (fun j => x j l) ∧
        M.inv1 (D2 d e (fun j => x j k) (fun j => x j l)) = 1 / r ∧ M.inv3 (D2 d e (fun j => x j k) (fun j => x j l)) = (1 / r) ^ 3 := by
      intro l
      by_cases hl : s.tree[i].beg ≤ l ∧ l < s.tree[i].fin
      · obtain ⟨r, hr⟩ := hr l hl.1 hl.2
        exact ⟨r, fun _ _ => hr⟩
      · exact ⟨0, fun a b => absurd ⟨a, b⟩ hl⟩
    choose r hr using this
    exact ⟨r, hr⟩
  obtain ⟨r, hr⟩ := hch
  have hr' : ∀ l, s.tree[i].beg ≤ l → l < s.tree[i].fin → 0 < r l ∧ r l * r l = D2 d e (fun j => x j k) (fun j => x j l) :=
    fun l a b => ⟨(hr l a b).1, (hr l a b).2.1⟩
  obtain ⟨m1, _⟩ := H.com_mean hm hi
  have hmi : ∀ l ∈ Finset.Ico s.tree[i].beg s.tree[i].fin, 0 ≤ x d l := fun l hl => hm l (by rw [Finset.mem_Ico] at hl; omega)
  have hcm : 0 ≤ s.cm i := by rw [m1]; exact Finset.sum_nonneg hmi
  have hsgn : (s.cpull M e x k i).2 = -(x d k * (s.cm i / R)) := by
    show -(x d k * s.cm i * M.inv1 _) = _
    rw [R1]; ring
  refine ⟨?_, ?_, ?_⟩
  · rw [hsgn, neg_nonpos]
    exact mul_nonneg (hm k hk) (div_nonneg hcm R0.le)
  · have key := C51_node ht H hm h0 h1 hκ hi hacc R0 RR hr'
    have e1 : ((List.range' s.tree[i].beg (s.tree[i].fin - s.tree[i].beg)).map (pull M d e x k)).sum.2 =
        -(x d k * ∑ l ∈ Finset.Ico s.tree[i].beg s.tree[i].fin, x d l / r l) := by
      rw [list_sum_snd, range'_sum, Finset.mul_sum, ← Finset.sum_neg_distrib]
      apply Finset.sum_congr rfl
      intro l hl
      rw [Finset.mem_Ico] at hl
      show -(x d k * x d l * M.inv1 _) = _
      rw [(hr l hl.1 hl.2).2.2.1]; ring
    rw [hsgn, e1, show -(x d k * (s.cm i / R)) - -(x d k * ∑ l ∈ Finset.Ico s.tree[i].beg s.tree[i].fin, x d l / r l) =
      x d k * (∑ l ∈ Finset.Ico s.tree[i].beg s.tree[i].fin, x d l / r l - s.cm i / R) by ring, abs_mul, abs_of_nonneg (hm k hk)]
    calc _ ≤ x d k * (κ ^ 2 / (1 - κ) * (s.cm i / R)) := mul_le_mul_of_nonneg_left key (hm k hk)
      _ = _ := by ring
  · intro j hj
    have key := C55_node ht H hm h0 h1 hκ hi hacc R0 RR hr' hj
    have e1 : ((List.range' s.tree[i].beg (s.tree[i].fin - s.tree[i].beg)).map (pull M d e x k)).sum.1 j =
        ∑ l ∈ Finset.Ico s.tree[i].beg s.tree[i].fin, x d l * (x j l - x j k) / r l ^ 3 := by
      rw [list_sum_fst, range'_sum]
      apply Finset.sum_congr rfl
      intro l hl
      rw [Finset.mem_Ico] at hl
      show x d l * M.inv3 _ * (x j l - x j k) = _
      rw [(hr l hl.1 hl.2).2.2.2, div_pow, one_pow]; ring
    have e2 : (s.cpull M e x k i).1 j = s.cm i * (s.cx i j - x j k) / R ^ 3 := by
      show s.cm i * M.inv3 _ * (s.cx i j - x j k) = _
      rw [R3, div_pow, one_pow]; ring
    rw [e1, e2, abs_sub_comm, mul_assoc]
    refine key.trans (mul_le_mul_of_nonneg_left ?_ (accErr_nonneg h1))
    rw [range'_sum, m1, Finset.sum_div, Finset.mul_sum]
    apply Finset.sum_le_sum
    intro l hl
    have hl' := Finset.mem_Ico.1 hl
    obtain ⟨r0, rr⟩ := hr' l hl'.1 hl'.2
    have hle := len_le H.soft R0 RR r0 rr h0 (H.accepted_spread ht hm hκ hi hacc RR hl'.1 hl'.2)
    rw [← rr, mul_div_assoc', div_le_div_iff₀ (by positivity) (by positivity)]
    have hsq : r l * r l ≤ (1 + κ) ^ 2 * R ^ 2 := by
      rw [← mul_pow, ← sq]
      exact pow_le_pow_left₀ r0.le hle 2
    calc x d l * (r l * r l) ≤ x d l * ((1 + κ) ^ 2 * R ^ 2) := mul_le_mul_of_nonneg_left hsq (hmi l hl)
      _ = _ := by ring

/-- The visits of a traversal on the CPU. -/
theorem Sit.close_visits {t κ : K} (ht : 0 < t) (H : Sit s rsqrt over x b (invTheta mac t) e) (hm : ∀ k < s.n, 0 ≤ x d k) (h0 : 0 ≤ κ) (h1 : κ < 1) (hκ : d * t ^ 2 ≤ κ ^ 2)
    {M : Mode K} {k : Nat} (hk : k < s.n) {vs : List Visit}
    (hcom : ∀ v ∈ vs, ∀ i, v.ev = some (.com i) → ∃ _ : i < s.tree.length, s.bound b (invTheta mac t) i < s.cdist2 (fun j => x j k) i ∧
      RootAt M (D2 d e (fun j => x j k) (s.cx i)))
    (hsrc : ∀ l ∈ sources s.tree vs, l < s.n ∧ RootAt M (D2 d e (fun j => x j k) (fun j => x j l))) :
    Close κ d e x k (vs.map (s.visVal M e x k)).sum ((sources s.tree vs).map (pull M d e x k)).sum (sources s.tree vs) := by
  induction vs with
  | nil => exact Close.direct (L := []) h1 (M := M) (hm k hk) (by simp) (by simp)
  | cons v vs ih =>
    have e1 : sources s.tree (v :: vs) = sources s.tree [v] ++ sources s.tree vs := by unfold sources; simp
    rw [e1] at hsrc ⊢
    have ih := ih (fun v' hv' => hcom v' (List.mem_cons_of_mem _ hv')) (fun l hl => hsrc l (List.mem_append_right _ hl))
    rw [List.map_cons, List.sum_cons, List.map_append, List.sum_append]
    refine Close.add ?_ ih
    have hs1 : ∀ l ∈ sources s.tree [v], l < s.n ∧ RootAt M (D2 d e (fun j => x j k) (fun j => x j l)) := fun l hl => hsrc l (List.mem_append_left _ hl)
    have hc1 := hcom v List.mem_cons_self
    cases hev : v.ev with
    | none =>
      have e2 : sources s.tree [v] = [] := by unfold sources; simp [hev]
      have e3 : s.visVal M e x k v = 0 := by unfold TS.visVal; rw [hev]
      rw [e2, e3]
      exact Close.direct (L := []) h1 (M := M) (hm k hk) (by simp) (by simp)
    | some ev =>
      have e2 : sources s.tree [v] = ev.particles s.tree := by unfold sources; simp [hev]
      rw [e2] at hs1 ⊢
      cases ev with
      | com i =>
        obtain ⟨hi, a1, a2⟩ := hc1 i hev
        have e3 : s.visVal M e x k v = s.cpull M e x k i := by unfold TS.visVal; rw [hev]
        rw [e3]
        rw [Ev.particles_com hi] at hs1 ⊢
        exact H.close_com ht hm h0 h1 hκ hk hi a1 a2 (fun l l1 l2 => (hs1 l (by rw [List.mem_range'_1]; omega)).2)
      | leaf i =>
        have e3 : s.visVal M e x k v = (((Ev.leaf i).particles s.tree).map (pull M d e x k)).sum := by unfold TS.visVal; rw [hev]
        rw [e3]
        exact Close.direct h1 (hm k hk) (fun l hl => hm l (hs1 l hl).1) (fun l hl => (hs1 l hl).2)

/-- The visits of a traversal on an accelerator. -/
theorem Sit.close_visits_gpu {t κ : K} (ht : 0 < t) (H : Sit s rsqrt over x b (invTheta mac t) e) (hm : ∀ k < s.n, 0 ≤ x d k) (h0 : 0 ≤ κ) (h1 : κ < 1) (hκ : d * t ^ 2 ≤ κ ^ 2)
    {M : Mode K} {k : Nat} (hk : k < s.n) {vs : List Visit}
    (hcom : ∀ v ∈ vs, ∀ i, v.ev = some (.com i) → ∃ hi : i < s.tree.length, (k < s.tree[i].beg ∨ s.tree[i].fin ≤ k) ∧
      s.bound b (invTheta mac t) i < s.cdist2 (fun j => x j k) i ∧ RootAt M (D2 d e (fun j => x j k) (s.cx i)))
    (hsrc : ∀ l ∈ (sources s.tree vs).filter (· ≠ k), l < s.n ∧ RootAt M (D2 d e (fun j => x j k) (fun j => x j l))) :
    Close κ d e x k (vs.map (s.visOut M e x k)).sum (((sources s.tree vs).filter (· ≠ k)).map (pull M d e x k)).sum ((sources s.tree vs).filter (· ≠ k)) := by
  induction vs with
  | nil => exact Close.direct (L := []) h1 (M := M) (hm k hk) (by simp) (by simp)
  | cons v vs ih =>
    have e1 : sources s.tree (v :: vs) = sources s.tree [v] ++ sources s.tree vs := by unfold sources; simp
    rw [e1, List.filter_append] at hsrc ⊢
    have ih := ih (fun v' hv' => hcom v' (List.mem_cons_of_mem _ hv')) (fun l hl => hsrc l (List.mem_append_right _ hl))
    rw [List.map_cons, List.sum_cons, List.map_append, List.sum_append]
    refine Close.add ?_ ih
    have hs1 : ∀ l ∈ (sources s.tree [v]).filter (· ≠ k), l < s.n ∧ RootAt M (D2 d e (fun j => x j k) (fun j => x j l)) :=
      fun l hl => hsrc l (List.mem_append_left _ hl)
    have hc1 := hcom v List.mem_cons_self
    cases hev : v.ev with
    | none =>
      have e2 : sources s.tree [v] = [] := by unfold sources; simp [hev]
      have e3 : s.visOut M e x k v = 0 := by unfold TS.visOut; rw [hev]
      rw [e2, e3]
      exact Close.direct (L := []) h1 (M := M) (hm k hk) (by simp) (by simp)
    | some ev =>
      have e2 : sources s.tree [v] = ev.particles s.tree := by unfold sources; simp [hev]
      rw [e2] at hs1 ⊢
      cases ev with
      | com i =>
        obtain ⟨hi, a0, a1, a2⟩ := hc1 i hev
        have e3 : s.visOut M e x k v = s.cpull M e x k i := by unfold TS.visOut; rw [hev]
        have e4 : ((Ev.com i).particles s.tree).filter (· ≠ k) = List.range' s.tree[i].beg (s.tree[i].fin - s.tree[i].beg) := by
          rw [Ev.particles_com hi, List.filter_eq_self]
          intro l hl
          rw [List.mem_range'_1] at hl
          simp; omega
        rw [e3]
        rw [e4] at hs1 ⊢
        exact H.close_com ht hm h0 h1 hκ hk hi a1 a2 (fun l l1 l2 => (hs1 l (by rw [List.mem_range'_1]; omega)).2)
      | leaf i =>
        have e3 : s.visOut M e x k v = ((((Ev.leaf i).particles s.tree).filter (· ≠ k)).map (pull M d e x k)).sum := by unfold TS.visOut; rw [hev]
        rw [e3]
        exact Close.direct h1 (hm k hk) (fun l hl => hm l (hs1 l hl).1) (fun l hl => (hs1 l hl).2)

end Node

section Roots

omit [FloorRing K] in
theorem rootAt_cpu {hw : Hw K} {d : Nat} {q : K} (h : TrueRoot hw.A hw.rsqrt q) : RootAt (hw.mode d) q := by
  obtain ⟨e1, e2⟩ := trueRoot_inv rfl (d := d) h
  obtain ⟨r, r0, rr, r1, _⟩ := h
  refine ⟨r, r0, rr, ?_, ?_⟩
  · rw [e1]; unfold ex1; rw [r1]; rfl
  · rw [e2]; unfold ex3; rw [r1]; rfl

omit [FloorRing K] in
theorem rootAt_gpu {Dv : Arith K} {q r : K} (r0 : 0 < r) (rr : r * r = q) (hr : Dv.sqrt q = .fin r) : RootAt (devMode Dv) q := by
  refine ⟨r, r0, rr, ?_, ?_⟩
  · unfold devMode Mode.inv1
    simp only
    rw [hr]
    rfl
  · unfold devMode Mode.inv3
    simp only
    rw [hr]
    show 1 / (r * q) = (1 / r) ^ 3
    have := r0.ne'
    rw [← rr]; field_simp

end Roots

section Total
variable {A : Arith K} {simd : Option (Simd K)} {mac : Mac} {w d : Nat} {s : TS (rakauEnv A simd mac w d)}
  {rsqrt : Option (Fl K → Fl K)} {over : Overshift} {x : Nat → Nat → K} {b : K}

omit [LinearOrder K] [IsStrictOrderedRing K] [FloorRing K] in
theorem Val.smul_snd (g : K) (v : Val K) : (Val.smul g v).2 = g * v.2 := rfl

/-- The bounds for the values returned: those of `Close`, times `G`. -/
structure WithinError (κ : K) (d : Nat) (e g : K) (x : Nat → Nat → K) (n k : Nat) (v v' : Val K) : Prop where
  pot : |v.2 - v'.2| ≤ κ ^ 2 / (1 - κ) * |v.2|
  acc : ∀ j < d, |v.1 j - v'.1 j| ≤ accErr κ * (1 + κ) ^ 2 * |g| * ∑ l ∈ (Finset.range n).filter (· ≠ k), x d l / D2 d e (fun j => x j k) (fun j => x j l)

omit [FloorRing K] in
theorem Close.scaled {κ : K} {d : Nat} {e : K} {x : Nat → Nat → K} {n k : Nat} {v v' : Val K} {L : List Nat} (h : Close κ d e x k v v' L)
    (hL : L.Perm ((List.range n).filter (· ≠ k))) (g : K) : WithinError κ d e g x n k (Val.smul g v) (Val.smul g v') where
  pot := by
    show |g * v.2 - g * v'.2| ≤ _ * |g * v.2|
    rw [← mul_sub, abs_mul, abs_mul, abs_of_nonpos h.sign]
    calc |g| * |v.2 - v'.2| ≤ |g| * (κ ^ 2 / (1 - κ) * -v.2) := mul_le_mul_of_nonneg_left h.pot (abs_nonneg g)
      _ = _ := by ring
  acc := by
    intro j hj
    show |g * v.1 j - g * v'.1 j| ≤ _
    have e1 : (L.map (fun l => x d l / D2 d e (fun j => x j k) (fun j => x j l))).sum =
        ∑ l ∈ (Finset.range n).filter (· ≠ k), x d l / D2 d e (fun j => x j k) (fun j => x j l) := by
      rw [(hL.map _).sum_eq, ← List.sum_toFinset _ ((List.nodup_range).filter _)]
      apply Finset.sum_congr _ (fun _ _ => rfl)
      ext l
      simp
    rw [← mul_sub, abs_mul]
    calc |g| * |v.1 j - v'.1 j| ≤ |g| * _ := mul_le_mul_of_nonneg_left (h.acc j hj) (abs_nonneg g)
      _ = _ := by rw [e1]; ring

/-- The direct sum over all other particles. -/
def directVal (A : Arith K) (d : Nat) (e g : K) (x : Nat → Nat → K) (n k : Nat) : Val K :=
  Val.smul g (((List.range n).filter (· ≠ k)).map (fun l => grav (ex1 A) (ex3 A) d e (fun j => x j k) (x d k) (fun j => x j l) (x d l))).sum

/-- C40: the exact functions compute the direct sum, for the particle in question. -/
theorem exact_direct {t u : K} (hu : 0 ≤ u) (H : Sit s rsqrt over x b t (u * u))
    (hsep : ∀ k l, k < s.n → l < s.n → k ≠ l → 0 < D2 d (u * u) (fun j => x j k) (fun j => x j l)) (Q : Quant) (g : K) (ordered : Bool) {k i : Nat} (hk : k < s.n)
    (hi : (if ordered then s.perm[k]? else some k) = some i) : s.exact Q ordered (.fin g) (.fin u) i = .ok (mkRes Q d (directVal A d (u * u) g x s.n k)) := by
  have v2 := C40_value H hu hsep Q g hk
  cases ordered with
  | false =>
    simp only [Bool.false_eq_true, if_false, Option.some.injEq] at hi
    rw [← hi]; exact v2
  | true =>
    simp only [if_true] at hi
    have I := reach_inv H.reach
    have hin : i < s.n := by
      have := I.perm.mem_iff.1 (List.mem_of_getElem? hi)
      rwa [List.mem_range] at this
    obtain ⟨k', k1, k2, k3⟩ := (C40_ordered H.reach Q (.fin g) (.fin u)).1 i hin
    have e3 := I.inv k i hi
    rw [k1, Option.some.injEq] at e3
    rw [k3, e3]; exact v2

/-- The error of the results of the CPU. -/
theorem total_within {t u κ : K} (ht : 0 < t) (hu : 0 ≤ u) (H : Sit s rsqrt over x b (invTheta mac t) (u * u)) (hm : ∀ k < s.n, 0 ≤ x d k) (h0 : 0 ≤ κ) (h1 : κ < 1)
    (hκ : d * t ^ 2 ≤ κ ^ 2) (hroot : ∀ k l, k < s.n → l < s.n → k ≠ l → TrueRoot A rsqrt (D2 d (u * u) (fun j => x j k) (fun j => x j l)))
    (hrootc : ∀ k i, k < s.n → i < s.tree.length → s.bound b (invTheta mac t) i < s.cdist2 (fun j => x j k) i → TrueRoot A rsqrt (D2 d (u * u) (fun j => x j k) (s.cx i)))
    (Q : Quant) (g : K) {split : List (Fl K)} (hsp : checkSplit split = .ok ()) (ordered : Bool) {order : List Nat} {out : List (Res K)}
    (ho : order.Perm (List.range s.crit.length)) (hout : out.length = s.n) :
    ∃ out', s.accPot rsqrt over Q ordered (.fin t) (.fin g) (.fin u) split order out = .ok out' ∧ out'.length = s.n ∧
      ∀ k < s.n, ∃ i v, (if ordered then s.perm[k]? else some k) = some i ∧ out'[i]? = some (mkRes Q d v) ∧
        WithinError κ d (u * u) g x s.n k v (directVal A d (u * u) g x s.n k) := by
  have hsep : ∀ k l, k < s.n → l < s.n → k ≠ l → 0 < D2 d (u * u) (fun j => x j k) (fun j => x j l) := by
    intro k l hk hl hkl
    obtain ⟨r, r0, rr, _⟩ := hroot k l hk hl hkl
    rw [← rr]; positivity
  obtain ⟨P, hP, _⟩ := H.pad_eq Q g
  obtain ⟨val, hval, hall⟩ := C27_outputs H.simdPos H.supp H.reach H.size H.small H.room Q (checkParams_exact (mac := mac) (g := g) H.exact ht hu) hsp
    (by show (s.fc rsqrt over Q (invTheta mac t) g (u * u)).padCoord.isFinite = true; rw [hP]; rfl)
  obtain ⟨out', o1, o2, o3⟩ := hall ordered order out ho hout
  have hv : ∀ k < s.n, ∃ v, val k = mkRes Q d v ∧ WithinError κ d (u * u) g x s.n k v (directVal A d (u * u) g x s.n k) := by
    intro k hk
    obtain ⟨ht1, ht2⟩ := crit_tiling (rakauEnv_ok A simd mac H.supp) H.reach H.size
    obtain ⟨c, ⟨hc, k1, k2⟩, _⟩ := ht2 k hk
    have hcm := List.getElem_mem hc
    generalize s.crit[c] = cn at k1 k2 hcm
    obtain ⟨vs, w1, w2, w3, w4⟩ := C24_values H hsep Q g hcm
    have w5 := hval cn hcm
    rw [show s.force rsqrt over Q (.fin (invTheta mac t)) (.fin g) (.fin (u * u)) = s.fc rsqrt over Q (invTheta mac t) g (u * u) from rfl, w4,
      Except.ok.injEq] at w5
    have w6 : (Arr (cn.fin - cn.beg) _)[k - cn.beg]? = (Arr (cn.fin - cn.beg) _)[k - cn.beg]? := congrArg (·[k - cn.beg]?) w5
    rw [arr_get (by omega), arr_get (by omega), Option.some.injEq, show cn.beg + (k - cn.beg) = k by omega] at w6
    set M := (s.fc rsqrt over Q (invTheta mac t) g (u * u)).M with hM
    have hMr : ∀ q, TrueRoot A rsqrt q → RootAt M q := fun q hq => rootAt_cpu (hw := ⟨A, simd, rsqrt⟩) hq
    have hperm := others_perm k1 k2 (ht1 cn hcm).2
    have hmem : ∀ l ∈ sources s.tree vs ++ (List.range' cn.beg (cn.fin - cn.beg)).filter (· ≠ k), l < s.n ∧
        RootAt M (D2 d (u * u) (fun j => x j k) (fun j => x j l)) := by
      intro l hl
      rw [w2, hperm.mem_iff, List.mem_filter, List.mem_range, decide_eq_true_eq] at hl
      exact ⟨hl.1, hMr _ (hroot k l hk hl.1 (Ne.symm hl.2))⟩
    have c1 := H.close_visits ht hm h0 h1 hκ (M := M) hk (vs := vs) (fun v hv i hi => by
        obtain ⟨hil, _, a2⟩ := w3 v hv i hi
        exact ⟨hil, a2 k k1 k2, hMr _ (hrootc k i hk hil (a2 k k1 k2))⟩)
      (fun l hl => hmem l (List.mem_append_left _ hl))
    have c2 := Close.direct (κ := κ) (e := u * u) h1 (M := M) (L := (List.range' cn.beg (cn.fin - cn.beg)).filter (· ≠ k)) (hm k hk)
      (fun l hl => hm l (hmem l (List.mem_append_right _ hl)).1) (fun l hl => (hmem l (List.mem_append_right _ hl)).2)
    have c3 := (c1.add c2).scaled (n := s.n) (by rw [w2]; exact hperm) g
    refine ⟨_, w6.symm, ?_⟩
    have e0 : directVal A d (u * u) g x s.n k = Val.smul g (((sources s.tree vs).map (pull M d (u * u) x k)).sum +
        (((List.range' cn.beg (cn.fin - cn.beg)).filter (· ≠ k)).map (pull M d (u * u) x k)).sum) := by
      unfold directVal
      rw [← List.sum_append, ← List.map_append, w2, (hperm.map _).sum_eq]
      congr 2
      apply List.map_congr_left
      intro l hl
      rw [List.mem_filter, List.mem_range, decide_eq_true_eq] at hl
      obtain ⟨e1, e2⟩ := trueRoot_inv (hw := ⟨A, simd, rsqrt⟩) rfl (d := d) (hroot k l hk hl.1 (Ne.symm hl.2))
      unfold pull grav
      have e1' : M.inv1 (D2 d (u * u) (fun j => x j k) (fun j => x j l)) = ex1 A (D2 d (u * u) (fun j => x j k) (fun j => x j l)) := e1
      have e2' : M.inv3 (D2 d (u * u) (fun j => x j k) (fun j => x j l)) = ex3 A (D2 d (u * u) (fun j => x j k) (fun j => x j l)) := e2
      rw [e1', e2']
    rw [e0]
    exact c3
  refine ⟨out', o1, o2, ?_⟩
  intro k hk
  obtain ⟨v, v1, v3⟩ := hv k hk
  obtain ⟨i, e1, e2⟩ := o3 k hk
  exact ⟨i, v, e1, by rw [e2, v1], v3⟩

/-- C51, C55, on the CPU: for non-negative masses, in exact arithmetic and for `√d · θ ≤ κ < 1`, the potential of every particle differs from that of the exact function by at most `κ² / (1 - κ)` times its value,
and every component of the acceleration from that of the exact function by at most a constant of second order in `κ` times `G` times the sum `∑ m / r²` of the magnitudes of the exact pulls. -/
theorem C51_total {t u κ : K} (ht : 0 < t) (hu : 0 ≤ u) (H : Sit s rsqrt over x b (invTheta mac t) (u * u)) (hm : ∀ k < s.n, 0 ≤ x d k) (h0 : 0 ≤ κ) (h1 : κ < 1)
    (hκ : d * t ^ 2 ≤ κ ^ 2) (hroot : ∀ k l, k < s.n → l < s.n → k ≠ l → TrueRoot A rsqrt (D2 d (u * u) (fun j => x j k) (fun j => x j l)))
    (hrootc : ∀ k i, k < s.n → i < s.tree.length → s.bound b (invTheta mac t) i < s.cdist2 (fun j => x j k) i → TrueRoot A rsqrt (D2 d (u * u) (fun j => x j k) (s.cx i)))
    (Q : Quant) (g : K) {split : List (Fl K)} (hsp : checkSplit split = .ok ()) (ordered : Bool) {order : List Nat} {out : List (Res K)}
    (ho : order.Perm (List.range s.crit.length)) (hout : out.length = s.n) :
    ∃ out', s.accPot rsqrt over Q ordered (.fin t) (.fin g) (.fin u) split order out = .ok out' ∧ out'.length = s.n ∧
      ∀ k < s.n, ∃ i v v', (if ordered then s.perm[k]? else some k) = some i ∧ out'[i]? = some (mkRes Q d v) ∧
        s.exact Q ordered (.fin g) (.fin u) i = .ok (mkRes Q d v') ∧ WithinError κ d (u * u) g x s.n k v v' := by
  have hsep : ∀ k l, k < s.n → l < s.n → k ≠ l → 0 < D2 d (u * u) (fun j => x j k) (fun j => x j l) := by
    intro k l hk hl hkl
    obtain ⟨r, r0, rr, _⟩ := hroot k l hk hl hkl
    rw [← rr]; positivity
  obtain ⟨out', o1, o2, o3⟩ := total_within ht hu H hm h0 h1 hκ hroot hrootc Q g hsp ordered ho hout
  refine ⟨out', o1, o2, fun k hk => ?_⟩
  obtain ⟨i, v, i1, i2, i3⟩ := o3 k hk
  exact ⟨i, v, _, i1, i2, exact_direct hu H hsep Q g ordered hk i1, i3⟩

/-- C51, C55, on accelerators: the results of the kernels obey the same bounds. -/
theorem C51_gpu {t u κ : K} (ht : 0 < t) (hu : 0 ≤ u) (H : Sit s rsqrt over x b (invTheta mac t) (u * u)) (hm : ∀ k < s.n, 0 ≤ x d k) (h0 : 0 ≤ κ) (h1 : κ < 1)
    (hκ : d * t ^ 2 ≤ κ ^ 2) {Dv : Arith K} (hD : Dv.Exact) (hq : SqrtOk Dv)
    (hroot : ∀ k l, k < s.n → l < s.n → k ≠ l → TrueRoot A rsqrt (D2 d (u * u) (fun j => x j k) (fun j => x j l)) ∧
      Dv.sqrt (D2 d (u * u) (fun j => x j k) (fun j => x j l)) = A.sqrt (D2 d (u * u) (fun j => x j k) (fun j => x j l)))
    (hrootc : ∀ k i, k < s.n → i < s.tree.length → s.bound b (invTheta mac t) i < s.cdist2 (fun j => x j k) i →
      TrueRoot Dv none (D2 d (u * u) (fun j => x j k) (s.cx i)))
    (Q : Quant) (g : K) {lanes : List Nat} (hl : ∀ k ∈ lanes, k < s.n) :
    ∃ f : Nat → Res K, (s.gpu Dv Q (.fin (invTheta mac t)) (.fin g) (.fin (u * u))).warp lanes = some (lanes.map f) ∧
      ∀ k ∈ lanes, ∃ v v', f k = mkRes Q d v ∧ s.exact Q false (.fin g) (.fin u) k = .ok (mkRes Q d v') ∧ WithinError κ d (u * u) g x s.n k v v' := by
  have hsep : ∀ k l, k < s.n → l < s.n → k ≠ l → 0 < D2 d (u * u) (fun j => x j k) (fun j => x j l) := by
    intro k l hk hl hkl
    obtain ⟨⟨r, r0, rr, _⟩, _⟩ := hroot k l hk hl hkl
    rw [← rr]; positivity
  obtain ⟨vs, v1, v2, v3⟩ := C30_values H hD hq hsep Q g hl
  refine ⟨_, v3, ?_⟩
  intro k hk
  have hmem : ∀ l ∈ (sources s.tree vs).filter (· ≠ k), l < s.n ∧ RootAt (devMode Dv) (D2 d (u * u) (fun j => x j k) (fun j => x j l)) := by
    intro l hl'
    rw [v1, List.mem_filter, List.mem_range, decide_eq_true_eq] at hl'
    obtain ⟨⟨r, r0, rr, r1, _⟩, r2⟩ := hroot k l (hl k hk) hl'.1 (Ne.symm hl'.2)
    exact ⟨hl'.1, rootAt_gpu r0 rr (by rw [r2, r1])⟩
  have c1 := H.close_visits_gpu ht hm h0 h1 hκ (M := devMode Dv) (hl k hk) (vs := vs) (fun v hv i hi => by
      obtain ⟨hil, a2⟩ := v2 v hv i hi
      obtain ⟨r, r0, rr, r1, _⟩ := hrootc k i (hl k hk) hil (a2 k hk).2
      exact ⟨hil, (a2 k hk).1, (a2 k hk).2, rootAt_gpu r0 rr r1⟩) hmem
  refine ⟨_, _, rfl, ?_, c1.scaled (by rw [v1]) g⟩
  rw [C40_value H hu hsep Q g (hl k hk), v1]
  congr 4
  apply List.map_congr_left
  intro l hl'
  rw [List.mem_filter, List.mem_range, decide_eq_true_eq] at hl'
  obtain ⟨⟨r, r0, rr, r1, _⟩, r2⟩ := hroot k l (hl k hk) hl'.1 (Ne.symm hl'.2)
  obtain ⟨q, q0, qq, q1, q3⟩ := rootAt_gpu r0 rr (by rw [r2, r1] : Dv.sqrt _ = _)
  have hqr : q = r := by
    have : q ^ 2 = r ^ 2 := by rw [sq, sq, qq, rr]
    exact (sq_eq_sq₀ q0.le r0.le).1 this
  subst hqr
  unfold pull grav
  rw [q1, q3]
  unfold ex1 ex3
  rw [r1]
  rfl

end Total

/-! ### A sample with rational distances to the centres of mass: three particles on a line -/

def lData : List (List ℚ) := [[-7, 4, 5], [0, 0, 0], [0, 0, 0], [1, 2, 3]]

def lInp (mac : Mac) : Input (gEnv mac) := ⟨some (.fin 16), 1, 1, lData.map (·.map .fin)⟩

def lS (mac : Mac) : TS (gEnv mac) := okOr (lInp mac).exec (TS.default _)

theorem l_reach (mac : Mac) : Reach (gEnv mac) (lS mac) := by
  have h : Construct (lInp mac) (lInp mac).exec := construct_exec (by cases mac <;> decide +kernel)
  rw [eq_okOr (d := TS.default _) (show isOk (lInp mac).exec = true by cases mac <;> decide +kernel)] at h
  exact .construct _ _ (by cases mac <;> rfl) h

def lX (j k : Nat) : ℚ := (lData.getD j []).getD k 0

theorem l_n (mac : Mac) : (lS mac).n = 3 := by cases mac <;> decide +kernel

theorem l_sit (mac : Mac) {mv e : ℚ} (h1 : 0 < mv) (h2 : 0 ≤ e) : Sit (lS mac) (some estQ) (maskedShift 32) lX 16 mv e where
  exact := sqQ_exact
  batch := rat_ok
  supp := g_supp
  reach := l_reach mac
  size := by rw [l_n]; decide
  room := by rw [l_n]; show 3 + 3 < _; decide
  box := by cases mac <;> decide +kernel
  bpos := by norm_num
  data := isData_of_eq (by cases mac <;> decide +kernel)
  small := maskedShift_small _
  mpos := h1
  soft := h2
  sqrt := sqQ_sqrt
  est := estQ_ok

theorem l_mass (mac : Mac) : ∀ k < (lS mac).n, 0 ≤ lX 3 k := by rw [l_n]; decide +kernel

theorem l_root (mac : Mac) : ∀ k l, k < (lS mac).n → l < (lS mac).n → k ≠ l →
    TrueRoot sqQ (some estQ) (D2 3 (0 * 0) (fun j => lX j k) (fun j => lX j l)) := by
  have h : ∀ k < 3, ∀ l < 3, k ≠ l → 0 < sqrtQ (D2 3 (0 * 0) (fun j => lX j k) (fun j => lX j l)) ∧
      sqrtQ (D2 3 (0 * 0) (fun j => lX j k) (fun j => lX j l)) * sqrtQ (D2 3 (0 * 0) (fun j => lX j k) (fun j => lX j l)) =
        D2 3 (0 * 0) (fun j => lX j k) (fun j => lX j l) := by decide +kernel
  intro k l hk hl hkl
  rw [l_n] at hk hl
  obtain ⟨h1, h2⟩ := h k hk l hl hkl
  exact ⟨_, h1, h2, rfl, fun f hf => by cases hf; rfl⟩

/-- `θ = 1/5`. -/
theorem l_rootc (mac : Mac) : ∀ k i, k < (lS mac).n → i < (lS mac).tree.length →
    (lS mac).bound 16 (invTheta mac (1 / 5)) i < (lS mac).cdist2 (fun j => lX j k) i → TrueRoot sqQ (some estQ) (D2 3 (0 * 0) (fun j => lX j k) ((lS mac).cx i)) := by
  have h : ∀ k < 3, ∀ i < 7, (lS mac).bound 16 (invTheta mac (1 / 5)) i < (lS mac).cdist2 (fun j => lX j k) i →
      0 < sqrtQ (D2 3 (0 * 0) (fun j => lX j k) ((lS mac).cx i)) ∧
      sqrtQ (D2 3 (0 * 0) (fun j => lX j k) ((lS mac).cx i)) * sqrtQ (D2 3 (0 * 0) (fun j => lX j k) ((lS mac).cx i)) =
        D2 3 (0 * 0) (fun j => lX j k) ((lS mac).cx i) := by cases mac <;> decide +kernel
  intro k i hk hi ha
  rw [l_n] at hk
  have hlen : (lS mac).tree.length = 7 := by cases mac <;> decide +kernel
  rw [hlen] at hi
  obtain ⟨h1, h2⟩ := h k hk i hi ha
  exact ⟨_, h1, h2, rfl, fun f hf => by cases hf; rfl⟩

/-- Node 4, of particles 1 and 2, is accepted for particle 0, and not for its own particles. -/
example (mac : Mac) : ∀ k < 3, ((lS mac).bound 16 (invTheta mac (1 / 5)) 4 < (lS mac).cdist2 (fun j => lX j k) 4 ↔ k = 0) := by
  cases mac <;> decide +kernel

/-- `C51_node` for it: the potential of the two particles is `2/11 + 3/12`, approximated by `5 / 11.6`. -/
example (mac : Mac) : |(2 / 11 + 3 / 12 : ℚ) - 5 / (58 / 5)| ≤ (7 / 20) ^ 2 / (1 - 7 / 20) * (5 / (58 / 5)) := by
  have hi : 4 < (lS mac).tree.length := by cases mac <;> decide +kernel
  have h := C51_node (s := lS mac) (t := 1 / 5) (κ := 7 / 20) (e := 0) (y := fun j => lX j 0) (i := 4) (R := 58 / 5) (r := fun l => lX 0 l + 7)
    (by norm_num) (l_sit mac (invTheta_pos mac (by norm_num)) le_rfl) (l_mass mac) (by norm_num) (by norm_num) (by norm_num) hi
    (by cases mac <;> decide +kernel) (by norm_num) (by cases mac <;> decide +kernel) (by
      have e : (lS mac).tree[4].beg = 1 ∧ (lS mac).tree[4].fin = 3 := by cases mac <;> decide +kernel +revert
      rw [e.1, e.2]
      have : ∀ l < 3, 1 ≤ l → 0 < lX 0 l + 7 ∧ (lX 0 l + 7) * (lX 0 l + 7) = D2 3 0 (fun j => lX j 0) (fun j => lX j l) := by decide +kernel
      exact fun l l1 l2 => this l l2 l1)
  have e : ∑ l ∈ Finset.Ico (lS mac).tree[4].beg (lS mac).tree[4].fin, lX 3 l / (lX 0 l + 7) = 2 / 11 + 3 / 12 := by cases mac <;> decide +kernel +revert
  have e' : (lS mac).cm 4 = 5 := by cases mac <;> decide +kernel
  rw [e, e'] at h
  exact h

/-- `C55_node` for it: the acceleration is `2/11² + 3/12²`, approximated by `5 / 11.6²`. -/
example (mac : Mac) : |(2 / 11 ^ 2 + 3 / 12 ^ 2 : ℚ) - 5 / (58 / 5) ^ 2| ≤ accErr (7 / 20) * (5 / (58 / 5) ^ 2) := by
  have hi : 4 < (lS mac).tree.length := by cases mac <;> decide +kernel
  have h := C55_node (s := lS mac) (t := 1 / 5) (κ := 7 / 20) (e := 0) (y := fun j => lX j 0) (i := 4) (R := 58 / 5) (r := fun l => lX 0 l + 7)
    (by norm_num) (l_sit mac (invTheta_pos mac (by norm_num)) le_rfl) (l_mass mac) (by norm_num) (by norm_num) (by norm_num) hi
    (by cases mac <;> decide +kernel) (by norm_num) (by cases mac <;> decide +kernel) (by
      have e : (lS mac).tree[4].beg = 1 ∧ (lS mac).tree[4].fin = 3 := by cases mac <;> decide +kernel +revert
      rw [e.1, e.2]
      have : ∀ l < 3, 1 ≤ l → 0 < lX 0 l + 7 ∧ (lX 0 l + 7) * (lX 0 l + 7) = D2 3 0 (fun j => lX j 0) (fun j => lX j l) := by decide +kernel
      exact fun l l1 l2 => this l l2 l1) (j := 0) (by norm_num)
  have e : ∑ l ∈ Finset.Ico (lS mac).tree[4].beg (lS mac).tree[4].fin, lX 3 l * (lX 0 l - lX 0 0) / (lX 0 l + 7) ^ 3 = 2 / 11 ^ 2 + 3 / 12 ^ 2 := by
    cases mac <;> decide +kernel +revert
  have e' : (lS mac).cm 4 * ((lS mac).cx 4 0 - lX 0 0) / (58 / 5) ^ 3 = 5 / (58 / 5) ^ 2 := by cases mac <;> decide +kernel
  have e'' : (lS mac).cm 4 = 5 := by cases mac <;> decide +kernel
  rw [e, e', e''] at h
  exact h

/-- `C51_total` in the sample. -/
example (mac : Mac) : ∃ out', (lS mac).accPot (some estQ) (maskedShift 32) .both true (.fin (1 / 5)) (.fin 2) (.fin 0) [] [2, 1, 0]
      (List.replicate 3 ⟨[], []⟩) = .ok out' ∧ out'.length = (lS mac).n ∧
    ∀ k < (lS mac).n, ∃ i v v', (if true then (lS mac).perm[k]? else some k) = some i ∧ out'[i]? = some (mkRes .both 3 v) ∧
      (lS mac).exact .both true (.fin 2) (.fin 0) i = .ok (mkRes .both 3 v') ∧ WithinError (7 / 20) 3 (0 * 0) 2 lX (lS mac).n k v v' := by
  refine C51_total (by norm_num) le_rfl (l_sit mac (invTheta_pos mac (by norm_num)) (by norm_num)) (l_mass mac) (by norm_num) (by norm_num) (by norm_num)
    (l_root mac) (l_rootc mac) .both 2 (by decide +kernel) true ?_ ?_
  · cases mac <;> decide +kernel
  · rw [l_n]; rfl

/-- The error is not zero: the tree gives particle 0 the potential energy `-2 · 5 / 11.6`, the exact function `-2 · (2/11 + 3/12)`. -/
example : (lS .bh).accPot (some estQ) (maskedShift 32) .pot false (.fin (1 / 5)) (.fin 2) (.fin 0) [] [2, 1, 0] (List.replicate 3 ⟨[], []⟩) =
      .ok [⟨[], [.fin (-25 / 29)]⟩, ⟨[], [.fin (-(2 * (2 / 11 + 6)))]⟩, ⟨[], [.fin (-(2 * (3 / 12 + 6)))]⟩] ∧
    (lS .bh).exact .pot false (.fin 2) (.fin 0) 0 = .ok ⟨[], [.fin (-(2 * (2 / 11 + 3 / 12)))]⟩ := by decide +kernel

/-- `C51_gpu` in the sample: each particle with a group of its own. -/
example (mac : Mac) {k : Nat} (hk : k < 3) : ∃ f : Nat → Res ℚ, ((lS mac).gpu sqQ .both (.fin (invTheta mac (1 / 5))) (.fin 2) (.fin (0 * 0))).warp [k] = some ([k].map f) ∧
    ∀ l ∈ [k], ∃ v v', f l = mkRes .both 3 v ∧ (lS mac).exact .both false (.fin 2) (.fin 0) l = .ok (mkRes .both 3 v') ∧
      WithinError (7 / 20) 3 (0 * 0) 2 lX (lS mac).n l v v' :=
  C51_gpu (by norm_num) le_rfl (l_sit mac (invTheta_pos mac (by norm_num)) (by norm_num)) (l_mass mac) (by norm_num) (by norm_num) (by norm_num) sqQ_exact sqQ_sqrt
    (fun k l hk hl hkl => ⟨l_root mac k l hk hl hkl, rfl⟩)
    (fun k i hk hi ha => by obtain ⟨r, r0, r1, r2, _⟩ := l_rootc mac k i hk hi ha; exact ⟨r, r0, r1, r2, fun f hf => by cases hf⟩)
    .both 2 (by rw [l_n]; simpa using hk)

/-! ### Real numbers: no assumption on roots remains -/

/-- Exact arithmetic on the real numbers. -/
noncomputable def realA : Arith ℝ := ⟨.fin, fun q => .fin √q, true⟩

theorem realA_exact : realA.Exact := fun _ => rfl

theorem realA_sqrt : SqrtOk realA := by
  intro q hq
  refine ⟨√q, rfl, Real.sqrt_nonneg q, ?_, fun h0 => ⟨Real.sqrt_pos.2 h0, ?_⟩⟩
  · have := Real.mul_self_sqrt hq; nlinarith
  · have := Real.mul_self_sqrt hq; nlinarith

theorem realA_root {q : ℝ} (hq : 0 < q) : TrueRoot realA none q :=
  ⟨√q, Real.sqrt_pos.2 hq, Real.mul_self_sqrt hq.le, rfl, fun f hf => by cases hf⟩

/-- The centre of mass of an accepted node does not coincide with the particle. -/
theorem accepted_pos {A : Arith K} {simd : Option (Simd K)} {mac : Mac} {w d : Nat} {s : TS (rakauEnv A simd mac w d)} {x : Nat → Nat → K} {b t u : K} {k i : Nat}
    (ht : 0 < t) (ha : s.bound b (invTheta mac t) i < s.cdist2 (fun j => x j k) i) : 0 < D2 d (u * u) (fun j => x j k) (s.cx i) := by
  have e1 : 0 ≤ s.bound b (invTheta mac t) i := by
    unfold TS.bound
    split
    · exact mul_nonneg (sq_nonneg _) (invTheta_pos mac ht).le
    · exact sq_nonneg _
  have e2 := e1.trans_lt ha
  unfold TS.cdist2 D2 at e2
  unfold D2
  linarith [mul_self_nonneg u]

/-- C51, C55 over the real numbers: the bounds hold for any tree, if the masses are not negative and no two particles have softened distance zero. -/
theorem C51_real {simd : Option (Simd ℝ)} (hS : ∀ S, simd = some S → S.Ok) {mac : Mac} {w d : Nat} (hs : Supported w d) {s : TS (rakauEnv realA simd mac w d)}
    (h : Reach _ s) (hz : s.n * cbits w d < 2 ^ 64) {over : Overshift} (hov : over.Small) (hr : s.n + (⟨realA, simd, none⟩ : Hw ℝ).pad < 2 ^ 64)
    {x : Nat → Nat → ℝ} (hx : IsData d s.n s.parts x) {b : ℝ} (hb : s.box = .fin b) (hb0 : 0 < b) (hm : ∀ k < s.n, 0 ≤ x d k)
    {t u κ : ℝ} (ht : 0 < t) (hu : 0 ≤ u) (h0 : 0 ≤ κ) (h1 : κ < 1) (hκ : d * t ^ 2 ≤ κ ^ 2)
    (hsep : ∀ k l, k < s.n → l < s.n → k ≠ l → 0 < D2 d (u * u) (fun j => x j k) (fun j => x j l))
    (Q : Quant) (g : ℝ) {split : List (Fl ℝ)} (hsp : checkSplit split = .ok ()) (ordered : Bool) {order : List Nat} {out : List (Res ℝ)}
    (ho : order.Perm (List.range s.crit.length)) (hout : out.length = s.n) :
    ∃ out', s.accPot none over Q ordered (.fin t) (.fin g) (.fin u) split order out = .ok out' ∧ out'.length = s.n ∧
      ∀ k < s.n, ∃ i v v', (if ordered then s.perm[k]? else some k) = some i ∧ out'[i]? = some (mkRes Q d v) ∧
        s.exact Q ordered (.fin g) (.fin u) i = .ok (mkRes Q d v') ∧ WithinError κ d (u * u) g x s.n k v v' := by
  exact C51_total ht hu ⟨realA_exact, hS, hs, h, hz, hr, hb, hb0, hx, hov, invTheta_pos mac ht, mul_self_nonneg u, realA_sqrt, by intro r hr; cases hr⟩ hm h0 h1 hκ
    (fun k l hk hl hkl => realA_root (hsep k l hk hl hkl)) (fun k i hk hi ha => realA_root (accepted_pos ht ha)) Q g hsp ordered ho hout

end Rakau
