import Verif.Proof.AccPot
import Verif.Spec.Gravity
import Mathlib.Tactic.FieldSimp
import Mathlib.Tactic.Ring

/-! The force kernels in exact arithmetic. -/
set_option linter.unusedSectionVars false

namespace Rakau
open Spec

variable {K : Type} [Field K] [LinearOrder K]

/-- A particle with the given position and mass. -/
def mkPt (d : Nat) (y : Nat → K) (m : K) : Pt K := ⟨Arr d (fun j => .fin (y j)), .fin m⟩

/-- The result with the given values. -/
def mkRes (Q : Quant) (d : Nat) (v : Val K) : Res K :=
  ⟨if Q = .pot then [] else Arr d (fun j => .fin (v.1 j)), if Q = .acc then [] else [.fin v.2]⟩

/-- The inverse distance and its cube, as computed by the kernels from a squared distance `q`. -/
def InvAt (M : Mode K) (i1 i3 : K) (q : K) : Prop :=
  ∀ m : K, (mkDist M (.fin q)).over M.A (.fin m) = .fin (m * i1) ∧ (mkDist M (.fin q)).over3 M.A (.fin m) = .fin (m * i3)

theorem resZero_eq (Q : Quant) (d : Nat) : (resZero Q d : Res K) = mkRes Q d 0 := by
  unfold resZero mkRes
  rw [replicate_arr]
  rfl

section
variable {A : Arith K} (hA : A.Exact)
include hA

theorem resAdd_eq (Q : Quant) (d : Nat) (v w : Val K) : resAdd A (mkRes Q d v) (mkRes Q d w) = mkRes Q d (v + w) := by
  unfold resAdd mkRes
  congr 1
  · by_cases h : Q = .pot
    · simp [h]
    · simp only [if_neg h]
      rw [zipWith_arr]
      apply arr_ext
      intro j _
      rw [ex_add hA]; rfl
  · by_cases h : Q = .acc
    · simp [h]
    · simp only [if_neg h]
      simp [ex_add hA]

theorem resScale_eq (Q : Quant) (d : Nat) (G : K) (v : Val K) :
    resScale A (.fin G) (mkRes Q d v) = mkRes Q d (Val.smul G v) := by
  unfold resScale mkRes Val.smul
  congr 1
  · by_cases h : Q = .pot
    · simp [h]
    · simp only [if_neg h]
      rw [map_arr]
      apply arr_ext
      intro j _
      rw [ex_mul hA, mul_comm]
  · by_cases h : Q = .acc
    · simp [h]
    · simp only [if_neg h]
      simp [ex_mul hA, mul_comm]

theorem diffs_eq (d : Nat) (y z : Nat → K) :
    diffs A (Arr d (fun j => .fin (y j))) (Arr d (fun j => .fin (z j))) = Arr d (fun j => .fin (z j - y j)) := by
  unfold diffs
  rw [zipWith_arr]
  apply arr_ext
  intro j _
  rw [ex_sub hA]

theorem foldl_fma (d : Nat) (u : Nat → K) (e : K) :
    (Arr d (fun j => Fl.fin (u j))).foldl (fun acc t => A.fma t t acc) (.fin e) = .fin (∑ j ∈ Finset.range d, u j ^ 2 + e) := by
  induction d with
  | zero => simp [Arr]
  | succ d ih =>
    rw [Arr, List.range_succ, List.map_append, List.foldl_append]
    unfold Arr at ih
    rw [ih]
    simp only [List.map_cons, List.map_nil, List.foldl_cons, List.foldl_nil]
    rw [ex_fma hA, Finset.sum_range_succ]
    congr 1; ring

end

section
variable {M : Mode K} (hA : M.A.Exact) {d : Nat} (hd : M.vec = true → d = 3)
include hA hd

theorem softD2_eq (u : Nat → K) (e : K) : softD2 M (.fin e) (Arr d (fun j => .fin (u j))) = .fin (∑ j ∈ Finset.range d, u j ^ 2 + e) := by
  unfold softD2
  by_cases h : M.vec = true
  · rw [if_pos h, hd h]
    show M.A.add (M.A.add (M.A.mul (.fin (u 0)) (.fin (u 0))) (M.A.mul (.fin (u 1)) (.fin (u 1)))) (M.A.fma (.fin (u 2)) (.fin (u 2)) (.fin e)) = _
    simp only [ex_mul hA, ex_add hA, ex_fma hA, Finset.sum_range_succ, Finset.sum_range_zero]
    congr 1; ring
  · rw [if_neg h, foldl_fma hA]

theorem plainD2_eq (u : Nat → K) : plainD2 M (Arr d (fun j => .fin (u j))) = .fin (∑ j ∈ Finset.range d, u j ^ 2) := by
  unfold plainD2
  by_cases h : M.vec = true
  · rw [if_pos h, hd h]
    show M.A.add (M.A.add (M.A.mul (.fin (u 0)) (.fin (u 0))) (M.A.mul (.fin (u 1)) (.fin (u 1)))) (M.A.mul (.fin (u 2)) (.fin (u 2))) = _
    simp only [ex_mul hA, ex_add hA, Finset.sum_range_succ, Finset.sum_range_zero]
    congr 1; ring
  · rw [if_neg h, foldl_fma hA, add_zero]

variable {i1 i3 : K → K} {e : K} {y z : Nat → K} {m m' : K} {Q : Quant}

theorem accs_eq (f : K) (u : Nat → K) (v : Nat → K) :
    List.zipWith (fun t a => M.A.fma t (.fin f) a) (Arr d (fun j => .fin (u j))) (if Q = .pot then [] else Arr d (fun j => .fin (v j))) =
      if Q = .pot then [] else Arr d (fun j => .fin (v j + f * u j)) := by
  by_cases h : Q = .pot
  · simp [h]
  · simp only [if_neg h]
    rw [zipWith_arr]
    apply arr_ext
    intro j _
    rw [ex_fma hA]
    congr 1; ring

theorem selfUpd1_eq (hi : InvAt M (i1 (D2 d e y z)) (i3 (D2 d e y z)) (D2 d e y z)) (v : Val K) :
    selfUpd1 M (.fin e) (mkPt d y m) (mkPt d z m') (mkRes Q d v) = mkRes Q d (v + grav i1 i3 d e y m z m') := by
  unfold selfUpd1 mkPt
  simp only
  rw [diffs_eq hA, softD2_eq hA hd]
  have hi' : InvAt M (i1 (D2 d e y z)) (i3 (D2 d e y z)) (∑ j ∈ Finset.range d, (z j - y j) ^ 2 + e) := hi
  unfold mkRes mutPot
  simp only
  rw [(hi' m').2, (hi' m).1, accs_eq hA hd]
  congr 1
  by_cases h : Q = .acc
  · simp [h]
  · simp only [if_neg h, List.map_cons, List.map_nil]
    rw [ex_mul hA, ex_sub hA]
    congr 2
    show _ = v.2 + -(m * m' * i1 (D2 d e y z))
    ring

theorem selfUpd2_eq (hi : InvAt M (i1 (D2 d e y z)) (i3 (D2 d e y z)) (D2 d e y z)) (v : Val K) :
    selfUpd2 M (.fin e) (mkPt d y m) (mkPt d z m') (mkRes Q d v) = mkRes Q d (v + grav i1 i3 d e z m' y m) := by
  unfold selfUpd2 mkPt
  simp only
  rw [diffs_eq hA, softD2_eq hA hd]
  have hi' : InvAt M (i1 (D2 d e y z)) (i3 (D2 d e y z)) (∑ j ∈ Finset.range d, (z j - y j) ^ 2 + e) := hi
  unfold mkRes mutPot
  simp only
  rw [(hi' m).2, (hi' m).1]
  have e1 : List.zipWith (fun (t a : Fl K) => M.A.fma t.neg (.fin (m * i3 (D2 d e y z))) a) (Arr d (fun j => .fin (z j - y j)))
      (if Q = .pot then [] else Arr d (fun j => .fin (v.1 j))) =
      List.zipWith (fun (t a : Fl K) => M.A.fma t (.fin (m * i3 (D2 d e y z))) a) (Arr d (fun j => .fin (y j - z j)))
      (if Q = .pot then [] else Arr d (fun j => .fin (v.1 j))) := by
    by_cases h : Q = .pot
    · simp [h]
    · simp only [if_neg h]
      rw [zipWith_arr, zipWith_arr]
      apply arr_ext
      intro j _
      show M.A.fma (.fin (-(z j - y j))) _ _ = _
      rw [neg_sub]
  rw [e1, accs_eq hA hd]
  congr 1
  · by_cases h : Q = .pot
    · simp [h]
    · simp only [if_neg h]
      apply arr_ext
      intro j _
      show _ = Fl.fin (v.1 j + m * i3 (D2 d e z y) * (y j - z j))
      rw [D2_comm d e z y]
  · by_cases h : Q = .acc
    · simp [h]
    · simp only [if_neg h, List.map_cons, List.map_nil]
      rw [ex_mul hA, ex_sub hA]
      congr 2
      show _ = v.2 + -(m' * m * i1 (D2 d e z y))
      rw [D2_comm d e z y]
      ring

theorem leafUpd_eq (hi : InvAt M (i1 (D2 d e y z)) (i3 (D2 d e y z)) (D2 d e y z)) (v : Val K) :
    leafUpd M Q (.fin e) (mkPt d y m) (mkPt d z m') (mkRes Q d v) = mkRes Q d (v + grav i1 i3 d e y m z m') := by
  unfold leafUpd mkPt
  simp only
  rw [diffs_eq hA, softD2_eq hA hd]
  have hi' : InvAt M (i1 (D2 d e y z)) (i3 (D2 d e y z)) (∑ j ∈ Finset.range d, (z j - y j) ^ 2 + e) := hi
  unfold mkRes mutPot
  simp only
  rw [(hi' m').2, (hi' m).1, (hi' m').1, accs_eq hA hd]
  congr 1
  by_cases h : Q = .acc
  · simp [h]
  · simp only [if_neg h, List.map_cons, List.map_nil]
    have e2 : v.2 + (grav i1 i3 d e y m z m').2 = v.2 - m * m' * i1 (D2 d e y z) := by
      show v.2 + -(m * m' * i1 (D2 d e y z)) = _
      ring
    show _ = [Fl.fin (v.2 + (grav i1 i3 d e y m z m').2)]
    rw [e2]
    split
    · rw [ex_mul hA, ex_sub hA]
      congr 2
      ring
    · show [M.A.fma (.fin (-m)) _ _] = _
      rw [ex_fma hA]
      congr 2
      ring

theorem comUpd_eq (hi : InvAt M (i1 (D2 d e y z)) (i3 (D2 d e y z)) (D2 d e y z)) (v : Val K) :
    comUpd M (.fin m') (macTmp M (.fin e) (Arr d (fun j => .fin (z j))) (mkPt d y m)) (mkPt d y m) (mkRes Q d v) =
      mkRes Q d (v + grav i1 i3 d e y m z m') := by
  unfold comUpd macTmp mkPt
  simp only
  rw [diffs_eq hA, plainD2_eq hA hd, ex_add hA]
  have hi' : InvAt M (i1 (D2 d e y z)) (i3 (D2 d e y z)) (∑ j ∈ Finset.range d, (z j - y j) ^ 2 + e) := hi
  unfold mkRes
  simp only
  rw [(hi' m').2, (hi' m').1, accs_eq hA hd]
  congr 1
  by_cases h : Q = .acc
  · simp [h]
  · simp only [if_neg h, List.map_cons, List.map_nil]
    show [M.A.fma (.fin (-m)) _ _] = [Fl.fin (v.2 + -(m * m' * i1 (D2 d e y z)))]
    rw [ex_fma hA]
    congr 2
    ring

end

/-- The square root version: `i1 = 1 / s q`, `i3 = 1 / (s q * q)`. -/
theorem invAt_sqrt {M : Mode K} (hA : M.A.Exact) (hf : M.fast = none) {q s : K} (hq : 0 < q) (hs : M.A.sqrt q = .fin s) (hs0 : s ≠ 0) :
    InvAt M (1 / s) (1 / (s * q)) q := by
  intro m
  unfold mkDist Dist.over Dist.over3
  rw [hf]
  have e : M.A.fsqrt (.fin q) = .fin s := by
    unfold Arith.fsqrt
    simp only
    rw [if_neg (not_lt.2 hq.le), hs]
  simp only [Bool.false_eq_true, if_false]
  rw [e, ex_mul hA, ex_div hA hs0, ex_div hA (mul_ne_zero hs0 hq.ne')]
  constructor <;> congr 1 <;> ring

/-- The value after the Newton iteration on the estimate `y` of `1 / sqrt(q)`. -/
def newton (q y : K) : K := y * (1 / 2) * (3 - q * y * y)

theorem invSqrt_eq {A : Arith K} (hA : A.Exact) (h2 : (2 : K) ≠ 0) (e : Fl K → Fl K) {q y : K} (he : e (.fin q) = .fin y) :
    invSqrt A e (.fin q) = .fin (newton q y) := by
  unfold invSqrt newton
  rw [he]
  simp only
  rw [ex_mul hA, ex_div hA h2, ex_mul hA]
  show A.mul _ (A.fma (.fin (-(q * y))) _ _) = _
  rw [ex_fma hA, ex_mul hA]
  congr 1; ring

/-- The fast version: `i1` is the result of the Newton iteration, `i3` its cube. -/
theorem invAt_fast {M : Mode K} (hA : M.A.Exact) (h2 : (2 : K) ≠ 0) {e : Fl K → Fl K} (hf : M.fast = some e) {q y : K}
    (he : e (.fin q) = .fin y) : InvAt M (newton q y) (newton q y ^ 3) q := by
  intro m
  unfold mkDist Dist.over Dist.over3
  rw [hf]
  simp only [if_true]
  rw [invSqrt_eq hA h2 e he, ex_mul hA, ex_mul hA, ex_mul hA, ex_mul hA]
  constructor
  · rfl
  · congr 1; ring

/-- A sequence of additions. -/
theorem foldl_vals {ι : Type} (φ : Val K → Res K) (f : Res K → ι → Res K) (u : ι → Val K) (l : List ι)
    (h : ∀ i ∈ l, ∀ v, f (φ v) i = φ (v + u i)) (v : Val K) : l.foldl f (φ v) = φ (v + (l.map u).sum) := by
  induction l generalizing v with
  | nil => simp
  | cons i l ih =>
    rw [List.foldl_cons, h i List.mem_cons_self, ih (fun j hj => h j (List.mem_cons_of_mem _ hj)), List.map_cons, List.sum_cons, add_assoc]

end Rakau
