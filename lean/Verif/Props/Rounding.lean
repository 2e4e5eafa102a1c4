import Verif.Proof.ErrSum
import Verif.Proof.Fast
import Verif.Props.User
import Verif.Props.Padding
import Mathlib.Data.Rat.BigOperators

/-!
# C61: rounding errors of the force computation

Bounds for the difference of the values computed in floating-point arithmetic and Newton's values for the same (floating-point) input, over the real numbers.
-/
namespace Rakau
namespace Spec

/-- The sum of the sizes of the terms of `energy`. -/
noncomputable def energySum (d : Nat) (e : ℝ) (X : Nat → Nat → ℝ) (n i : Nat) : ℝ :=
  ∑ l ∈ (Finset.range n).filter (· ≠ i), |X d i * X d l / √(∑ j ∈ Finset.range d, (X j l - X j i) ^ 2 + e)|

/-- The sum of the sizes of the terms of `accel`. -/
noncomputable def accelSum (d : Nat) (e : ℝ) (X : Nat → Nat → ℝ) (n i j : Nat) : ℝ :=
  ∑ l ∈ (Finset.range n).filter (· ≠ i), |X d l * (X j l - X j i) / √(∑ j ∈ Finset.range d, (X j l - X j i) ^ 2 + e) ^ 3|

/-- Component `j` of the acceleration of a particle at `y` due to a body at `z` of mass `m'`. -/
noncomputable def accelBy (d : Nat) (e : ℝ) (y z : Nat → ℝ) (m' : ℝ) (j : Nat) : ℝ := m' * (z j - y j) / √(∑ j ∈ Finset.range d, (z j - y j) ^ 2 + e) ^ 3

/-- The potential energy of a particle at `y` of mass `m` due to a body at `z` of mass `m'`. -/
noncomputable def energyBy (d : Nat) (e : ℝ) (y : Nat → ℝ) (m : ℝ) (z : Nat → ℝ) (m' : ℝ) : ℝ := -(m * m' / √(∑ j ∈ Finset.range d, (z j - y j) ^ 2 + e))

end Spec
open Spec

theorem newt_by {d : Nat} {e : ℝ} {y z : Nat → ℚ} {m m' : ℚ} :
    (∀ j, (newt d e y m z m').1 j = accelBy d e (fun j => (y j : ℝ)) (fun j => (z j : ℝ)) m' j) ∧
      (newt d e y m z m').2 = energyBy d e (fun j => (y j : ℝ)) m (fun j => (z j : ℝ)) m' := by
  unfold newt grav accelBy energyBy D2
  refine ⟨fun j => ?_, ?_⟩
  · show (m' : ℝ) * (√_)⁻¹ ^ 3 * _ = _
    rw [div_eq_mul_inv, inv_pow]; ring
  · show -((m : ℝ) * m' * (√_)⁻¹) = _
    rw [div_eq_mul_inv]

/-- The real values of rational data. -/
abbrev realOf (X : Nat → Nat → ℚ) : Nat → Nat → ℝ := fun j i => (X j i : ℝ)

theorem newt_acc {d : Nat} {e : ℝ} {X : Nat → Nat → ℚ} {g : ℚ} {i l j : Nat} :
    (newt d e (fun j => X j i) (X d i) (fun j => X j l) (g * X d l)).1 j =
      g * ((X d l : ℝ) * ((X j l : ℝ) - X j i) / √(∑ j ∈ Finset.range d, ((X j l : ℝ) - X j i) ^ 2 + e) ^ 3) := by
  show ((g * X d l : ℚ) : ℝ) * (√(D2 d e (fun j => (X j i : ℝ)) (fun j => (X j l : ℝ))))⁻¹ ^ 3 * ((X j l : ℝ) - X j i) = _
  unfold D2
  push_cast
  rw [inv_pow, div_eq_mul_inv]
  ring

theorem newt_pot {d : Nat} {e : ℝ} {X : Nat → Nat → ℚ} {g : ℚ} {i l : Nat} :
    (newt d e (fun j => X j i) (X d i) (fun j => X j l) (g * X d l)).2 =
      g * -((X d i : ℝ) * X d l / √(∑ j ∈ Finset.range d, ((X j l : ℝ) - X j i) ^ 2 + e)) := by
  show -((X d i : ℝ) * ((g * X d l : ℚ) : ℝ) * (√(D2 d e (fun j => (X j i : ℝ)) (fun j => (X j l : ℝ))))⁻¹) = _
  unfold D2
  push_cast
  rw [div_eq_mul_inv]
  ring

/-! ### The bounds in double and single precision -/

set_option exponentiation.threshold 2000 in
/-- Double precision: distances and masses between `2^-200` and `2^200`, up to `2^40` terms. -/
theorem span64 {d κ k C : Nat} (h1 : 1 ≤ d) (h3 : d ≤ 3) (hk : 3 * κ + 3 * d + 20 ≤ k) (hk2 : k ≤ 2 ^ 40) (hC : C ≤ 2 ^ 40) :
    Span binary64.unit binary64.tiny binary64.minNormal ((2 ^ (binary64.emax - 1) : ℚ) : ℝ) (2 ^ 200) d κ k C := by
  have hd3 : (d : ℝ) ≤ 3 := by exact_mod_cast h3
  have hC' : (C : ℝ) ≤ 2 ^ 40 := by exact_mod_cast hC
  have hk' : (k : ℝ) ≤ 2 ^ 40 := by exact_mod_cast hk2
  refine ⟨by norm_num, h1, ?_, ?_, ?_, hk⟩
  · have : ((binary64.minNormal : ℚ) : ℝ) = 2⁻¹ ^ 1022 := by
      unfold Format.minNormal binary64
      push_cast
      norm_num
    rw [this]
    calc 8 * ((d : ℝ) + 2) * 2⁻¹ ^ 1022 * (2 ^ 200) ^ 4 ≤ 8 * (3 + 2) * 2⁻¹ ^ 1022 * (2 ^ 200) ^ 4 := by gcongr
      _ ≤ 1 := by norm_num
  · have : (((2 ^ (binary64.emax - 1) : ℚ)) : ℝ) = 2 ^ 1023 := by
      unfold binary64
      push_cast
      norm_num
    rw [this]
    calc 8 * ((C : ℝ) + 1) * (2 ^ 200) ^ 4 ≤ 8 * (2 ^ 40 + 1) * (2 ^ 200) ^ 4 := by gcongr
      _ ≤ 2 ^ 1023 := by norm_num
  · have : ((binary64.unit : ℚ) : ℝ) = 2⁻¹ ^ 53 := by
      unfold Format.unit binary64
      push_cast
      norm_num
    rw [this]
    push_cast
    calc 2 * (((C : ℝ) + k) * 2⁻¹ ^ 53) ≤ 2 * ((2 ^ 40 + 2 ^ 40) * 2⁻¹ ^ 53) := by gcongr
      _ ≤ 1 := by norm_num

/-- Single precision: distances and masses between `2^-25` and `2^25`, up to `2^22` terms. -/
theorem span32 {d κ k C : Nat} (h1 : 1 ≤ d) (h3 : d ≤ 3) (hk : 3 * κ + 3 * d + 20 ≤ k) (hk2 : k ≤ 2 ^ 20) (hC : C ≤ 2 ^ 22) :
    Span binary32.unit binary32.tiny binary32.minNormal ((2 ^ (binary32.emax - 1) : ℚ) : ℝ) (2 ^ 25) d κ k C := by
  have hd3 : (d : ℝ) ≤ 3 := by exact_mod_cast h3
  have hC' : (C : ℝ) ≤ 2 ^ 22 := by exact_mod_cast hC
  have hk' : (k : ℝ) ≤ 2 ^ 20 := by exact_mod_cast hk2
  refine ⟨by norm_num, h1, ?_, ?_, ?_, hk⟩
  · have : ((binary32.minNormal : ℚ) : ℝ) = 2⁻¹ ^ 126 := by
      unfold Format.minNormal binary32
      push_cast
      norm_num
    rw [this]
    calc 8 * ((d : ℝ) + 2) * 2⁻¹ ^ 126 * (2 ^ 25) ^ 4 ≤ 8 * (3 + 2) * 2⁻¹ ^ 126 * (2 ^ 25) ^ 4 := by gcongr
      _ ≤ 1 := by norm_num
  · have : (((2 ^ (binary32.emax - 1) : ℚ)) : ℝ) = 2 ^ 127 := by
      unfold binary32
      push_cast
      norm_num
    rw [this]
    calc 8 * ((C : ℝ) + 1) * (2 ^ 25) ^ 4 ≤ 8 * (2 ^ 22 + 1) * (2 ^ 25) ^ 4 := by gcongr
      _ ≤ 2 ^ 127 := by norm_num
  · have : ((binary32.unit : ℚ) : ℝ) = 2⁻¹ ^ 24 := by
      unfold Format.unit binary32
      push_cast
      norm_num
    rw [this]
    push_cast
    calc 2 * (((C : ℝ) + k) * 2⁻¹ ^ 24) ≤ 2 * ((2 ^ 22 + 2 ^ 20) * 2⁻¹ ^ 24) := by gcongr
      _ ≤ 1 := by norm_num

/-- The particles of `mixS` in the user's order. -/
def mixX (j i : Nat) : ℚ := (([[-4, 4, 2], [-4, 4, 2], [-4, 4, 2], [1, 65, -61]] : List (List ℚ)).getD j []).getD i 0

theorem rng_cast {b : ℝ} (hb : 1 ≤ b) {q : ℚ} (h : q = 0 ∨ 1 ≤ |q|) (h2 : ((|q| : ℚ) : ℝ) ≤ b) : Rng b 1 (q : ℝ) := by
  refine ⟨?_, by rw [pow_one]; push_cast at h2; exact h2⟩
  rcases h with rfl | h
  · left; simp
  · right
    have : (1 : ℝ) ≤ |(q : ℝ)| := by have := (Rat.cast_le (K := ℝ)).2 h; push_cast at this; exact this
    rw [pow_one]
    nlinarith

theorem mix_dist {b : ℝ} (hb : 100 ≤ b) {y z : Nat → ℚ} {e : ℚ} (h : 1 ≤ ∑ j ∈ Finset.range 3, (z j - y j) ^ 2 + e ^ 2 ∧ ∑ j ∈ Finset.range 3, (z j - y j) ^ 2 + e ^ 2 ≤ 10000) :
    1 ≤ b ^ 2 * (∑ j ∈ Finset.range 3, ((z j : ℝ) - y j) ^ 2 + (e : ℝ) ^ 2) ∧ ∑ j ∈ Finset.range 3, ((z j : ℝ) - y j) ^ 2 + (e : ℝ) ^ 2 ≤ b ^ 2 := by
  have h1 := (Rat.cast_le (K := ℝ)).2 h.1
  have h2 := (Rat.cast_le (K := ℝ)).2 h.2
  push_cast at h1 h2
  have hb2 : 10000 ≤ b ^ 2 := by nlinarith
  constructor
  · calc (1 : ℝ) ≤ 1 * (∑ j ∈ Finset.range 3, ((z j : ℝ) - y j) ^ 2 + (e : ℝ) ^ 2) := by rwa [one_mul]
      _ ≤ b ^ 2 * (∑ j ∈ Finset.range 3, ((z j : ℝ) - y j) ^ 2 + (e : ℝ) ^ 2) := by gcongr; linarith
  · exact h2.trans hb2

section
variable {f : Format} {fused : Bool} {simd : Option (Simd ℚ)} {mac : Mac} {w d : Nat} {s : TS (rakauEnv (f.ieee fused) simd mac w d)}

/-- C61: the exact functions in IEEE arithmetic. Take a bound `b ≥ 1` such that `b⁴` and `b⁻⁴` are well inside the range of the format. If the softened distances
are between `1 / b` and `b`, and the masses `m`, and `G m`, are zero or between `1 / b` and `b` in size, then the computed acceleration and potential are finite and
differ from Newton's values by at most `2 (n + 3 d + 20) u` times the sum of the sizes of the terms, plus `4 n` times the smallest rounding unit. -/
theorem C61_exact (hf : f.Std) (hS : SimdPos simd) (hs : Supported w d) (h : Reach _ s) (hz : s.n * cbits w d < 2 ^ 64)
    {X : Nat → Nat → ℚ} (hX : ∀ j ≤ d, ∀ i < s.n, ordered s j i = some (.fin (X j i))) (hrep : ∀ j < d, ∀ i < s.n, (f.ieee fused).Repr (X j i))
    {b : ℝ} (R : Span f.unit f.tiny f.minNormal ((2 ^ (f.emax - 1) : ℚ) : ℝ) b d 0 (3 * d + 20) s.n)
    {eps g : ℚ} (heps : 0 ≤ eps) (hepb : (eps : ℝ) ≤ b)
    (hD : ∀ i l, i < s.n → l < s.n → i ≠ l → 1 ≤ b ^ 2 * (∑ j ∈ Finset.range d, ((X j l : ℝ) - X j i) ^ 2 + (eps : ℝ) ^ 2) ∧
      ∑ j ∈ Finset.range d, ((X j l : ℝ) - X j i) ^ 2 + (eps : ℝ) ^ 2 ≤ b ^ 2)
    (hm : ∀ i < s.n, Rng b 1 (X d i : ℝ) ∧ Rng b 1 ((g : ℝ) * X d i)) (Q : Quant) {i : Nat} (hi : i < s.n) :
    ∃ v : Val ℚ, s.exact Q true (.fin g) (.fin eps) i = .ok (mkRes Q d v) ∧
      (∀ j < d, |(v.1 j : ℝ) - g * accel d ((eps : ℝ) ^ 2) (realOf X) s.n i j| ≤
        2 * ((s.n + (3 * d + 20) : ℕ) * f.unit) * (|(g : ℝ)| * accelSum d ((eps : ℝ) ^ 2) (realOf X) s.n i j) + 4 * s.n * f.tiny) ∧
      |(v.2 : ℝ) - g * energy d ((eps : ℝ) ^ 2) (realOf X) s.n i| ≤
        2 * ((s.n + (3 * d + 20) : ℕ) * f.unit) * (|(g : ℝ)| * energySum d ((eps : ℝ) ^ 2) (realOf X) s.n i) + 4 * s.n * f.tiny := by
  have F := Format.ieee_model hf fused
  have I := reach_inv h
  have heps' : (0 : ℝ) ≤ eps := by exact_mod_cast heps
  obtain ⟨e2, ee, ep, he⟩ := soft_ok F R (eps := eps) (by gcongr)
  obtain ⟨k, hk, hki⟩ := perm_inv h hi
  obtain ⟨i', hi', _, hord⟩ := (C40_ordered h Q (.fin g) (.fin eps)).2 k hk
  obtain rfl : i = i' := Option.some.inj (hki.symm.trans hi')
  obtain ⟨pt, p1, p2⟩ := C40_each_once hS hs h hz Q (g := g) (eps := .fin eps) ⟨⟨eps, rfl, heps⟩, e2, ee, ep⟩ hk
  have hdata := data_of_view h hX
  have hpt : ∀ l < s.n, pt l = mkPt d (fun j => X j (s.perm.getD l 0)) (X d (s.perm.getD l 0)) := by
    intro l hl
    exact Option.some.inj ((p1 l hl).symm.trans (ptAt_data hdata hl))
  have hkd : s.perm.getD k 0 = i := by simp [List.getD, hki]
  have hlen : ((List.range s.n).filter (· ≠ k)).length ≤ s.n := by
    have := List.length_filter_le (fun l => decide (l ≠ k)) (List.range s.n)
    simpa using this
  obtain ⟨v, ev, hv⟩ := fold_err (Q := Q) (C := s.n) (fun r l => exactUpd (f.ieee fused) (.fin g) (.fin e2) (pt k) (pt l) r)
    (fun l => newt d ((eps : ℝ) ^ 2) (fun j => X j i) (X d i) (fun j => X j (s.perm.getD l 0)) (g * X d (s.perm.getD l 0)))
    ((List.range s.n).filter (· ≠ k)) (by omega) (SmV.zero (u := f.unit) (η := f.tiny) (b := b) (k := 3 * d + 20) (d := d)) (by
      intro l hl c S T v hc hv
      rw [List.mem_filter, List.mem_range, decide_eq_true_eq] at hl
      obtain ⟨l', _, l2, l3⟩ := perm_at h hl.1
      have hne : i ≠ l' := by rw [← hkd, ← l3]; exact perm_ne h hk hl.1 (Ne.symm hl.2)
      rw [hpt k hk, hpt l hl.1, hkd, l3]
      refine exactUpd_err F R he ⟨fun j hj => hrep j hj i hi, fun j hj => hrep j hj l' l2, (hD i l' hi l2 hne).1, (hD i l' hi l2 hne).2, (hm i hi).1, ?_⟩ Q hc hv
      push_cast
      exact (hm l' l2).2)
  rw [sum_others I.perm hk hki (fun l => newt d ((eps : ℝ) ^ 2) (fun j => X j i) (X d i) (fun j => X j l) (g * X d l)),
    sum_others I.perm hk hki (fun l => absV (newt d ((eps : ℝ) ^ 2) (fun j => X j i) (X d i) (fun j => X j l) (g * X d l))), zero_add, zero_add, zero_add] at hv
  have key : ∀ {S T S' T' : ℝ} {a : ℝ}, Sm f.unit f.tiny (b ^ 4) (3 * d + 20) ((List.range s.n).filter (· ≠ k)).length S T a → S = S' → T = T' →
      |a - S'| ≤ 2 * ((s.n + (3 * d + 20) : ℕ) * f.unit) * T' + 4 * s.n * f.tiny := by
    intro S T S' T' a hh e1 e2
    subst e1 e2
    have hT : 0 ≤ T := (abs_nonneg S).trans hh.sum.abs
    refine (hh.error F R hlen).trans ?_
    have u0 := F.u0
    have η0 := F.η0
    gcongr
  obtain ⟨v1, v2⟩ := val_sum ((List.range s.n).filter (· ≠ i)) (fun l => newt d ((eps : ℝ) ^ 2) (fun j => X j i) (X d i) (fun j => X j l) (g * X d l))
  obtain ⟨w1, w2⟩ := val_sum ((List.range s.n).filter (· ≠ i)) (fun l => absV (newt d ((eps : ℝ) ^ 2) (fun j => X j i) (X d i) (fun j => X j l) (g * X d l)))
  refine ⟨v, ?_, ?_, ?_⟩
  · rw [hord, p2, ee, resZero_eq]
    congr 1
  · intro j hj
    refine key (hv.acc j hj) ?_ ?_
    · rw [v1, listSum_finset]
      unfold accel
      rw [Finset.mul_sum]
      exact Finset.sum_congr rfl (fun l _ => newt_acc)
    · rw [w1, listSum_finset]
      unfold accelSum
      rw [Finset.mul_sum]
      refine Finset.sum_congr rfl (fun l _ => ?_)
      rw [← abs_mul]
      exact congrArg (fun z : ℝ => |z|) newt_acc
  · refine key hv.pot ?_ ?_
    · rw [v2, listSum_finset]
      unfold energy
      rw [← Finset.sum_neg_distrib, Finset.mul_sum]
      exact Finset.sum_congr rfl (fun l _ => newt_pot)
    · rw [w2, listSum_finset]
      unfold energySum
      rw [Finset.mul_sum]
      refine Finset.sum_congr rfl (fun l _ => ?_)
      rw [← abs_mul, ← abs_neg, ← mul_neg]
      exact congrArg (fun z : ℝ => |z|) newt_pot

/-- Three particles, masses of both signs, `G = 3`, softening length 1/2, in double precision: the error of the exact acceleration of particle 2. -/
example : ∃ v : Val ℚ, (mixS none).exact .both true (.fin 3) (.fin (1 / 2)) 2 = .ok (mkRes .both 3 v) ∧
    (∀ j < 3, |(v.1 j : ℝ) - (3 : ℚ) * accel 3 (((1 / 2 : ℚ) : ℝ) ^ 2) (realOf mixX) 3 2 j| ≤
      2 * ((3 + (3 * 3 + 20) : ℕ) * binary64.unit) * (|((3 : ℚ) : ℝ)| * accelSum 3 (((1 / 2 : ℚ) : ℝ) ^ 2) (realOf mixX) 3 2 j) + 4 * (3 : ℕ) * binary64.tiny) := by
  have hn : (mixS none).n = 3 := by decide +kernel
  have hX : ∀ j < 4, ∀ i < 3, ordered (mixS none) j i = some (.fin (mixX j i)) := by decide +kernel
  have hrep : ∀ j < 3, ∀ i < 3, (binary64.ieee true).rnd (mixX j i) = .fin (mixX j i) := by decide +kernel
  have hD : ∀ i < 3, ∀ l < 3, i ≠ l → 1 ≤ ∑ j ∈ Finset.range 3, (mixX j l - mixX j i) ^ 2 + (1 / 2 : ℚ) ^ 2 ∧
      ∑ j ∈ Finset.range 3, (mixX j l - mixX j i) ^ 2 + (1 / 2 : ℚ) ^ 2 ≤ 10000 := by decide +kernel
  have hm : ∀ i < 3, (1 ≤ |mixX 3 i| ∧ |mixX 3 i| ≤ 65) ∧ 1 ≤ |3 * mixX 3 i| ∧ |3 * mixX 3 i| ≤ 195 := by decide +kernel
  obtain ⟨v, h1, h2, _⟩ := C61_exact (s := mixS none) (X := mixX) (eps := 1 / 2) (g := 3) (b := 2 ^ 200) binary64_std (by intro S hS; cases hS) ⟨.inl rfl, by decide⟩
    mix_reach.2 (by decide +kernel) (fun j hj i hi => hX j (by omega) i (by omega)) (fun j hj i hi => hrep j hj i (by omega))
    (span64 (by norm_num) le_rfl le_rfl (by norm_num) (by rw [hn]; norm_num)) (by norm_num) (by norm_num)
    (fun i l hi hl hne => mix_dist (by norm_num) (hD i (by omega) l (by omega) hne))
    (fun i hi => by
      obtain ⟨⟨a1, a2⟩, a3, a4⟩ := hm i (by omega)
      refine ⟨rng_cast (by norm_num) (.inr a1) (((Rat.cast_le (K := ℝ)).2 a2).trans (by norm_num)), ?_⟩
      have := rng_cast (b := 2 ^ 200) (by norm_num) (.inr a3) (((Rat.cast_le (K := ℝ)).2 a4).trans (by norm_num))
      push_cast at this ⊢
      exact this) .both (i := 2) (by omega)
  rw [hn] at h2
  exact ⟨v, h1, h2⟩

/-- The arithmetic of the kernels: the vector operations have their own choice of fused operations. -/
theorem mode_ieee (rsqrt : Option (Fl ℚ → Fl ℚ)) : ∃ fu, ((⟨f.ieee fused, simd, rsqrt⟩ : Hw ℚ).mode d).A = f.ieee fu := by
  unfold Hw.mode
  cases (⟨f.ieee fused, simd, rsqrt⟩ : Hw ℚ).vec d with
  | none => exact ⟨fused, rfl⟩
  | some S => exact ⟨S.fused, rfl⟩

/-- The hardware estimate of the inverse square root has relative error at most `ε ≤ 1/64` in the range of the squared distances, and `κ` relative errors of size `u` make up for its square
and for the roundings of the Newton step: `2 ε² ≤ (κ - 7) u`. -/
def EstimateOk (u b : ℝ) (κ : Nat) (e : Fl ℚ → Fl ℚ) : Prop :=
  ∃ (ε : ℝ) (m : Nat), m + 4 ≤ κ ∧ ε ≤ 1 / 64 ∧ 2 * ε ^ 2 + 3 * u ≤ m * u ∧ m * (m + 1) * u ≤ 1 ∧
    ∀ q : ℚ, 1 ≤ 2 * b ^ 2 * (q : ℝ) → (q : ℝ) ≤ 2 * b ^ 2 → ∃ y : ℚ, e (.fin q) = .fin y ∧ |(y : ℝ) * √(q : ℝ) - 1| ≤ ε

/-- C61: the functions using the tree, in IEEE arithmetic. Take a bound `b ≥ 1` such that `b⁴` and `b⁻⁴` are well inside the range of the format. Assume that the
softened distances between particles, from a particle to the centre of mass of the nodes accepted for it, and to the padding coordinate (if there are vectors), are
between `1 / b` and `b`, that the masses of particles and accepted nodes are zero or between `1 / b` and `b` in size, and that the estimates of inverse square
roots are good (`EstimateOk`, only if estimates are used). Then each result differs from the sum of Newton's contributions of the visited bodies, which are the accepted nodes, with their
centre of mass and mass as stored, and single particles, by at most `2 (n + pad + 1 + k) u` times the sum of the sizes of the contributions, plus a
multiple of the smallest rounding unit. -/
theorem C61_tree (hf : f.Std) (hS : SimdPos simd) (hs : Supported w d) (h : Reach _ s) (hz : s.n * cbits w d < 2 ^ 64)
    {rsqrt : Option (Fl ℚ → Fl ℚ)} {over : Overshift} (ho : over.Small) (hr : s.n + (⟨f.ieee fused, simd, rsqrt⟩ : Hw ℚ).pad < 2 ^ 64)
    {x : Nat → Nat → ℚ} (hx : IsData d s.n s.parts x) (hrep : ∀ j < d, ∀ k < s.n, (f.ieee fused).Repr (x j k))
    {b : ℝ} {κ K : Nat} (R : Span f.unit f.tiny f.minNormal ((2 ^ (f.emax - 1) : ℚ) : ℝ) b d κ K (s.n + (⟨f.ieee fused, simd, rsqrt⟩ : Hw ℚ).pad + 2))
    {theta mv : Fl ℚ} {g eps e2 : ℚ} (hp : checkParams (f.ieee fused) mac theta (.fin g) (.fin eps) = .ok (mv, .fin e2)) (hepb : |(eps : ℝ)| ≤ b)
    (hg : 3 * (s.n + (⟨f.ieee fused, simd, rsqrt⟩ : Hw ℚ).pad + 2 : ℕ) * b ^ 4 * |(g : ℝ)| ≤ ((2 ^ (f.emax - 1) : ℚ) : ℝ))
    (hD : ∀ k l, k < s.n → l < s.n → k ≠ l → 1 ≤ b ^ 2 * (∑ j ∈ Finset.range d, ((x j l : ℝ) - x j k) ^ 2 + (eps : ℝ) ^ 2) ∧
      ∑ j ∈ Finset.range d, ((x j l : ℝ) - x j k) ^ 2 + (eps : ℝ) ^ 2 ≤ b ^ 2)
    (hm : ∀ k < s.n, Rng b 1 (x d k : ℝ))
    (hest : ∀ r, ((⟨f.ieee fused, simd, rsqrt⟩ : Hw ℚ).mode d).fast = some r → EstimateOk f.unit b κ r)
    (Q : Quant)
    (hnode : ∀ cn ∈ s.crit, ∀ k, cn.beg ≤ k → k < cn.fin → ∀ i < s.tree.length,
      (s.force rsqrt over Q mv (.fin g) (.fin e2)).accepts (cn.fin - cn.beg) ((s.force rsqrt over Q mv (.fin g) (.fin e2)).slot cn) i = true →
      NodeIn s rsqrt x b ((eps : ℝ) ^ 2) i k)
    {P : ℚ} (hP : (s.force rsqrt over Q mv (.fin g) (.fin e2)).padCoord = .fin P)
    (hpad : 1 < (⟨f.ieee fused, simd, rsqrt⟩ : Hw ℚ).batch d → (f.ieee fused).Repr P ∧ ∀ k < s.n,
      1 ≤ b ^ 2 * (∑ j ∈ Finset.range d, ((P : ℝ) - x j k) ^ 2 + (eps : ℝ) ^ 2) ∧ ∑ j ∈ Finset.range d, ((P : ℝ) - x j k) ^ 2 + (eps : ℝ) ^ 2 ≤ b ^ 2)
    {split : List (Fl ℚ)} (hsp : checkSplit split = .ok ()) (ordered : Bool) {order : List Nat} (hord : order.Perm (List.range s.crit.length))
    {out : List (Res ℚ)} (hout : out.length = s.n) :
    ∃ out', s.accPot rsqrt over Q ordered theta (.fin g) (.fin eps) split order out = .ok out' ∧
      ∀ cn ∈ s.crit, ∃ vs, travGo over w d s.tree cn.code
          ((s.force rsqrt over Q mv (.fin g) (.fin e2)).accepts (cn.fin - cn.beg) ((s.force rsqrt over Q mv (.fin g) (.fin e2)).slot cn)) s.tree.length 0 = some (.ok vs) ∧
        sources s.tree vs = List.range cn.beg ++ List.range' cn.fin (s.n - cn.fin) ∧
        ∀ k, cn.beg ≤ k → k < cn.fin → ∃ i v, (if ordered then s.perm[k]? else some k) = some i ∧ out'[i]? = some (mkRes Q d v) ∧
          (∀ j < d, Within f.unit f.tiny (s.n + (⟨f.ieee fused, simd, rsqrt⟩ : Hw ℚ).pad + 1 + K) g
            (((vs.flatMap (s.visBodies x) ++ selfBodies d x cn k).map (fun B => accelBy d ((eps : ℝ) ^ 2) (fun j => (x j k : ℝ)) (fun j => (B.1 j : ℝ)) B.2 j)).sum)
            (((vs.flatMap (s.visBodies x) ++ selfBodies d x cn k).map (fun B => |accelBy d ((eps : ℝ) ^ 2) (fun j => (x j k : ℝ)) (fun j => (B.1 j : ℝ)) B.2 j|)).sum)
            (v.1 j)) ∧
          Within f.unit f.tiny (s.n + (⟨f.ieee fused, simd, rsqrt⟩ : Hw ℚ).pad + 1 + K) g
            (((vs.flatMap (s.visBodies x) ++ selfBodies d x cn k).map (fun B => energyBy d ((eps : ℝ) ^ 2) (fun j => (x j k : ℝ)) (x d k) (fun j => (B.1 j : ℝ)) B.2)).sum)
            (((vs.flatMap (s.visBodies x) ++ selfBodies d x cn k).map (fun B => |energyBy d ((eps : ℝ) ^ 2) (fun j => (x j k : ℝ)) (x d k) (fun j => (B.1 j : ℝ)) B.2|)).sum)
            v.2 := by
  have F := Format.ieee_model hf fused
  obtain ⟨fu, hfu⟩ := mode_ieee (f := f) (fused := fused) (simd := simd) (d := d) rsqrt
  have hfast : ∀ r, ((⟨f.ieee fused, simd, rsqrt⟩ : Hw ℚ).mode d).fast = some r → FastOk ((⟨f.ieee fused, simd, rsqrt⟩ : Hw ℚ).mode d).A f.unit b κ r := by
    intro r hr
    obtain ⟨ε, m, m1, m2, m3, m4, m5⟩ := hest r hr
    rw [hfu]
    have hhi : 16 * b ^ 4 ≤ ((2 ^ (f.emax - 1) : ℚ) : ℝ) := by
      refine le_trans ?_ R.high
      have hb : 0 ≤ b ^ 4 := by have := R.b1; positivity
      have : (0 : ℝ) ≤ ((s.n + (⟨f.ieee fused, simd, rsqrt⟩ : Hw ℚ).pad : ℕ) : ℝ) * b ^ 4 := by positivity
      push_cast at this ⊢
      nlinarith
    have hF := fast_of_estimate (Format.ieee_model hf fu) R.b1 (Span.lo_le (Format.ieee_model hf fu) R) hhi m2 m3 m4 m5
    intro q q1 q2
    obtain ⟨v, v1, v2⟩ := hF q q1 q2
    exact ⟨v, v1, v2.mono F.u0 F.lt1 m1⟩
  have hrep' : ∀ {a : ℚ}, (f.ieee fused).Repr a → ((⟨f.ieee fused, simd, rsqrt⟩ : Hw ℚ).mode d).A.Repr a := by
    intro a ha
    rw [hfu]; exact ha
  have hsq : (eps : ℝ) ^ 2 ≤ b ^ 2 := by rw [← sq_abs]; gcongr
  obtain ⟨e2', ee, ep, he⟩ := soft_ok F R hsq
  have e22 : (f.ieee fused).mul (.fin eps) (.fin eps) = .fin e2 := by
    unfold checkParams computeEps2 at hp
    simp only [bind, Except.bind] at hp
    split at hp <;> try contradiction
    split at hp <;> try contradiction
    split at hp <;> try contradiction
    rename_i hq
    split at hq <;> try contradiction
    split at hq <;> try contradiction
    split at hp <;> try contradiction
    simp only [Except.ok.injEq, Prod.mk.injEq] at hp hq
    rw [hq]; exact hp.2
  obtain rfl : e2' = e2 := by rw [ee] at e22; exact Fl.fin.inj e22
  have H : ErrSit s rsqrt x f.unit f.tiny f.minNormal ((2 ^ (f.emax - 1) : ℚ) : ℝ) b ((eps : ℝ) ^ 2) e2' κ K (s.n + (⟨f.ieee fused, simd, rsqrt⟩ : Hw ℚ).pad + 2) :=
    { supp := hs, pos := hS, reach := h, size := hz, data := hx, model := by rw [hfu]; exact Format.ieee_model hf fu, span := R, room := le_rfl, fast := hfast, soft := he
      pair := fun k l hk hl hne => ⟨fun j hj => hrep' (hrep j hj k hk), fun j hj => hrep' (hrep j hj l hl), (hD k l hk hl hne).1, (hD k l hk hl hne).2, hm k hk, hm l hl⟩ }
  obtain ⟨val, hval, hall⟩ := C27_outputs hS hs h hz ho hr Q hp hsp (by rw [hP]; rfl)
  obtain ⟨out', o1, o2, o3⟩ := hall ordered order out hord hout
  refine ⟨out', o1, ?_⟩
  intro cn hcn
  obtain ⟨t, vs, ht, _, t2, t3, hv, hsrc, htr, hnd, _⟩ := node_val hS hs h hz ho hr Q mv (.fin g) (.fin e2') hcn
  refine ⟨vs, htr, hsrc, ?_⟩
  intro k hk1 hk2
  have hrg := reach_range hs h hz (List.getElem_mem ht)
  have hkn : k < s.n := by omega
  obtain ⟨i, hi, hoi⟩ := o3 k hkn
  have hkv : val k = (s.force rsqrt over Q mv (.fin g) (.fin e2')).scaled ((s.force rsqrt over Q mv (.fin g) (.fin e2')).total cn vs (k - cn.beg)) := by
    have h1 := (hval cn hcn).symm.trans hnd
    rw [Except.ok.injEq] at h1
    have h2 := congrArg (fun l => l[k - cn.beg]?) h1
    rw [arr_get (by omega), arr_get (by omega), Option.some.injEq, show cn.beg + (k - cn.beg) = k by omega] at h2
    exact h2
  obtain ⟨c, r, c1, c2, er, hrr⟩ := H.total (over := over) Q mv (.fin g) ht t2 t3 hv hsrc hk1 hk2 (hnode cn hcn k hk1 hk2) (fun hb => ⟨P, hP,
    ⟨fun j hj => hrep' (hrep j hj k hkn), fun _ _ => hrep' (hpad hb).1, ((hpad hb).2 k hkn).1, ((hpad hb).2 k hkn).2, hm k hkn, ⟨.inl (by simp), by
      have := R.b1
      simp; linarith⟩⟩⟩)
  obtain ⟨v, ev, hv1, hv2⟩ := H.scaled (over := over) Q mv F hg c1 (N := s.n + (⟨f.ieee fused, simd, rsqrt⟩ : Hw ℚ).pad + 1 + K) (by omega) hrr
  refine ⟨i, v, hi, by rw [hoi, hkv, er, ev], ?_, ?_⟩
  · intro j hj
    have := hv1 j hj
    rw [(val_sum _ _).1 j, (val_sum _ _).1 j] at this
    simp only [absV, newt_by.1] at this
    exact this
  · have := hv2
    rw [(val_sum _ _).2, (val_sum _ _).2] at this
    simp only [absV, newt_by.2] at this
    exact this

end

/-- Rational conditions for `NodeIn`. -/
theorem nodeIn_of {f : Format} {fused : Bool} {simd : Option (Simd ℚ)} {mac : Mac} {w : Nat} {s : TS (rakauEnv (f.ieee fused) simd mac w 3)} {rsqrt : Option (Fl ℚ → Fl ℚ)}
    {x : Nat → Nat → ℚ} {eps : ℚ} {i k : Nat} (h1 : s.props[i]?.map (fun p => (p.com, p.mass)) = some (Arr 3 (fun j => .fin (s.cx i j)), .fin (s.cm i)))
    (h2 : ∀ j < 3, (f.ieee fused).rnd (s.cx i j) = .fin (s.cx i j)) (h3 : ∀ j < 3, (f.ieee fused).rnd (x j k) = .fin (x j k))
    (h4 : 1 ≤ ∑ j ∈ Finset.range 3, (s.cx i j - x j k) ^ 2 + eps ^ 2 ∧ ∑ j ∈ Finset.range 3, (s.cx i j - x j k) ^ 2 + eps ^ 2 ≤ 10000)
    (h5 : s.cm i = 0 ∨ 1 ≤ |s.cm i|) (h6 : |s.cm i| ≤ 100) (h7 : x 3 k = 0 ∨ 1 ≤ |x 3 k|) (h8 : |x 3 k| ≤ 100) {b : ℝ} (hb : 100 ≤ b) : NodeIn s rsqrt x b ((eps : ℝ) ^ 2) i k := by
  obtain ⟨fu, hfu⟩ := mode_ieee (f := f) (fused := fused) (simd := simd) (d := 3) rsqrt
  obtain ⟨p, p1, p2⟩ := Option.map_eq_some_iff.1 h1
  rw [Prod.mk.injEq] at p2
  refine ⟨⟨p, p1, p2.1, p2.2⟩, ?_⟩
  rw [hfu]
  exact ⟨h3, h2, (mix_dist hb h4).1, (mix_dist hb h4).2, rng_cast (by linarith) h7 (((Rat.cast_le (K := ℝ)).2 h8).trans (by push_cast; exact hb)),
    rng_cast (by linarith) h5 (((Rat.cast_le (K := ℝ)).2 h6).trans (by push_cast; exact hb))⟩

/-- The particles of `mixS` in the order of the tree. -/
def mixT (j k : Nat) : ℚ := (([[-4, 2, 4], [-4, 2, 4], [-4, 2, 4], [1, -61, 65]] : List (List ℚ)).getD j []).getD k 0

set_option exponentiation.threshold 2000 in
/-- The same particles with vector kernels (batches of 4), the opening angle 1/2, `G = 3`, softening length 1/2: the bound for the acceleration of the particle in the first
critical node. The second critical node, of two particles, is accepted as a whole: it is the only body. -/
example : ∃ (out' : List (Res ℚ)) (v : Val ℚ),
    (mixS (some avx64)).accPot none (maskedShift 32) .acc false (.fin (1 / 2)) (.fin 3) (.fin (1 / 2)) [] [1, 0] (List.replicate 3 ⟨[], []⟩) = .ok out' ∧
    (mixS (some avx64)).cx 2 0 = 69 / 2 ∧ (mixS (some avx64)).cm 2 = 4 ∧ out'[0]? = some (mkRes .acc 3 v) ∧
    ∀ j < 3, |(v.1 j : ℝ) - (3 : ℚ) * accelBy 3 (((1 / 2 : ℚ) : ℝ) ^ 2) (fun j => (mixT j 0 : ℝ)) (fun j => ((mixS (some avx64)).cx 2 j : ℝ)) ((mixS (some avx64)).cm 2) j| ≤
      2 * ((3 + 3 + 1 + 29 : ℕ) * binary64.unit) *
          (|((3 : ℚ) : ℝ)| * |accelBy 3 (((1 / 2 : ℚ) : ℝ) ^ 2) (fun j => (mixT j 0 : ℝ)) (fun j => ((mixS (some avx64)).cx 2 j : ℝ)) ((mixS (some avx64)).cm 2) j|) +
        (4 * (3 + 3 + 1 + 29 : ℕ) * |((3 : ℚ) : ℝ)| + 1) * binary64.tiny := by
  have hn : (mixS (some avx64)).n = 3 := by decide +kernel
  have hc : (mixS (some avx64)).crit = [⟨8, 0, 1⟩, ⟨15, 1, 3⟩] := by decide +kernel
  have hl : (mixS (some avx64)).tree.length = 3 := by decide +kernel
  have hdat : IsData 3 (mixS (some avx64)).n (mixS (some avx64)).parts mixT := isData_of_eq (by decide +kernel)
  have hrep : ∀ k < 3, ∀ j < 3, (binary64.ieee true).rnd (mixT j k) = .fin (mixT j k) := by decide +kernel
  have hD : ∀ k < 3, ∀ l < 3, k ≠ l → 1 ≤ ∑ j ∈ Finset.range 3, (mixT j l - mixT j k) ^ 2 + (1 / 2 : ℚ) ^ 2 ∧
      ∑ j ∈ Finset.range 3, (mixT j l - mixT j k) ^ 2 + (1 / 2 : ℚ) ^ 2 ≤ 10000 := by decide +kernel
  have hm : ∀ k < 3, 1 ≤ |mixT 3 k| ∧ |mixT 3 k| ≤ 100 := by decide +kernel
  have hN : ∀ i < 3, (mixS (some avx64)).props[i]?.map (fun p => (p.com, p.mass)) =
        some (Arr 3 (fun j => .fin ((mixS (some avx64)).cx i j)), .fin ((mixS (some avx64)).cm i)) ∧
      (∀ j < 3, (binary64.ieee true).rnd ((mixS (some avx64)).cx i j) = .fin ((mixS (some avx64)).cx i j)) ∧
      1 ≤ |(mixS (some avx64)).cm i| ∧ |(mixS (some avx64)).cm i| ≤ 100 := by decide +kernel
  have hA : ∀ cn ∈ (mixS (some avx64)).crit, ∀ i < 3, ((mixS (some avx64)).force none (maskedShift 32) .acc (.fin 4) (.fin 3) (.fin (1 / 4))).accepts (cn.fin - cn.beg)
      (((mixS (some avx64)).force none (maskedShift 32) .acc (.fin 4) (.fin 3) (.fin (1 / 4))).slot cn) i = true → ∀ k < cn.fin, cn.beg ≤ k →
        1 ≤ ∑ j ∈ Finset.range 3, ((mixS (some avx64)).cx i j - mixT j k) ^ 2 + (1 / 2 : ℚ) ^ 2 ∧
          ∑ j ∈ Finset.range 3, ((mixS (some avx64)).cx i j - mixT j k) ^ 2 + (1 / 2 : ℚ) ^ 2 ≤ 10000 := by decide +kernel
  have hP : ((mixS (some avx64)).force none (maskedShift 32) .acc (.fin 4) (.fin 3) (.fin (1 / 4))).padCoord = .fin (7452108728054557 / 140737488355328) := by decide +kernel
  have hP2 : (binary64.ieee true).rnd (7452108728054557 / 140737488355328) = .fin (7452108728054557 / 140737488355328) := by decide +kernel
  have hP3 : ∀ k < 3, 1 ≤ ∑ j ∈ Finset.range 3, ((7452108728054557 / 140737488355328 : ℚ) - mixT j k) ^ 2 + (1 / 2 : ℚ) ^ 2 ∧
      ∑ j ∈ Finset.range 3, ((7452108728054557 / 140737488355328 : ℚ) - mixT j k) ^ 2 + (1 / 2 : ℚ) ^ 2 ≤ 10000 := by decide +kernel
  have hpad : (⟨binary64.ieee true, some avx64, none⟩ : Hw ℚ).pad = 3 := by decide +kernel
  have hem : (((2 ^ (binary64.emax - 1) : ℚ)) : ℝ) = 2 ^ 1023 := by
    unfold binary64
    push_cast
    norm_num
  obtain ⟨out', o1, o2⟩ := C61_tree (s := mixS (some avx64)) (rsqrt := none) (over := maskedShift 32) (x := mixT) (b := 2 ^ 200) (κ := 0) (K := 29)
    (theta := .fin (1 / 2)) (mv := .fin 4) (g := 3) (eps := 1 / 2) (e2 := 1 / 4) (split := []) (order := [1, 0]) (out := List.replicate 3 ⟨[], []⟩)
    (P := 7452108728054557 / 140737488355328) binary64_std
    (by intro S hS; cases hS; decide) ⟨.inl rfl, by decide⟩ mix_reach.1 (by decide +kernel) (maskedShift_small _) (by decide +kernel)
    hdat (fun j hj k hk => hrep k (by omega) j hj)
    (span64 (by norm_num) le_rfl (by norm_num) (by norm_num) (by rw [hn, hpad]; norm_num)) (by decide +kernel) (by norm_num)
    (by rw [hn, hpad, hem]; norm_num)
    (fun k l hk hl hne => mix_dist (by norm_num) (hD k (by omega) l (by omega) hne))
    (fun k hk => rng_cast (by norm_num) (.inr (hm k (by omega)).1) (((Rat.cast_le (K := ℝ)).2 (hm k (by omega)).2).trans (by norm_num)))
    (by intro r hr; cases hr) .acc
    (by
      intro cn hcn k k1 k2 i hi ha
      have hk3 : k < 3 := by rw [hc] at hcn; simp at hcn; rcases hcn with rfl | rfl <;> simp at k2 <;> omega
      obtain ⟨n1, n2, n3, n4⟩ := hN i (by omega)
      exact nodeIn_of n1 n2 (hrep k hk3) (hA cn hcn i (by omega) ha k k2 k1) (.inr n3) n4 (.inr (hm k hk3).1) (hm k hk3).2 (by norm_num))
    hP (fun _ => ⟨hP2, fun k hk => mix_dist (by norm_num) (y := fun j => mixT j k) (z := fun _ => 7452108728054557 / 140737488355328) (hP3 k (by omega))⟩) rfl false
    (by rw [hc]; decide) (by rw [hn]; rfl)
  refine ⟨out', ?_⟩
  obtain ⟨vs, v1, _, v3⟩ := o2 ⟨8, 0, 1⟩ (by rw [hc]; simp)
  have hvs : travGo (maskedShift 32) 32 3 (mixS (some avx64)).tree 8 (((mixS (some avx64)).force none (maskedShift 32) .acc (.fin 4) (.fin 3) (.fin (1 / 4))).accepts (1 - 0)
      (((mixS (some avx64)).force none (maskedShift 32) .acc (.fin 4) (.fin 3) (.fin (1 / 4))).slot ⟨8, 0, 1⟩)) (mixS (some avx64)).tree.length 0 =
      some (.ok [⟨0, none⟩, ⟨1, none⟩, ⟨2, some (.com 2)⟩]) := by decide +kernel
  rw [hvs, Option.some.injEq, Except.ok.injEq] at v1
  subst v1
  obtain ⟨i, v, i1, i2, w1, _⟩ := v3 0 (by simp) (by simp)
  obtain rfl : 0 = i := by simpa using i1
  refine ⟨v, o1, by decide +kernel, by decide +kernel, i2, ?_⟩
  intro j hj
  have := w1 j hj
  rw [hn, hpad] at this
  have hb : ([⟨0, none⟩, ⟨1, none⟩, ⟨2, some (.com 2)⟩] : List Visit).flatMap ((mixS (some avx64)).visBodies mixT) ++ selfBodies 3 mixT ⟨8, 0, 1⟩ 0 =
      [((mixS (some avx64)).cx 2, (mixS (some avx64)).cm 2)] := by
    simp [TS.visBodies, selfBodies]
  rw [hb] at this
  simpa [Within] using this

/-! ### With estimates of inverse square roots -/

/-- Numbers of 14 bits. -/
def p14 : Format := ⟨14, -140, 128⟩

/-- An estimate of `1 / √x` with 14 bits. -/
def est14 (x : Fl ℚ) : Fl ℚ := (p14.ieee false).div (.fin 1) ((p14.ieee false).fsqrt x)

theorem p14_std : p14.Std := ⟨⟨by decide, by decide, by decide⟩, by decide, by decide, by decide⟩

/-- In `float`, nine relative errors make up for the estimate and the Newton step. -/
theorem est14_ok : EstimateOk binary32.unit (2 ^ 25) 9 est14 := by
  have hu : ((binary32.unit : ℚ) : ℝ) = (1 / 2) ^ 24 := by
    unfold Format.unit binary32
    push_cast
    norm_num
  refine ⟨3 * (1 / 2) ^ 14, 5, le_rfl, by norm_num, by rw [hu]; norm_num, by rw [hu]; norm_num, ?_⟩
  intro q h1 h2
  have F := Format.ieee_model p14_std false
  have e1 : ((p14.unit : ℚ) : ℝ) = (1 / 2) ^ 14 := by unfold Format.unit p14; push_cast; norm_num
  have e2 : ((p14.minNormal : ℚ) : ℝ) = (1 / 2) ^ 127 := by unfold Format.minNormal p14; push_cast; norm_num
  have e3 : ((2 ^ (p14.emax - 1) : ℚ) : ℝ) = 2 ^ 127 := by unfold p14; push_cast; norm_num
  rw [e1, e2, e3] at F
  have q1 : (1 / 2) ^ 51 ≤ (q : ℝ) := by norm_num at h1 ⊢; linarith
  have q2 : (q : ℝ) ≤ 2 ^ 51 := by norm_num at h2 ⊢; linarith
  have q0 : (0 : ℝ) < q := lt_of_lt_of_le (by norm_num) q1
  have s1 : (1 / 2) ^ 26 ≤ √(q : ℝ) := Real.le_sqrt_of_sq_le (by norm_num at q1 ⊢; linarith)
  have s2 : √(q : ℝ) ≤ 2 ^ 26 := Real.sqrt_le_iff.2 ⟨by norm_num, by norm_num at q2 ⊢; linarith⟩
  have s0 : 0 < √(q : ℝ) := Real.sqrt_pos.2 q0
  obtain ⟨a, ea, na⟩ := F.fsqrt (q := q) (le_trans (by norm_num) q1) (q2.trans (by norm_num))
  obtain ⟨a0, a1, a2, _⟩ := na.one F.u0 F.u1 s0
  have aq : a ≠ 0 := by
    rintro rfl
    simp at a0
  have i0 : (0 : ℝ) < 1 / a := by positivity
  have i1 : (1 / 2) ^ 127 ≤ (1 : ℝ) / a := by
    rw [le_div_iff₀ a0]
    have : (a : ℝ) ≤ 2 ^ 27 := by norm_num at s2 ⊢; linarith
    calc (1 / 2 : ℝ) ^ 127 * a ≤ (1 / 2) ^ 127 * 2 ^ 27 := by gcongr
      _ ≤ 1 := by norm_num
  have i2 : (1 : ℝ) / a ≤ 2 ^ 127 := by
    rw [div_le_iff₀ a0]
    have : (1 / 2 : ℝ) ^ 27 ≤ a := by norm_num at s1 ⊢; linarith
    calc (1 : ℝ) ≤ 2 ^ 127 * (1 / 2) ^ 27 := by norm_num
      _ ≤ 2 ^ 127 * a := by gcongr
  obtain ⟨y, ey, ny⟩ := F.div (a := 1) (b := a) aq (.inr (by push_cast; rw [abs_of_pos i0]; exact i1)) (by push_cast; rw [abs_of_pos i0]; exact i2)
  refine ⟨y, by unfold est14; rw [ea]; exact ey, ?_⟩
  push_cast at ny
  have hn := ((Near.refl F.u0 F.lt1 0 (1 : ℝ)).div F.lt1 na).trans F.lt1 ny
  obtain ⟨t, ht, t0, t1, t2⟩ := hn.factor F.lt1
  rw [ht, show 1 / √(q : ℝ) * t * √(q : ℝ) - 1 = t - 1 by field_simp, abs_le]
  norm_num at t1 t2 ⊢
  constructor <;> linarith

@[reducible] def fltEnv : Env := rakauEnv (binary32.ieee true) (some avx32) .bh 32 3

/-- The particles of `mixInp`. -/
def fltInp : Input fltEnv := ⟨some (.fin 16), 2, 2, [[-4, 4, 2], [-4, 4, 2], [-4, 4, 2], [1, 65, -61]].map (·.map .fin)⟩

def fltS : TS fltEnv := okOr fltInp.exec (TS.default _)

theorem flt_reach : Reach _ fltS := reach_exec _ rfl (by decide +kernel) (by decide +kernel)

set_option exponentiation.threshold 2000 in
/-- In single precision, with batches of 8 and the 14-bit estimate of inverse square roots. The opening angle 1/2, `G = 3`, softening length 1/2: the bound for the acceleration of the particle in the first
critical node. The second critical node, of two particles, is accepted as a whole: it is the only body. -/
example : ∃ (out' : List (Res ℚ)) (v : Val ℚ),
    fltS.accPot (some est14) (maskedShift 32) .acc false (.fin (1 / 2)) (.fin 3) (.fin (1 / 2)) [] [1, 0] (List.replicate 3 ⟨[], []⟩) = .ok out' ∧
    fltS.cx 2 0 = 69 / 2 ∧ fltS.cm 2 = 4 ∧ out'[0]? = some (mkRes .acc 3 v) ∧
    ∀ j < 3, |(v.1 j : ℝ) - (3 : ℚ) * accelBy 3 (((1 / 2 : ℚ) : ℝ) ^ 2) (fun j => (mixT j 0 : ℝ)) (fun j => (fltS.cx 2 j : ℝ)) (fltS.cm 2) j| ≤
      2 * ((3 + 7 + 1 + 56 : ℕ) * binary32.unit) *
          (|((3 : ℚ) : ℝ)| * |accelBy 3 (((1 / 2 : ℚ) : ℝ) ^ 2) (fun j => (mixT j 0 : ℝ)) (fun j => (fltS.cx 2 j : ℝ)) (fltS.cm 2) j|) +
        (4 * (3 + 7 + 1 + 56 : ℕ) * |((3 : ℚ) : ℝ)| + 1) * binary32.tiny := by
  have hn : fltS.n = 3 := by decide +kernel
  have hc : fltS.crit = [⟨8, 0, 1⟩, ⟨15, 1, 3⟩] := by decide +kernel
  have hl : fltS.tree.length = 3 := by decide +kernel
  have hdat : IsData 3 fltS.n fltS.parts mixT := isData_of_eq (by decide +kernel)
  have hrep : ∀ k < 3, ∀ j < 3, (binary32.ieee true).rnd (mixT j k) = .fin (mixT j k) := by decide +kernel
  have hD : ∀ k < 3, ∀ l < 3, k ≠ l → 1 ≤ ∑ j ∈ Finset.range 3, (mixT j l - mixT j k) ^ 2 + (1 / 2 : ℚ) ^ 2 ∧
      ∑ j ∈ Finset.range 3, (mixT j l - mixT j k) ^ 2 + (1 / 2 : ℚ) ^ 2 ≤ 10000 := by decide +kernel
  have hm : ∀ k < 3, 1 ≤ |mixT 3 k| ∧ |mixT 3 k| ≤ 100 := by decide +kernel
  have hN : ∀ i < 3, fltS.props[i]?.map (fun p => (p.com, p.mass)) =
        some (Arr 3 (fun j => .fin (fltS.cx i j)), .fin (fltS.cm i)) ∧
      (∀ j < 3, (binary32.ieee true).rnd (fltS.cx i j) = .fin (fltS.cx i j)) ∧
      1 ≤ |fltS.cm i| ∧ |fltS.cm i| ≤ 100 := by decide +kernel
  have hA : ∀ cn ∈ fltS.crit, ∀ i < 3, (fltS.force (some est14) (maskedShift 32) .acc (.fin 4) (.fin 3) (.fin (1 / 4))).accepts (cn.fin - cn.beg)
      ((fltS.force (some est14) (maskedShift 32) .acc (.fin 4) (.fin 3) (.fin (1 / 4))).slot cn) i = true → ∀ k < cn.fin, cn.beg ≤ k →
        1 ≤ ∑ j ∈ Finset.range 3, (fltS.cx i j - mixT j k) ^ 2 + (1 / 2 : ℚ) ^ 2 ∧
          ∑ j ∈ Finset.range 3, (fltS.cx i j - mixT j k) ^ 2 + (1 / 2 : ℚ) ^ 2 ≤ 10000 := by decide +kernel
  have hP : (fltS.force (some est14) (maskedShift 32) .acc (.fin 4) (.fin 3) (.fin (1 / 4))).padCoord = .fin (6940317 / 131072) := by decide +kernel
  have hP2 : (binary32.ieee true).rnd (6940317 / 131072) = .fin (6940317 / 131072) := by decide +kernel
  have hP3 : ∀ k < 3, 1 ≤ ∑ j ∈ Finset.range 3, ((6940317 / 131072 : ℚ) - mixT j k) ^ 2 + (1 / 2 : ℚ) ^ 2 ∧
      ∑ j ∈ Finset.range 3, ((6940317 / 131072 : ℚ) - mixT j k) ^ 2 + (1 / 2 : ℚ) ^ 2 ≤ 10000 := by decide +kernel
  have hpad : (⟨binary32.ieee true, some avx32, some est14⟩ : Hw ℚ).pad = 7 := by decide +kernel
  have hem : (((2 ^ (binary32.emax - 1) : ℚ)) : ℝ) = 2 ^ 127 := by
    unfold binary32
    push_cast
    norm_num
  obtain ⟨out', o1, o2⟩ := C61_tree (s := fltS) (rsqrt := some est14) (over := maskedShift 32) (x := mixT) (b := 2 ^ 25) (κ := 9) (K := 56)
    (theta := .fin (1 / 2)) (mv := .fin 4) (g := 3) (eps := 1 / 2) (e2 := 1 / 4) (split := []) (order := [1, 0]) (out := List.replicate 3 ⟨[], []⟩)
    (P := 6940317 / 131072) binary32_std
    (by intro S hS; cases hS; decide) ⟨.inl rfl, by decide⟩ flt_reach (by decide +kernel) (maskedShift_small _) (by decide +kernel)
    hdat (fun j hj k hk => hrep k (by omega) j hj)
    (span32 (by norm_num) le_rfl (by norm_num) (by norm_num) (by rw [hn, hpad]; norm_num)) (by decide +kernel) (by norm_num)
    (by rw [hn, hpad, hem]; norm_num)
    (fun k l hk hl hne => mix_dist (by norm_num) (hD k (by omega) l (by omega) hne))
    (fun k hk => rng_cast (by norm_num) (.inr (hm k (by omega)).1) (((Rat.cast_le (K := ℝ)).2 (hm k (by omega)).2).trans (by norm_num)))
    (by intro r hr; cases hr; exact est14_ok) .acc
    (by
      intro cn hcn k k1 k2 i hi ha
      have hk3 : k < 3 := by rw [hc] at hcn; simp at hcn; rcases hcn with rfl | rfl <;> simp at k2 <;> omega
      obtain ⟨n1, n2, n3, n4⟩ := hN i (by omega)
      exact nodeIn_of n1 n2 (hrep k hk3) (hA cn hcn i (by omega) ha k k2 k1) (.inr n3) n4 (.inr (hm k hk3).1) (hm k hk3).2 (by norm_num))
    hP (fun _ => ⟨hP2, fun k hk => mix_dist (by norm_num) (y := fun j => mixT j k) (z := fun _ => 6940317 / 131072) (hP3 k (by omega))⟩) rfl false
    (by rw [hc]; decide) (by rw [hn]; rfl)
  refine ⟨out', ?_⟩
  obtain ⟨vs, v1, _, v3⟩ := o2 ⟨8, 0, 1⟩ (by rw [hc]; simp)
  have hvs : travGo (maskedShift 32) 32 3 fltS.tree 8 ((fltS.force (some est14) (maskedShift 32) .acc (.fin 4) (.fin 3) (.fin (1 / 4))).accepts (1 - 0)
      ((fltS.force (some est14) (maskedShift 32) .acc (.fin 4) (.fin 3) (.fin (1 / 4))).slot ⟨8, 0, 1⟩)) fltS.tree.length 0 =
      some (.ok [⟨0, none⟩, ⟨1, none⟩, ⟨2, some (.com 2)⟩]) := by decide +kernel
  rw [hvs, Option.some.injEq, Except.ok.injEq] at v1
  subst v1
  obtain ⟨i, v, i1, i2, w1, _⟩ := v3 0 (by simp) (by simp)
  obtain rfl : 0 = i := by simpa using i1
  refine ⟨v, o1, by decide +kernel, by decide +kernel, i2, ?_⟩
  intro j hj
  have := w1 j hj
  rw [hn, hpad] at this
  have hb : ([⟨0, none⟩, ⟨1, none⟩, ⟨2, some (.com 2)⟩] : List Visit).flatMap (fltS.visBodies mixT) ++ selfBodies 3 mixT ⟨8, 0, 1⟩ 0 =
      [(fltS.cx 2, fltS.cm 2)] := by
    simp [TS.visBodies, selfBodies]
  rw [hb] at this
  simpa [Within] using this

end Rakau
