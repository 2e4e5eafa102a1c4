import Verif.Spec.Gravity
import Mathlib.Algebra.BigOperators.Field
import Mathlib.Algebra.Order.BigOperators.Ring.Finset
import Mathlib.Tactic.Linarith
import Mathlib.Tactic.Ring
import Mathlib.Tactic.FieldSimp
import Mathlib.Tactic.Positivity

/-! The error of replacing bodies by one body at their centre of mass, over any ordered field. -/
namespace Rakau
open Spec

variable {K : Type} [Field K] [LinearOrder K] [IsStrictOrderedRing K]

/-- The reverse triangle inequality, for squares: `R` and `r` are the lengths of a vector before and after the addition of a vector of squared length `p`, `q` is the scalar product. -/
theorem len_diff {R r p q : K} (hR : 0 < R) (hr : 0 < r) (h : r * r = R * R + 2 * q + p) (hq : q ^ 2 ≤ R * R * p) : (r - R) ^ 2 ≤ p := by
  have key : R * R + q ≤ r * R := by
    by_contra hc
    rw [not_le] at hc
    have h0 : 0 < r * R := by positivity
    have h1 : (r * R) ^ 2 < (R * R + q) ^ 2 := pow_lt_pow_left₀ hc h0.le (by norm_num)
    have h2 : (r * R) ^ 2 = (R * R + 2 * q + p) * (R * R) := by rw [← h]; ring
    nlinarith
  nlinarith

/-- Inverse lengths to second order. -/
theorem inv_len {R r p q : K} (hR : 0 < R) (hr : 0 < r) (h : r * r = R * R + 2 * q + p) :
    1 / r - 1 / R = -(2 * q + p) / (2 * R ^ 3) + (r - R) ^ 2 * (2 * R + r) / (2 * R ^ 3 * r) := by
  have e : 2 * q + p = r * r - R * R := by linarith
  rw [e]
  have := hR.ne'
  have := hr.ne'
  field_simp
  ring

/-- The remainder of one body. -/
theorem rem_bounds {R r p q κ : K} (hR : 0 < R) (hr : 0 < r) (h : r * r = R * R + 2 * q + p) (hq : q ^ 2 ≤ R * R * p) (h0 : 0 ≤ κ) (h1 : κ < 1)
    (hp : p ≤ (κ * R) ^ 2) :
    -(κ ^ 2 / (1 - κ)) / R ≤ 1 / r - 1 / R + q / R ^ 3 ∧ 1 / r - 1 / R + q / R ^ 3 ≤ κ ^ 2 / (1 - κ) / R := by
  have hd := len_diff hR hr h hq
  have hp0 : 0 ≤ p := le_trans (sq_nonneg _) hd
  have hk : 0 < 1 - κ := by linarith
  have hrR : (1 - κ) * R ≤ r := by
    have h2 : (r - R) ^ 2 ≤ (κ * R) ^ 2 := hd.trans hp
    have h3 : |r - R| ≤ κ * R := by
      rw [← abs_of_nonneg (show 0 ≤ κ * R by positivity)]
      exact sq_le_sq.1 h2
    have := (abs_le.1 h3).1
    linarith
  have e : 1 / r - 1 / R + q / R ^ 3 = -p / (2 * R ^ 3) + (r - R) ^ 2 * (2 * R + r) / (2 * R ^ 3 * r) := by
    rw [inv_len hR hr h]
    have := hR.ne'
    field_simp
    ring
  rw [e]
  have hkk : κ ^ 2 ≤ κ ^ 2 / (1 - κ) := by
    rw [le_div_iff₀ hk]
    nlinarith [sq_nonneg κ]
  constructor
  · have a1 : 0 ≤ (r - R) ^ 2 * (2 * R + r) / (2 * R ^ 3 * r) := by positivity
    have a2 : p / (2 * R ^ 3) ≤ κ ^ 2 / (1 - κ) / R := by
      calc p / (2 * R ^ 3) ≤ (κ * R) ^ 2 / (2 * R ^ 3) := by gcongr
        _ = κ ^ 2 / 2 / R := by have := hR.ne'; field_simp
        _ ≤ κ ^ 2 / (1 - κ) / R := by
          apply div_le_div_of_nonneg_right _ hR.le
          linarith [sq_nonneg κ]
    rw [neg_div, neg_div]
    linarith
  · have a1 : (r - R) ^ 2 * (2 * R + r) / (2 * R ^ 3 * r) ≤ p * (2 * R + r) / (2 * R ^ 3 * r) := by gcongr
    have a2 : -p / (2 * R ^ 3) + p * (2 * R + r) / (2 * R ^ 3 * r) = p / (R ^ 2 * r) := by
      have := hR.ne'
      have := hr.ne'
      field_simp
      ring
    have a3 : p / (R ^ 2 * r) ≤ κ ^ 2 / (1 - κ) / R := by
      calc p / (R ^ 2 * r) ≤ (κ * R) ^ 2 / (R ^ 2 * ((1 - κ) * R)) := by gcongr
        _ = κ ^ 2 / (1 - κ) / R := by have := hR.ne'; have := hk.ne'; field_simp
    linarith

/-- The dipole of bodies with respect to a point near their centre of mass. -/
theorem dipole_le {S : Finset Nat} {d : Nat} {e δ R : K} {y c : Nat → K} {z : Nat → Nat → K} {m : Nat → K} (he : 0 ≤ e)
    (hc : ∀ j < d, |∑ l ∈ S, m l * (z l j - c j)| ≤ δ * R * ∑ l ∈ S, m l) (hR : 0 < R) (hR2 : R * R = D2 d e y c) :
    |∑ l ∈ S, m l * (∑ j ∈ Finset.range d, (c j - y j) * (z l j - c j))| ≤ d * δ * R ^ 2 * ∑ l ∈ S, m l := by
  have e1 : ∑ l ∈ S, m l * (∑ j ∈ Finset.range d, (c j - y j) * (z l j - c j)) = ∑ j ∈ Finset.range d, (c j - y j) * ∑ l ∈ S, m l * (z l j - c j) := by
    simp_rw [Finset.mul_sum]
    rw [Finset.sum_comm]
    exact Finset.sum_congr rfl fun j _ => Finset.sum_congr rfl fun l _ => by ring
  rw [e1]
  have e2 : ∀ j ∈ Finset.range d, |(c j - y j) * ∑ l ∈ S, m l * (z l j - c j)| ≤ R * (δ * R * ∑ l ∈ S, m l) := by
    intro j hj
    have hu2 : (c j - y j) ^ 2 ≤ R ^ 2 := by
      have := Finset.single_le_sum (f := fun j => (c j - y j) ^ 2) (fun j _ => sq_nonneg _) hj
      have h2 : R ^ 2 = ∑ j ∈ Finset.range d, (c j - y j) ^ 2 + e := by rw [sq, hR2]; rfl
      rw [h2]; linarith
    have hu : |c j - y j| ≤ R := by rw [← abs_of_pos hR]; exact sq_le_sq.1 hu2
    rw [abs_mul]
    exact mul_le_mul hu (hc j (Finset.mem_range.1 hj)) (abs_nonneg _) hR.le
  refine (Finset.abs_sum_le_sum_abs _ _).trans ((Finset.sum_le_sum e2).trans (le_of_eq ?_))
  rw [Finset.sum_const, Finset.card_range, nsmul_eq_mul]
  ring

/-- The potential of bodies `l ∈ S` with masses `m l ≥ 0` at `z l`, and that of their mass at a point `c`, seen from `y`: if all bodies are within `κ` times the (softened) distance `R` of
`y` and `c` from `c`, and `c` is their centre of mass up to `δ R`, the two differ by at most `κ² / (1 - κ) + d δ` times the latter. -/
theorem monopole_error_at {S : Finset Nat} {d : Nat} {e κ δ R : K} {y c : Nat → K} {z : Nat → Nat → K} {m r : Nat → K} (he : 0 ≤ e) (hm : ∀ l ∈ S, 0 ≤ m l)
    (hc : ∀ j < d, |∑ l ∈ S, m l * (z l j - c j)| ≤ δ * R * ∑ l ∈ S, m l) (hR : 0 < R) (hR2 : R * R = D2 d e y c) (hr : ∀ l ∈ S, 0 < r l ∧ r l * r l = D2 d e y (z l))
    (h0 : 0 ≤ κ) (h1 : κ < 1) (hz : ∀ l ∈ S, ∑ j ∈ Finset.range d, (z l j - c j) ^ 2 ≤ (κ * R) ^ 2) :
    |∑ l ∈ S, m l / r l - (∑ l ∈ S, m l) / R| ≤ (κ ^ 2 / (1 - κ) + d * δ) * ((∑ l ∈ S, m l) / R) := by
  have hdip := dipole_le he hc hR hR2
  have hone : ∀ l ∈ S, -(κ ^ 2 / (1 - κ)) / R ≤ 1 / r l - 1 / R + (∑ j ∈ Finset.range d, (c j - y j) * (z l j - c j)) / R ^ 3 ∧
      1 / r l - 1 / R + (∑ j ∈ Finset.range d, (c j - y j) * (z l j - c j)) / R ^ 3 ≤ κ ^ 2 / (1 - κ) / R := by
    intro l hl
    obtain ⟨r0, r1⟩ := hr l hl
    refine rem_bounds hR r0 (p := ∑ j ∈ Finset.range d, (z l j - c j) ^ 2) ?_ ?_ h0 h1 (hz l hl)
    · rw [r1, hR2]
      unfold D2
      have : ∀ j ∈ Finset.range d, (z l j - y j) ^ 2 = (c j - y j) ^ 2 + 2 * ((c j - y j) * (z l j - c j)) + (z l j - c j) ^ 2 := fun j _ => by ring
      rw [Finset.sum_congr rfl this, Finset.sum_add_distrib, Finset.sum_add_distrib, ← Finset.mul_sum]
      ring
    · refine (Finset.sum_mul_sq_le_sq_mul_sq (Finset.range d) (fun j => c j - y j) (fun j => z l j - c j)).trans ?_
      apply mul_le_mul_of_nonneg_right _ (Finset.sum_nonneg (fun j _ => sq_nonneg _))
      rw [hR2]
      unfold D2
      linarith
  have hsum : ∑ l ∈ S, m l / r l - (∑ l ∈ S, m l) / R =
      ∑ l ∈ S, m l * (1 / r l - 1 / R + (∑ j ∈ Finset.range d, (c j - y j) * (z l j - c j)) / R ^ 3) -
        (∑ l ∈ S, m l * (∑ j ∈ Finset.range d, (c j - y j) * (z l j - c j))) / R ^ 3 := by
    have : ∀ l ∈ S, m l * (1 / r l - 1 / R + (∑ j ∈ Finset.range d, (c j - y j) * (z l j - c j)) / R ^ 3) =
        m l / r l - m l / R + m l * (∑ j ∈ Finset.range d, (c j - y j) * (z l j - c j)) / R ^ 3 := fun l _ => by ring
    rw [Finset.sum_congr rfl this, Finset.sum_add_distrib, Finset.sum_sub_distrib, ← Finset.sum_div, ← Finset.sum_div]
    ring
  have hmain : |∑ l ∈ S, m l * (1 / r l - 1 / R + (∑ j ∈ Finset.range d, (c j - y j) * (z l j - c j)) / R ^ 3)| ≤ κ ^ 2 / (1 - κ) * ((∑ l ∈ S, m l) / R) := by
    rw [abs_le]
    constructor
    · calc -(κ ^ 2 / (1 - κ) * ((∑ l ∈ S, m l) / R)) = ∑ l ∈ S, m l * (-(κ ^ 2 / (1 - κ)) / R) := by rw [← Finset.sum_mul]; ring
        _ ≤ _ := Finset.sum_le_sum (fun l hl => mul_le_mul_of_nonneg_left (hone l hl).1 (hm l hl))
    · calc _ ≤ ∑ l ∈ S, m l * (κ ^ 2 / (1 - κ) / R) := Finset.sum_le_sum (fun l hl => mul_le_mul_of_nonneg_left (hone l hl).2 (hm l hl))
        _ = κ ^ 2 / (1 - κ) * ((∑ l ∈ S, m l) / R) := by rw [← Finset.sum_mul]; ring
  rw [hsum]
  refine (abs_sub _ _).trans ?_
  rw [add_mul]
  refine add_le_add hmain ?_
  rw [abs_div, abs_of_pos (show 0 < R ^ 3 by positivity), div_le_iff₀ (by positivity)]
  refine hdip.trans (le_of_eq ?_)
  have := hR.ne'
  field_simp

theorem dip_zero {S : Finset Nat} {d : Nat} {R : K} {c : Nat → K} {z : Nat → Nat → K} {m : Nat → K} (hc : ∀ j < d, ∑ l ∈ S, m l * z l j = (∑ l ∈ S, m l) * c j) :
    ∀ j < d, |∑ l ∈ S, m l * (z l j - c j)| ≤ 0 * R * ∑ l ∈ S, m l := by
  intro j hj
  have : ∀ l ∈ S, m l * (z l j - c j) = m l * z l j - m l * c j := fun l _ => by ring
  rw [Finset.sum_congr rfl this, Finset.sum_sub_distrib, ← Finset.sum_mul, hc j hj, sub_self]
  simp

/-- The potential of bodies `l ∈ S` with masses `m l ≥ 0` at `z l`, and that of their mass at their centre of mass `c`, seen from `y`: if all bodies are within `κ` times the (softened) distance `R` of
`y` and `c` from `c`, the two differ by at most `κ² / (1 - κ)` times the latter. -/
theorem monopole_error {S : Finset Nat} {d : Nat} {e κ R : K} {y c : Nat → K} {z : Nat → Nat → K} {m r : Nat → K} (he : 0 ≤ e) (hm : ∀ l ∈ S, 0 ≤ m l)
    (hc : ∀ j < d, ∑ l ∈ S, m l * z l j = (∑ l ∈ S, m l) * c j) (hR : 0 < R) (hR2 : R * R = D2 d e y c) (hr : ∀ l ∈ S, 0 < r l ∧ r l * r l = D2 d e y (z l))
    (h0 : 0 ≤ κ) (h1 : κ < 1) (hz : ∀ l ∈ S, ∑ j ∈ Finset.range d, (z l j - c j) ^ 2 ≤ (κ * R) ^ 2) :
    |∑ l ∈ S, m l / r l - (∑ l ∈ S, m l) / R| ≤ κ ^ 2 / (1 - κ) * ((∑ l ∈ S, m l) / R) := by
  have := monopole_error_at he hm (dip_zero hc) hR hR2 hr h0 h1 hz
  rwa [mul_zero, add_zero] at this

/-- The constant of the error of the acceleration. -/
def accErr (κ : K) : K := κ ^ 2 * (2 * (1 / (1 - κ)) ^ 3 + 3 * (1 / (1 - κ)) ^ 2 + 4 * (1 / (1 - κ)))

/-- The remainder of one component (`u` of the distance, `v` of the displacement) of the acceleration due to one body. Lengths are relative to the distance of the centre of mass. -/
theorem rem_acc {t p q κ u v : K} (ht : 0 < t) (h : t * t = 1 + 2 * q + p) (hq : q ^ 2 ≤ p) (h0 : 0 ≤ κ) (h1 : κ < 1) (hp : p ≤ κ ^ 2)
    (hu : |u| ≤ 1) (hv : |v| ≤ κ) : |(u + v) / t ^ 3 - u - v + 3 * q * u| ≤ accErr κ := by
  have hd : (t - 1) ^ 2 ≤ p := len_diff one_pos ht (q := q) (by linarith) (by linarith)
  have hp0 : 0 ≤ p := le_trans (sq_nonneg _) hd
  have hk : 0 < 1 - κ := by linarith
  have ht1 : |t - 1| ≤ κ := by
    rw [← abs_of_nonneg h0]
    exact sq_le_sq.1 (hd.trans hp)
  have htk : 1 - κ ≤ t := by have := (abs_le.1 ht1).1; linarith
  have hba : 1 / t ≤ 1 / (1 - κ) := one_div_le_one_div_of_le hk htk
  have hb0 : 0 < 1 / t := by positivity
  have hbt : 1 / t * t = 1 := by field_simp
  have hdiv : (u + v) / t ^ 3 = (u + v) * (1 / t) ^ 3 := by field_simp
  have e1 : (1 / t) ^ 3 - 1 = (1 - t) * ((1 / t) ^ 3 + (1 / t) ^ 2 + 1 / t) := by
    field_simp
    ring
  have e2 : (1 / t) ^ 3 - 1 + 3 * q = (t - 1) ^ 2 * (3 / 2 + 3 * (1 / t) + 2 * (1 / t) ^ 2 + (1 / t) ^ 3) - 3 / 2 * p := by
    have hq2 : q = (t * t - 1 - p) / 2 := by linarith
    rw [hq2]
    field_simp
    ring
  rw [hdiv]
  unfold accErr
  have ha1 : 1 ≤ 1 / (1 - κ) := by rw [le_div_iff₀ hk]; linarith
  generalize 1 / (1 - κ) = a at *
  generalize 1 / t = b at *
  have ha0 : 0 < a := hb0.trans_le hba
  have hb2 : b ^ 2 ≤ a ^ 2 := pow_le_pow_left₀ hb0.le hba 2
  have hb3 : b ^ 3 ≤ a ^ 3 := pow_le_pow_left₀ hb0.le hba 3
  have f1 : |b ^ 3 - 1| ≤ κ * (a ^ 3 + a ^ 2 + a) := by
    rw [e1, abs_mul, abs_sub_comm, abs_of_nonneg (show 0 ≤ b ^ 3 + b ^ 2 + b by positivity)]
    exact mul_le_mul ht1 (by linarith) (by positivity) h0
  have f2 : |b ^ 3 - 1 + 3 * q| ≤ κ ^ 2 * (3 * a + 2 * a ^ 2 + a ^ 3) := by
    rw [e2, abs_le]
    constructor
    · have : 0 ≤ (t - 1) ^ 2 * (3 / 2 + 3 * b + 2 * b ^ 2 + b ^ 3) := by positivity
      have : 3 / 2 * κ ^ 2 ≤ κ ^ 2 * (3 * a + 2 * a ^ 2 + a ^ 3) := by
        rw [mul_comm]
        apply mul_le_mul_of_nonneg_left _ (sq_nonneg κ)
        have : 0 < 2 * a ^ 2 + a ^ 3 := by positivity
        linarith
      linarith
    · have g1 : (t - 1) ^ 2 * (3 / 2 + 3 * b + 2 * b ^ 2 + b ^ 3) ≤ p * (3 / 2 + 3 * b + 2 * b ^ 2 + b ^ 3) := by gcongr
      have g2 : p * (3 * b + 2 * b ^ 2 + b ^ 3) ≤ κ ^ 2 * (3 * a + 2 * a ^ 2 + a ^ 3) := by gcongr
      linarith
  have e3 : (u + v) * b ^ 3 - u - v + 3 * q * u = v * (b ^ 3 - 1) + u * (b ^ 3 - 1 + 3 * q) := by ring
  rw [e3]
  calc |v * (b ^ 3 - 1) + u * (b ^ 3 - 1 + 3 * q)| ≤ |v * (b ^ 3 - 1)| + |u * (b ^ 3 - 1 + 3 * q)| := abs_add_le _ _
    _ ≤ κ * (κ * (a ^ 3 + a ^ 2 + a)) + 1 * (κ ^ 2 * (3 * a + 2 * a ^ 2 + a ^ 3)) := by
      rw [abs_mul, abs_mul]
      gcongr
    _ = _ := by ring

/-- The acceleration due to bodies `l ∈ S`, and that due to their mass at a point `c` which is their centre of mass up to `δ R`: each component differs by at most `accErr κ + (3 d + 1) δ` times the magnitude `M / R²`. -/
theorem monopole_acc_at {S : Finset Nat} {d : Nat} {e κ δ R : K} {y c : Nat → K} {z : Nat → Nat → K} {m r : Nat → K} (he : 0 ≤ e) (hm : ∀ l ∈ S, 0 ≤ m l)
    (hc : ∀ j < d, |∑ l ∈ S, m l * (z l j - c j)| ≤ δ * R * ∑ l ∈ S, m l) (hR : 0 < R) (hR2 : R * R = D2 d e y c) (hr : ∀ l ∈ S, 0 < r l ∧ r l * r l = D2 d e y (z l))
    (h0 : 0 ≤ κ) (h1 : κ < 1) (hz : ∀ l ∈ S, ∑ j ∈ Finset.range d, (z l j - c j) ^ 2 ≤ (κ * R) ^ 2) {j : Nat} (hj : j < d) :
    |∑ l ∈ S, m l * (z l j - y j) / r l ^ 3 - (∑ l ∈ S, m l) * (c j - y j) / R ^ 3| ≤ (accErr κ + (3 * d + 1) * δ) * ((∑ l ∈ S, m l) / R ^ 2) := by
  have hne := hR.ne'
  set Q : Nat → K := fun l => ∑ j ∈ Finset.range d, (c j - y j) * (z l j - c j) with hQ
  have hdip : |∑ l ∈ S, m l * Q l| ≤ d * δ * R ^ 2 * ∑ l ∈ S, m l := dipole_le he hc hR hR2
  have hone : ∀ l ∈ S, |(z l j - y j) / r l ^ 3 - (c j - y j) / R ^ 3 - (z l j - c j) / R ^ 3 + 3 * Q l * (c j - y j) / R ^ 5| ≤ accErr κ / R ^ 2 := by
    intro l hl
    obtain ⟨r0, r1⟩ := hr l hl
    have hr0 := r0.ne'
    have hu2 : (c j - y j) ^ 2 ≤ R ^ 2 := by
      have := Finset.single_le_sum (f := fun j => (c j - y j) ^ 2) (fun j _ => sq_nonneg _) (Finset.mem_range.2 hj)
      have h2 : R ^ 2 = ∑ j ∈ Finset.range d, (c j - y j) ^ 2 + e := by rw [sq, hR2]; rfl
      rw [h2]; linarith
    have hv2 : (z l j - c j) ^ 2 ≤ (κ * R) ^ 2 :=
      (Finset.single_le_sum (f := fun j => (z l j - c j) ^ 2) (fun j _ => sq_nonneg _) (Finset.mem_range.2 hj)).trans (hz l hl)
    have hu : |c j - y j| ≤ R := by rw [← abs_of_pos hR]; exact sq_le_sq.1 hu2
    have hv : |z l j - c j| ≤ κ * R := by rw [← abs_of_nonneg (show 0 ≤ κ * R by positivity)]; exact sq_le_sq.1 hv2
    have hCS : Q l ^ 2 ≤ R * R * ∑ j ∈ Finset.range d, (z l j - c j) ^ 2 := by
      refine (Finset.sum_mul_sq_le_sq_mul_sq (Finset.range d) (fun j => c j - y j) (fun j => z l j - c j)).trans ?_
      apply mul_le_mul_of_nonneg_right _ (Finset.sum_nonneg (fun j _ => sq_nonneg _))
      rw [hR2]
      unfold D2
      linarith
    have hrr : r l * r l = R * R + 2 * Q l + ∑ j ∈ Finset.range d, (z l j - c j) ^ 2 := by
      rw [r1, hR2]
      unfold D2
      have : ∀ j ∈ Finset.range d, (z l j - y j) ^ 2 = (c j - y j) ^ 2 + 2 * ((c j - y j) * (z l j - c j)) + (z l j - c j) ^ 2 := fun j _ => by ring
      rw [Finset.sum_congr rfl this, Finset.sum_add_distrib, Finset.sum_add_distrib, ← Finset.mul_sum]
      ring
    have hp := hz l hl
    generalize ∑ j ∈ Finset.range d, (z l j - c j) ^ 2 = p at hCS hrr hp
    generalize Q l = q at hCS hrr
    have key := rem_acc (t := r l / R) (p := p / R ^ 2) (q := q / R ^ 2) (u := (c j - y j) / R) (v := (z l j - c j) / R) (κ := κ) (by positivity)
      (by field_simp; linarith) (by
        rw [div_pow, div_le_div_iff₀ (by positivity) (by positivity)]
        have : 0 < R ^ 2 := by positivity
        nlinarith) h0 h1 (by rw [div_le_iff₀ (by positivity)]; rw [mul_pow] at hp; exact hp)
      (by rw [abs_div, abs_of_pos hR, div_le_one hR]; exact hu)
      (by rw [abs_div, abs_of_pos hR, div_le_iff₀ hR]; exact hv)
    have e1 : (z l j - y j) / r l ^ 3 - (c j - y j) / R ^ 3 - (z l j - c j) / R ^ 3 + 3 * q * (c j - y j) / R ^ 5 =
        (((c j - y j) / R + (z l j - c j) / R) / (r l / R) ^ 3 - (c j - y j) / R - (z l j - c j) / R + 3 * (q / R ^ 2) * ((c j - y j) / R)) / R ^ 2 := by
      field_simp
      ring
    rw [e1, abs_div, abs_of_pos (show 0 < R ^ 2 by positivity)]
    gcongr
  have hsum : ∑ l ∈ S, m l * (z l j - y j) / r l ^ 3 - (∑ l ∈ S, m l) * (c j - y j) / R ^ 3 =
      ∑ l ∈ S, m l * ((z l j - y j) / r l ^ 3 - (c j - y j) / R ^ 3 - (z l j - c j) / R ^ 3 + 3 * Q l * (c j - y j) / R ^ 5) +
        ((∑ l ∈ S, m l * (z l j - c j)) / R ^ 3 - (∑ l ∈ S, m l * Q l) * (3 * (c j - y j) / R ^ 5)) := by
    have : ∀ l ∈ S, m l * ((z l j - y j) / r l ^ 3 - (c j - y j) / R ^ 3 - (z l j - c j) / R ^ 3 + 3 * Q l * (c j - y j) / R ^ 5) =
        m l * (z l j - y j) / r l ^ 3 - m l * ((c j - y j) / R ^ 3) - m l * (z l j - c j) / R ^ 3 + m l * Q l * (3 * (c j - y j) / R ^ 5) := fun l _ => by ring
    rw [Finset.sum_congr rfl this, Finset.sum_add_distrib, Finset.sum_sub_distrib, Finset.sum_sub_distrib, ← Finset.sum_mul, ← Finset.sum_mul, ← Finset.sum_div]
    ring
  have hu : |c j - y j| ≤ R := by
    rw [← abs_of_pos hR]
    apply sq_le_sq.1
    have := Finset.single_le_sum (f := fun j => (c j - y j) ^ 2) (fun j _ => sq_nonneg _) (Finset.mem_range.2 hj)
    have h2 : R ^ 2 = ∑ j ∈ Finset.range d, (c j - y j) ^ 2 + e := by rw [sq, hR2]; rfl
    rw [h2]; linarith
  rw [hsum, add_mul]
  refine (abs_add_le _ _).trans (add_le_add ?_ ?_)
  · calc _ ≤ ∑ l ∈ S, |m l * ((z l j - y j) / r l ^ 3 - (c j - y j) / R ^ 3 - (z l j - c j) / R ^ 3 + 3 * Q l * (c j - y j) / R ^ 5)| := Finset.abs_sum_le_sum_abs _ _
      _ ≤ ∑ l ∈ S, m l * (accErr κ / R ^ 2) := by
        apply Finset.sum_le_sum
        intro l hl
        rw [abs_mul, abs_of_nonneg (hm l hl)]
        exact mul_le_mul_of_nonneg_left (hone l hl) (hm l hl)
      _ = _ := by rw [← Finset.sum_mul]; ring
  · refine (abs_sub _ _).trans ?_
    have e1 : |(∑ l ∈ S, m l * (z l j - c j)) / R ^ 3| ≤ δ * R * (∑ l ∈ S, m l) / R ^ 3 := by
      rw [abs_div, abs_of_pos (show 0 < R ^ 3 by positivity)]
      exact div_le_div_of_nonneg_right (hc j hj) (by positivity)
    have e2 : |(∑ l ∈ S, m l * Q l) * (3 * (c j - y j) / R ^ 5)| ≤ d * δ * R ^ 2 * (∑ l ∈ S, m l) * (3 * R / R ^ 5) := by
      rw [abs_mul]
      refine mul_le_mul hdip ?_ (abs_nonneg _) ((abs_nonneg _).trans hdip)
      rw [abs_div, abs_mul, abs_of_pos (show 0 < R ^ 5 by positivity), abs_of_pos (show (0 : K) < 3 by norm_num)]
      exact div_le_div_of_nonneg_right (by linarith) (by positivity)
    refine (add_le_add e1 e2).trans (le_of_eq ?_)
    field_simp
    ring

/-- The acceleration due to bodies `l ∈ S`, and that due to their mass at their centre of mass: each component differs by at most `accErr κ` times the magnitude `M / R²`. -/
theorem monopole_acc {S : Finset Nat} {d : Nat} {e κ R : K} {y c : Nat → K} {z : Nat → Nat → K} {m r : Nat → K} (he : 0 ≤ e) (hm : ∀ l ∈ S, 0 ≤ m l)
    (hc : ∀ j < d, ∑ l ∈ S, m l * z l j = (∑ l ∈ S, m l) * c j) (hR : 0 < R) (hR2 : R * R = D2 d e y c) (hr : ∀ l ∈ S, 0 < r l ∧ r l * r l = D2 d e y (z l))
    (h0 : 0 ≤ κ) (h1 : κ < 1) (hz : ∀ l ∈ S, ∑ j ∈ Finset.range d, (z l j - c j) ^ 2 ≤ (κ * R) ^ 2) {j : Nat} (hj : j < d) :
    |∑ l ∈ S, m l * (z l j - y j) / r l ^ 3 - (∑ l ∈ S, m l) * (c j - y j) / R ^ 3| ≤ accErr κ * ((∑ l ∈ S, m l) / R ^ 2) := by
  have := monopole_acc_at he hm (dip_zero hc) hR hR2 hr h0 h1 hz hj
  rwa [mul_zero, add_zero] at this

/-- The distance of a body is at most `1 + κ` times that of the centre of mass. -/
theorem len_le {d : Nat} {e κ R r : K} {y c z : Nat → K} (he : 0 ≤ e) (hR : 0 < R) (hR2 : R * R = D2 d e y c) (hr : 0 < r) (hr2 : r * r = D2 d e y z) (h0 : 0 ≤ κ)
    (hz : ∑ j ∈ Finset.range d, (z j - c j) ^ 2 ≤ (κ * R) ^ 2) : r ≤ (1 + κ) * R := by
  have hd : (r - R) ^ 2 ≤ ∑ j ∈ Finset.range d, (z j - c j) ^ 2 := by
    refine len_diff hR hr (q := ∑ j ∈ Finset.range d, (c j - y j) * (z j - c j)) ?_ ?_
    · rw [hr2, hR2]
      unfold D2
      have : ∀ j ∈ Finset.range d, (z j - y j) ^ 2 = (c j - y j) ^ 2 + 2 * ((c j - y j) * (z j - c j)) + (z j - c j) ^ 2 := fun j _ => by ring
      rw [Finset.sum_congr rfl this, Finset.sum_add_distrib, Finset.sum_add_distrib, ← Finset.mul_sum]
      ring
    · refine (Finset.sum_mul_sq_le_sq_mul_sq (Finset.range d) (fun j => c j - y j) (fun j => z j - c j)).trans ?_
      apply mul_le_mul_of_nonneg_right _ (Finset.sum_nonneg (fun j _ => sq_nonneg _))
      rw [hR2]
      unfold D2
      linarith
  have h3 : |r - R| ≤ κ * R := by
    rw [← abs_of_nonneg (show 0 ≤ κ * R by positivity)]
    exact sq_le_sq.1 (hd.trans hz)
  have := (abs_le.1 h3).2
  linarith

end Rakau
