import Verif.Proof.ErrKernel
import Mathlib.Tactic.LinearCombination

/-! Rounding errors of the fast inverse square root: one Newton step from an estimate. -/
namespace Rakau

variable {A : Arith ℚ} {u η lo hi : ℝ}

/-- A number within `m u` of 1 is at most `m + 1` relative errors away from 1. -/
theorem Near.of_abs (h0 : 0 ≤ u) (h1 : u < 1) {m : Nat} (hm : m * (m + 1) * u ≤ 1) {a b : ℝ} (ha : 0 < a) (h : |b - a| ≤ m * u * a) : Near u (m + 1) a b := by
  have hp : 0 < (1 - u) ^ (m + 1) := pow_pos (by linarith) _
  have hb : (1 + ((m + 1 : ℕ) : ℝ) * u) * (1 - u) ^ (m + 1) ≤ 1 := by
    have e1 : 1 + ((m + 1 : ℕ) : ℝ) * u ≤ (1 + u) ^ (m + 1) := one_add_mul_le_pow (by linarith) _
    have e2 : (1 + u) ^ (m + 1) * (1 - u) ^ (m + 1) ≤ 1 := by
      rw [← mul_pow]
      exact pow_le_one₀ (by nlinarith) (by nlinarith)
    exact (mul_le_mul_of_nonneg_right e1 hp.le).trans e2
  push_cast at hb
  have hmu : 0 ≤ (m : ℝ) * u := by positivity
  rw [_root_.abs_le] at h
  have t1 : 1 - m * u ≤ b / a := by rw [le_div_iff₀ ha]; linarith
  have t2 : b / a ≤ 1 + m * u := by rw [div_le_iff₀ ha]; linarith
  refine ⟨b / a, by field_simp, ?_, ?_⟩
  · have e3 : 1 ≤ (1 + (m + 1) * u) * (1 - m * u) := by nlinarith
    have e4 : 0 < 1 + ((m : ℝ) + 1) * u := by positivity
    have : (1 + ((m : ℝ) + 1) * u) * (1 - u) ^ (m + 1) ≤ (1 + (m + 1) * u) * (1 - m * u) := hb.trans e3
    exact (le_of_mul_le_mul_left this e4).trans t1
  · have : b / a * (1 - u) ^ (m + 1) ≤ (1 + (m + 1) * u) * (1 - u) ^ (m + 1) := mul_le_mul_of_nonneg_right (by linarith) hp.le
    exact this.trans hb

/-- `y` is an estimate of `1 / √q` with relative error at most `ε`. -/
def Estimate (ε : ℝ) (q y : ℚ) : Prop := |(y : ℝ) * √(q : ℝ) - 1| ≤ ε

/-- One relative error. -/
theorem Near.one (u0 : 0 ≤ u) (u1 : u ≤ 1 / 1024) {a b : ℝ} (h : Near u 1 a b) (ha : 0 < a) :
    0 < b ∧ a * (1023 / 1024) ≤ b ∧ b * (1023 / 1024) ≤ a ∧ |b - a| ≤ 501 / 500 * u * a := by
  obtain ⟨t, e, g1, g2⟩ := h
  rw [pow_one] at g1 g2
  have gt : 0 < t := by linarith
  have ht2 : t ≤ 1 + 501 / 500 * u := by nlinarith
  refine ⟨by rw [e]; positivity, by rw [e]; nlinarith, by rw [e]; nlinarith, ?_⟩
  rw [show b - a = (t - 1) * a by rw [e]; ring, abs_mul, abs_of_pos ha]
  apply mul_le_mul_of_nonneg_right _ ha.le
  rw [_root_.abs_le]
  constructor <;> linarith

/-- Multiples of the estimate are in range. -/
theorem est_range {y s t : ℝ} (hs : 0 < s) (hys : y * s = 1 + t) (ht1 : -(1 / 64) ≤ t) (ht2 : t ≤ 1 / 64) (h2 : 8 * (lo * s) ≤ 1) (h4 : 8 ≤ hi * s) {c : ℝ}
    (c1 : 1 / 4 ≤ c) (c2 : c ≤ 4) : lo ≤ y * c ∧ y * c ≤ hi := by
  have e : y * c * s = (1 + t) * c := by rw [← hys]; ring
  constructor
  · apply le_of_mul_le_mul_right _ hs
    rw [e]
    nlinarith
  · apply le_of_mul_le_mul_right _ hs
    rw [e]
    nlinarith

/-- The difference `3 - q y²`, computed from the computed `q y`. -/
theorem three_minus {t w p T : ℝ} (u0 : 0 ≤ u) (u1 : u ≤ 1 / 1024) (hη : η ≤ u / 16) (ht1 : -(1 / 64) ≤ t) (ht2 : t ≤ 1 / 64)
    (hw : |w - (1 + t) ^ 2| ≤ 501 / 500 * u * (1 + t) ^ 2) (T1 : |p - -w| ≤ u * w + η) (T2 : |T - (3 + p)| ≤ u * |3 + p| + η) :
    |T - (3 - (1 + t) ^ 2)| ≤ 5 * u := by
  have hsq : (1 + t) ^ 2 ≤ 1032 / 1000 := by nlinarith
  have hsq0 : 96 / 100 ≤ (1 + t) ^ 2 := by nlinarith
  generalize (1 + t) ^ 2 = v at *
  have hw' := _root_.abs_le.1 hw
  have hws : 501 / 500 * u * v ≤ 10341 / 10000 * u := by nlinarith
  have hw2 : w ≤ 1034 / 1000 := by linarith
  have hw3 : 95 / 100 ≤ w := by linarith
  have T1' := _root_.abs_le.1 T1
  have huw : u * w ≤ 1034 / 1000 * u := by nlinarith
  have hp : |3 + p| ≤ 21 / 10 := by
    rw [_root_.abs_le]
    constructor <;> linarith
  have hup : u * |3 + p| ≤ 21 / 10 * u := by nlinarith
  have T2' := _root_.abs_le.1 T2
  rw [_root_.abs_le]
  constructor <;> linarith

/-- The error of the step, with an error in the difference. -/
theorem step_error {t T ε : ℝ} (u0 : 0 ≤ u) (he : |t| ≤ ε) (ht1 : -(1 / 64) ≤ t) (ht2 : t ≤ 1 / 64) (hE : |T - (3 - (1 + t) ^ 2)| ≤ 5 * u) :
    |(1 + t) * (1 / 2) * T - 1| ≤ 2 * ε ^ 2 + 3 * u := by
  have e2 : (1 + t) * (1 / 2) * T - 1 = -(3 / 2 * t ^ 2 + 1 / 2 * (t ^ 2 * t)) + (1 + t) * (1 / 2) * (T - (3 - (1 + t) ^ 2)) := by ring
  have tt : t ^ 2 ≤ ε ^ 2 := by rw [← sq_abs]; exact pow_le_pow_left₀ (abs_nonneg _) he 2
  have t0 := sq_nonneg t
  rw [e2]
  generalize T - (3 - (1 + t) ^ 2) = E at *
  have hE' := _root_.abs_le.1 hE
  rw [_root_.abs_le]
  have a1 : -(t ^ 2) ≤ t ^ 2 * t := by nlinarith
  have a2 : t ^ 2 * t ≤ t ^ 2 := by nlinarith
  have a3 : (1 + t) * (1 / 2) * E ≤ 3 * u := by nlinarith
  have a4 : -(3 * u) ≤ (1 + t) * (1 / 2) * E := by nlinarith
  constructor <;> linarith

theorem step_range {t T c : ℝ} (u0 : 0 ≤ u) (u1 : u ≤ 1 / 1024) (ht1 : -(1 / 64) ≤ t) (ht2 : t ≤ 1 / 64) (hE : |T - (3 - (1 + t) ^ 2)| ≤ 5 * u)
    (c0 : 0 < c) (c1 : (1 - u) ^ 2 ≤ c) (c2 : c * (1 - u) ^ 2 ≤ 1) : 0 < T ∧ 1 / 4 ≤ 1 / 2 * (c * T) ∧ 1 / 2 * (c * T) ≤ 4 := by
  have hsq : (1 + t) ^ 2 ≤ 1032 / 1000 := by nlinarith
  have hsq0 : 96 / 100 ≤ (1 + t) ^ 2 := by nlinarith
  obtain ⟨E1, E2⟩ := _root_.abs_le.1 hE
  have hT1 : 19 / 10 ≤ T := by linarith
  have hT2 : T ≤ 21 / 10 := by linarith
  have hsq1 : 99 / 100 ≤ (1 - u) ^ 2 := by nlinarith
  have hc1 : 99 / 100 ≤ c := by linarith
  have hc2 : c ≤ 102 / 100 := by nlinarith
  refine ⟨by linarith, ?_, ?_⟩
  · have := mul_le_mul hc1 hT1 (by norm_num) c0.le
    linarith
  · have := mul_le_mul hc2 hT2 (by linarith) (by norm_num)
    linarith

/-- One step of the iteration in floating-point arithmetic: three relative errors, and a result of the step itself that is within `2 ε² + 3 u` of the inverse square root. -/
theorem newton_step (F : FlModel A u η lo hi) {q y : ℚ} {ε : ℝ} (he : Estimate ε q y) (hε : ε ≤ 1 / 64) (hq : 0 < q)
    (h1 : 8 * lo ≤ √(q : ℝ)) (h2 : 8 * (lo * √(q : ℝ)) ≤ 1) (h3 : 8 * √(q : ℝ) ≤ hi) (h4 : 8 ≤ hi * √(q : ℝ)) (h5 : 16 * lo ≤ 1) (h6 : 8 ≤ hi)
    {e : Fl ℚ → Fl ℚ} (hy : e (.fin q) = .fin y) :
    ∃ (r : ℚ) (z : ℝ), invSqrt A e (.fin q) = .fin r ∧ Near u 3 z r ∧ |z - (√(q : ℝ))⁻¹| ≤ (2 * ε ^ 2 + 3 * u) * (√(q : ℝ))⁻¹ := by
  have u0 := F.u0
  have u1 := F.u1
  have lo0 := F.lo0
  have hq' : (0 : ℝ) < q := by exact_mod_cast hq
  have hs : 0 < √(q : ℝ) := Real.sqrt_pos.2 hq'
  have hss : √(q : ℝ) * √(q : ℝ) = q := Real.mul_self_sqrt hq'.le
  unfold Estimate at he
  generalize √(q : ℝ) = s at *
  have ht : |(y : ℝ) * s - 1| ≤ 1 / 64 := he.trans hε
  obtain ⟨ht1, ht2⟩ := _root_.abs_le.1 ht
  obtain ⟨t, hys⟩ : ∃ t, (y : ℝ) * s = 1 + t := ⟨y * s - 1, by ring⟩
  rw [hys, add_sub_cancel_left] at he ht1 ht2
  clear ht
  have hη : η ≤ u / 16 := F.ηlo.trans (by nlinarith)
  have hl1 := F.lt1
  have hy0 : (0 : ℝ) < y := by
    by_contra hc
    have := mul_nonpos_of_nonpos_of_nonneg (not_lt.1 hc) hs.le
    linarith
  obtain ⟨hf, hfe, hfn⟩ := F.div (a := 1) (b := 2) (by norm_num) (.inr (by push_cast; rw [abs_of_pos (by norm_num)]; linarith)) (by push_cast; rw [abs_of_pos (by norm_num)]; linarith)
  push_cast at hfn
  obtain ⟨hf0, f1, f2, _⟩ := hfn.one u0 u1 (by norm_num)
  obtain ⟨ry1, ry2⟩ := est_range hs hys ht1 ht2 h2 h4 (c := hf) (by linarith) (by linarith)
  obtain ⟨hy2, hye, hyn⟩ := F.mul (a := y) (b := hf) (.inr (by rw [abs_of_pos (by positivity)]; exact ry1)) (by rw [abs_of_pos (by positivity)]; exact ry2)
  have hyn' : Near u 2 ((y : ℝ) * (1 / 2)) hy2 := ((Near.refl u0 hl1 0 (y : ℝ)).mul hl1 hfn).trans hl1 hyn
  have hqy : (q : ℝ) * y = s * (1 + t) := by rw [← hss, ← hys]; ring
  have hqy0 : 0 < (q : ℝ) * y := by positivity
  obtain ⟨xy, xe, xn⟩ := F.mul (a := q) (b := y) (.inr (by rw [abs_of_pos hqy0, hqy]; nlinarith)) (by rw [abs_of_pos hqy0, hqy]; nlinarith)
  obtain ⟨hxy0, x1, x2, x3⟩ := xn.one u0 u1 hqy0
  have hw : |(xy : ℝ) * y - (1 + t) ^ 2| ≤ 501 / 500 * u * (1 + t) ^ 2 := by
    have e1 : (xy : ℝ) * y - (1 + t) ^ 2 = (xy - q * y) * y := by rw [← hys, ← hss]; ring
    have e2 : (1 + t) ^ 2 = q * y * y := by rw [← hys, ← hss]; ring
    rw [e1, abs_mul, abs_of_pos hy0, e2]
    calc |(xy : ℝ) - q * y| * y ≤ (501 / 500 * u * (q * y)) * y := mul_le_mul_of_nonneg_right x3 hy0.le
      _ = 501 / 500 * u * (q * y * y) := by ring
  have hw0 : 0 < (xy : ℝ) * y := by positivity
  have hw2 : (xy : ℝ) * y ≤ 11 / 10 := by
    have : (1 + t) ^ 2 ≤ 1032 / 1000 := by nlinarith
    have := (_root_.abs_le.1 hw).2
    nlinarith
  have hneg : (((-xy : ℚ) : ℝ)) * y = -(xy * y) := by push_cast; ring
  have hη2 : η ≤ 1 := by linarith
  obtain ⟨T, p, Te, T1, T2⟩ := F.fma (t := -xy) (g := y) (a := 3) (by rw [hneg, abs_neg, abs_of_pos hw0]; linarith) (by
    rw [hneg, abs_neg, abs_of_pos hw0]; push_cast; rw [abs_of_pos (by norm_num)]; nlinarith)
  rw [hneg, abs_neg, abs_of_pos hw0] at T1
  push_cast at T2
  have hE := three_minus u0 u1 hη ht1 ht2 hw T1 T2
  obtain ⟨c, hc, c0, c1, c2⟩ := hyn'.factor hl1
  obtain ⟨hT0, g1, g2⟩ := step_range u0 u1 ht1 ht2 hE c0 c1 c2
  have hpr : (hy2 : ℝ) * T = y * (1 / 2 * (c * T)) := by rw [hc]; ring
  obtain ⟨rT1, rT2⟩ := est_range hs hys ht1 ht2 h2 h4 g1 g2
  have hp0 : 0 < (hy2 : ℝ) * T := by rw [hpr]; positivity
  obtain ⟨r, re, rn⟩ := F.mul (a := hy2) (b := T) (.inr (by rw [abs_of_pos hp0, hpr]; exact rT1)) (by rw [abs_of_pos hp0, hpr]; exact rT2)
  refine ⟨r, (y : ℝ) * (1 / 2) * T, ?_, ?_, ?_⟩
  · unfold invSqrt
    simp only [hy, hfe, hye, xe]
    show A.mul (.fin hy2) (A.fma (.fin (-xy)) (.fin y) (.fin 3)) = _
    rw [Te, re]
  · exact (hyn'.mul hl1 (Near.refl u0 hl1 0 (T : ℝ))).trans hl1 rn
  · have e1 : (y : ℝ) * (1 / 2) * T - s⁻¹ = ((1 + t) * (1 / 2) * T - 1) * s⁻¹ := by
      rw [← hys]; field_simp
    rw [e1, abs_mul, abs_of_pos (inv_pos.2 hs)]
    exact mul_le_mul_of_nonneg_right (step_error u0 he ht1 ht2 hE) (inv_pos.2 hs).le

/-- The accuracy of the fast inverse square root from that of the estimate. -/
theorem fast_of_estimate (F : FlModel A u η lo hi) {b ε : ℝ} (hb : 1 ≤ b) (hlo : 16 * lo * b ^ 4 ≤ 1) (hhi : 16 * b ^ 4 ≤ hi) {m : Nat} (hε : ε ≤ 1 / 64)
    (hm : 2 * ε ^ 2 + 3 * u ≤ m * u) (hm2 : m * (m + 1) * u ≤ 1) {e : Fl ℚ → Fl ℚ}
    (he : ∀ q : ℚ, 1 ≤ 2 * b ^ 2 * (q : ℝ) → (q : ℝ) ≤ 2 * b ^ 2 → ∃ y, e (.fin q) = .fin y ∧ Estimate ε q y) : FastOk A u b (m + 4) e := by
  intro q h1 h2
  obtain ⟨y, hy, hey⟩ := he q h1 h2
  have lo0 := F.lo0
  have hb2 : 1 ≤ b ^ 2 := one_le_pow₀ hb
  have hb4 : b ^ 2 ≤ b ^ 4 := by nlinarith
  have hq : (0 : ℝ) < q := by
    by_contra hc
    nlinarith
  have hs : 0 < √(q : ℝ) := Real.sqrt_pos.2 hq
  have hss : √(q : ℝ) * √(q : ℝ) = q := Real.mul_self_sqrt hq.le
  have s1 : √(q : ℝ) ≤ 2 * b := by
    apply Real.sqrt_le_iff.2
    exact ⟨by linarith, by nlinarith⟩
  have s2 : 1 ≤ 2 * b * √(q : ℝ) := by
    by_contra hc
    push Not at hc
    have : (2 * b * √(q : ℝ)) * (2 * b * √(q : ℝ)) < 1 := by
      have : 0 ≤ 2 * b * √(q : ℝ) := by positivity
      nlinarith
    have e : (2 * b * √(q : ℝ)) * (2 * b * √(q : ℝ)) = 4 * b ^ 2 * q := by linear_combination 4 * b ^ 2 * hss
    nlinarith
  have hbb : b ≤ b ^ 2 := by nlinarith
  have hlb : 16 * (lo * b) ≤ 1 := by
    have : lo * b ≤ lo * b ^ 4 := mul_le_mul_of_nonneg_left (by linarith) lo0.le
    linarith
  have hl2 : 16 * (lo * b) * b ≤ 1 := by
    have : lo * b ^ 2 ≤ lo * b ^ 4 := mul_le_mul_of_nonneg_left hb4 lo0.le
    nlinarith
  have hh : 16 * b ≤ hi := by linarith
  obtain ⟨r, z, hr, hn, hz⟩ := newton_step F hey hε (by exact_mod_cast hq)
    (by
      have : 8 * lo * (2 * b) ≤ 1 := by linarith
      apply le_of_mul_le_mul_right _ (show 0 < 2 * b by linarith)
      linarith)
    (by nlinarith) (by nlinarith) (by nlinarith) (by nlinarith) (by linarith) hy
  refine ⟨r, hr, ?_⟩
  have := Near.of_abs F.u0 F.lt1 hm2 (inv_pos.2 hs) (hz.trans (mul_le_mul_of_nonneg_right hm (inv_pos.2 hs).le))
  exact Near.trans (k := m + 1) (l := 3) F.lt1 this hn

end Rakau
