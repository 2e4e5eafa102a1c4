import Verif.Proof.Fast
import Verif.Proof.Force
import Verif.Props.Disc
import Mathlib.Tactic.NormNum
import Mathlib.Tactic.Positivity
import Mathlib.Tactic.LinearCombination
import Mathlib.Tactic.Linarith

/-! Property theorems about the Newton iteration for the inverse square root (C46). -/
namespace Rakau

variable {K : Type} [Field K] [LinearOrder K] [IsStrictOrderedRing K]

/-- C46: let `r` be the inverse square root of `x`, and `r (1 + t)` the estimate `e x` that the iteration starts from. In exact arithmetic
the relative error of the result is `-(3/2 t² + 1/2 t³)`; it is at most `3/2 t² + 1/2 |t|³` in absolute value, and the result does not exceed `r`,
unless the estimate is below `-2 r`. -/
theorem C46_newton {A : Arith K} (hA : A.Exact) {e : Fl K → Fl K} {x r t : K} (hr : 0 < r) (hx : x * r ^ 2 = 1)
    (he : e (.fin x) = .fin (r * (1 + t))) :
    ∃ y, invSqrt A e (.fin x) = .fin y ∧ y - r = r * (-(3 / 2 * t ^ 2 + 1 / 2 * t ^ 3)) ∧
      |y - r| ≤ r * (3 / 2 * |t| ^ 2 + 1 / 2 * |t| ^ 3) ∧ (-(2 * r) ≤ r * (1 + t) → y ≤ r) := by
  refine ⟨_, invSqrt_eq hA two_ne_zero e he, ?_⟩
  have hy : newton x (r * (1 + t)) - r = r * (-(3 / 2 * t ^ 2 + 1 / 2 * t ^ 3)) := by
    unfold newton
    linear_combination (-(r * (1 + t) ^ 3) / 2) * hx
  refine ⟨hy, ?_, ?_⟩
  · rw [hy, abs_mul, abs_of_pos hr, abs_neg]
    apply mul_le_mul_of_nonneg_left _ hr.le
    refine (abs_add_le _ _).trans (le_of_eq ?_)
    rw [abs_mul, abs_mul, abs_pow, abs_pow, abs_of_pos (by norm_num : (0 : K) < 3 / 2), abs_of_pos (by norm_num : (0 : K) < 1 / 2)]
  · intro h
    have h3 : 0 ≤ 3 + t := by
      by_contra hc
      have : r * (3 + t) < 0 := mul_neg_of_pos_of_neg hr (not_le.1 hc)
      linarith [this, h, mul_add r 1 t, mul_add r 3 t]
    have h4 : 0 ≤ r * (t ^ 2 * (3 + t)) := mul_nonneg hr.le (mul_nonneg (sq_nonneg t) h3)
    have h5 : newton x (r * (1 + t)) - r = -(1 / 2) * (r * (t ^ 2 * (3 + t))) := by rw [hy]; ring
    linarith

example : ∃ y : ℚ, invSqrt exactQ (fun _ => .fin (1 / 2 * (1 + 1 / 10))) (.fin 4) = .fin y ∧
    y - 1 / 2 = 1 / 2 * (-(3 / 2 * (1 / 10) ^ 2 + 1 / 2 * (1 / 10) ^ 3)) ∧
    |y - 1 / 2| ≤ 1 / 2 * (3 / 2 * |1 / 10| ^ 2 + 1 / 2 * |1 / 10| ^ 3) ∧ (-(2 * (1 / 2)) ≤ 1 / 2 * (1 + 1 / 10 : ℚ) → y ≤ 1 / 2) :=
  C46_newton (A := exactQ) exactQ_exact (x := 4) (r := 1 / 2) (t := 1 / 10) (by norm_num) (by norm_num) rfl

/-- C46 for the estimates of the instruction sets: a relative error of at most `3/2 * 2^-12` (AVX) becomes at most `2^-22`, one of at most
`2^-14` (AVX512) at most `2^-27`. -/
theorem C46_accuracy {A : Arith K} (hA : A.Exact) {e : Fl K → Fl K} {x r t : K} (hr : 0 < r) (hx : x * r ^ 2 = 1)
    (he : e (.fin x) = .fin (r * (1 + t))) :
    ∃ y, invSqrt A e (.fin x) = .fin y ∧ 
      (|t| ≤ 3 / 2 * (1 / 2) ^ 12 → r * (1 - (1 / 2) ^ 22) ≤ y ∧ y ≤ r) ∧ (|t| ≤ (1 / 2) ^ 14 → r * (1 - (1 / 2) ^ 27) ≤ y ∧ y ≤ r) := by
  obtain ⟨y, h1, h2, h3, h4⟩ := C46_newton hA hr hx he
  have key : ∀ u v : K, |t| ≤ u → u ≤ 1 → 3 / 2 * u ^ 2 + 1 / 2 * u ^ 3 ≤ v → r * (1 - v) ≤ y ∧ y ≤ r := by
    intro u v hu hu1 huv
    have ht := abs_le.1 (hu.trans hu1)
    have hb : 3 / 2 * |t| ^ 2 + 1 / 2 * |t| ^ 3 ≤ v := by
      refine le_trans ?_ huv
      have ha := abs_nonneg t
      have := pow_le_pow_left₀ ha hu 2
      have := pow_le_pow_left₀ ha hu 3
      linarith
    have h5 := (abs_le.1 (h3.trans (mul_le_mul_of_nonneg_left hb hr.le))).1
    refine ⟨by linarith [mul_sub r 1 v], h4 ?_⟩
    have := mul_nonneg hr.le (show 0 ≤ 3 + t by linarith [ht.1])
    linarith [mul_add r 3 t, mul_add r 1 t]
  exact ⟨y, h1, fun h => key _ _ h (by norm_num) (by norm_num), fun h => key _ _ h (by norm_num) (by norm_num)⟩

example : ∃ y : ℚ, invSqrt exactQ (fun _ => .fin (1 / 3 * (1 + (-1 / 4096)))) (.fin 9) = .fin y ∧
    (|-1 / 4096| ≤ 3 / 2 * (1 / 2 : ℚ) ^ 12 → 1 / 3 * (1 - (1 / 2) ^ 22) ≤ y ∧ y ≤ 1 / 3) ∧
    (|-1 / 4096| ≤ (1 / 2 : ℚ) ^ 14 → 1 / 3 * (1 - (1 / 2) ^ 27) ≤ y ∧ y ≤ 1 / 3) :=
  C46_accuracy (A := exactQ) exactQ_exact (x := 9) (r := 1 / 3) (t := -1 / 4096) (by norm_num) (by norm_num) rfl

example : |(-1 / 4096 : ℚ)| ≤ 3 / 2 * (1 / 2) ^ 12 := by decide +kernel

/-- C46 in IEEE arithmetic, with or without fused operations: from an estimate with relative error `ε`, the step with all its roundings gives the inverse square
root of every normal number `q` up to a relative error of `2 ε² + 7 u`. -/
theorem C46_rounded {f : Format} (hf : f.Std) (fused : Bool) {q y : ℚ} {ε : ℝ} (he : |(y : ℝ) * √(q : ℝ) - 1| ≤ ε) (hε : ε ≤ 1 / 64)
    (h1 : f.minNormal ≤ q) (h2 : q ≤ 2 ^ (f.emax - 1)) (h3 : 64 * (f.minNormal ^ 2 * q) ≤ 1) {e : Fl ℚ → Fl ℚ} (hy : e (.fin q) = .fin y) :
    ∃ r : ℚ, invSqrt (f.ieee fused) e (.fin q) = .fin r ∧ |(r : ℝ) * √(q : ℝ) - 1| ≤ 2 * ε ^ 2 + 7 * f.unit := by
  have F := Format.ieee_model hf fused
  have u0 := F.u0
  have u1 := F.u1
  have hlo0 : 0 < f.minNormal := by unfold Format.minNormal; positivity
  have hlo : f.minNormal ≤ 1 / 256 := by
    unfold Format.minNormal
    calc (2 : ℚ) ^ (f.emin + ((f.prec : ℤ) - 1)) ≤ 2 ^ (-8 : ℤ) := zpow_le_zpow_right₀ (by norm_num) (by have := hf.emin2; omega)
      _ = 1 / 256 := by norm_num
  have hhi : (2 : ℚ) ^ 64 ≤ 2 ^ (f.emax - 1) := pow_le_pow_right₀ (by norm_num) (by have := hf.emax; omega)
  have hhl : 64 ≤ (2 ^ (f.emax - 1)) ^ 2 * f.minNormal := by
    unfold Format.minNormal
    rw [← zpow_natCast, ← zpow_natCast, ← zpow_mul, ← zpow_add₀ (by norm_num)]
    calc (64 : ℚ) = 2 ^ (6 : ℤ) := by norm_num
      _ ≤ _ := zpow_le_zpow_right₀ (by norm_num) (by have := hf.emax; have := hf.emax2; push_cast; omega)
  have hq : 0 < q := hlo0.trans_le h1
  have hq' : (0 : ℝ) < q := by exact_mod_cast hq
  have hs : 0 < √(q : ℝ) := Real.sqrt_pos.2 hq'
  have hss : √(q : ℝ) ^ 2 = q := Real.sq_sqrt hq'.le
  have lo0 : (0 : ℝ) < f.minNormal := F.lo0
  have hi0 : (0 : ℝ) < ((2 ^ (f.emax - 1) : ℚ) : ℝ) := by push_cast; positivity
  have k1 : 64 * (f.minNormal : ℝ) ^ 2 ≤ q := by
    have : 64 * f.minNormal ^ 2 ≤ q := by nlinarith
    exact_mod_cast this
  have k2 : 64 * ((f.minNormal : ℝ) ^ 2 * q) ≤ 1 := by exact_mod_cast h3
  have k3 : 64 * (q : ℝ) ≤ ((2 ^ (f.emax - 1) : ℚ) : ℝ) ^ 2 := by
    have : 64 * q ≤ (2 ^ (f.emax - 1)) ^ 2 := by nlinarith
    exact_mod_cast this
  have k4 : 64 ≤ ((2 ^ (f.emax - 1) : ℚ) : ℝ) ^ 2 * q := by
    have : (64 : ℚ) ≤ (2 ^ (f.emax - 1)) ^ 2 * q := hhl.trans (mul_le_mul_of_nonneg_left h1 (by positivity))
    exact_mod_cast this
  have hlo' : (f.minNormal : ℝ) ≤ 1 / 256 := by
    have := (Rat.cast_le (K := ℝ)).2 hlo
    push_cast at this
    exact this
  have hhi' : (2 : ℝ) ^ 64 ≤ ((2 ^ (f.emax - 1) : ℚ) : ℝ) := by exact_mod_cast hhi
  generalize ((2 ^ (f.emax - 1) : ℚ) : ℝ) = hi at *
  generalize ((f.minNormal : ℚ) : ℝ) = lo at *
  have sq_le : ∀ {a b : ℝ}, 0 < b → a ^ 2 ≤ b ^ 2 → a ≤ b := fun hb h => le_of_sq_le_sq h hb.le
  obtain ⟨r, z, hr, hn, hz⟩ := newton_step F he hε hq
    (sq_le hs (by rw [hss]; linarith [mul_pow 8 lo 2])) (sq_le one_pos (by rw [mul_pow, mul_pow, hss]; linarith))
    (sq_le hi0 (by rw [mul_pow, hss]; linarith)) (sq_le (by positivity) (by rw [mul_pow, hss]; linarith)) (by linarith) (by linarith) hy
  refine ⟨r, hr, ?_⟩
  obtain ⟨c, hc, c0, c1, c2⟩ := hn.factor F.lt1
  obtain ⟨δ, hδ⟩ : ∃ δ, z * √(q : ℝ) = 1 + δ := ⟨z * √(q : ℝ) - 1, by ring⟩
  have hd : |δ| ≤ 2 * ε ^ 2 + 3 * f.unit := by
    have e1 : z - (√(q : ℝ))⁻¹ = δ * (√(q : ℝ))⁻¹ := by
      field_simp
      linarith
    rw [e1, abs_mul, abs_of_pos (inv_pos.2 hs)] at hz
    exact le_of_mul_le_mul_right hz (inv_pos.2 hs)
  have e2 : (r : ℝ) * √(q : ℝ) = (1 + δ) * c := by rw [hc, ← hδ]; ring
  have hε0 : 0 ≤ ε := (abs_nonneg _).trans he
  generalize ((f.unit : ℚ) : ℝ) = u at *
  have hp := (Near.bern u0 F.lt1 3)
  push_cast at hp
  have hc1 : 1 - 3 * u ≤ c := hp.trans c1
  have hc2 : c * (1 - 3 * u) ≤ 1 := (mul_le_mul_of_nonneg_left hp c0.le).trans c2
  have hc3 : c ≤ 1 + 31 / 10 * u := by nlinarith
  have hε2 : ε ^ 2 ≤ 1 / 4096 := by nlinarith
  obtain ⟨d1, d2⟩ := abs_le.1 hd
  rw [e2, show (1 + δ) * c - 1 = δ + (1 + δ) * (c - 1) by ring, abs_le]
  have hD1 : δ ≤ 1 / 250 := by linarith
  have hD2 : -(1 / 250) ≤ δ := by linarith
  have hcc : |c - 1| ≤ 31 / 10 * u := by rw [abs_le]; constructor <;> linarith
  have hm : |(1 + δ) * (c - 1)| ≤ 4 * u := by
    rw [abs_mul, abs_of_nonneg (by linarith : 0 ≤ 1 + δ)]
    have := mul_le_mul (by linarith : 1 + δ ≤ 251 / 250) hcc (abs_nonneg _) (by norm_num)
    linarith
  obtain ⟨m1, m2⟩ := abs_le.1 hm
  constructor <;> linarith

/-- `float`, the estimate `1365 / 4096` of `1 / √9`. -/
example : ∃ r : ℚ, invSqrt (binary32.ieee true) (fun _ => .fin (1365 / 4096)) (.fin 9) = .fin r ∧ |(r : ℝ) * √((9 : ℚ) : ℝ) - 1| ≤ 2 * (1 / 4096) ^ 2 + 7 * binary32.unit := by
  have h9 : √((9 : ℚ) : ℝ) = 3 := by
    rw [show ((9 : ℚ) : ℝ) = 3 ^ 2 by norm_num]
    exact Real.sqrt_sq (by norm_num)
  refine C46_rounded binary32_std true (ε := 1 / 4096) (y := 1365 / 4096) (by rw [h9]; norm_num [abs_of_neg]) (by norm_num) ?_ ?_ ?_ rfl
  · unfold Format.minNormal binary32; norm_num
  · unfold binary32; norm_num
  · unfold Format.minNormal binary32; norm_num

/-- C46 for `float` and the estimates of the instruction sets (relative error at most `3/2 * 2^-12` and `2^-14`): with all roundings, the relative error of the result is
less than `12 * 2^-24`, and less than `8 * 2^-24` (normal numbers, up to `2^127`). -/
theorem C46_float (fused : Bool) {q y : ℚ} (h1 : binary32.minNormal ≤ q) (h2 : q ≤ 2 ^ 127) {e : Fl ℚ → Fl ℚ} (hy : e (.fin q) = .fin y) :
    (|(y : ℝ) * √(q : ℝ) - 1| ≤ 3 / 2 * (1 / 2) ^ 12 → ∃ r : ℚ, invSqrt (binary32.ieee fused) e (.fin q) = .fin r ∧ |(r : ℝ) * √(q : ℝ) - 1| < 12 * (1 / 2) ^ 24) ∧
    (|(y : ℝ) * √(q : ℝ) - 1| ≤ (1 / 2) ^ 14 → ∃ r : ℚ, invSqrt (binary32.ieee fused) e (.fin q) = .fin r ∧ |(r : ℝ) * √(q : ℝ) - 1| < 8 * (1 / 2) ^ 24) := by
  have hu : ((binary32.unit : ℚ) : ℝ) = (1 / 2) ^ 24 := by
    unfold Format.unit binary32
    push_cast
    norm_num
  have h3 : 64 * (binary32.minNormal ^ 2 * q) ≤ 1 := by
    have e : binary32.minNormal = (1 / 2) ^ 126 := by unfold Format.minNormal binary32; norm_num
    rw [e]
    calc 64 * (((1 / 2 : ℚ) ^ 126) ^ 2 * q) ≤ 64 * (((1 / 2 : ℚ) ^ 126) ^ 2 * 2 ^ 127) := by gcongr
      _ ≤ 1 := by norm_num
  constructor
  · intro he
    obtain ⟨r, e1, e2⟩ := C46_rounded binary32_std fused he (by norm_num) h1 h2 h3 hy
    refine ⟨r, e1, e2.trans_lt ?_⟩
    rw [hu]
    norm_num
  · intro he
    obtain ⟨r, e1, e2⟩ := C46_rounded binary32_std fused he (by norm_num) h1 h2 h3 hy
    refine ⟨r, e1, e2.trans_lt ?_⟩
    rw [hu]
    norm_num

example : ∃ r : ℚ, invSqrt (binary32.ieee false) (fun _ => .fin (1365 / 4096)) (.fin 9) = .fin r ∧ |(r : ℝ) * √((9 : ℚ) : ℝ) - 1| < 12 * (1 / 2) ^ 24 := by
  have h9 : √((9 : ℚ) : ℝ) = 3 := by
    rw [show ((9 : ℚ) : ℝ) = 3 ^ 2 by norm_num]
    exact Real.sqrt_sq (by norm_num)
  exact (C46_float false (y := 1365 / 4096) (by unfold Format.minNormal binary32; norm_num) (by norm_num) rfl).1 (by rw [h9]; norm_num [abs_of_neg])

end Rakau
