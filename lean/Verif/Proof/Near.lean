import Verif.Proof.Round
import Mathlib.Analysis.Real.Sqrt
import Mathlib.Tactic.FieldSimp
import Mathlib.Tactic.Linarith
import Mathlib.Tactic.Positivity

/-!
Error analysis of floating-point computations: relative errors as products of factors close to 1, errors of sums, and the rounding errors of the IEEE
formats in these terms. Computed values are rational numbers; they are compared with real numbers.
-/
namespace Rakau

/-- `b` is `a` up to `k` relative errors of size `u`. -/
def Near (u : ℝ) (k : Nat) (a b : ℝ) : Prop := ∃ t, b = a * t ∧ (1 - u) ^ k ≤ t ∧ t * (1 - u) ^ k ≤ 1

namespace Near
variable {u : ℝ} {k l : Nat} {a b c a' b' : ℝ}

theorem base (h1 : u < 1) : 0 < 1 - u := by linarith

theorem pow_le_one' (h0 : 0 ≤ u) (h1 : u < 1) (k : Nat) : (1 - u) ^ k ≤ 1 := pow_le_one₀ (by linarith) (by linarith)

theorem refl (h0 : 0 ≤ u) (h1 : u < 1) (k : Nat) (a : ℝ) : Near u k a a :=
  ⟨1, by ring, pow_le_one' h0 h1 k, by simpa using pow_le_one' h0 h1 k⟩

theorem mono (h0 : 0 ≤ u) (h1 : u < 1) (hkl : k ≤ l) (h : Near u k a b) : Near u l a b := by
  obtain ⟨t, e, h2, h3⟩ := h
  have hp : (1 - u) ^ l ≤ (1 - u) ^ k := pow_le_pow_of_le_one (by linarith) (by linarith) hkl
  have ht : 0 ≤ t := le_trans (pow_nonneg (by linarith) k) h2
  exact ⟨t, e, hp.trans h2, (mul_le_mul_of_nonneg_left hp ht).trans h3⟩

theorem factor (h1 : u < 1) (h : Near u k a b) : ∃ t, b = a * t ∧ 0 < t ∧ (1 - u) ^ k ≤ t ∧ t * (1 - u) ^ k ≤ 1 := by
  obtain ⟨t, e, h2, h3⟩ := h
  exact ⟨t, e, lt_of_lt_of_le (pow_pos (by linarith) k) h2, h2, h3⟩

theorem mul (h1 : u < 1) (h : Near u k a b) (h' : Near u l a' b') : Near u (k + l) (a * a') (b * b') := by
  obtain ⟨t, e, t0, h2, h3⟩ := h.factor h1
  obtain ⟨t', e', t0', h2', h3'⟩ := h'.factor h1
  have p : ∀ k : Nat, 0 < (1 - u) ^ k := fun k => pow_pos (by linarith) k
  refine ⟨t * t', by rw [e, e']; ring, ?_, ?_⟩
  · rw [pow_add]
    exact mul_le_mul h2 h2' (p l).le t0.le
  · rw [pow_add]
    calc t * t' * ((1 - u) ^ k * (1 - u) ^ l) = (t * (1 - u) ^ k) * (t' * (1 - u) ^ l) := by ring
      _ ≤ 1 * 1 := mul_le_mul h3 h3' (by have := p l; positivity) (by norm_num)
      _ = 1 := by ring

theorem trans (h1 : u < 1) (h : Near u k a b) (h' : Near u l b c) : Near u (k + l) a c := by
  obtain ⟨t, e, h2, h3⟩ := h
  have hm : Near u (k + l) (1 * b) (t * c) := Near.mul h1 ⟨t, by ring, h2, h3⟩ h'
  obtain ⟨s, e', s2, s3⟩ := h'
  have hm2 : Near u (k + l) (a * 1) (b * s) := Near.mul h1 ⟨t, e, h2, h3⟩ ⟨s, by ring, s2, s3⟩
  rwa [mul_one, ← e'] at hm2

theorem neg (h : Near u k a b) : Near u k (-a) (-b) := by
  obtain ⟨t, e, h2, h3⟩ := h
  exact ⟨t, by rw [e]; ring, h2, h3⟩

theorem inv (h1 : u < 1) (h : Near u k a b) : Near u k a⁻¹ b⁻¹ := by
  obtain ⟨t, e, t0, h2, h3⟩ := h.factor h1
  have p : 0 < (1 - u) ^ k := pow_pos (by linarith) k
  refine ⟨t⁻¹, by rw [e, mul_inv], ?_, ?_⟩
  · rw [le_inv_comm₀ p t0, ← one_div, le_div_iff₀ p]; exact h3
  · rw [inv_mul_le_iff₀ t0, mul_one]; exact h2

theorem div (h1 : u < 1) (h : Near u k a b) (h' : Near u l a' b') : Near u (k + l) (a / a') (b / b') := by
  rw [div_eq_mul_inv, div_eq_mul_inv]; exact h.mul h1 (h'.inv h1)

theorem nonneg (h1 : u < 1) (h : Near u k a b) (ha : 0 ≤ a) : 0 ≤ b := by
  obtain ⟨t, e, t0, _⟩ := h.factor h1
  rw [e]; positivity

theorem add (h1 : u < 1) (h : Near u k a b) (h' : Near u k a' b') (ha : 0 ≤ a) (ha' : 0 ≤ a') : Near u k (a + a') (b + b') := by
  obtain ⟨t, e, t0, h2, h3⟩ := h.factor h1
  obtain ⟨t', e', t0', h2', h3'⟩ := h'.factor h1
  have p : 0 < (1 - u) ^ k := pow_pos (by linarith) k
  rcases eq_or_lt_of_le (add_nonneg ha ha') with hs | hs
  · have z : a = 0 := by linarith
    have z' : a' = 0 := by linarith
    exact ⟨t, by rw [e, e', z, z']; ring, h2, h3⟩
  · refine ⟨(b + b') / (a + a'), by field_simp, ?_, ?_⟩
    · rw [le_div_iff₀ hs, e, e']
      nlinarith [mul_le_mul_of_nonneg_left h2 ha, mul_le_mul_of_nonneg_left h2' ha']
    · rw [div_mul_eq_mul_div, div_le_one hs, e, e']
      nlinarith [mul_le_mul_of_nonneg_left h3 ha, mul_le_mul_of_nonneg_left h3' ha']

theorem sqrt (h1 : u < 1) (h : Near u (2 * k) a b) (ha : 0 ≤ a) : Near u k (√a) (√b) := by
  obtain ⟨t, e, t0, h2, h3⟩ := h.factor h1
  have p : 0 < (1 - u) ^ k := pow_pos (by linarith) k
  have hsq : (1 - u) ^ (2 * k) = ((1 - u) ^ k) ^ 2 := by rw [← pow_mul]; congr 1; ring
  rw [hsq] at h2 h3
  refine ⟨√t, by rw [e, Real.sqrt_mul ha], Real.le_sqrt_of_sq_le h2, ?_⟩
  have : √t * (1 - u) ^ k = √(t * ((1 - u) ^ k) ^ 2) := by rw [Real.sqrt_mul t0.le, Real.sqrt_sq p.le]
  rw [this]
  exact Real.sqrt_le_one.2 h3

/-- One rounding. -/
theorem of_rel (h0 : 0 ≤ u) (h1 : u < 1) (h : |b - a| ≤ u * |a|) : Near u 1 a b := by
  by_cases ha : a = 0
  · subst ha
    have : b = 0 := by simpa using h
    subst this
    exact refl h0 h1 1 0
  · have hp : 0 < |a| := abs_pos.2 ha
    have hd : |b / a - 1| ≤ u := by
      rw [show b / a - 1 = (b - a) / a by field_simp, abs_div, div_le_iff₀ hp]; exact h
    rw [abs_le] at hd
    refine ⟨b / a, by field_simp, by rw [pow_one]; linarith, ?_⟩
    rw [pow_one]
    nlinarith

theorem abs_le (h1 : u < 1) (h : Near u k a b) : |b| * (1 - u) ^ k ≤ |a| ∧ |a| * (1 - u) ^ k ≤ |b| := by
  obtain ⟨t, e, t0, h2, h3⟩ := h.factor h1
  have p : 0 < (1 - u) ^ k := pow_pos (by linarith) k
  have ha := abs_nonneg a
  rw [e, abs_mul, abs_of_pos t0]
  constructor
  · nlinarith [mul_le_mul_of_nonneg_left h3 ha]
  · nlinarith [mul_le_mul_of_nonneg_left h2 ha]

/-- `k` relative errors of size `u` make at most `2 k u`, if this is at most 1. -/
theorem bern (_h0 : 0 ≤ u) (h1 : u < 1) (k : Nat) : 1 - k * u ≤ (1 - u) ^ k := by
  have := one_add_mul_le_pow (a := -u) (by linarith) k
  have e : (1 + -u) ^ k = (1 - u) ^ k := by rw [← sub_eq_add_neg]
  rw [e] at this
  linarith

theorem half_le (h0 : 0 ≤ u) (h1 : u < 1) (hk : 2 * (k * u) ≤ 1) : 1 / 2 ≤ (1 - u) ^ k := by
  have := bern h0 h1 k
  linarith

theorem within (h0 : 0 ≤ u) (h1 : u < 1) (hk : 2 * (k * u) ≤ 1) (h : Near u k a b) : |b - a| ≤ 2 * (k * u) * |a| ∧ |a| ≤ 2 * |b| ∧ |b| ≤ 2 * |a| := by
  have hb := bern h0 h1 k
  have hh := half_le h0 h1 hk
  obtain ⟨t, e, t0, h2, h3⟩ := h.factor h1
  have ha := abs_nonneg a
  have t2 : t ≤ 2 := by nlinarith
  refine ⟨?_, ?_, ?_⟩
  · rw [show b - a = a * (t - 1) by rw [e]; ring, abs_mul, mul_comm]
    apply mul_le_mul_of_nonneg_right _ ha
    rw [_root_.abs_le]
    constructor
    · have := mul_nonneg (Nat.cast_nonneg (α := ℝ) k) h0
      linarith
    · have : t * (1 - k * u) ≤ 1 := (mul_le_mul_of_nonneg_left hb t0.le).trans h3
      nlinarith [mul_nonneg (Nat.cast_nonneg (α := ℝ) k) h0]
  · rw [e, abs_mul, abs_of_pos t0]; nlinarith
  · rw [e, abs_mul, abs_of_pos t0]; nlinarith

end Near

/-! ### Sums -/

/-- `a` is a computed sum of terms: `S` is the sum of the true terms, `T` the sum of their absolute values; `m` is the number of roundings that a term goes
through, `N` the number of absolute errors of size `η`, and `τ` the relative error of the terms. -/
structure Summed (u η τ : ℝ) (m N : Nat) (S T a : ℝ) : Prop where
  abs : |S| ≤ T
  err : |a - S| ≤ ((1 + u) ^ m * (1 + τ) - 1) * T + N * (1 + u) ^ m * η

namespace Summed
variable {u η τ S T a S' T' b : ℝ} {m N m' N' : Nat}

theorem zero : Summed u η τ 0 0 0 0 0 := ⟨by simp, by simp⟩

theorem size (h : Summed u η τ m N S T a) : |a| ≤ (1 + u) ^ m * (1 + τ) * T + N * (1 + u) ^ m * η := by
  have h1 := h.abs
  have h2 := h.err
  have : |a| ≤ |a - S| + |S| := by
    have := abs_add_le (a - S) S
    rwa [sub_add_cancel] at this
  linarith

theorem mono (hu : 0 ≤ u) (hη : 0 ≤ η) (hτ : 0 ≤ τ) (h : Summed u η τ m N S T a) (hm : m ≤ m') (hN : N ≤ N') : Summed u η τ m' N' S T a := by
  refine ⟨h.abs, h.err.trans ?_⟩
  have hT : 0 ≤ T := (abs_nonneg S).trans h.abs
  have hp : (1 + u) ^ m ≤ (1 + u) ^ m' := pow_le_pow_right₀ (by linarith) hm
  have hp0 : 0 ≤ (1 + u) ^ m := by positivity
  have hN' : (N : ℝ) ≤ N' := by exact_mod_cast hN
  have e1 : ((1 + u) ^ m * (1 + τ) - 1) * T ≤ ((1 + u) ^ m' * (1 + τ) - 1) * T := by
    apply mul_le_mul_of_nonneg_right _ hT
    have := mul_le_mul_of_nonneg_right hp (by linarith : 0 ≤ 1 + τ)
    linarith
  have e2 : N * (1 + u) ^ m * η ≤ N' * (1 + u) ^ m' * η :=
    mul_le_mul_of_nonneg_right (mul_le_mul hN' hp hp0 (by positivity)) hη
  linarith

/-- The rounded sum of two computed sums. -/
theorem add (hu : 0 ≤ u) (hη : 0 ≤ η) (h : Summed u η τ m N S T a) (h' : Summed u η τ m N' S' T' b) {r : ℝ}
    (hr : |r - (a + b)| ≤ u * |a + b| + η) : Summed u η τ (m + 1) (N + N' + 1) (S + S') (T + T') r := by
  have hT : 0 ≤ T := (abs_nonneg S).trans h.abs
  have hT' : 0 ≤ T' := (abs_nonneg S').trans h'.abs
  refine ⟨(abs_add_le S S').trans (add_le_add h.abs h'.abs), ?_⟩
  have e1 := h.err
  have e2 := h'.err
  have e3 : |a + b - (S + S')| ≤ |a - S| + |b - S'| := by
    rw [show a + b - (S + S') = (a - S) + (b - S') by ring]; exact abs_add_le _ _
  have e4 : |a + b| ≤ |a + b - (S + S')| + (T + T') := by
    have := abs_add_le (a + b - (S + S')) (S + S')
    rw [sub_add_cancel] at this
    have := abs_add_le S S'
    linarith [h.abs, h'.abs]
  have e5 : |r - (S + S')| ≤ |r - (a + b)| + |a + b - (S + S')| := by
    have := abs_add_le (r - (a + b)) (a + b - (S + S'))
    rwa [sub_add_sub_cancel] at this
  have e6 : u * |a + b| ≤ u * (|a + b - (S + S')| + (T + T')) := mul_le_mul_of_nonneg_left e4 hu
  have e7 : (1 + u) * |a + b - (S + S')| ≤ (1 + u) * (((1 + u) ^ m * (1 + τ) - 1) * T + N * (1 + u) ^ m * η + (((1 + u) ^ m * (1 + τ) - 1) * T' + N' * (1 + u) ^ m * η)) :=
    mul_le_mul_of_nonneg_left (by linarith) (by linarith)
  have e8 : η ≤ (1 + u) ^ (m + 1) * η := by
    have : 1 ≤ (1 + u) ^ (m + 1) := one_le_pow₀ (by linarith)
    nlinarith
  push_cast
  rw [pow_succ] at e8 ⊢
  nlinarith

/-- A computed term. -/
theorem term {t p : ℝ} (h : |p - t| ≤ τ * |t| + η) : Summed u η τ 0 1 t |t| p := by
  refine ⟨le_rfl, ?_⟩
  rw [pow_zero]
  push_cast
  linarith

/-- A term added to a computed sum. -/
theorem step (hu : 0 ≤ u) (hη : 0 ≤ η) (hτ : 0 ≤ τ) (h : Summed u η τ m N S T a) {t p r : ℝ} (hp : |p - t| ≤ τ * |t| + η)
    (hr : |r - (a + p)| ≤ u * |a + p| + η) : Summed u η τ (m + 1) (N + 2) (S + t) (T + |t|) r :=
  h.add hu hη ((term hp).mono hu hη hτ (Nat.zero_le m) le_rfl) hr

end Summed

/-! ### Rounding -/

/-- Rational numbers that an arithmetic represents. -/
def Arith.Repr (A : Arith ℚ) (a : ℚ) : Prop := A.rnd a = .fin a

/-- The standard model of floating-point arithmetic, with gradual underflow: `u` is the relative error of results between `lo` and `hi`, `η` the absolute error of smaller results;
differences of represented numbers always have a small relative error. -/
structure FlModel (A : Arith ℚ) (u η lo hi : ℝ) : Prop where
  u0 : 0 ≤ u
  u1 : u ≤ 1 / 1024
  η0 : 0 ≤ η
  ηlo : η ≤ u * lo
  lo0 : 0 < lo
  rnd : ∀ q : ℚ, |(q : ℝ)| ≤ hi → ∃ r : ℚ, A.rnd q = .fin r ∧ |(r : ℝ) - q| ≤ u * |(q : ℝ)| + η
  rel : ∀ q : ℚ, lo ≤ |(q : ℝ)| → |(q : ℝ)| ≤ hi → ∃ r : ℚ, A.rnd q = .fin r ∧ |(r : ℝ) - q| ≤ u * |(q : ℝ)|
  zero : A.rnd 0 = .fin 0
  pos : ∀ q r : ℚ, 0 ≤ q → A.rnd q = .fin r → 0 ≤ r
  diff : ∀ a b : ℚ, A.Repr a → A.Repr b → |((a - b : ℚ) : ℝ)| ≤ hi → ∃ r : ℚ, A.rnd (a - b) = .fin r ∧ |(r : ℝ) - (a - b : ℚ)| ≤ u * |((a - b : ℚ) : ℝ)|
  sqrt : ∀ q : ℚ, lo ≤ q → (q : ℝ) ≤ hi → ∃ r : ℚ, A.sqrt q = .fin r ∧ |(r : ℝ) - √(q : ℝ)| ≤ u * √(q : ℝ)

namespace Format

theorem repr_grid {f : Format} {a : ℚ} (h : f.near a = a) : ∃ n : ℤ, a = n * 2 ^ f.emin := by
  by_cases h0 : a = 0
  · exact ⟨0, by simp [h0]⟩
  · unfold near at h
    rw [if_neg h0] at h
    obtain ⟨n, hn⟩ := pow_grid (k := f.expo a) (e := f.emin) (le_max_right _ _)
    refine ⟨roundEven (a / 2 ^ f.expo a) * n, ?_⟩
    push_cast
    rw [mul_assoc, ← hn]
    exact h.symm

theorem near_of_grid {f : Format} (hp : 1 ≤ f.prec) {n : ℤ} (h : |(n : ℚ) * 2 ^ f.emin| < f.minNormal) : f.near ((n : ℚ) * 2 ^ f.emin) = n * 2 ^ f.emin := by
  apply near_repr hp le_rfl
  have h2 : (0 : ℚ) < 2 ^ f.emin := by positivity
  rw [abs_mul, abs_of_pos h2] at h
  unfold minNormal at h
  rw [zpow_add₀ (by norm_num), mul_comm, mul_lt_mul_iff_right₀ h2] at h
  have h3 : (2 : ℚ) ^ ((f.prec : ℤ) - 1) ≤ 2 ^ (f.prec : ℤ) := zpow_le_zpow_right₀ (by norm_num) (by omega)
  rw [zpow_natCast] at h3
  have h4 : |(n : ℚ)| ≤ 2 ^ f.prec := (h.trans_le h3).le
  exact_mod_cast h4

/-- Half the spacing of the subnormal numbers. -/
def tiny (f : Format) : ℚ := 2 ^ f.emin / 2

theorem tiny_eq (f : Format) : f.tiny = f.unit * f.minNormal := by
  unfold tiny unit minNormal
  rw [← zpow_add₀ (by norm_num), show -(f.prec : ℤ) + (f.emin + ((f.prec : ℤ) - 1)) = f.emin - 1 by ring, zpow_sub_one₀ (by norm_num)]
  ring

theorem near_small {f : Format} {q : ℚ} (h : |q| < f.minNormal) : |f.near q - q| ≤ f.tiny := by
  by_cases h0 : q = 0
  · subst h0; rw [near_zero]; unfold tiny; simp; positivity
  · have := near_err (f := f) h0
    have he : f.expo q = f.emin := by
      unfold expo
      apply max_eq_right
      have h1 := (ilog_spec h0).1
      have h2 := h1.trans_lt h
      unfold minNormal at h2
      have := (zpow_lt_zpow_iff_right₀ (by norm_num : (1 : ℚ) < 2)).1 h2
      omega
    rw [he] at this
    exact this

theorem near_big {f : Format} (h : f.Ok) {q : ℚ} (h2 : |q| ≤ 2 ^ (f.emax - 1)) : f.rnd q = .fin (f.near q) := by
  refine rnd_fin ?_
  have hle : |f.near q| ≤ 2 ^ (((f.emax - 1 : ℕ) : ℤ)) :=
    near_abs_le_pow h.prec (by have := h.emin; have := h.emax; omega) (by rw [zpow_natCast]; exact h2)
  rw [zpow_natCast] at hle
  have := pow_emax_pred h
  have : (0 : ℚ) < 2 ^ (f.emax - 1) := by positivity
  linarith

theorem sqrt_rel {f : Format} (h : f.Std) {q : ℚ} (hq : f.minNormal ≤ q) :
    ∃ r : ℚ, f.sqrt q = .fin r ∧ |(r : ℝ) - √(q : ℝ)| ≤ (f.unit : ℝ) * √(q : ℝ) := by
  have hpos : 0 < q := lt_of_lt_of_le (by unfold minNormal; positivity) hq
  obtain ⟨m, e1, e2, e3⟩ := sqrt_nearest f hpos
  refine ⟨_, e1, ?_⟩
  have hil : f.emin + ((f.prec : ℤ) - 1) ≤ ilog q := by
    by_contra hc
    push Not at hc
    have h1 := (ilog_spec hpos.ne').2
    rw [abs_of_pos hpos] at h1
    have h2 : (2 : ℚ) ^ (ilog q + 1) ≤ f.minNormal := zpow_le_zpow_right₀ (by norm_num) (by omega)
    linarith
  have hmax : Max.max (ilog q / 2 - ((f.prec : ℤ) - 1)) f.emin = ilog q / 2 - ((f.prec : ℤ) - 1) := by
    apply max_eq_left
    have := h.emin2
    omega
  rw [hmax] at e2 e3 ⊢
  generalize he : ilog q / 2 - ((f.prec : ℤ) - 1) = e at *
  have hu : (2 : ℝ) ^ e / 2 ≤ (f.unit : ℝ) * √(q : ℝ) := by
    have h1 := (ilog_spec hpos.ne').1
    rw [abs_of_pos hpos] at h1
    have h3 : ((2 : ℝ) ^ (ilog q / 2)) ^ 2 ≤ (q : ℝ) := by
      rw [← zpow_natCast, ← zpow_mul]
      calc (2 : ℝ) ^ (ilog q / 2 * ((2 : ℕ) : ℤ)) ≤ 2 ^ ilog q := zpow_le_zpow_right₀ (by norm_num) (by push_cast; omega)
        _ ≤ (q : ℝ) := by
          have := (Rat.cast_le (K := ℝ)).2 h1
          push_cast at this
          exact this
    have h4 : (2 : ℝ) ^ (ilog q / 2) ≤ √(q : ℝ) := Real.le_sqrt_of_sq_le h3
    have h5 : (2 : ℝ) ^ e / 2 = (f.unit : ℝ) * 2 ^ (ilog q / 2) := by
      unfold unit
      push_cast
      rw [← zpow_add₀ (by norm_num), ← he, show -(f.prec : ℤ) + ilog q / 2 = (ilog q / 2 - ((f.prec : ℤ) - 1)) - 1 by ring]
      rw [zpow_sub_one₀ (by norm_num) (ilog q / 2 - ((f.prec : ℤ) - 1))]
      ring
    rw [h5]
    have : (0 : ℝ) ≤ (f.unit : ℝ) := by exact_mod_cast (unit_pos (f := f)).le
    exact mul_le_mul_of_nonneg_left h4 this
  refine le_trans ?_ hu
  have hp : (0 : ℝ) < 2 ^ e := by positivity
  have h3 : √(q : ℝ) ≤ ((m : ℝ) + 1 / 2) * 2 ^ e := by
    apply Real.sqrt_le_iff.2
    have := (Rat.cast_le (K := ℝ)).2 e3
    push_cast at this
    exact ⟨by positivity, this⟩
  push_cast
  rw [_root_.abs_le]
  constructor
  · nlinarith
  · rcases e2 with rfl | e2
    · have := Real.sqrt_nonneg (q : ℝ)
      push_cast
      linarith
    · have : ((m : ℝ) - 1 / 2) * 2 ^ e ≤ √(q : ℝ) := by
        apply Real.le_sqrt_of_sq_le
        have := (Rat.cast_le (K := ℝ)).2 e2
        push_cast at this
        exact this
      nlinarith

/-- The IEEE formats satisfy the standard model. -/
theorem ieee_model {f : Format} (h : f.Std) (fused : Bool) : FlModel (f.ieee fused) (f.unit : ℝ) (f.tiny : ℝ) (f.minNormal : ℝ) ((2 ^ (f.emax - 1) : ℚ) : ℝ) where
  u0 := by exact_mod_cast (unit_pos (f := f)).le
  u1 := by have := (Rat.cast_le (K := ℝ)).2 (unit_le' (f := f) h.prec10); push_cast at this; exact this
  η0 := by have : 0 ≤ f.tiny := by unfold tiny; positivity
           exact_mod_cast this
  ηlo := by rw [tiny_eq]; push_cast; exact le_rfl
  lo0 := by have : 0 < f.minNormal := by unfold minNormal; positivity
            exact_mod_cast this
  rnd := by
    intro q hq
    have hq : |q| ≤ 2 ^ (f.emax - 1) := by exact_mod_cast hq
    refine ⟨f.near q, near_big h.toOk hq, ?_⟩
    have : |f.near q - q| ≤ f.unit * |q| + f.tiny := by
      have t0 : 0 ≤ f.tiny := by unfold tiny; positivity
      have u0 := unit_pos (f := f)
      rcases lt_or_ge |q| f.minNormal with hl | hl
      · have := near_small hl
        have := mul_nonneg u0.le (abs_nonneg q)
        linarith
      · have := near_rel_unit (f := f) hl
        linarith
    exact_mod_cast this
  rel := by
    intro q h1 h2
    have h1 : f.minNormal ≤ |q| := by exact_mod_cast h1
    have h2 : |q| ≤ 2 ^ (f.emax - 1) := by exact_mod_cast h2
    refine ⟨f.near q, near_big h.toOk h2, ?_⟩
    have := near_rel_unit (f := f) h1
    exact_mod_cast this
  zero := (arith_laws h.toOk fused f.sqrt).zero
  pos := by
    intro q r hq hr
    rw [(rnd_eq_fin hr).1]
    exact near_nonneg hq
  diff := by
    intro a b ha hb hq
    have hq : |a - b| ≤ 2 ^ (f.emax - 1) := by exact_mod_cast hq
    refine ⟨f.near (a - b), near_big h.toOk hq, ?_⟩
    have : |f.near (a - b) - (a - b)| ≤ f.unit * |a - b| := by
      rcases lt_or_ge |a - b| f.minNormal with hl | hl
      · obtain ⟨n, hn⟩ := repr_grid (f := f) (rnd_eq_fin ha).1.symm
        obtain ⟨m, hm⟩ := repr_grid (f := f) (rnd_eq_fin hb).1.symm
        have e : a - b = ((n - m : ℤ) : ℚ) * 2 ^ f.emin := by rw [hn, hm]; push_cast; ring
        rw [e] at hl ⊢
        rw [near_of_grid h.toOk.prec hl, sub_self, abs_zero]
        have := unit_pos (f := f)
        positivity
      · exact near_rel_unit (f := f) hl
    exact_mod_cast this
  sqrt := by
    intro q h1 _
    exact sqrt_rel h (by exact_mod_cast h1)

end Format

end Rakau
