import Verif.Model.Round
import Verif.Proof.Disc
import Mathlib.Algebra.Order.Field.Power
import Mathlib.Algebra.Order.Floor.Semifield

/-! Rounding to nearest even in a binary format satisfies the laws of rounding and the usual error bounds. -/
namespace Rakau

theorem roundEven_int (n : ℤ) : roundEven (n : ℚ) = n := by
  simp [roundEven]

/-- `roundEven x` is within one half of `x`. -/
theorem roundEven_err (x : ℚ) : |(roundEven x : ℚ) - x| ≤ 1 / 2 := by
  have h1 := Int.floor_le x
  have h2 := Int.lt_floor_add_one x
  unfold roundEven
  simp only
  rw [abs_le]
  split
  · constructor <;> linarith
  · split
    · push_cast; constructor <;> linarith
    · split
      · constructor <;> linarith
      · push_cast; constructor <;> linarith

theorem roundEven_ge_floor (x : ℚ) : ⌊x⌋ ≤ roundEven x := by
  unfold roundEven; simp only; split_ifs <;> omega

theorem roundEven_le_floor (x : ℚ) : roundEven x ≤ ⌊x⌋ + 1 := by
  unfold roundEven; simp only; split_ifs <;> omega

theorem roundEven_mono {x y : ℚ} (h : x ≤ y) : roundEven x ≤ roundEven y := by
  have hf : ⌊x⌋ ≤ ⌊y⌋ := Int.floor_mono h
  rcases hf.lt_or_eq with hlt | heq
  · have := roundEven_le_floor x
    have := roundEven_ge_floor y
    omega
  · unfold roundEven
    simp only
    rw [heq]
    split_ifs <;> first | omega | (exfalso; linarith)

theorem roundEven_neg (x : ℚ) : roundEven (-x) = -roundEven x := by
  by_cases hx : (⌊x⌋ : ℚ) = x
  · rw [← hx, roundEven_int]
    have : -((⌊x⌋ : ℤ) : ℚ) = ((-⌊x⌋ : ℤ) : ℚ) := by push_cast; rfl
    rw [this, roundEven_int]
  · have h1 : (⌊x⌋ : ℚ) < x := lt_of_le_of_ne (Int.floor_le x) hx
    have h2 := Int.lt_floor_add_one x
    have hn : ⌊-x⌋ = -⌊x⌋ - 1 := by
      rw [Int.floor_eq_iff]; push_cast; constructor <;> linarith
    unfold roundEven
    simp only
    rw [hn]
    push_cast
    split_ifs <;> first | omega | (exfalso; linarith)

theorem ilog_spec {q : ℚ} (hq : q ≠ 0) : (2 : ℚ) ^ ilog q ≤ |q| ∧ |q| < 2 ^ (ilog q + 1) := by
  have hn : q.num.natAbs ≠ 0 := by simpa using hq
  have hd : q.den ≠ 0 := q.den_ne_zero
  have n1 : 2 ^ q.num.natAbs.log2 ≤ q.num.natAbs := Nat.log2_self_le hn
  have n2 : q.num.natAbs < 2 ^ (q.num.natAbs.log2 + 1) := Nat.lt_log2_self
  have d1 : 2 ^ q.den.log2 ≤ q.den := Nat.log2_self_le hd
  have d2 : q.den < 2 ^ (q.den.log2 + 1) := Nat.lt_log2_self
  have habs : |q| = (q.num.natAbs : ℚ) / (q.den : ℚ) := by
    conv_lhs => rw [← Rat.num_div_den q]
    rw [abs_div, Nat.abs_cast, ← Int.cast_abs, Int.abs_eq_natAbs]; simp
  have m1 : (2 : ℚ) ^ q.num.natAbs.log2 ≤ q.num.natAbs := by exact_mod_cast n1
  have m2 : (q.num.natAbs : ℚ) < 2 ^ (q.num.natAbs.log2 + 1) := by exact_mod_cast n2
  have e1 : (2 : ℚ) ^ q.den.log2 ≤ q.den := by exact_mod_cast d1
  have e2 : (q.den : ℚ) < 2 ^ (q.den.log2 + 1) := by exact_mod_cast d2
  have hdp : (0 : ℚ) < q.den := by exact_mod_cast Nat.pos_of_ne_zero hd
  have hlo : (2 : ℚ) ^ ((q.num.natAbs.log2 : ℤ) - (q.den.log2 : ℤ) - 1) < |q| := by
    rw [habs, lt_div_iff₀ hdp]
    calc (2 : ℚ) ^ ((q.num.natAbs.log2 : ℤ) - (q.den.log2 : ℤ) - 1) * q.den
        < 2 ^ ((q.num.natAbs.log2 : ℤ) - (q.den.log2 : ℤ) - 1) * 2 ^ (q.den.log2 + 1) := by
          apply mul_lt_mul_of_pos_left e2; positivity
      _ = 2 ^ q.num.natAbs.log2 := by
          rw [← zpow_natCast, ← zpow_natCast, ← zpow_add₀ (by norm_num)]; congr 1; push_cast; ring
      _ ≤ _ := m1
  have hhi : |q| < (2 : ℚ) ^ ((q.num.natAbs.log2 : ℤ) - (q.den.log2 : ℤ) + 1) := by
    rw [habs, div_lt_iff₀ hdp]
    calc (q.num.natAbs : ℚ) < 2 ^ (q.num.natAbs.log2 + 1) := m2
      _ = 2 ^ ((q.num.natAbs.log2 : ℤ) - (q.den.log2 : ℤ) + 1) * 2 ^ q.den.log2 := by
          rw [← zpow_natCast, ← zpow_natCast, ← zpow_add₀ (by norm_num)]; congr 1; push_cast; ring
      _ ≤ _ := by apply mul_le_mul_of_nonneg_left e1; positivity
  unfold ilog
  simp only
  split
  · rename_i h; exact ⟨h, hhi⟩
  · rename_i h; exact ⟨hlo.le, by rw [sub_add_cancel]; exact not_le.1 h⟩

theorem ilog_mono {a b : ℚ} (ha : a ≠ 0) (h : |a| ≤ |b|) : ilog a ≤ ilog b := by
  have hb : b ≠ 0 := by
    intro e; subst e; simp only [abs_zero] at h
    exact ha (abs_eq_zero.1 (le_antisymm h (abs_nonneg _)))
  have h1 := (ilog_spec ha).1
  have h2 := (ilog_spec hb).2
  have : (2 : ℚ) ^ ilog a < 2 ^ (ilog b + 1) := lt_of_le_of_lt (h1.trans h) h2
  have := (zpow_lt_zpow_iff_right₀ (by norm_num : (1 : ℚ) < 2)).1 this
  omega

theorem ilog_neg (q : ℚ) : ilog (-q) = ilog q := by
  by_cases hq : q = 0
  · subst hq; simp
  · have hq' : -q ≠ 0 := neg_ne_zero.2 hq
    exact le_antisymm (ilog_mono hq' (by rw [abs_neg])) (ilog_mono hq (by rw [abs_neg]))

theorem ilog_pow (k : ℤ) : ilog (2 ^ k) = k := by
  have hp : (0 : ℚ) < 2 ^ k := by positivity
  obtain ⟨h1, h2⟩ := ilog_spec hp.ne'
  rw [abs_of_pos hp] at h1 h2
  have a := (zpow_le_zpow_iff_right₀ (by norm_num : (1 : ℚ) < 2)).1 h1
  have b := (zpow_lt_zpow_iff_right₀ (by norm_num : (1 : ℚ) < 2)).1 h2
  omega

namespace Format

variable {f : Format}

theorem near_neg (q : ℚ) : f.near (-q) = -f.near q := by
  unfold near
  have he : f.expo (-q) = f.expo q := by unfold expo; rw [ilog_neg]
  by_cases hq : q = 0
  · simp [hq]
  · rw [if_neg (neg_ne_zero.2 hq), if_neg hq, he, neg_div, roundEven_neg]; push_cast; ring

theorem near_nonneg {q : ℚ} (hq : 0 ≤ q) : 0 ≤ f.near q := by
  unfold near
  split
  · exact le_refl _
  · have : 0 ≤ roundEven (q / 2 ^ f.expo q) := by
      have h := roundEven_mono (show ((0 : ℤ) : ℚ) ≤ q / 2 ^ f.expo q by push_cast; positivity)
      rwa [roundEven_int] at h
    have : (0 : ℚ) ≤ (roundEven (q / 2 ^ f.expo q) : ℚ) := by exact_mod_cast this
    positivity

/-- Integer multiples of the spacing bound roundings. -/
theorem near_le_grid {q : ℚ} (hq : q ≠ 0) {n : ℤ} (h : q ≤ n * 2 ^ f.expo q) : f.near q ≤ n * 2 ^ f.expo q := by
  unfold near
  rw [if_neg hq]
  have hp : (0 : ℚ) < 2 ^ f.expo q := by positivity
  have : roundEven (q / 2 ^ f.expo q) ≤ n := by
    have := roundEven_mono ((div_le_iff₀ hp).2 h)
    rwa [roundEven_int] at this
  exact mul_le_mul_of_nonneg_right (by exact_mod_cast this) hp.le

theorem grid_le_near {q : ℚ} (hq : q ≠ 0) {n : ℤ} (h : n * 2 ^ f.expo q ≤ q) : n * 2 ^ f.expo q ≤ f.near q := by
  unfold near
  rw [if_neg hq]
  have hp : (0 : ℚ) < 2 ^ f.expo q := by positivity
  have : n ≤ roundEven (q / 2 ^ f.expo q) := by
    have := roundEven_mono ((le_div_iff₀ hp).2 h)
    rwa [roundEven_int] at this
  exact mul_le_mul_of_nonneg_right (by exact_mod_cast this) hp.le

theorem near_grid {q : ℚ} (hq : q ≠ 0) {n : ℤ} (h : q = n * 2 ^ f.expo q) : f.near q = q := by
  apply le_antisymm
  · conv_rhs => rw [h]
    exact near_le_grid hq (le_of_eq h)
  · conv_lhs => rw [h]
    exact grid_le_near hq (le_of_eq h.symm)

/-- A power of two is an integer multiple of every smaller one. -/
theorem pow_grid {k e : ℤ} (h : e ≤ k) : ∃ n : ℤ, (2 : ℚ) ^ k = n * 2 ^ e := by
  refine ⟨2 ^ (k - e).toNat, ?_⟩
  push_cast
  rw [← zpow_natCast, ← zpow_add₀ (by norm_num)]
  congr 1; omega

theorem near_mono_pos (hp : 1 ≤ f.prec) {a b : ℚ} (ha : 0 < a) (h : a ≤ b) : f.near a ≤ f.near b := by
  have hb : 0 < b := lt_of_lt_of_le ha h
  have hl : ilog a ≤ ilog b := ilog_mono ha.ne' (by rwa [abs_of_pos ha, abs_of_pos hb])
  have he : f.expo a ≤ f.expo b := by unfold expo; omega
  rcases he.lt_or_eq with hlt | heq
  · -- the power of two between them is on both grids
    have hlt' : ilog a < ilog b := by unfold expo at hlt; omega
    have hb1 := (ilog_spec hb.ne').1
    have ha2 := (ilog_spec ha.ne').2
    rw [abs_of_pos hb] at hb1
    rw [abs_of_pos ha] at ha2
    have hab : a ≤ 2 ^ ilog b := ha2.le.trans (zpow_le_zpow_right₀ (by norm_num) (by omega))
    have hbe : f.expo b ≤ ilog b := by unfold expo at hlt ⊢; omega
    obtain ⟨n, hn⟩ := pow_grid (le_trans he hbe)
    obtain ⟨m, hm⟩ := pow_grid hbe
    calc f.near a ≤ 2 ^ ilog b := by rw [hn]; exact near_le_grid ha.ne' (by rw [← hn]; exact hab)
      _ ≤ f.near b := by rw [hm]; exact grid_le_near hb.ne' (by rw [← hm]; exact hb1)
  · unfold near
    rw [if_neg ha.ne', if_neg hb.ne', heq]
    have hq : (0 : ℚ) < 2 ^ f.expo b := by positivity
    have := roundEven_mono (div_le_div_of_nonneg_right h hq.le)
    exact mul_le_mul_of_nonneg_right (by exact_mod_cast this) hq.le

theorem near_mono (hp : 1 ≤ f.prec) {a b : ℚ} (h : a ≤ b) : f.near a ≤ f.near b := by
  rcases lt_trichotomy a 0 with ha | ha | ha
  · rcases lt_or_ge b 0 with hb | hb
    · have := near_mono_pos hp (neg_pos.2 hb) (neg_le_neg h)
      rw [near_neg, near_neg] at this
      linarith
    · have h1 := near_nonneg (f := f) (neg_nonneg.2 ha.le)
      rw [near_neg] at h1
      have h2 := near_nonneg (f := f) hb
      linarith
  · subst ha
    have : f.near 0 = 0 := by simp [near]
    rw [this]; exact near_nonneg h
  · exact near_mono_pos hp ha h

theorem near_zero : f.near 0 = 0 := by simp [near]

/-- Absolute error of rounding: half the spacing. -/
theorem near_err {q : ℚ} (hq : q ≠ 0) : |f.near q - q| ≤ 2 ^ f.expo q / 2 := by
  unfold near
  rw [if_neg hq]
  have hp : (0 : ℚ) < 2 ^ f.expo q := by positivity
  have h := roundEven_err (q / 2 ^ f.expo q)
  have : (roundEven (q / 2 ^ f.expo q) : ℚ) * 2 ^ f.expo q - q = (roundEven (q / 2 ^ f.expo q) - q / 2 ^ f.expo q) * 2 ^ f.expo q := by
    field_simp
  rw [this, abs_mul, abs_of_pos hp]
  calc _ ≤ 1 / 2 * 2 ^ f.expo q := mul_le_mul_of_nonneg_right h hp.le
    _ = _ := by ring

/-- Relative error in the normal range: `2 ^ -prec`. -/
theorem near_rel {q : ℚ} (hq : (2 : ℚ) ^ (f.emin + ((f.prec : ℤ) - 1)) ≤ |q|) : |f.near q - q| ≤ |q| / 2 ^ f.prec := by
  have hq0 : q ≠ 0 := by
    rintro rfl
    rw [abs_zero] at hq
    have : (0 : ℚ) < 2 ^ (f.emin + ((f.prec : ℤ) - 1)) := by positivity
    linarith
  have hl : f.emin + ((f.prec : ℤ) - 1) ≤ ilog q := by
    have := ilog_mono (a := (2 : ℚ) ^ (f.emin + ((f.prec : ℤ) - 1))) (b := q) (by positivity) (by rw [abs_of_pos (by positivity)]; exact hq)
    rwa [ilog_pow] at this
  have he : f.expo q = ilog q - ((f.prec : ℤ) - 1) := by unfold expo; omega
  refine (near_err hq0).trans ?_
  rw [he, le_div_iff₀ (by positivity)]
  have : (2 : ℚ) ^ (ilog q - ((f.prec : ℤ) - 1)) / 2 * 2 ^ f.prec = 2 ^ ilog q := by
    rw [← zpow_natCast, div_mul_eq_mul_div, ← zpow_add₀ (by norm_num), div_eq_iff (by norm_num)]
    rw [show ilog q - ((f.prec : ℤ) - 1) + (f.prec : ℤ) = ilog q + 1 by ring, zpow_add_one₀ (by norm_num)]
  rw [this]
  exact (ilog_spec hq0).1

/-- Powers of two in range are representable. -/
theorem near_pow (hp : 1 ≤ f.prec) {k : ℤ} (hk : f.emin ≤ k) : f.near (2 ^ k) = 2 ^ k := by
  have hq : (2 : ℚ) ^ k ≠ 0 := by positivity
  have he : f.expo (2 ^ k) ≤ k := by unfold expo; rw [ilog_pow]; omega
  obtain ⟨n, hn⟩ := pow_grid he
  exact near_grid hq hn

theorem near_abs_le_pow (hp : 1 ≤ f.prec) {q : ℚ} {k : ℤ} (hk : f.emin ≤ k) (h : |q| ≤ 2 ^ k) : |f.near q| ≤ 2 ^ k := by
  rw [abs_le] at h ⊢
  constructor
  · have := near_mono hp h.1
    rwa [near_neg, near_pow hp hk] at this
  · have := near_mono hp h.2
    rwa [near_pow hp hk] at this

/-- Rounded values are representable: rounding twice is rounding once. -/
theorem near_idem (hp : 1 ≤ f.prec) (q : ℚ) : f.near (f.near q) = f.near q := by
  by_cases hq : q = 0
  · subst hq; rw [near_zero, near_zero]
  by_cases hr : f.near q = 0
  · rw [hr, near_zero]
  -- `near q` is a multiple of the spacing at `q`; the spacing at `near q` is at most one binade above
  have hr2 : f.near q = (roundEven (q / 2 ^ f.expo q) : ℚ) * 2 ^ f.expo q := by
    conv_lhs => unfold near
    rw [if_neg hq]
  obtain ⟨h1, h2⟩ := ilog_spec hq
  rcases le_or_gt (f.expo (f.near q)) (f.expo q) with he | he
  · obtain ⟨n, hn⟩ := pow_grid he
    refine near_grid hr (n := roundEven (q / 2 ^ f.expo q) * n) ?_
    calc f.near q = (roundEven (q / 2 ^ f.expo q) : ℚ) * 2 ^ f.expo q := hr2
      _ = (roundEven (q / 2 ^ f.expo q) : ℚ) * (n * 2 ^ f.expo (f.near q)) := congrArg _ hn
      _ = _ := by push_cast; ring
  · have hl : ilog q < ilog (f.near q) := by unfold expo at he; omega
    have hlo := (ilog_spec hr).1
    have hup0 : |f.near q| ≤ 2 ^ (Max.max (ilog q + 1) f.emin) :=
      near_abs_le_pow hp (le_max_right _ _) (h2.le.trans (zpow_le_zpow_right₀ (by norm_num) (le_max_left _ _)))
    have hl2 := (zpow_le_zpow_iff_right₀ (by norm_num : (1 : ℚ) < 2)).1 (hlo.trans hup0)
    have hk : f.emin ≤ ilog q + 1 := by unfold expo at he; omega
    have hup : |f.near q| ≤ 2 ^ (ilog q + 1) := by rwa [max_eq_left hk] at hup0
    have : |f.near q| = 2 ^ (ilog q + 1) :=
      le_antisymm hup ((zpow_le_zpow_right₀ (by norm_num) (by omega)).trans hlo)
    rcases abs_eq (by positivity : (0 : ℚ) ≤ 2 ^ (ilog q + 1)) |>.1 this with e | e
    · rw [e, near_pow hp hk]
    · rw [e, near_neg, near_pow hp hk]

/-- Numbers `m * 2 ^ e` with at most `prec` bits are representable. -/
theorem near_repr (hp : 1 ≤ f.prec) {m e : ℤ} (he : f.emin ≤ e) (hm : |m| ≤ 2 ^ f.prec) : f.near ((m : ℚ) * 2 ^ e) = m * 2 ^ e := by
  by_cases h0 : (m : ℚ) * 2 ^ e = 0
  · rw [h0, near_zero]
  have hle : |(m : ℚ) * 2 ^ e| ≤ 2 ^ ((f.prec : ℤ) + e) := by
    rw [abs_mul, abs_of_pos (by positivity : (0 : ℚ) < 2 ^ e), zpow_add₀ (by norm_num), zpow_natCast]
    apply mul_le_mul_of_nonneg_right _ (by positivity)
    rw [← Int.cast_abs]; exact_mod_cast hm
  rcases hle.lt_or_eq with hlt | heq
  · have hl : ilog ((m : ℚ) * 2 ^ e) < (f.prec : ℤ) + e := by
      have := lt_of_le_of_lt (ilog_spec h0).1 hlt
      exact (zpow_lt_zpow_iff_right₀ (by norm_num : (1 : ℚ) < 2)).1 this
    have hx : f.expo ((m : ℚ) * 2 ^ e) ≤ e := by unfold expo; omega
    obtain ⟨n, hn⟩ := pow_grid hx
    refine near_grid h0 (n := m * n) ?_
    calc (m : ℚ) * 2 ^ e = m * (n * 2 ^ f.expo ((m : ℚ) * 2 ^ e)) := congrArg _ hn
      _ = _ := by push_cast; ring
  · rcases abs_eq (by positivity : (0 : ℚ) ≤ 2 ^ ((f.prec : ℤ) + e)) |>.1 heq with h | h
    · rw [h, near_pow hp (by omega)]
    · rw [h, near_neg, near_pow hp (by omega)]

/-- Conditions on a format: at least one bit of precision; `1/2` and `2 ^ 64` in range. -/
structure Ok (f : Format) : Prop where
  prec : 1 ≤ f.prec
  emin : f.emin ≤ -1
  emax : 65 ≤ f.emax

theorem rnd_fin {q : ℚ} (h : |f.near q| < 2 ^ f.emax) : f.rnd q = .fin (f.near q) := by
  unfold rnd; rw [if_neg (not_le.2 h)]

theorem rnd_eq_fin {q r : ℚ} (h : f.rnd q = .fin r) : r = f.near q ∧ |f.near q| < 2 ^ f.emax := by
  unfold rnd at h
  split at h
  · simp at h
  · rename_i hn
    simp only [Fl.fin.injEq] at h
    exact ⟨h.symm, not_le.1 hn⟩

theorem rnd_mono (hp : 1 ≤ f.prec) {a b : ℚ} (h : a ≤ b) : Fl.le (f.rnd a) (f.rnd b) = true := by
  have hn := near_mono (f := f) hp h
  have sgn : ∀ q, 2 ^ f.emax ≤ |f.near q| → (q < 0 → f.near q ≤ -2 ^ f.emax) ∧ (¬ q < 0 → 2 ^ f.emax ≤ f.near q) := by
    intro q hq
    constructor
    · intro h
      have := near_nonneg (f := f) (neg_nonneg.2 h.le)
      rw [near_neg] at this
      rw [abs_of_nonpos (by linarith)] at hq
      linarith
    · intro h
      rwa [abs_of_nonneg (near_nonneg (not_lt.1 h))] at hq
  have hpos : (0 : ℚ) < 2 ^ f.emax := by positivity
  unfold rnd
  by_cases hA : 2 ^ f.emax ≤ |f.near a| <;> by_cases hB : 2 ^ f.emax ≤ |f.near b|
  · rw [if_pos hA, if_pos hB]
    by_cases ha : a < 0 <;> by_cases hb : b < 0
    · simp [ha, hb, Fl.le, Fl.ge, Fl.lt]
    · simp [ha, hb, Fl.le, Fl.ge, Fl.lt]
    · exact absurd (lt_of_le_of_lt h hb) ha
    · simp [ha, hb, Fl.le, Fl.ge, Fl.lt]
  · rw [if_pos hA, if_neg hB]
    by_cases ha : a < 0
    · simp [ha, Fl.le, Fl.ge, Fl.lt]
    · exfalso
      have := (sgn a hA).2 ha
      exact hB ((this.trans hn).trans (le_abs_self _))
  · rw [if_neg hA, if_pos hB]
    by_cases hb : b < 0
    · exfalso
      have := (sgn b hB).1 hb
      exact hA (by
        have h2 := neg_le_abs (f.near a)
        linarith)
    · simp [hb, Fl.le, Fl.ge, Fl.lt]
  · rw [if_neg hA, if_neg hB]; simpa using hn

/-- Rounding to nearest even satisfies the laws of rounding. -/
theorem arith_laws (h : f.Ok) (fused : Bool) (sqrt : ℚ → Fl ℚ) : (f.arith fused sqrt).Laws where
  notNan := by intro q; show f.rnd q ≠ .nan; unfold rnd; split <;> simp
  mono := fun a b hab => rnd_mono h.prec hab
  zero := by show f.rnd 0 = _; rw [rnd_fin] <;> rw [near_zero]; rw [abs_zero]; positivity
  half := by
    show f.rnd (1 / 2) = _
    have e : (1 / 2 : ℚ) = 2 ^ (-1 : ℤ) := by norm_num
    have hn : f.near (1 / 2) = 1 / 2 := by rw [e, near_pow h.prec h.emin]
    rw [rnd_fin] <;> rw [hn]
    rw [abs_of_pos (by norm_num)]
    have : (1 : ℚ) ≤ 2 ^ f.emax := one_le_pow₀ (by norm_num)
    linarith
  pow := by
    intro k hk
    show f.rnd (2 ^ k) = _
    have e : (2 ^ k : ℚ) = 2 ^ (k : ℤ) := by rw [zpow_natCast]
    have hn : f.near (2 ^ k) = 2 ^ k := by
      rw [e, near_pow h.prec (by have := h.emin; omega)]
    rw [rnd_fin] <;> rw [hn]
    rw [abs_of_pos (by positivity)]
    exact pow_lt_pow_right₀ (by norm_num) (by have := h.emax; omega)
  idem := by
    intro q r hr
    obtain ⟨rfl, h2⟩ := rnd_eq_fin hr
    show f.rnd (f.near q) = _
    rw [rnd_fin] <;> rw [near_idem h.prec]
    exact h2

/-! ### Discretisation in a binary format -/

section Disc
variable {fused : Bool} {sqrt : ℚ → Fl ℚ}

/-- Rounding unit. -/
def unit (f : Format) : ℚ := 2 ^ (-(f.prec : ℤ))

theorem unit_pos : 0 < f.unit := by unfold unit; positivity

theorem unit_le (h : 1 ≤ f.prec) : f.unit ≤ 1 / 2 := by
  unfold unit
  calc (2 : ℚ) ^ (-(f.prec : ℤ)) ≤ 2 ^ (-1 : ℤ) := zpow_le_zpow_right₀ (by norm_num) (by omega)
    _ = 1 / 2 := by norm_num

theorem near_rel_unit {q : ℚ} (hq : (2 : ℚ) ^ (f.emin + ((f.prec : ℤ) - 1)) ≤ |q|) : |f.near q - q| ≤ f.unit * |q| := by
  have := near_rel hq
  unfold unit
  rw [zpow_neg, zpow_natCast]
  calc _ ≤ _ := this
    _ = _ := by rw [div_eq_mul_inv, mul_comm]

/-- `rnd` is finite and below any representable bound below the overflow threshold. -/
theorem rnd_le_of (h : f.Ok) {q r : ℚ} (h0 : 0 ≤ q) (hqr : q ≤ r) (hr : f.near r = r) (hlt : r < 2 ^ f.emax) :
    f.rnd q = .fin (f.near q) ∧ 0 ≤ f.near q ∧ f.near q ≤ r := by
  have h1 := near_nonneg (f := f) h0
  have h2 := near_mono (f := f) h.prec hqr
  rw [hr] at h2
  exact ⟨rnd_fin (by rw [abs_of_nonneg h1]; linarith), h1, h2⟩

theorem two_le_emax (h : f.Ok) : (2 : ℚ) ≤ 2 ^ f.emax := by
  calc (2 : ℚ) = 2 ^ 1 := by norm_num
    _ ≤ 2 ^ f.emax := pow_le_pow_right₀ (by norm_num) (by have := h.emax; omega)

/-- `1/2 - u`, `1/2 + u`, `1 - u` and `(1 - u) * 2 ^ cb` are representable. -/
theorem near_half_sub (h : f.Ok) (he : f.emin ≤ -(f.prec : ℤ) - 1) : f.near (1 / 2 - f.unit) = 1 / 2 - f.unit := by
  have e : (1 / 2 - f.unit : ℚ) = ((2 ^ f.prec - 2 : ℤ) : ℚ) * 2 ^ (-(f.prec : ℤ) - 1) := by
    unfold unit
    push_cast
    rw [← zpow_natCast, sub_mul, ← zpow_add₀ (by norm_num)]
    rw [show (f.prec : ℤ) + (-(f.prec : ℤ) - 1) = -1 by ring]
    have : (2 : ℚ) * 2 ^ (-(f.prec : ℤ) - 1) = 2 ^ (-(f.prec : ℤ)) := by
      rw [zpow_sub_one₀ (by norm_num)]; field_simp
    rw [this]; norm_num
  rw [e]
  apply near_repr h.prec he
  have : (2 : ℤ) ^ 1 ≤ 2 ^ f.prec := pow_le_pow_right₀ (by norm_num) h.prec
  rw [abs_of_nonneg (by linarith)]; linarith

theorem near_half_add (h : f.Ok) (he : f.emin ≤ -(f.prec : ℤ) - 1) : f.near (1 / 2 + f.unit) = 1 / 2 + f.unit := by
  have e : (1 / 2 + f.unit : ℚ) = ((2 ^ (f.prec - 1) + 1 : ℤ) : ℚ) * 2 ^ (-(f.prec : ℤ)) := by
    unfold unit
    push_cast
    rw [← zpow_natCast, add_mul, ← zpow_add₀ (by norm_num)]
    rw [show ((f.prec - 1 : ℕ) : ℤ) + -(f.prec : ℤ) = -1 by have := h.prec; omega]
    norm_num
  rw [e]
  apply near_repr h.prec (by omega)
  have h1 : (1 : ℤ) ≤ 2 ^ (f.prec - 1) := one_le_pow₀ (by norm_num)
  have h2 : (2 : ℤ) ^ f.prec = 2 ^ (f.prec - 1) * 2 := by
    rw [← pow_succ]; congr 1; have := h.prec; omega
  rw [abs_of_nonneg (by linarith), h2]; linarith

theorem near_one_sub (h : f.Ok) (he : f.emin ≤ -(f.prec : ℤ) - 1) (k : Nat) : f.near ((1 - f.unit) * 2 ^ k) = (1 - f.unit) * 2 ^ k := by
  have e : ((1 - f.unit) * 2 ^ k : ℚ) = ((2 ^ f.prec - 1 : ℤ) : ℚ) * 2 ^ ((k : ℤ) - f.prec) := by
    unfold unit
    push_cast
    rw [zpow_sub₀ (by norm_num), zpow_neg, zpow_natCast, zpow_natCast]
    field_simp
  rw [e]
  apply near_repr h.prec (by omega)
  have : (1 : ℤ) ≤ 2 ^ f.prec := one_le_pow₀ (by norm_num)
  rw [abs_of_nonneg (by linarith)]; linarith

/-- Scaled coordinates well inside the domain are accepted. -/
theorem discSingle_inside (h : f.Ok) (he : f.emin ≤ -(f.prec : ℤ) - 1) {w cb : Nat} (hcb : cb ≤ w) (hcb2 : cb ≤ 64) {x i : ℚ}
    (ht : |x * i| ≤ 1 / 2 - f.unit) : ∃ r, discSingle (f.arith fused sqrt) w cb (.fin x) (.fin i) = .ok r := by
  have hu := unit_pos (f := f)
  have hu2 := unit_le h.prec
  have h2 := two_le_emax h
  -- the shifted coordinate
  have hsh : ∃ s, (f.arith fused sqrt).fma (.fin x) (.fin i) (.fin (1 / 2)) = .fin s ∧ 0 ≤ s ∧ s ≤ 1 - f.unit := by
    have key : ∀ t : ℚ, |t| ≤ 1 / 2 - f.unit → ∃ s, f.rnd (t + 1 / 2) = .fin s ∧ 0 ≤ s ∧ s ≤ 1 - f.unit := by
      intro t ht
      rw [abs_le] at ht
      have h1 := near_one_sub h he 0
      rw [pow_zero, mul_one] at h1
      obtain ⟨e1, e2, e3⟩ := rnd_le_of h (q := t + 1 / 2) (r := 1 - f.unit) (by linarith) (by linarith) h1 (by linarith)
      exact ⟨_, e1, e2, e3⟩
    unfold Arith.fma
    split
    · exact key _ ht
    · show ∃ s, (f.arith fused sqrt).add (f.rnd (x * i)) (.fin (1 / 2)) = .fin s ∧ _
      have hn : |f.near (x * i)| ≤ 1 / 2 - f.unit := by
        rw [abs_le] at ht ⊢
        constructor
        · have := near_mono (f := f) h.prec ht.1
          rwa [near_neg, near_half_sub h he] at this
        · have := near_mono (f := f) h.prec ht.2
          rwa [near_half_sub h he] at this
      rw [rnd_fin (by linarith)]
      exact key _ hn
  obtain ⟨s, hs, s0, s1⟩ := hsh
  have hp : (1 - f.unit) * 2 ^ cb < 2 ^ cb := by
    have : (0 : ℚ) < 2 ^ cb := by positivity
    nlinarith
  have hp2 : (2 : ℚ) ^ cb < 2 ^ f.emax := pow_lt_pow_right₀ (by norm_num) (by have := h.emax; omega)
  obtain ⟨e1, e2, e3⟩ := rnd_le_of h (q := s * 2 ^ cb) (r := (1 - f.unit) * 2 ^ cb) (by positivity)
    (mul_le_mul_of_nonneg_right s1 (by positivity)) (near_one_sub h he cb) (by linarith)
  have hd : discScaled (f.arith fused sqrt) cb (.fin x) (.fin i) = .fin (f.near (s * 2 ^ cb)) := by
    unfold discScaled; rw [hs]; exact e1
  rcases discSingle_cases (f.arith fused sqrt) hcb (.fin x) (.fin i) with ⟨q, _, _, _, e⟩ | ⟨hq, _⟩
  · exact ⟨_, e⟩
  · exfalso
    rcases hq _ hd with hq | hq <;> linarith

/-- Scaled coordinates at or beyond the upper end, or well below the lower end, are rejected. -/
theorem discSingle_outside (h : f.Ok) (he : f.emin ≤ -(f.prec : ℤ) - 1) {w cb : Nat} (hcb : cb ≤ w) (hcb2 : cb ≤ 64) {x i : ℚ} {r : Nat}
    (hr : discSingle (f.arith fused sqrt) w cb (.fin x) (.fin i) = .ok r) : -(1 / 2 + f.unit) < x * i ∧ x * i < 1 / 2 := by
  have hu := unit_pos (f := f)
  have hu2 := unit_le h.prec
  have L := arith_laws h fused sqrt
  rcases discSingle_cases (f.arith fused sqrt) hcb (.fin x) (.fin i) with ⟨q, hq, q0, q1, e⟩ | ⟨_, e⟩
  swap
  · rw [e] at hr; simp at hr
  have c1 : f.near (1 / 2) = 1 / 2 := by
    have := near_pow (f := f) h.prec (k := -1) h.emin
    have e2 : (2 : ℚ) ^ (-1 : ℤ) = 1 / 2 := by norm_num
    rwa [e2] at this
  have c2 : f.near 1 = 1 := by
    have := near_pow (f := f) h.prec (k := 0) (by have := h.emin; omega)
    simpa using this
  -- the shifted value is finite
  have hsh : ∃ s, (f.arith fused sqrt).fma (.fin x) (.fin i) (.fin (1 / 2)) = .fin s := by
    by_contra hn
    have : ((f.arith fused sqrt).fma (.fin x) (.fin i) (.fin (1 / 2))).isFinite = false := by
      rw [Fl.not_isFinite_iff]
      intro s hs; exact hn ⟨s, hs⟩
    have h3 := mul_nonfin (f.arith fused sqrt) (b := .fin (2 ^ cb)) (.inl this)
    unfold discScaled at hq
    rw [hq] at h3
    simp [Fl.isFinite] at h3
  obtain ⟨s, hs⟩ := hsh
  have hq2 : f.rnd (s * 2 ^ cb) = .fin q := by
    unfold discScaled at hq; rw [hs] at hq; exact hq
  obtain ⟨rfl, _⟩ := rnd_eq_fin hq2
  have hpw : (0 : ℚ) < 2 ^ cb := by positivity
  have hkey : f.near s = s := by
    unfold Arith.fma at hs
    split at hs
    · obtain ⟨rfl, _⟩ := rnd_eq_fin (show f.rnd _ = .fin s from hs); exact near_idem h.prec _
    · have hs' : (f.arith fused sqrt).add (f.rnd (x * i)) (.fin (1 / 2)) = .fin s := hs
      cases hm : f.rnd (x * i) with
      | nan => rw [hm] at hs'; simp [Arith.add] at hs'
      | inf t => rw [hm] at hs'; simp [Arith.add] at hs'
      | fin t =>
        rw [hm] at hs'
        obtain ⟨rfl, _⟩ := rnd_eq_fin (show f.rnd _ = .fin s from hs'); exact near_idem h.prec _
  have hs0 : 0 ≤ s ∨ (s < 0 ∧ -f.unit < s) := by
    by_contra hc
    rw [not_or, not_and] at hc
    have h1 : s < 0 := not_le.1 hc.1
    have h2 : s ≤ -f.unit := not_lt.1 (hc.2 h1)
    -- `s * 2^cb ≤ -u`, representable
    have hpp : f.near (-f.unit) = -f.unit := by
      rw [near_neg]; unfold unit; rw [near_pow h.prec (by omega)]
    have : s * 2 ^ cb ≤ -f.unit := by
      have : (1 : ℚ) ≤ 2 ^ cb := one_le_pow₀ (by norm_num)
      nlinarith
    have := near_mono (f := f) h.prec this
    rw [hpp] at this
    linarith
  have hs1 : s < 1 := by
    by_contra hc
    have hc : 1 ≤ s := not_lt.1 hc
    have : (2 : ℚ) ^ cb ≤ s * 2 ^ cb := by nlinarith
    have := near_mono (f := f) h.prec this
    have hp2 := near_pow (f := f) h.prec (k := cb) (by have := h.emin; omega)
    rw [zpow_natCast] at hp2
    rw [hp2] at this
    linarith
  have key : ∀ t : ℚ, f.rnd (t + 1 / 2) = .fin s → -(1 / 2 + f.unit) < t ∧ t < 1 / 2 := by
    intro t ht
    obtain ⟨rfl, _⟩ := rnd_eq_fin ht
    constructor
    · by_contra hc
      have hc : t + 1 / 2 ≤ -f.unit := by linarith [not_lt.1 hc]
      have h4 := near_mono (f := f) h.prec hc
      rw [near_neg] at h4
      have h5 : f.near f.unit = f.unit := by unfold unit; rw [near_pow h.prec (by omega)]
      rw [h5] at h4
      rcases hs0 with h6 | ⟨_, h6⟩ <;> linarith
    · by_contra hc
      have hc : (1 : ℚ) ≤ t + 1 / 2 := by linarith [not_lt.1 hc]
      have h4 := near_mono (f := f) h.prec hc
      rw [c2] at h4
      linarith
  unfold Arith.fma at hs
  split at hs
  · exact key _ hs
  · have hs' : (f.arith fused sqrt).add (f.rnd (x * i)) (.fin (1 / 2)) = .fin s := hs
    cases hm : f.rnd (x * i) with
    | nan => rw [hm] at hs'; simp [Arith.add] at hs'
    | inf t => rw [hm] at hs'; simp [Arith.add] at hs'
    | fin t =>
      rw [hm] at hs'
      obtain ⟨k1, k2⟩ := key t hs'
      obtain ⟨rfl, _⟩ := rnd_eq_fin hm
      constructor
      · by_contra hc
        have h4 := near_mono (f := f) h.prec (not_lt.1 hc)
        rw [near_neg, near_half_add h he] at h4
        linarith
      · by_contra hc
        have h4 := near_mono (f := f) h.prec (not_lt.1 hc)
        rw [c1] at h4
        linarith

/-- The largest representable value below `2 ^ k`, i.e. `nextafter(2 ^ k, -1)`, is `(1 - u) * 2 ^ k`. -/
theorem le_pred_pow (h : f.Ok) (he : f.emin ≤ -(f.prec : ℤ) - 1) {k : Nat} {y : ℚ} (hy : f.near y = y) (hlt : y < 2 ^ k) :
    y ≤ (1 - f.unit) * 2 ^ k := by
  have hu := unit_le h.prec
  have hp : (0 : ℚ) < 2 ^ k := by positivity
  rcases le_or_gt y 0 with h0 | h0
  · nlinarith
  have hs := ilog_spec h0.ne'
  rw [abs_of_pos h0] at hs
  rw [← zpow_natCast] at hlt
  have hl := (zpow_lt_zpow_iff_right₀ (by norm_num : (1 : ℚ) < 2)).1 (lt_of_le_of_lt hs.1 hlt)
  rcases lt_or_eq_of_le (show ilog y ≤ (k : ℤ) - 1 by omega) with hl | hl
  · have : y ≤ 2 ^ ((k : ℤ) - 1) := hs.2.le.trans (zpow_le_zpow_right₀ (by norm_num) (by omega))
    rw [zpow_sub_one₀ (by norm_num), zpow_natCast] at this
    nlinarith
  · have hx : f.expo y = (k : ℤ) - f.prec := by unfold expo; omega
    have e : y = (roundEven (y / 2 ^ f.expo y) : ℚ) * 2 ^ f.expo y := by
      conv_lhs => rw [← hy]
      conv_lhs => unfold near
      rw [if_neg h0.ne']
    rw [hx] at e
    have hpe : (0 : ℚ) < 2 ^ ((k : ℤ) - f.prec) := by positivity
    have hk : (2 : ℚ) ^ (k : ℤ) = 2 ^ f.prec * 2 ^ ((k : ℤ) - f.prec) := by
      rw [← zpow_natCast, ← zpow_add₀ (by norm_num)]; congr 1; ring
    have hn : roundEven (y / 2 ^ ((k : ℤ) - f.prec)) < 2 ^ f.prec := by
      rw [e, hk] at hlt
      have := lt_of_mul_lt_mul_right hlt hpe.le
      have e2 : (roundEven ((roundEven (y / 2 ^ ((k : ℤ) - f.prec)) : ℚ) * 2 ^ ((k : ℤ) - f.prec) / 2 ^ ((k : ℤ) - f.prec)) : ℚ) =
          roundEven (y / 2 ^ ((k : ℤ) - f.prec)) := by
        rw [mul_div_cancel_right₀ _ hpe.ne', roundEven_int]
      exact_mod_cast this
    have hn' : (roundEven (y / 2 ^ ((k : ℤ) - f.prec)) : ℚ) ≤ 2 ^ f.prec - 1 := by
      have : roundEven (y / 2 ^ ((k : ℤ) - f.prec)) ≤ 2 ^ f.prec - 1 := by omega
      exact_mod_cast this
    calc y = _ := e
      _ ≤ (2 ^ f.prec - 1) * 2 ^ ((k : ℤ) - f.prec) := mul_le_mul_of_nonneg_right hn' hpe.le
      _ = (1 - f.unit) * 2 ^ k := by
        rw [sub_mul, ← hk, zpow_natCast, one_mul, sub_mul, one_mul]
        unfold unit
        rw [show (k : ℤ) - f.prec = -(f.prec : ℤ) + k by ring, zpow_add₀ (by norm_num), zpow_natCast]

/-- Conditions met by all formats in use: at least 10 bits of precision, a range around 1 that is wide enough, and
reciprocals of normal numbers do not overflow by more than a few binades. -/
structure Std (f : Format) : Prop extends f.Ok where
  prec10 : 10 ≤ f.prec
  emin2 : f.emin ≤ -(f.prec : ℤ) - 8
  emax2 : -f.emin - f.prec ≤ (f.emax : ℤ) + 3

/-- The smallest positive normal number. -/
def minNormal (f : Format) : ℚ := 2 ^ (f.emin + ((f.prec : ℤ) - 1))

theorem unit_le' (h : 10 ≤ f.prec) : f.unit ≤ 1 / 1024 := by
  unfold unit
  calc (2 : ℚ) ^ (-(f.prec : ℤ)) ≤ 2 ^ (-10 : ℤ) := zpow_le_zpow_right₀ (by norm_num) (by omega)
    _ = 1 / 1024 := by norm_num

theorem pow_emax_pred (h : f.Ok) : (2 : ℚ) * 2 ^ (f.emax - 1) = 2 ^ f.emax := by
  rw [← pow_succ']; congr 1; have := h.emax; omega

/-- Normal results: finite, with relative error at most the rounding unit. -/
theorem rnd_normal (h : f.Ok) {q : ℚ} (h1 : f.minNormal ≤ |q|) (h2 : |q| ≤ 2 ^ (f.emax - 1)) :
    ∃ r, f.rnd q = .fin r ∧ |r - q| ≤ f.unit * |q| := by
  refine ⟨f.near q, rnd_fin ?_, near_rel_unit h1⟩
  have hle : |f.near q| ≤ 2 ^ (((f.emax - 1 : ℕ) : ℤ)) :=
    near_abs_le_pow h.prec (by have := h.emin; have := h.emax; omega) (by rw [zpow_natCast]; exact h2)
  rw [zpow_natCast] at hle
  have := pow_emax_pred h
  have : (0 : ℚ) < 2 ^ (f.emax - 1) := by positivity
  linarith

theorem invBox_normal (h : f.Ok) {b : ℚ} (hb : 0 < b) (h1 : f.minNormal ≤ 1 / b) (h2 : 1 / b ≤ 2 ^ (f.emax - 1)) :
    ∃ i, invBox (f.arith fused sqrt) (.fin b) = .fin i ∧ (1 - f.unit) / b ≤ i ∧ i ≤ (1 + f.unit) / b := by
  have hp : 0 < 1 / b := by positivity
  obtain ⟨i, e, hi⟩ := rnd_normal h (q := 1 / b) (by rwa [abs_of_pos hp]) (by rwa [abs_of_pos hp])
  refine ⟨i, ?_, ?_⟩
  · unfold invBox Arith.div
    simp only [if_neg hb.ne']
    exact e
  · rw [abs_of_pos hp, abs_le] at hi
    rw [sub_div, add_div]
    have : f.unit / b = f.unit * (1 / b) := by ring
    rw [this]
    constructor <;> linarith

theorem disc_accepts (h : f.Ok) (he : f.emin ≤ -(f.prec : ℤ) - 1) {w cb : Nat} (hcb : cb ≤ w) (hcb2 : cb ≤ 64) {b x : ℚ} (hb : 0 < b)
    (h1 : f.minNormal ≤ 1 / b) (h2 : 1 / b ≤ 2 ^ (f.emax - 1)) (hx : |x| * (1 + f.unit) ≤ (1 / 2 - f.unit) * b) :
    ∃ r, discSingle (f.arith fused sqrt) w cb (.fin x) (invBox (f.arith fused sqrt) (.fin b)) = .ok r := by
  obtain ⟨i, e, i1, i2⟩ := invBox_normal (fused := fused) (sqrt := sqrt) h hb h1 h2
  rw [e]
  refine discSingle_inside h he hcb hcb2 ?_
  have hu := unit_le h.prec
  have hi0 : 0 ≤ i := le_trans (div_nonneg (by linarith) hb.le) i1
  rw [abs_mul, abs_of_nonneg hi0]
  calc |x| * i ≤ |x| * ((1 + f.unit) / b) := mul_le_mul_of_nonneg_left i2 (abs_nonneg _)
    _ = |x| * (1 + f.unit) / b := by ring
    _ ≤ _ := by rw [div_le_iff₀ hb]; exact hx

theorem disc_accepted (h : f.Ok) (he : f.emin ≤ -(f.prec : ℤ) - 1) {w cb : Nat} (hcb : cb ≤ w) (hcb2 : cb ≤ 64) {b x : ℚ} (hb : 0 < b)
    (h1 : f.minNormal ≤ 1 / b) (h2 : 1 / b ≤ 2 ^ (f.emax - 1)) {r : Nat}
    (hr : discSingle (f.arith fused sqrt) w cb (.fin x) (invBox (f.arith fused sqrt) (.fin b)) = .ok r) :
    -((1 / 2 + f.unit) * b) < x * (1 - f.unit) ∧ x * (1 - f.unit) < b / 2 := by
  obtain ⟨i, e, i1, i2⟩ := invBox_normal (fused := fused) (sqrt := sqrt) h hb h1 h2
  rw [e] at hr
  obtain ⟨k1, k2⟩ := discSingle_outside h he hcb hcb2 hr
  have hu := unit_le h.prec
  have hu0 := unit_pos (f := f)
  have hib : (1 - f.unit) ≤ i * b := by rwa [div_le_iff₀ hb] at i1
  rcases le_total 0 x with hx | hx
  · constructor
    · have : 0 ≤ x * (1 - f.unit) := mul_nonneg hx (by linarith)
      have : 0 < (1 / 2 + f.unit) * b := by positivity
      linarith
    · calc x * (1 - f.unit) ≤ x * (i * b) := mul_le_mul_of_nonneg_left hib hx
        _ = (x * i) * b := by ring
        _ < 1 / 2 * b := mul_lt_mul_of_pos_right k2 hb
        _ = b / 2 := by ring
  · constructor
    · calc -((1 / 2 + f.unit) * b) = -(1 / 2 + f.unit) * b := by ring
        _ < (x * i) * b := mul_lt_mul_of_pos_right k1 hb
        _ = x * (i * b) := by ring
        _ ≤ x * (1 - f.unit) := mul_le_mul_of_nonpos_left hib hx
    · have : x * (1 - f.unit) ≤ 0 := mul_nonpos_of_nonpos_of_nonneg hx (by linarith)
      have : 0 < b / 2 := by positivity
      linarith

/-- The deduced box size, with the bound on its error. -/
theorem boxFromMax_ieee (h : f.Std) {m : ℚ} (h1 : (2 : ℚ) ^ (f.emin + f.prec + 4) ≤ m) (h2 : m ≤ 2 ^ (f.emax - 3)) :
    ∃ b, boxFromMax (f.arith fused sqrt) [.fin m] = .ok (.fin b) ∧ |b - 21 / 10 * m| ≤ 5 * f.unit * m := by
  have hok := h.toOk
  have hu := unit_pos (f := f)
  have hu2 := unit_le' h.prec10
  have hm : 0 < m := lt_of_lt_of_le (by positivity) h1
  have hmin : f.minNormal * 32 ≤ m := by
    refine le_trans (le_of_eq ?_) h1
    unfold minNormal
    rw [show (32 : ℚ) = 2 ^ (5 : ℤ) by norm_num, ← zpow_add₀ (by norm_num)]; congr 1; ring
  have hmn : 0 < f.minNormal := by unfold minNormal; positivity
  have hmax : m * 4 ≤ 2 ^ (f.emax - 1) := by
    have : (2 : ℚ) ^ (f.emax - 1) = 2 ^ (f.emax - 3) * 4 := by
      rw [show (4 : ℚ) = 2 ^ 2 by norm_num, ← pow_add]; congr 1; have := h.emax; omega
    rw [this]; linarith
  -- 2 m
  obtain ⟨a, ea, ha⟩ := rnd_normal hok (q := m * 2) (by rw [abs_of_pos (by positivity)]; linarith)
    (by rw [abs_of_pos (by positivity)]; linarith)
  rw [abs_of_pos (by positivity : 0 < m * 2), abs_le] at ha
  -- 1/20
  obtain ⟨c, ec, hc⟩ := rnd_normal hok (q := 1 / 20)
    (by rw [abs_of_pos (by norm_num)]
        have : f.minNormal ≤ 2 ^ (-5 : ℤ) := by
          unfold minNormal
          exact zpow_le_zpow_right₀ (by norm_num) (by have := h.emin2; omega)
        have e : (2 : ℚ) ^ (-5 : ℤ) = 1 / 32 := by norm_num
        rw [e] at this; linarith)
    (by rw [abs_of_pos (by norm_num)]
        have : (1 : ℚ) ≤ 2 ^ (f.emax - 1) := one_le_pow₀ (by norm_num)
        linarith)
  rw [abs_of_pos (by norm_num : (0 : ℚ) < 1 / 20), abs_le] at hc
  have hac : |a * c - m / 10| ≤ 21 / 100 * (f.unit * m) := by
    have e : a * c - m / 10 = (a - m * 2) * c + m * 2 * (c - 1 / 20) := by ring
    rw [e]
    have t1 : |(a - m * 2) * c| ≤ (f.unit * (m * 2)) * (11 / 200) := by
      rw [abs_mul]
      apply mul_le_mul (abs_le.2 ⟨by linarith, by linarith⟩) _ (abs_nonneg _) (by positivity)
      rw [abs_le]; constructor <;> linarith
    have t2 : |m * 2 * (c - 1 / 20)| ≤ m * 2 * (f.unit * (1 / 20)) := by
      rw [abs_mul, abs_of_pos (by positivity : 0 < m * 2)]
      exact mul_le_mul_of_nonneg_left (abs_le.2 ⟨by linarith, by linarith⟩) (by positivity)
    calc _ ≤ _ := abs_add_le _ _
      _ ≤ (f.unit * (m * 2)) * (11 / 200) + m * 2 * (f.unit * (1 / 20)) := add_le_add t1 t2
      _ ≤ _ := by nlinarith [mul_pos hu hm]
  have hum : f.unit * m ≤ m / 1024 := by
    calc f.unit * m ≤ 1 / 1024 * m := mul_le_mul_of_nonneg_right hu2 hm.le
      _ = _ := by ring
  have hum0 : 0 < f.unit * m := mul_pos hu hm
  have huu : f.unit * (f.unit * m) ≤ f.unit * m / 1024 := by
    calc f.unit * (f.unit * m) ≤ 1 / 1024 * (f.unit * m) := mul_le_mul_of_nonneg_right hu2 hum0.le
      _ = _ := by ring
  rw [abs_le] at hac
  -- the sum, for any accurate enough product
  have last : ∀ p : ℚ, |p - m / 10| ≤ 4 / 10 * (f.unit * m) → ∃ b, f.rnd (p + a) = .fin b ∧ |b - 21 / 10 * m| ≤ 5 * f.unit * m := by
    intro p hp
    rw [abs_le] at hp
    have hs1 : 2 * m ≤ p + a := by nlinarith
    have hs2 : p + a ≤ 22 / 10 * m := by nlinarith
    obtain ⟨b, eb, hb⟩ := rnd_normal hok (q := p + a) (by rw [abs_of_pos (by linarith)]; linarith)
      (by rw [abs_of_pos (by linarith)]; linarith)
    refine ⟨b, eb, ?_⟩
    rw [abs_of_pos (by linarith : 0 < p + a), abs_le] at hb
    have : f.unit * (p + a) ≤ f.unit * (22 / 10 * m) := mul_le_mul_of_nonneg_left hs2 hu.le
    rw [abs_le]
    constructor <;> nlinarith
  have hfma : ∃ b, (f.arith fused sqrt).fma (.fin a) (.fin c) (.fin a) = .fin b ∧ |b - 21 / 10 * m| ≤ 5 * f.unit * m := by
    unfold Arith.fma
    split
    · refine last _ ?_
      rw [abs_le]; constructor <;> linarith
    · have hcp : 0 < a * c := by linarith
      obtain ⟨p, ep, hp⟩ := rnd_normal hok (q := a * c) (by rw [abs_of_pos hcp]; linarith) (by rw [abs_of_pos hcp]; linarith)
      rw [abs_of_pos hcp, abs_le] at hp
      have : f.unit * (a * c) ≤ f.unit * (11 / 100 * m) := mul_le_mul_of_nonneg_left (by linarith) hu.le
      have e2 : (f.arith fused sqrt).mul (.fin a) (.fin c) = .fin p := ep
      rw [e2]
      refine last p ?_
      rw [abs_le]; constructor <;> nlinarith
  obtain ⟨b, eb, hb⟩ := hfma
  refine ⟨b, ?_, hb⟩
  have e1 : (f.arith fused sqrt).mul (.fin m) (.fin 2) = .fin a := ea
  have e2 : (f.arith fused sqrt).div (.fin 1) (.fin 20) = .fin c := by
    unfold Arith.div; simp only [show (20 : ℚ) ≠ 0 by norm_num, if_false]; exact ec
  simp [boxFromMax, maxElement, ofUB, e1, e2, eb, Fl.isFinite, bind, Except.bind]

/-- A deduced box accepts all coordinates it was deduced from. -/
theorem deduced_accepts (h : f.Std) {w cb : Nat} (hcb : cb ≤ w) (hcb2 : cb ≤ 64) {m b x : ℚ}
    (h1 : (2 : ℚ) ^ (f.emin + f.prec + 4) ≤ m) (h3 : m ≤ 2 ^ (-f.emin - f.prec - 1))
    (hb : |b - 21 / 10 * m| ≤ 5 * f.unit * m) (hx : |x| ≤ m) :
    ∃ r, discSingle (f.arith fused sqrt) w cb (.fin x) (invBox (f.arith fused sqrt) (.fin b)) = .ok r := by
  have hu := unit_pos (f := f)
  have hu2 := unit_le' h.prec10
  have hm : 0 < m := lt_of_lt_of_le (by positivity) h1
  have hum : f.unit * m ≤ m / 1024 := by
    calc f.unit * m ≤ 1 / 1024 * m := mul_le_mul_of_nonneg_right hu2 hm.le
      _ = _ := by ring
  rw [abs_le] at hb
  have hb1 : 209 / 100 * m ≤ b := by linarith
  have hb2 : b ≤ 22 / 10 * m := by linarith
  have hb0 : 0 < b := by linarith
  refine disc_accepts h.toOk (by have := h.emin2; omega) hcb hcb2 hb0 ?_ ?_ ?_
  · rw [le_div_iff₀ hb0]
    unfold minNormal
    calc (2 : ℚ) ^ (f.emin + ((f.prec : ℤ) - 1)) * b ≤ 2 ^ (f.emin + ((f.prec : ℤ) - 1)) * (4 * 2 ^ (-f.emin - f.prec - 1)) := by
          apply mul_le_mul_of_nonneg_left _ (by positivity); linarith
      _ = 2 ^ (f.emin + ((f.prec : ℤ) - 1)) * (2 ^ (2 : ℤ) * 2 ^ (-f.emin - f.prec - 1)) := by norm_num
      _ = 1 := by
          rw [← zpow_add₀ (by norm_num), ← zpow_add₀ (by norm_num)]
          rw [show f.emin + ((f.prec : ℤ) - 1) + (2 + (-f.emin - f.prec - 1)) = 0 by ring, zpow_zero]
  · rw [div_le_iff₀ hb0]
    calc (1 : ℚ) = 2 ^ (-f.emin - f.prec - 4) * 2 ^ (f.emin + f.prec + 4) := by
          rw [← zpow_add₀ (by norm_num)]
          rw [show -f.emin - (f.prec : ℤ) - 4 + (f.emin + f.prec + 4) = 0 by ring, zpow_zero]
      _ ≤ 2 ^ (((f.emax - 1 : ℕ) : ℤ)) * b := by
          apply mul_le_mul
          · exact zpow_le_zpow_right₀ (by norm_num) (by have := h.emax2; have := h.emax; omega)
          · linarith
          · positivity
          · positivity
      _ = _ := by rw [zpow_natCast]
  · have : |x| * (1 + f.unit) ≤ m * (1 + 1 / 1024) := by
      apply mul_le_mul hx (by linarith) (by linarith) hm.le
    have : (1 / 2 - 1 / 1024) * (209 / 100 * m) ≤ (1 / 2 - f.unit) * b := by
      apply mul_le_mul (by linarith) hb1 (by positivity) (by linarith)
    linarith

end Disc

end Format

theorem binary32_ok : binary32.Ok := ⟨by decide, by decide, by decide⟩
theorem binary64_ok : binary64.Ok := ⟨by decide, by decide, by decide⟩
theorem binary32_std : binary32.Std := ⟨binary32_ok, by decide, by decide, by decide⟩
theorem binary64_std : binary64.Std := ⟨binary64_ok, by decide, by decide, by decide⟩
theorem x87_ok : x87.Ok := ⟨by decide, by decide, by decide⟩
theorem x87_std : x87.Std := ⟨x87_ok, by decide, by decide, by decide⟩

/-! ### Square root -/

theorem isqrtAux_spec (n : Nat) : ∀ k r, r * r ≤ n → n < (r + 2 ^ k) * (r + 2 ^ k) →
    isqrtAux n k r * isqrtAux n k r ≤ n ∧ n < (isqrtAux n k r + 1) * (isqrtAux n k r + 1) := by
  intro k
  induction k with
  | zero => intro r h1 h2; exact ⟨h1, by simpa [isqrtAux] using h2⟩
  | succ k ih =>
    intro r h1 h2
    unfold isqrtAux
    by_cases h : (r + 2 ^ k) * (r + 2 ^ k) ≤ n
    · rw [if_pos h]
      apply ih _ h
      rw [show r + 2 ^ k + 2 ^ k = r + 2 ^ (k + 1) by rw [pow_succ]; ring]
      exact h2
    · rw [if_neg h]
      exact ih _ h1 (by omega)

/-- The square root of a format is a nearest multiple of `2 ^ e` to the true root: the root is between `(m - 1/2) 2 ^ e` and `(m + 1/2) 2 ^ e`. -/
theorem sqrt_nearest (f : Format) {q : ℚ} (hq : 0 < q) :
    ∃ m : ℕ, f.sqrt q = .fin (m * 2 ^ Max.max (ilog q / 2 - ((f.prec : ℤ) - 1)) f.emin) ∧
      (m = 0 ∨ ((m - 1 / 2) * 2 ^ Max.max (ilog q / 2 - ((f.prec : ℤ) - 1)) f.emin) ^ 2 ≤ q) ∧
      q ≤ ((m + 1 / 2) * 2 ^ Max.max (ilog q / 2 - ((f.prec : ℤ) - 1)) f.emin) ^ 2 := by
  unfold Format.sqrt
  rw [if_neg (not_le.2 hq)]
  simp only
  generalize he : Max.max (ilog q / 2 - ((f.prec : ℤ) - 1)) f.emin = e
  have h2e : (0 : ℚ) < 2 ^ e := by positivity
  have h4e : (4 : ℚ) ^ e = 2 ^ e * 2 ^ e := by rw [← mul_zpow]; norm_num
  generalize hx : q / 4 ^ e = x
  have hqx : q = x * (2 ^ e * 2 ^ e) := by rw [← hx, h4e]; field_simp
  have hx0 : 0 < x := by rw [← hx]; positivity
  have hxlt : x < 2 ^ (2 * f.prec) := by
    have h1 := (ilog_spec hq.ne').2
    rw [abs_of_pos hq] at h1
    rw [← hx, div_lt_iff₀ (by positivity)]
    refine lt_of_lt_of_le h1 ?_
    rw [h4e, ← zpow_add₀ (by norm_num), ← zpow_natCast, ← zpow_add₀ (by norm_num)]
    apply zpow_le_zpow_right₀ (by norm_num)
    push_cast
    omega
  have hfl : 0 ≤ ⌊x⌋ := Int.floor_nonneg.2 hx0.le
  have hfn : ((⌊x⌋.toNat : ℕ) : ℚ) = (⌊x⌋ : ℚ) := by
    have : ((⌊x⌋.toNat : ℕ) : ℤ) = ⌊x⌋ := Int.toNat_of_nonneg hfl
    exact_mod_cast congrArg (Int.cast (R := ℚ)) this
  have hf1 : ((⌊x⌋.toNat : ℕ) : ℚ) ≤ x := by rw [hfn]; exact Int.floor_le x
  have hf2 : x < (⌊x⌋.toNat : ℕ) + 1 := by rw [hfn]; exact Int.lt_floor_add_one x
  have hbound : ⌊x⌋.toNat < (0 + 2 ^ (f.prec + 1)) * (0 + 2 ^ (f.prec + 1)) := by
    have h1 : ((⌊x⌋.toNat : ℕ) : ℚ) < ((2 ^ (2 * f.prec) : ℕ) : ℚ) := by push_cast; exact lt_of_le_of_lt hf1 hxlt
    have h2 : ⌊x⌋.toNat < 2 ^ (2 * f.prec) := by exact_mod_cast h1
    refine lt_of_lt_of_le h2 ?_
    rw [Nat.zero_add, ← pow_add]
    exact Nat.pow_le_pow_right (by norm_num) (by omega)
  obtain ⟨s1, s2⟩ := isqrtAux_spec ⌊x⌋.toNat (f.prec + 1) 0 (Nat.zero_le _) hbound
  generalize isqrtAux ⌊x⌋.toNat (f.prec + 1) 0 = n at s1 s2
  have r1 : (n : ℚ) * n ≤ x := le_trans (by exact_mod_cast s1) hf1
  have r2 : x < ((n : ℚ) + 1) * (n + 1) := by
    have : ((⌊x⌋.toNat : ℕ) : ℚ) + 1 ≤ ((n : ℚ) + 1) * (n + 1) := by exact_mod_cast s2
    linarith
  have n0 : (0 : ℚ) ≤ n := Nat.cast_nonneg n
  have key : ∀ m : ℕ, (m = n ∧ x ≤ ((n : ℚ) + 1 / 2) * (n + 1 / 2)) ∨ (m = n + 1 ∧ ((n : ℚ) + 1 / 2) * (n + 1 / 2) ≤ x) →
      (m = 0 ∨ ((m - 1 / 2) * (2 : ℚ) ^ e) ^ 2 ≤ q) ∧ q ≤ ((m + 1 / 2) * (2 : ℚ) ^ e) ^ 2 := by
    intro m hm
    have hee : (0 : ℚ) < 2 ^ e * 2 ^ e := by positivity
    have c1 : ((m : ℚ) - 1 / 2) * (m - 1 / 2) ≤ x ∨ m = 0 := by
      rcases hm with ⟨rfl, h⟩ | ⟨rfl, h⟩
      · rcases Nat.eq_zero_or_pos m with h0 | h0
        · exact .inr h0
        · left
          have : (1 : ℚ) ≤ m := by exact_mod_cast h0
          nlinarith
      · left; push_cast; nlinarith
    have c2 : x ≤ ((m : ℚ) + 1 / 2) * (m + 1 / 2) := by
      rcases hm with ⟨rfl, h⟩ | ⟨rfl, h⟩
      · exact h
      · push_cast; nlinarith
    constructor
    · rcases c1 with c1 | c1
      · right; rw [hqx]; nlinarith [mul_le_mul_of_nonneg_right c1 hee.le]
      · exact .inl c1
    · rw [hqx]; nlinarith [mul_le_mul_of_nonneg_right c2 hee.le]
  refine ⟨_, rfl, ?_⟩
  apply key
  split_ifs with a1 a2 a3
  · exact .inl ⟨rfl, a1.le⟩
  · exact .inr ⟨rfl, a2.le⟩
  · exact .inl ⟨rfl, not_lt.1 a2⟩
  · exact .inr ⟨rfl, not_lt.1 a1⟩

end Rakau
