import Verif.Proof.RoundEdge
import Verif.Spec.Numbers

/-! Rounding gives the nearest value of the format. -/
namespace Rakau
namespace Format
open Spec
variable {f : Format}

theorem roundEven_nearest (x : ℚ) (m : ℤ) : |x - roundEven x| ≤ |x - m| := by
  by_cases hm : m = roundEven x
  · rw [hm]
  · have h1 := roundEven_err x
    have h2 : (1 : ℚ) ≤ |(m : ℚ) - roundEven x| := by
      have : (1 : ℤ) ≤ |m - roundEven x| := Int.one_le_abs (sub_ne_zero.2 hm)
      exact_mod_cast this
    have h3 : |(m : ℚ) - roundEven x| ≤ |x - m| + |x - roundEven x| := by
      have := abs_sub_le (m : ℚ) x (roundEven x)
      rwa [abs_sub_comm (m : ℚ) x] at this
    rw [abs_sub_comm] at h1
    linarith

theorem roundEven_tie {x : ℚ} (h : |x - roundEven x| = 1 / 2) : ∃ k : ℤ, roundEven x = 2 * k := by
  have hf := Int.floor_le x
  have hl := Int.lt_floor_add_one x
  unfold roundEven at h ⊢
  simp only at h ⊢
  split at h
  · rename_i h1
    rw [abs_of_nonneg (by linarith)] at h
    linarith
  · split at h
    · rename_i h1 h2
      push_cast at h
      rw [abs_of_nonpos (by linarith)] at h
      linarith
    · rename_i h1 h2
      rw [if_neg h1, if_neg h2]
      split
      · exact ⟨⌊x⌋ / 2, by omega⟩
      · exact ⟨(⌊x⌋ + 1) / 2, by omega⟩

theorem value_near (hp : 1 ≤ f.prec) {v : ℚ} (h : Value f v) : f.near v = v ∧ |v| < 2 ^ f.emax := by
  obtain ⟨m, e, hm, he, hv, rfl⟩ := h
  exact ⟨near_repr hp he hm.le, hv⟩

theorem near_value {v : ℚ} (h : f.near v = v) (hv : |v| < 2 ^ f.emax) : Value f v := by
  by_cases h0 : v = 0
  · subst h0
    exact ⟨0, f.emin, by simp, le_rfl, hv, by simp⟩
  obtain ⟨n, hn⟩ := edge_grid h h0
  refine ⟨n, f.expo v, ?_, le_max_right _ _, hv, hn⟩
  have hs := (ilog_spec h0).2
  have hp : (0 : ℚ) < 2 ^ f.expo v := by positivity
  have h1 : |v| = |(n : ℚ)| * 2 ^ f.expo v := by
    conv_lhs => rw [hn]
    rw [abs_mul, abs_of_pos hp]
  have h2 : (2 : ℚ) ^ (ilog v + 1) ≤ 2 ^ ((f.prec : ℤ) + f.expo v) := by
    apply zpow_le_zpow_right₀ (by norm_num)
    have := le_max_left (ilog v - ((f.prec : ℤ) - 1)) f.emin
    unfold expo
    omega
  rw [zpow_add₀ (by norm_num) (f.prec : ℤ), zpow_natCast] at h2
  rw [h1] at hs
  have := lt_of_mul_lt_mul_right (hs.trans_le h2) hp.le
  exact_mod_cast this

/-- For every value of the format there is a number on the grid around `q` that is at least as near to `q`, and is that value if it is only as near. -/
theorem grid_dom (hp : 1 ≤ f.prec) {q u : ℚ} (hq : q ≠ 0) (hu : f.near u = u) :
    ∃ m : ℤ, |q - m * 2 ^ f.expo q| ≤ |q - u| ∧ (|q - m * 2 ^ f.expo q| = |q - u| → u = m * 2 ^ f.expo q) := by
  have done : (∃ m : ℤ, u = m * 2 ^ f.expo q) → ∃ m : ℤ, |q - m * 2 ^ f.expo q| ≤ |q - u| ∧ (|q - m * 2 ^ f.expo q| = |q - u| → u = m * 2 ^ f.expo q) := by
    rintro ⟨m, hm⟩
    exact ⟨m, by rw [hm], fun _ => hm⟩
  by_cases h0 : u = 0
  · exact done ⟨0, by simp [h0]⟩
  by_cases he : f.expo q ≤ f.expo u
  · apply done
    obtain ⟨n, hn⟩ := edge_grid hu h0
    obtain ⟨k, hk⟩ := pow_grid he
    refine ⟨n * k, ?_⟩
    rw [hk, ← mul_assoc] at hn
    push_cast
    exact hn
  · have hlt : ilog u < ilog q ∧ f.expo q = ilog q - ((f.prec : ℤ) - 1) := by unfold expo at *; omega
    have hul : |u| < 2 ^ ilog q := (ilog_spec h0).2.trans_le (zpow_le_zpow_right₀ (by norm_num) (by omega))
    have hql := (ilog_spec hq).1
    obtain ⟨n, hn⟩ := pow_grid (show f.expo q ≤ ilog q by omega)
    have hpos : (0 : ℚ) < 2 ^ ilog q := by positivity
    have key : |q| - |u| ≤ |q - u| := by
      have := abs_sub_abs_le_abs_sub q u; exact this
    rcases lt_or_gt_of_ne hq with hs | hs
    · have e : |q - ((-n : ℤ) : ℚ) * 2 ^ f.expo q| < |q - u| := by
        push_cast
        rw [neg_mul, ← hn, abs_of_neg hs] at *
        rw [abs_of_nonpos (by linarith)]
        linarith
      exact ⟨-n, e.le, fun h => absurd h e.ne⟩
    · have e : |q - (n : ℚ) * 2 ^ f.expo q| < |q - u| := by
        rw [← hn]
        rw [abs_of_pos hs] at *
        rw [abs_of_nonneg (by linarith)]
        linarith
      exact ⟨n, e.le, fun h => absurd h e.ne⟩

theorem near_dist (q : ℚ) (m : ℤ) : |q - m * 2 ^ f.expo q| = |q / 2 ^ f.expo q - m| * 2 ^ f.expo q := by
  have hp : (0 : ℚ) < 2 ^ f.expo q := by positivity
  rw [← abs_of_pos hp, ← abs_mul, abs_of_pos hp, sub_mul, div_mul_cancel₀ _ hp.ne']

theorem rnd_nearest (hp : 1 ≤ f.prec) {q v : ℚ} (h : f.rnd q = .fin v) : Nearest f q v := by
  obtain ⟨rfl, hlt⟩ := rnd_eq_fin h
  have hv : Value f (f.near q) := near_value (near_idem hp q) hlt
  refine ⟨hv, ?_⟩
  by_cases hq : q = 0
  · subst hq
    rw [near_zero]
    refine ⟨fun u _ => by simp, fun u _ hu he => ?_⟩
    simp at he
    exact absurd he hu
  have hP : (0 : ℚ) < 2 ^ f.expo q := by positivity
  have hn : f.near q = (roundEven (q / 2 ^ f.expo q) : ℚ) * 2 ^ f.expo q := by unfold near; rw [if_neg hq]
  have hbest : ∀ m : ℤ, |q - f.near q| ≤ |q - m * 2 ^ f.expo q| := by
    intro m
    rw [hn, near_dist, near_dist]
    exact mul_le_mul_of_nonneg_right (roundEven_nearest _ _) hP.le
  constructor
  · intro u hu
    obtain ⟨m, hm, _⟩ := grid_dom hp hq (value_near hp hu).1
    exact (hbest m).trans hm
  · intro u hu hne he
    obtain ⟨m, hm, hm2⟩ := grid_dom hp hq (value_near hp hu).1
    have heq : |q - m * 2 ^ f.expo q| = |q - u| := le_antisymm hm (he ▸ hbest m)
    have hum := hm2 heq
    rw [hn, near_dist, hum, near_dist] at he
    have hxe := mul_right_cancel₀ hP.ne' he
    have hmn : m ≠ roundEven (q / 2 ^ f.expo q) := by
      rintro rfl
      exact hne (hum.trans hn.symm)
    set x := q / 2 ^ f.expo q with hx
    have h1 := roundEven_err x
    rw [abs_sub_comm] at h1
    have h2 : (1 : ℚ) ≤ |(m : ℚ) - roundEven x| := by
      have : (1 : ℤ) ≤ |m - roundEven x| := Int.one_le_abs (sub_ne_zero.2 hmn)
      exact_mod_cast this
    have h3 : |(m : ℚ) - roundEven x| ≤ |x - m| + |x - roundEven x| := by
      have := abs_sub_le (m : ℚ) x (roundEven x)
      rwa [abs_sub_comm (m : ℚ) x] at this
    have h4 : |x - roundEven x| = 1 / 2 := by linarith
    have h5 : |(m : ℚ) - roundEven x| = 1 := by linarith
    obtain ⟨k, hk⟩ := roundEven_tie h4
    refine ⟨k, ?_⟩
    rw [hn, hum, ← sub_mul, abs_mul, h5, abs_of_pos hP, hk]
    push_cast
    ring

theorem highest_eq : f.highest = (1 - f.unit) * 2 ^ f.emax := by
  unfold highest unit
  rw [zpow_sub₀ (by norm_num), zpow_neg, zpow_natCast, zpow_natCast]
  field_simp

theorem highest_value (h : f.Std) : Value f f.highest ∧ 0 < f.highest := by
  have hu := unit_le h.prec
  have hu0 := f.unit_pos
  have hp : (0 : ℚ) < 2 ^ f.emax := by positivity
  have h0 : 0 < f.highest := by rw [highest_eq]; exact mul_pos (by linarith) hp
  refine ⟨near_value ?_ ?_, h0⟩
  · rw [highest_eq]
    exact near_one_sub h.toOk (by have := h.emin2; omega) _
  · rw [abs_of_pos h0, highest_eq]
    nlinarith

theorem value_le (h : f.Std) {v : ℚ} (hv : Value f v) : v ≤ f.highest := by
  obtain ⟨h1, h2⟩ := value_near h.prec hv
  rw [highest_eq]
  exact le_pred_pow h.toOk (by have := h.emin2; omega) h1 (lt_of_le_of_lt (le_abs_self v) h2)

theorem value_neg {v : ℚ} (hv : Value f v) : Value f (-v) := by
  obtain ⟨m, e, h1, h2, h3, h4⟩ := hv
  exact ⟨-m, e, by rwa [abs_neg], h2, by rwa [abs_neg], by rw [h4]; push_cast; ring⟩

theorem outside_iff (h : f.Std) {q : ℚ} : Outside f q ↔ q < -f.highest ∨ f.highest < q := by
  constructor
  · rintro (h1 | h1)
    · exact .inr (h1 _ (highest_value h).1)
    · exact .inl (h1 _ (value_neg (highest_value h).1))
  · rintro (h1 | h1)
    · refine .inr fun v hv => ?_
      have := value_le h (value_neg hv)
      linarith
    · exact .inl fun v hv => lt_of_le_of_lt (value_le h hv) h1

/-- Values between the largest and the lowest value are rounded to finite values. -/
theorem rnd_inside (h : f.Std) {q : ℚ} (hq : ¬ Outside f q) : ∃ v, f.rnd q = .fin v := by
  rw [outside_iff h, not_or, not_lt, not_lt] at hq
  obtain ⟨hv, h0⟩ := highest_value h
  obtain ⟨hn, hl⟩ := value_near h.prec hv
  refine ⟨_, rnd_fin ?_⟩
  have h1 := near_mono h.prec hq.2
  have h2 := near_mono h.prec hq.1
  rw [near_neg] at h2
  rw [hn] at h1 h2
  rw [abs_of_pos h0] at hl
  exact lt_of_le_of_lt (abs_le.2 ⟨h2, h1⟩) hl

theorem value_exact (hp : 1 ≤ f.prec) {q : ℚ} (h : Value f q) : f.rnd q = .fin q := by
  obtain ⟨h1, h2⟩ := value_near hp h
  rw [rnd_fin (by rwa [h1]), h1]

theorem value_contains {g : Format} (hc : Contains f g) {q : ℚ} (h : Value g q) : Value f q := by
  obtain ⟨m, e, h1, h2, h3, h4⟩ := h
  exact ⟨m, e, h1.trans_le (pow_le_pow_right₀ (by norm_num) hc.1), hc.2.1.trans h2, h3.trans_le (pow_le_pow_right₀ (by norm_num) hc.2.2), h4⟩

/-- The integers of up to 64 bits are in the range of all formats in use. -/
theorem int_inside (h : f.Std) {v : ℤ} (h1 : -2 ^ 63 ≤ v) (h2 : v < 2 ^ 64) : ∃ r, f.rnd (v : ℚ) = .fin r := by
  refine ⟨_, rnd_fin ?_⟩
  have hv : |(v : ℚ)| ≤ 2 ^ (64 : ℤ) := by
    have : |v| ≤ 2 ^ 64 := abs_le.2 ⟨by omega, by omega⟩
    rw [show ((2 : ℚ) ^ (64 : ℤ)) = ((2 ^ 64 : ℤ) : ℚ) by norm_num]
    exact_mod_cast this
  have he := h.emax
  have hem := h.emin
  refine lt_of_le_of_lt (near_abs_le_pow h.prec (by omega) hv) ?_
  rw [show (64 : ℤ) = ((64 : Nat) : ℤ) from rfl, zpow_natCast]
  exact pow_lt_pow_right₀ (by norm_num) (by omega)

end Format
end Rakau
