import Verif.Proof.Round

/-! Coordinates at the ends of the box in binary floating-point arithmetic: what is accepted by the discretisation. -/
namespace Rakau
namespace Format
variable {f : Format} {fused : Bool} {sqrt : ℚ → Fl ℚ}

/-- Representable numbers are multiples of their spacing. -/
theorem edge_grid {x : ℚ} (hx : f.near x = x) (h0 : x ≠ 0) : ∃ n : ℤ, x = n * 2 ^ f.expo x := by
  refine ⟨roundEven (x / 2 ^ f.expo x), ?_⟩
  conv_lhs => rw [← hx]
  unfold near
  rw [if_neg h0]

/-- Representable numbers that are larger than another one have a coarser grid. -/
theorem edge_grid_of_le {x y : ℚ} (hx : f.near x = x) (hy : y ≠ 0) (h : |y| ≤ |x|) : ∃ n : ℤ, x = n * 2 ^ f.expo y := by
  have hx0 : x ≠ 0 := by
    rintro rfl
    rw [abs_zero] at h
    exact hy (abs_eq_zero.1 (le_antisymm h (abs_nonneg _)))
  obtain ⟨n, hn⟩ := edge_grid hx hx0
  have he : f.expo y ≤ f.expo x := by
    have := ilog_mono hy h
    unfold expo
    omega
  obtain ⟨k, hk⟩ := pow_grid he
  refine ⟨n * k, ?_⟩
  rw [hk, ← mul_assoc] at hn
  push_cast
  exact hn

/-- If a coordinate is accepted then the shifted coordinate lies in `[0, 1)`. -/
theorem disc_shift (h : f.Ok) {w cb : Nat} (hcb : cb ≤ w) {x i : ℚ} {r : Nat}
    (hr : discSingle (f.arith fused sqrt) w cb (.fin x) (.fin i) = .ok r) :
    ∃ s, (f.arith fused sqrt).fma (.fin x) (.fin i) (.fin (1 / 2)) = .fin s ∧ 0 ≤ s ∧ s < 1 := by
  rcases discSingle_cases (f.arith fused sqrt) hcb (.fin x) (.fin i) with ⟨q, hq, q0, q1, e⟩ | ⟨_, e⟩
  swap
  · rw [e] at hr; simp at hr
  have hsh : ∃ s, (f.arith fused sqrt).fma (.fin x) (.fin i) (.fin (1 / 2)) = .fin s := by
    by_contra hn
    have : ((f.arith fused sqrt).fma (.fin x) (.fin i) (.fin (1 / 2))).isFinite = false := by
      rw [Fl.not_isFinite_iff]
      intro s hs; exact hn ⟨s, hs⟩
    have h3 := mul_nonfin (f.arith fused sqrt) (b := .fin (2 ^ cb)) (.inl this)
    unfold discScaled at hq
    rw [hq] at h3
    simp [Fl.isFinite] at h3
  obtain ⟨s, hs⟩ := hsh
  have hq2 : f.rnd (s * 2 ^ cb) = .fin q := by
    unfold discScaled at hq; rw [hs] at hq; exact hq
  obtain ⟨rfl, _⟩ := rnd_eq_fin hq2
  have hpw : (1 : ℚ) ≤ 2 ^ cb := one_le_pow₀ (by norm_num)
  have hkey : f.near s = s := by
    unfold Arith.fma at hs
    split at hs
    · obtain ⟨rfl, _⟩ := rnd_eq_fin (show f.rnd _ = .fin s from hs); exact near_idem h.prec _
    · have hs' : (f.arith fused sqrt).add (f.rnd (x * i)) (.fin (1 / 2)) = .fin s := hs
      cases hm : f.rnd (x * i) with
      | nan => rw [hm] at hs'; simp [Arith.add] at hs'
      | inf t => rw [hm] at hs'; simp [Arith.add] at hs'
      | fin t =>
        rw [hm] at hs'
        obtain ⟨rfl, _⟩ := rnd_eq_fin (show f.rnd _ = .fin s from hs'); exact near_idem h.prec _
  refine ⟨s, hs, ?_, ?_⟩
  · by_contra hc
    have hc : s < 0 := not_le.1 hc
    obtain ⟨n, hn⟩ := edge_grid hkey hc.ne
    have hp : (0 : ℚ) < 2 ^ f.expo s := by positivity
    have hn0 : (n : ℚ) < 0 := by
      by_contra h0
      have := mul_nonneg (not_lt.1 h0) hp.le
      linarith
    have hn1 : (n : ℚ) ≤ -1 := by
      have : n < 0 := by exact_mod_cast hn0
      have : n ≤ -1 := by omega
      exact_mod_cast this
    have he : (2 : ℚ) ^ f.emin ≤ 2 ^ f.expo s := zpow_le_zpow_right₀ (by norm_num) (by unfold expo; omega)
    have h1 : s ≤ -2 ^ f.emin := by
      have : (n : ℚ) * 2 ^ f.expo s ≤ -1 * 2 ^ f.expo s := mul_le_mul_of_nonneg_right hn1 hp.le
      linarith
    have h2 : s * 2 ^ cb ≤ -2 ^ f.emin := by nlinarith
    have h3 := near_mono (f := f) h.prec h2
    rw [near_neg, near_pow h.prec le_rfl] at h3
    have : (0 : ℚ) < 2 ^ f.emin := by positivity
    linarith
  · by_contra hc
    have hc : 1 ≤ s := not_lt.1 hc
    have : (2 : ℚ) ^ cb ≤ s * 2 ^ cb := by nlinarith
    have := near_mono (f := f) h.prec this
    have hp2 := near_pow (f := f) h.prec (k := cb) (by have := h.emin; omega)
    rw [zpow_natCast] at hp2
    rw [hp2] at this
    linarith

/-- The exponent of a number between 1/2 and 1. -/
theorem ilog_half {q : ℚ} (h1 : 1 / 2 ≤ q) (h2 : q < 1) : ilog q = -1 := by
  have hq : q ≠ 0 := by rintro rfl; norm_num at h1
  obtain ⟨a, b⟩ := ilog_spec hq
  rw [abs_of_pos (by linarith)] at a b
  have c1 : (2 : ℚ) ^ ilog q < 2 ^ (0 : ℤ) := by rw [zpow_zero]; linarith
  have c2 : (2 : ℚ) ^ (-1 : ℤ) < 2 ^ (ilog q + 1) := by
    have : (2 : ℚ) ^ (-1 : ℤ) = 1 / 2 := by norm_num
    rw [this]; linarith
  have d1 := (zpow_lt_zpow_iff_right₀ (by norm_num : (1 : ℚ) < 2)).1 c1
  have d2 := (zpow_lt_zpow_iff_right₀ (by norm_num : (1 : ℚ) < 2)).1 c2
  omega

/-- The number halfway between 1 and the one before it is rounded to 1, whose significand is even. -/
theorem near_one_tie (h : f.Ok) (he : f.emin ≤ -(f.prec : ℤ) - 1) : f.near (1 - f.unit / 2) = 1 := by
  have hu := unit_pos (f := f)
  have hu2 := unit_le h.prec
  have hq : (1 - f.unit / 2 : ℚ) ≠ 0 := by intro e; linarith
  have hl : ilog (1 - f.unit / 2) = -1 := ilog_half (by linarith) (by linarith)
  have hx : f.expo (1 - f.unit / 2) = -(f.prec : ℤ) := by unfold expo; rw [hl]; omega
  unfold near
  rw [if_neg hq, hx]
  have hun : (2 : ℚ) ^ (-(f.prec : ℤ)) = f.unit := rfl
  rw [hun]
  have hpu : (2 : ℚ) ^ f.prec * f.unit = 1 := by
    unfold unit
    rw [← zpow_natCast, ← zpow_add₀ (by norm_num)]
    simp
  have e1 : (1 - f.unit / 2) / f.unit = 2 ^ f.prec - 1 / 2 := by
    rw [div_eq_iff hu.ne', sub_mul, hpu]; ring
  rw [e1]
  have hfl : ⌊(2 : ℚ) ^ f.prec - 1 / 2⌋ = 2 ^ f.prec - 1 := by
    rw [Int.floor_eq_iff]
    push_cast
    constructor <;> linarith
  have hr : roundEven ((2 : ℚ) ^ f.prec - 1 / 2) = 2 ^ f.prec := by
    unfold roundEven
    rw [hfl]
    have e2 : (2 : ℚ) ^ f.prec - 1 / 2 - ((2 ^ f.prec - 1 : ℤ) : ℚ) = 1 / 2 := by push_cast; ring
    simp only [e2]
    rw [if_neg (by norm_num), if_neg (by norm_num), if_neg]
    · ring
    · obtain ⟨k, hk⟩ := Nat.exists_eq_succ_of_ne_zero (show f.prec ≠ 0 by have := h.prec; omega)
      rw [hk, pow_succ]
      omega
  rw [hr]
  push_cast
  exact hpu

/-- Half of a representable number that is not too small is representable. -/
theorem near_halve {b : ℚ} (hb : f.near b = b) (hb0 : 0 < b) (h1 : 2 * f.minNormal ≤ b) : f.near (b / 2) = b / 2 := by
  obtain ⟨n, hn⟩ := edge_grid hb hb0.ne'
  obtain ⟨a, c⟩ := ilog_spec hb0.ne'
  rw [abs_of_pos hb0] at a c
  have hl : ilog (b / 2) = ilog b - 1 := by
    have hb2 : (b / 2) ≠ 0 := by positivity
    obtain ⟨a', c'⟩ := ilog_spec hb2
    rw [abs_of_pos (by positivity)] at a' c'
    have e1 : (2 : ℚ) ^ (ilog (b / 2) + 1) = 2 * 2 ^ ilog (b / 2) := by rw [zpow_add₀ (by norm_num)]; ring
    have e2 : (2 : ℚ) ^ (ilog (b / 2) + 2) = 2 * 2 ^ (ilog (b / 2) + 1) := by
      rw [show ilog (b / 2) + 2 = (ilog (b / 2) + 1) + 1 by ring, zpow_add₀ (by norm_num) (ilog (b / 2) + 1)]; ring
    have d1 := (zpow_lt_zpow_iff_right₀ (by norm_num : (1 : ℚ) < 2)).1 (show (2 : ℚ) ^ (ilog (b / 2) + 1) < 2 ^ (ilog b + 1) by linarith)
    have d2 := (zpow_lt_zpow_iff_right₀ (by norm_num : (1 : ℚ) < 2)).1 (show (2 : ℚ) ^ ilog b < 2 ^ (ilog (b / 2) + 2) by linarith)
    omega
  have hmin : f.emin + (f.prec : ℤ) ≤ ilog b := by
    have e1 : 2 * f.minNormal = (2 : ℚ) ^ (f.emin + (f.prec : ℤ)) := by
      unfold minNormal
      rw [show f.emin + (f.prec : ℤ) = (f.emin + ((f.prec : ℤ) - 1)) + 1 by ring, zpow_add₀ (by norm_num) (f.emin + ((f.prec : ℤ) - 1))]; ring
    rw [e1] at h1
    have := (zpow_lt_zpow_iff_right₀ (by norm_num : (1 : ℚ) < 2)).1 (lt_of_le_of_lt h1 c)
    omega
  have hx : f.expo (b / 2) = f.expo b - 1 := by unfold expo; rw [hl]; omega
  apply near_grid (n := n) (by positivity)
  rw [hx, zpow_sub₀ (by norm_num)]
  conv_lhs => rw [hn]
  simp only [zpow_one]
  ring

/-- The inverse of the box size: `1 / b - i` is at most `u / 2` in units of `2 ^ -e`, where `2 ^ e ≤ b < 2 ^ (e + 1)`, and `i` is exact if `b = 2 ^ e`. -/
theorem inv_edge (h : f.Ok) {b : ℚ} (hb : 0 < b) (h1 : f.minNormal ≤ 1 / b) (h2 : 1 / b ≤ 2 ^ (f.emax - 1)) :
    ∃ i E m : ℚ, invBox (f.arith fused sqrt) (.fin b) = .fin i ∧ E = 2 ^ ilog b ∧ 0 < E ∧ b = m * E ∧ 1 ≤ m ∧ m < 2 ∧
      ((m = 1 ∧ i * E = 1) ∨ 1 < m) ∧ 1 / m - f.unit / 2 ≤ i * E := by
  obtain ⟨i, e, _, _⟩ := invBox_normal (fused := fused) (sqrt := sqrt) h hb h1 h2
  have hi : i = f.near (1 / b) := by
    unfold invBox Arith.div at e
    simp only [if_neg hb.ne'] at e
    exact (rnd_eq_fin (show f.rnd _ = .fin i from e)).1
  obtain ⟨a, c⟩ := ilog_spec hb.ne'
  rw [abs_of_pos hb] at a c
  have hE : (0 : ℚ) < 2 ^ ilog b := by positivity
  have hu := unit_pos (f := f)
  have c' : b < 2 * 2 ^ ilog b := by rwa [zpow_add₀ (by norm_num), zpow_one, mul_comm] at c
  have hm1 : 1 ≤ b / 2 ^ ilog b := (one_le_div hE).2 a
  have hbe : b = b / 2 ^ ilog b * 2 ^ ilog b := (div_mul_cancel₀ _ hE.ne').symm
  refine ⟨i, 2 ^ ilog b, b / 2 ^ ilog b, e, rfl, hE, hbe, hm1, (div_lt_iff₀ hE).2 c', ?_, ?_⟩
  · rcases hm1.eq_or_lt with h3 | h3
    · left
      refine ⟨h3.symm, ?_⟩
      have hb' : b = 2 ^ ilog b := by rw [← h3, one_mul] at hbe; exact hbe
      have h4 : 1 / b = (2 : ℚ) ^ (-ilog b) := by rw [zpow_neg, ← hb']; simp
      have h5 : f.near (1 / b) = 1 / b := by
        rw [h4]
        apply near_pow h.prec
        rw [h4] at h1
        unfold minNormal at h1
        have := (zpow_le_zpow_iff_right₀ (by norm_num : (1 : ℚ) < 2)).1 h1
        have := h.prec
        omega
      rw [hi, h5, ← hb']
      field_simp
    · exact .inr h3
  · rcases hm1.eq_or_lt with h3 | h3
    · have hb' : b = 2 ^ ilog b := by rw [← h3, one_mul] at hbe; exact hbe
      have h4 : 1 / b = (2 : ℚ) ^ (-ilog b) := by rw [zpow_neg, ← hb']; simp
      have h5 : f.near (1 / b) = 1 / b := by
        rw [h4]
        apply near_pow h.prec
        rw [h4] at h1
        unfold minNormal at h1
        have := (zpow_le_zpow_iff_right₀ (by norm_num : (1 : ℚ) < 2)).1 h1
        have := h.prec
        omega
      have : 1 / b * b = 1 := by field_simp
      rw [hi, h5, ← hb', div_self hb.ne', this]
      linarith
    · have hq : (1 / b : ℚ) ≠ 0 := by positivity
      have hlog : ilog (1 / b) = -ilog b - 1 := by
        obtain ⟨a2, c2⟩ := ilog_spec hq
        rw [abs_of_pos (by positivity)] at a2 c2
        have hlt : (2 : ℚ) ^ ilog b < b := (one_lt_div hE).1 h3
        have d1 : (1 : ℚ) / b < 2 ^ (-ilog b) := by
          rw [zpow_neg, ← one_div]
          exact one_div_lt_one_div_of_lt hE hlt
        have d2 : (2 : ℚ) ^ (-ilog b - 1) < 1 / b := by
          rw [show -ilog b - 1 = -(ilog b + 1) by ring, zpow_neg, ← one_div]
          exact one_div_lt_one_div_of_lt hb c
        have d3 := (zpow_lt_zpow_iff_right₀ (by norm_num : (1 : ℚ) < 2)).1 (lt_of_le_of_lt a2 d1)
        have d4 := (zpow_lt_zpow_iff_right₀ (by norm_num : (1 : ℚ) < 2)).1 (lt_trans d2 c2)
        omega
      have hexp : f.expo (1 / b) = -ilog b - (f.prec : ℤ) := by
        have hmin : f.emin + ((f.prec : ℤ) - 1) ≤ ilog (1 / b) := by
          have := (ilog_spec hq).2
          rw [abs_of_pos (by positivity)] at this
          unfold minNormal at h1
          have := (zpow_lt_zpow_iff_right₀ (by norm_num : (1 : ℚ) < 2)).1 (lt_of_le_of_lt h1 this)
          omega
        unfold expo
        rw [hlog] at hmin ⊢
        omega
      have herr := near_err (f := f) hq
      rw [hexp, ← hi, abs_le] at herr
      have e1 : (2 : ℚ) ^ (-ilog b - (f.prec : ℤ)) * 2 ^ ilog b = f.unit := by
        unfold unit
        rw [← zpow_add₀ (by norm_num)]
        congr 1; ring
      have e2 : 1 / (b / 2 ^ ilog b) = 1 / b * 2 ^ ilog b := by field_simp
      rw [e2]
      have := mul_le_mul_of_nonneg_right herr.1 hE.le
      nlinarith

/-- The upper end: a coordinate that is accepted is less than `b / 2`. -/
theorem disc_below (h : f.Ok) (he : f.emin ≤ -(f.prec : ℤ) - 1) {w cb : Nat} (hcb : cb ≤ w) {b x : ℚ} (hb : 0 < b)
    (h1 : f.minNormal ≤ 1 / b) (h2 : 1 / b ≤ 2 ^ (f.emax - 1)) {r : Nat}
    (hr : discSingle (f.arith fused sqrt) w cb (.fin x) (invBox (f.arith fused sqrt) (.fin b)) = .ok r) : x < b / 2 := by
  obtain ⟨i, E, m, e, _, hE, hbm, m1, m2, _, hi⟩ := inv_edge (fused := fused) (sqrt := sqrt) h hb h1 h2
  rw [e] at hr
  obtain ⟨s, hs, _, s1⟩ := disc_shift h hcb hr
  have hu := unit_pos (f := f)
  have hu2 := unit_le h.prec
  by_contra hc
  have hc : b / 2 ≤ x := not_lt.1 hc
  have hiE : 0 ≤ i * E := by
    have : 1 / 2 ≤ 1 / m := one_div_le_one_div_of_le (by linarith) m2.le
    linarith
  have hi0 : 0 ≤ i := by
    by_contra hn
    have := mul_neg_of_neg_of_pos (not_le.1 hn) hE
    linarith
  have hxi : 1 / 2 - f.unit / 2 ≤ x * i := by
    calc 1 / 2 - f.unit / 2 ≤ 1 / 2 - f.unit / 4 * m := by nlinarith
      _ = m / 2 * (1 / m - f.unit / 2) := by field_simp; ring
      _ ≤ m / 2 * (i * E) := mul_le_mul_of_nonneg_left hi (by linarith)
      _ = b / 2 * i := by rw [hbm]; ring
      _ ≤ x * i := mul_le_mul_of_nonneg_right hc hi0
  have key : ∀ t : ℚ, 1 / 2 - f.unit / 2 ≤ t → f.rnd (t + 1 / 2) = .fin s → False := by
    intro t ht hts
    obtain ⟨rfl, _⟩ := rnd_eq_fin hts
    have := near_mono (f := f) h.prec (show 1 - f.unit / 2 ≤ t + 1 / 2 by linarith)
    rw [near_one_tie h he] at this
    linarith
  unfold Arith.fma at hs
  split at hs
  · exact key _ hxi hs
  · have hs' : (f.arith fused sqrt).add (f.rnd (x * i)) (.fin (1 / 2)) = .fin s := hs
    cases hm : f.rnd (x * i) with
    | nan => rw [hm] at hs'; simp [Arith.add] at hs'
    | inf t => rw [hm] at hs'; simp [Arith.add] at hs'
    | fin t =>
      rw [hm] at hs'
      refine key t ?_ hs'
      obtain ⟨rfl, _⟩ := rnd_eq_fin hm
      have h3 := near_mono (f := f) h.prec hxi
      have h4 : f.near (1 / 2 - f.unit / 2) = 1 / 2 - f.unit / 2 := by
        have := near_repr (f := f) h.prec (m := 2 ^ f.prec - 1) (e := -(f.prec : ℤ) - 1) he (by
          rw [abs_of_nonneg]
          · omega
          · have : (1 : ℤ) ≤ 2 ^ f.prec := one_le_pow₀ (by norm_num)
            omega)
        have e3 : ((2 ^ f.prec - 1 : ℤ) : ℚ) * 2 ^ (-(f.prec : ℤ) - 1) = 1 / 2 - f.unit / 2 := by
          have e4 : (2 : ℚ) ^ (-(f.prec : ℤ) - 1) = f.unit / 2 := by
            unfold unit; rw [zpow_sub₀ (by norm_num), zpow_one]
          have hpu : (2 : ℚ) ^ f.prec * f.unit = 1 := by
            unfold unit
            rw [← zpow_natCast, ← zpow_add₀ (by norm_num)]
            simp
          rw [e4]
          push_cast
          have : ((2 : ℚ) ^ f.prec - 1) * (f.unit / 2) = 2 ^ f.prec * f.unit / 2 - f.unit / 2 := by ring
          rw [this, hpu]
        rwa [e3] at this
      rw [h4] at h3
      exact h3

/-- The lower end, with fused multiply-add: a coordinate that is accepted is at least `-b / 2`. -/
theorem disc_above (h : f.Ok) (he : f.emin ≤ -2 * (f.prec : ℤ) - 1) {w cb : Nat} (hcb : cb ≤ w) {b x : ℚ} (hb : 0 < b)
    (h1 : f.minNormal ≤ 1 / b) (h2 : 1 / b ≤ 2 ^ (f.emax - 1)) (h3 : 2 * f.minNormal ≤ b) (hbr : f.near b = b) (hxr : f.near x = x) {r : Nat}
    (hr : discSingle (f.arith true sqrt) w cb (.fin x) (invBox (f.arith true sqrt) (.fin b)) = .ok r) : -(b / 2) ≤ x := by
  obtain ⟨i, E, m, e, hEe, hE, hbm, m1, m2, hm, hi⟩ := inv_edge (fused := true) (sqrt := sqrt) h hb h1 h2
  rw [e] at hr
  obtain ⟨s, hs, s0, _⟩ := disc_shift h hcb hr
  have hu := unit_pos (f := f)
  have hu2 := unit_le h.prec
  by_contra hc
  have hc : b / 2 < -x := by linarith [not_le.1 hc]
  -- the next number after `b / 2`
  have hhalf := near_halve hbr hb h3
  have hb2 : b / 2 ≠ 0 := by positivity
  have hneg : f.near (-x) = -x := by rw [near_neg, hxr]
  obtain ⟨n1, hn1⟩ := edge_grid hhalf hb2
  obtain ⟨n2, hn2⟩ := edge_grid_of_le hneg hb2 (by rw [abs_of_pos (by positivity), abs_of_pos (by linarith)]; exact hc.le)
  have hgp : (0 : ℚ) < 2 ^ f.expo (b / 2) := by positivity
  have hg : f.unit * E ≤ 2 ^ f.expo (b / 2) := by
    rw [hEe]
    unfold unit
    rw [← zpow_add₀ (by norm_num)]
    apply zpow_le_zpow_right₀ (by norm_num)
    have hl : ilog b - 1 ≤ ilog (b / 2) := by
      obtain ⟨a, _⟩ := ilog_spec hb.ne'
      obtain ⟨_, c'⟩ := ilog_spec hb2
      rw [abs_of_pos hb] at a
      rw [abs_of_pos (by positivity)] at c'
      have e2 : (2 : ℚ) ^ (ilog (b / 2) + 2) = 2 * 2 ^ (ilog (b / 2) + 1) := by
        rw [show ilog (b / 2) + 2 = (ilog (b / 2) + 1) + 1 by ring, zpow_add₀ (by norm_num) (ilog (b / 2) + 1)]; ring
      have d2 := (zpow_lt_zpow_iff_right₀ (by norm_num : (1 : ℚ) < 2)).1 (show (2 : ℚ) ^ ilog b < 2 ^ (ilog (b / 2) + 2) by linarith)
      omega
    unfold expo
    omega
  have hx : b / 2 + f.unit * E ≤ -x := by
    have hlt : n1 < n2 := by
      rw [hn1, hn2] at hc
      have := lt_of_mul_lt_mul_right hc hgp.le
      exact_mod_cast this
    have : (n1 : ℚ) + 1 ≤ n2 := by exact_mod_cast hlt
    have := mul_le_mul_of_nonneg_right this hgp.le
    rw [add_mul, one_mul, ← hn1, ← hn2] at this
    linarith
  have hiE : 0 ≤ i * E := by
    have : 1 / 2 ≤ 1 / m := one_div_le_one_div_of_le (by linarith) m2.le
    linarith
  have hi0 : 0 ≤ i := by
    by_contra hn
    have := mul_neg_of_neg_of_pos (not_le.1 hn) hE
    linarith
  have hxi : 1 / 2 + f.unit * f.unit / 2 ≤ -x * i := by
    have k1 : (m / 2 + f.unit) * (i * E) ≤ -x * i := by
      calc (m / 2 + f.unit) * (i * E) = (b / 2 + f.unit * E) * i := by rw [hbm]; ring
        _ ≤ -x * i := mul_le_mul_of_nonneg_right hx hi0
    rcases hm with ⟨rfl, hm⟩ | hm
    · rw [hm] at k1
      nlinarith
    · -- the grid of `m`
      have hm2 : m ≤ 2 - 2 * f.unit := by
        obtain ⟨n, hn⟩ := edge_grid hbr hb.ne'
        have hexp : f.expo b = ilog b - ((f.prec : ℤ) - 1) := by
          have hmin : f.emin + (f.prec : ℤ) ≤ ilog b := by
            have e1 : 2 * f.minNormal = (2 : ℚ) ^ (f.emin + (f.prec : ℤ)) := by
              unfold minNormal
              rw [show f.emin + (f.prec : ℤ) = (f.emin + ((f.prec : ℤ) - 1)) + 1 by ring, zpow_add₀ (by norm_num) (f.emin + ((f.prec : ℤ) - 1))]; ring
            rw [e1] at h3
            have c := (ilog_spec hb.ne').2
            rw [abs_of_pos hb] at c
            have := (zpow_lt_zpow_iff_right₀ (by norm_num : (1 : ℚ) < 2)).1 (lt_of_le_of_lt h3 c)
            omega
          unfold expo
          omega
        have hpow : (2 : ℚ) ^ f.expo b = 2 * f.unit * E := by
          rw [hexp, hEe]
          unfold unit
          rw [show ilog b - ((f.prec : ℤ) - 1) = 1 + -(f.prec : ℤ) + ilog b by ring, zpow_add₀ (by norm_num), zpow_add₀ (by norm_num), zpow_one]
        have hmn : m = n * (2 * f.unit) := by
          have : m * E = n * (2 * f.unit) * E := by rw [← hbm]; rw [hpow] at hn; linarith
          exact mul_right_cancel₀ hE.ne' this
        have hpu : (2 : ℚ) ^ f.prec * f.unit = 1 := by
          unfold unit
          rw [← zpow_natCast, ← zpow_add₀ (by norm_num)]
          simp
        have hlt : (n : ℚ) < 2 ^ f.prec := by
          have : (n : ℚ) * (2 * f.unit) < 2 ^ f.prec * (2 * f.unit) := by rw [← hmn]; nlinarith
          exact lt_of_mul_lt_mul_right this (by positivity)
        have hlt' : n < 2 ^ f.prec := by exact_mod_cast hlt
        have hle : (n : ℚ) + 1 ≤ 2 ^ f.prec := by exact_mod_cast Int.add_one_le_iff.2 hlt'
        nlinarith
      have hmp : 0 < m := by linarith
      have k2 : (m / 2 + f.unit) * (1 / m - f.unit / 2) ≤ (m / 2 + f.unit) * (i * E) := mul_le_mul_of_nonneg_left hi (by positivity)
      have k3 : 1 / 2 + f.unit * f.unit / 2 ≤ (m / 2 + f.unit) * (1 / m - f.unit / 2) := by
        have e5 : (m / 2 + f.unit) * (1 / m - f.unit / 2) = 1 / 2 + f.unit * (4 - m * m - 2 * f.unit * m) / (4 * m) := by field_simp; ring
        rw [e5]
        have : f.unit / 2 ≤ (4 - m * m - 2 * f.unit * m) / (4 * m) := by
          rw [le_div_iff₀ (by linarith)]
          nlinarith
        have := mul_le_mul_of_nonneg_left this hu.le
        have e6 : f.unit * (4 - m * m - 2 * f.unit * m) / (4 * m) = f.unit * ((4 - m * m - 2 * f.unit * m) / (4 * m)) := mul_div_assoc _ _ _
        rw [e6]
        linarith
      linarith
  have hrn : f.rnd (x * i + 1 / 2) = .fin s := by
    unfold Arith.fma at hs
    exact hs
  obtain ⟨rfl, _⟩ := rnd_eq_fin hrn
  have h4 : x * i + 1 / 2 ≤ -(f.unit * f.unit / 2) := by linarith
  have h5 := near_mono (f := f) h.prec h4
  have h6 : f.unit * f.unit / 2 = 2 ^ (-2 * (f.prec : ℤ) - 1) := by
    unfold unit
    rw [← zpow_add₀ (by norm_num), zpow_sub₀ (by norm_num), zpow_one]
    congr 2; ring
  rw [near_neg, h6, near_pow h.prec he] at h5
  have : (0 : ℚ) < 2 ^ (-2 * (f.prec : ℤ) - 1) := by positivity
  linarith

end Format
end Rakau
