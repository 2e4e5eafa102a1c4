import Verif.Model.Uniform
import Verif.Proof.RoundEdge

/-!
Rounding in the uniform data of the tests: the end of the interval is never reached.
-/
namespace Rakau
namespace Format
variable {f : Format} {fused : Bool} {sqrt : ℚ → Fl ℚ}

/-- `u * s < s` also after rounding, for numbers of the format with `u < 1`. -/
theorem draw_lt (h : f.Ok) (he : f.emin ≤ -(f.prec : ℤ) - 1) {s u : ℚ} (h1 : 2 * f.minNormal ≤ s) (hu : f.near u = u) (u1 : u < 1) : f.near (u * s) < s := by
  have hm : 0 < f.minNormal := by unfold minNormal; positivity
  have hs : 0 < s := by linarith
  have hun := unit_pos (f := f)
  have hun2 := unit_le h.prec
  have hu' : u ≤ 1 - f.unit := by simpa using le_pred_pow h he (k := 0) hu (by simpa using u1)
  have hq : f.near (u * s) ≤ f.near ((1 - f.unit) * s) := near_mono h.prec (mul_le_mul_of_nonneg_right hu' hs.le)
  have hq0 : 0 < (1 - f.unit) * s := mul_pos (by linarith) hs
  have hqs : (1 - f.unit) * s < s := by nlinarith
  have herr := (abs_le.1 (near_err (f := f) hq0.ne')).2
  obtain ⟨a, c⟩ := ilog_spec hs.ne'
  obtain ⟨a', c'⟩ := ilog_spec hq0.ne'
  rw [abs_of_pos hs] at a c
  rw [abs_of_pos hq0] at a' c'
  have hmin : f.emin + (f.prec : ℤ) ≤ ilog s := by
    have e1 : 2 * f.minNormal = (2 : ℚ) ^ (f.emin + (f.prec : ℤ)) := by
      unfold minNormal
      rw [show f.emin + (f.prec : ℤ) = (f.emin + ((f.prec : ℤ) - 1)) + 1 by ring, zpow_add₀ (by norm_num) (f.emin + ((f.prec : ℤ) - 1))]; ring
    rw [e1] at h1
    have := (zpow_lt_zpow_iff_right₀ (by norm_num : (1 : ℚ) < 2)).1 (lt_of_le_of_lt h1 c)
    omega
  have hul : f.unit * 2 ^ ilog s = 2 ^ (ilog s - ((f.prec : ℤ) - 1)) / 2 := by
    unfold unit
    rw [← zpow_add₀ (by norm_num), show ilog s - ((f.prec : ℤ) - 1) = (-(f.prec : ℤ) + ilog s) + 1 by ring, zpow_add₀ (by norm_num) _ 1]
    simp
  have hpos : (0 : ℚ) < 2 ^ (ilog s - ((f.prec : ℤ) - 1)) := by positivity
  have hmul : f.unit * 2 ^ ilog s ≤ f.unit * s := mul_le_mul_of_nonneg_left a hun.le
  rcases lt_or_eq_of_le a with hl | hl
  · have hx : f.expo ((1 - f.unit) * s) ≤ ilog s - ((f.prec : ℤ) - 1) := by
      have := ilog_mono hq0.ne' (b := s) (by rw [abs_of_pos hq0, abs_of_pos hs]; exact hqs.le)
      unfold expo; omega
    have hp := zpow_le_zpow_right₀ (by norm_num : (1 : ℚ) ≤ 2) hx
    have hmul' : f.unit * 2 ^ ilog s < f.unit * s := mul_lt_mul_of_pos_left hl hun
    have : (1 - f.unit) * s = s - f.unit * s := by ring
    linarith
  · have hk : ilog ((1 - f.unit) * s) < ilog s := (zpow_lt_zpow_iff_right₀ (by norm_num : (1 : ℚ) < 2)).1 (lt_of_le_of_lt a' (lt_of_lt_of_eq hqs hl.symm))
    have hx : f.expo ((1 - f.unit) * s) ≤ ilog s - ((f.prec : ℤ) - 1) - 1 := by unfold expo; omega
    have hp := zpow_le_zpow_right₀ (by norm_num : (1 : ℚ) ≤ 2) hx
    rw [zpow_sub_one₀ (by norm_num) (ilog s - ((f.prec : ℤ) - 1))] at hp
    have : (1 - f.unit) * s = s - f.unit * s := by ring
    linarith

/-- The subtraction of half the size is exact in the upper half of the interval. -/
theorem draw_exact (h : f.Ok) {s y : ℚ} (hs : f.near s = s) (h1 : 2 * f.minNormal ≤ s) (hy : f.near y = y) (y0 : s / 2 ≤ y) (y1 : y < s) : f.near (y - s / 2) = y - s / 2 := by
  have hm : 0 < f.minNormal := by unfold minNormal; positivity
  have hs0 : 0 < s := by linarith
  have h2 : (s / 2) ≠ 0 := by positivity
  obtain ⟨n, hn⟩ := edge_grid_of_le hy h2 (by rw [abs_of_pos (by positivity), abs_of_pos (by linarith)]; exact y0)
  obtain ⟨m, hm⟩ := edge_grid (near_halve hs hs0 h1) h2
  have e : y - s / 2 = ((n - m : ℤ) : ℚ) * 2 ^ f.expo (s / 2) := by push_cast; linarith [sub_mul (n : ℚ) m (2 ^ f.expo (s / 2))]
  have hpe : (0 : ℚ) < 2 ^ f.expo (s / 2) := by positivity
  have hb : s / 2 < 2 ^ f.prec * 2 ^ f.expo (s / 2) := by
    have := (ilog_spec h2).2
    rw [abs_of_pos (by positivity)] at this
    refine lt_of_lt_of_le this ?_
    rw [← zpow_natCast, ← zpow_add₀ (by norm_num)]
    exact zpow_le_zpow_right₀ (by norm_num) (by unfold expo; omega)
  rw [e]
  refine near_repr h.prec (le_max_right _ _) ?_
  have c1 : (0 : ℚ) ≤ ((n - m : ℤ) : ℚ) := by
    by_contra hc
    have := mul_neg_of_neg_of_pos (not_le.1 hc) hpe
    linarith
  have c2 : ((n - m : ℤ) : ℚ) < 2 ^ f.prec := lt_of_mul_lt_mul_right (by linarith) hpe.le
  have c1' : (0 : ℤ) ≤ n - m := by exact_mod_cast c1
  have c2' : n - m < 2 ^ f.prec := by exact_mod_cast c2
  rw [abs_of_nonneg c1']
  exact c2'.le

/-- The ends of the interval, and its length. -/
theorem draw_ends {s : ℚ} (hs : f.near s = s) (h1 : 2 * f.minNormal ≤ s) (h2 : s < 2 ^ f.emax) :
    (f.arith fused sqrt).div (Fl.fin s).neg (.fin 2) = .fin (-(s / 2)) ∧ (f.arith fused sqrt).div (.fin s) (.fin 2) = .fin (s / 2) ∧
    (f.arith fused sqrt).sub (.fin (s / 2)) (.fin (-(s / 2))) = .fin s := by
  have hm : 0 < f.minNormal := by unfold minNormal; positivity
  have hs0 : 0 < s := by linarith
  have hh := near_halve hs hs0 h1
  have hhn : f.near (-(s / 2)) = -(s / 2) := by rw [near_neg, hh]
  refine ⟨?_, ?_, ?_⟩
  · simp only [Fl.neg, Arith.div]
    show (if (2 : ℚ) = 0 then (if -s = 0 then Fl.nan else .inf (decide (-s < 0))) else f.rnd (-s / 2)) = _
    rw [if_neg (by norm_num), neg_div, rnd_fin (by rw [hhn, abs_neg, abs_of_pos (by positivity)]; linarith), hhn]
  · simp only [Arith.div]
    show (if (2 : ℚ) = 0 then (if s = 0 then Fl.nan else .inf (decide (s < 0))) else f.rnd (s / 2)) = _
    rw [if_neg (by norm_num), rnd_fin (by rw [hh, abs_of_pos (by positivity)]; linarith), hh]
  · show f.rnd (s / 2 + -(-(s / 2))) = _
    rw [show s / 2 + -(-(s / 2)) = s by ring, rnd_fin (by rw [hs, abs_of_pos hs0]; exact h2), hs]

/-- A coordinate: rounded twice, in the interval without its upper end. -/
theorem draw_val (h : f.Ok) (he : f.emin ≤ -(f.prec : ℤ) - 1) {s u : ℚ} (hs : f.near s = s) (h1 : 2 * f.minNormal ≤ s) (h2 : s < 2 ^ f.emax) (hu : f.near u = u) (u0 : 0 ≤ u) (u1 : u < 1) :
    uniformReal (f.arith fused sqrt) ((f.arith fused sqrt).div (Fl.fin s).neg (.fin 2)) ((f.arith fused sqrt).div (.fin s) (.fin 2)) (.fin u) = .fin (f.near (f.near (u * s) - s / 2)) ∧
    -(s / 2) ≤ f.near (f.near (u * s) - s / 2) ∧ f.near (f.near (u * s) - s / 2) < s / 2 := by
  have hm : 0 < f.minNormal := by unfold minNormal; positivity
  have hs0 : 0 < s := by linarith
  obtain ⟨e1, e2, e3⟩ := draw_ends (fused := fused) (sqrt := sqrt) hs h1 h2
  have hh := near_halve hs hs0 h1
  have y1 := draw_lt h he h1 hu u1
  have y0 : 0 ≤ f.near (u * s) := near_nonneg (by positivity)
  have l : -(s / 2) ≤ f.near (f.near (u * s) - s / 2) := by
    have := near_mono (f := f) h.prec (show -(s / 2) ≤ f.near (u * s) - s / 2 by linarith)
    rwa [near_neg, hh] at this
  have r : f.near (f.near (u * s) - s / 2) < s / 2 := by
    rcases le_or_gt (s / 2) (f.near (u * s)) with hc | hc
    · rw [draw_exact h hs h1 (near_idem h.prec _) hc y1]; linarith
    · have := near_mono (f := f) h.prec (show f.near (u * s) - s / 2 ≤ 0 by linarith)
      rw [near_zero] at this
      linarith
  refine ⟨?_, l, r⟩
  unfold uniformReal
  rw [e1, e2, e3]
  show (f.arith fused sqrt).add (f.rnd (u * s)) (.fin (-(s / 2))) = _
  rw [rnd_fin (by rw [abs_of_nonneg y0]; linarith)]
  show f.rnd (f.near (u * s) + -(s / 2)) = _
  rw [← sub_eq_add_neg, rnd_fin (by rw [abs_lt]; constructor <;> linarith)]

/-- The rounding error of a number up to a normal number `s`. -/
theorem draw_err {s q : ℚ} (h1 : f.minNormal ≤ s) (hq : |q| ≤ s) : |f.near q - q| ≤ f.unit * s := by
  have hm : 0 < f.minNormal := by unfold minNormal; positivity
  have hs : 0 < s := by linarith
  have hun := unit_pos (f := f)
  by_cases h0 : q = 0
  · rw [h0, near_zero]; simp; positivity
  obtain ⟨a, c⟩ := ilog_spec hs.ne'
  rw [abs_of_pos hs] at a c
  have hmin : f.emin + ((f.prec : ℤ) - 1) ≤ ilog s := by
    have := (zpow_lt_zpow_iff_right₀ (by norm_num : (1 : ℚ) < 2)).1 (lt_of_le_of_lt h1 c)
    omega
  have hx : f.expo q ≤ ilog s - ((f.prec : ℤ) - 1) := by
    have := ilog_mono h0 (b := s) (by rwa [abs_of_pos hs])
    unfold expo; omega
  have hul : f.unit * 2 ^ ilog s = 2 ^ (ilog s - ((f.prec : ℤ) - 1)) / 2 := by
    unfold unit
    rw [← zpow_add₀ (by norm_num), show ilog s - ((f.prec : ℤ) - 1) = (-(f.prec : ℤ) + ilog s) + 1 by ring, zpow_add₀ (by norm_num) _ 1]
    simp
  have hp := zpow_le_zpow_right₀ (by norm_num : (1 : ℚ) ≤ 2) hx
  have hmul : f.unit * 2 ^ ilog s ≤ f.unit * s := mul_le_mul_of_nonneg_left a hun.le
  have := near_err (f := f) h0
  linarith

/-- A coordinate is close to its value without rounding. -/
theorem draw_close (h : f.Ok) (he : f.emin ≤ -(f.prec : ℤ) - 1) {s u : ℚ} (h1 : 2 * f.minNormal ≤ s) (hu : f.near u = u) (u0 : 0 ≤ u) (u1 : u < 1) :
    |f.near (f.near (u * s) - s / 2) - (u * s - s / 2)| ≤ 3 / 2 * f.unit * s := by
  have hm : 0 < f.minNormal := by unfold minNormal; positivity
  have hs : 0 < s := by linarith
  have hun := unit_pos (f := f)
  have hq0 : 0 ≤ u * s := mul_nonneg u0 hs.le
  have hq1 : u * s ≤ s := by nlinarith
  have y1 := draw_lt h he h1 hu u1
  have y0 : 0 ≤ f.near (u * s) := near_nonneg hq0
  have e1 := abs_le.1 (draw_err (f := f) (s := s) (q := u * s) (by linarith) (by rw [abs_of_nonneg hq0]; exact hq1))
  have e2 := abs_le.1 (draw_err (f := f) (s := s / 2) (q := f.near (u * s) - s / 2) (by linarith) (by rw [abs_le]; constructor <;> linarith))
  rw [abs_le]; constructor <;> linarith [e1.1, e1.2, e2.1, e2.2]

/-- Random numbers that are not next to the ends give coordinates well inside the box. -/
theorem draw_inner (h : f.Ok) (he : f.emin ≤ -(f.prec : ℤ) - 1) {s u : ℚ} (h1 : 2 * f.minNormal ≤ s) (hu : f.near u = u) (u0 : 3 * f.unit ≤ u) (u1 : u ≤ 1 - 3 * f.unit) :
    |f.near (f.near (u * s) - s / 2)| * (1 + f.unit) ≤ (1 / 2 - f.unit) * s := by
  have hm : 0 < f.minNormal := by unfold minNormal; positivity
  have hs : 0 < s := by linarith
  have hun := unit_pos (f := f)
  have e1 := abs_le.1 (draw_close h he h1 hu (by linarith) (by linarith))
  have b1 : 3 * f.unit * s ≤ u * s := mul_le_mul_of_nonneg_right u0 hs.le
  have b2 : u * s ≤ (1 - 3 * f.unit) * s := mul_le_mul_of_nonneg_right u1 hs.le
  have hx : |f.near (f.near (u * s) - s / 2)| ≤ s / 2 - 3 / 2 * (f.unit * s) := by
    rw [abs_le]; constructor <;> linarith [e1.1, e1.2]
  have hus : 0 ≤ f.unit * s := by positivity
  have := mul_le_mul_of_nonneg_right hx (show (0 : ℚ) ≤ 1 + f.unit by linarith)
  nlinarith [mul_nonneg hun.le hus]

/-- Scaled coordinates in `[-1/2, 1/2 - unit]` are accepted. -/
theorem discSingle_closed (h : f.Ok) (he : f.emin ≤ -(f.prec : ℤ) - 1) {w cb : Nat} (hcb : cb ≤ w) (hcb2 : cb ≤ 64) {x i : ℚ}
    (ht : -(1 / 2) ≤ x * i) (ht2 : x * i ≤ 1 / 2 - f.unit) : ∃ r, discSingle (f.arith fused sqrt) w cb (.fin x) (.fin i) = .ok r := by
  have hu := unit_pos (f := f)
  have hu2 := unit_le h.prec
  have h2 := two_le_emax h
  have hsh : ∃ s, (f.arith fused sqrt).fma (.fin x) (.fin i) (.fin (1 / 2)) = .fin s ∧ 0 ≤ s ∧ s ≤ 1 - f.unit := by
    have key : ∀ t : ℚ, -(1 / 2) ≤ t → t ≤ 1 / 2 - f.unit → ∃ s, f.rnd (t + 1 / 2) = .fin s ∧ 0 ≤ s ∧ s ≤ 1 - f.unit := by
      intro t t1 t2
      have h1 := near_one_sub h he 0
      rw [pow_zero, mul_one] at h1
      obtain ⟨e1, e2, e3⟩ := rnd_le_of h (q := t + 1 / 2) (r := 1 - f.unit) (by linarith) (by linarith) h1 (by linarith)
      exact ⟨_, e1, e2, e3⟩
    unfold Arith.fma
    split
    · exact key _ ht ht2
    · show ∃ s, (f.arith fused sqrt).add (f.rnd (x * i)) (.fin (1 / 2)) = .fin s ∧ _
      have hhalf : f.near (1 / 2) = 1 / 2 := by
        have := near_pow (f := f) h.prec (k := -1) (by have := h.emin; omega)
        norm_num at this ⊢
        exact this
      have n1 := near_mono (f := f) h.prec ht
      rw [near_neg, hhalf] at n1
      have n2 := near_mono (f := f) h.prec ht2
      rw [near_half_sub h he] at n2
      rw [rnd_fin (by rw [abs_lt]; constructor <;> linarith)]
      exact key _ n1 n2
  obtain ⟨s, hs, s0, s1⟩ := hsh
  have hp : (1 - f.unit) * 2 ^ cb < 2 ^ cb := by
    have : (0 : ℚ) < 2 ^ cb := by positivity
    nlinarith
  have hp2 : (2 : ℚ) ^ cb < 2 ^ f.emax := pow_lt_pow_right₀ (by norm_num) (by have := h.emax; omega)
  obtain ⟨e1, e2, e3⟩ := rnd_le_of h (q := s * 2 ^ cb) (r := (1 - f.unit) * 2 ^ cb) (by positivity)
    (mul_le_mul_of_nonneg_right s1 (by positivity)) (near_one_sub h he cb) (by linarith)
  have hd : discScaled (f.arith fused sqrt) cb (.fin x) (.fin i) = .fin (f.near (s * 2 ^ cb)) := by
    unfold discScaled; rw [hs]; exact e1
  rcases discSingle_cases (f.arith fused sqrt) hcb (.fin x) (.fin i) with ⟨q, _, _, _, e⟩ | ⟨hq, _⟩
  · exact ⟨_, e⟩
  · exfalso
    rcases hq _ hd with hq | hq <;> linarith

/-- The largest coordinate if the size is a power of two. -/
theorem draw_pow (h : f.Ok) (he : f.emin ≤ -(f.prec : ℤ) - 1) {k : ℤ} (hk : f.emin + (f.prec : ℤ) ≤ k) {u : ℚ} (hu : f.near u = u) (u1 : u < 1) :
    f.near (f.near (u * 2 ^ k) - 2 ^ k / 2) ≤ (1 / 2 - f.unit) * 2 ^ k := by
  have hpr := h.prec
  have hu' : u ≤ 1 - f.unit := by simpa using le_pred_pow h he (k := 0) hu (by simpa using u1)
  have hp : (0 : ℚ) < 2 ^ k := by positivity
  have e0 : f.unit * 2 ^ k = 2 ^ (k - (f.prec : ℤ)) := by
    unfold unit; rw [← zpow_add₀ (by norm_num)]; congr 1; ring
  have e1 : (2 : ℚ) ^ k = 2 ^ f.prec * 2 ^ (k - (f.prec : ℤ)) := by
    rw [← zpow_natCast, ← zpow_add₀ (by norm_num)]; congr 1; ring
  have e2 : (2 : ℚ) ^ f.prec = 2 * 2 ^ (f.prec - 1) := by rw [← pow_succ']; congr 1; omega
  have i1 : (1 : ℤ) ≤ 2 ^ f.prec := one_le_pow₀ (by norm_num)
  have i2 : (1 : ℤ) ≤ 2 ^ (f.prec - 1) := one_le_pow₀ (by norm_num)
  have i3 : (2 : ℤ) ^ f.prec = 2 * 2 ^ (f.prec - 1) := by rw [← pow_succ']; congr 1; omega
  have r1 : f.near ((1 - f.unit) * 2 ^ k) = (1 - f.unit) * 2 ^ k := by
    have e : (1 - f.unit) * 2 ^ k = ((2 ^ f.prec - 1 : ℤ) : ℚ) * 2 ^ (k - (f.prec : ℤ)) := by
      rw [sub_mul, one_mul, e0]; push_cast; rw [sub_mul, one_mul, ← e1]
    rw [e]
    exact near_repr h.prec (by omega) (by rw [abs_of_nonneg (by linarith)]; linarith)
  have r2 : f.near ((1 / 2 - f.unit) * 2 ^ k) = (1 / 2 - f.unit) * 2 ^ k := by
    have e : (1 / 2 - f.unit) * 2 ^ k = ((2 ^ (f.prec - 1) - 1 : ℤ) : ℚ) * 2 ^ (k - (f.prec : ℤ)) := by
      rw [sub_mul, e0]; push_cast; rw [sub_mul, one_mul, e1, e2]; ring
    rw [e]
    exact near_repr h.prec (by omega) (by rw [abs_of_nonneg (by linarith)]; linarith)
  have m1 := near_mono (f := f) h.prec (mul_le_mul_of_nonneg_right hu' hp.le)
  rw [r1] at m1
  have m2 := near_mono (f := f) h.prec (show f.near (u * 2 ^ k) - 2 ^ k / 2 ≤ (1 / 2 - f.unit) * 2 ^ k by linarith)
  rwa [r2] at m2

end Format
end Rakau
