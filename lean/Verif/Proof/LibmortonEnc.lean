import Verif.Proof.Libmorton

namespace Rakau
open Spec

/-! ### Tables -/

theorem tab2shift : (List.range 256).all (fun v => lut lut2ex v <<< 1 == lut lut2ey v) = true := by decide +kernel
theorem tab3shift : (List.range 256).all (fun v => lut lut3ex v <<< 1 == lut lut3ey v && lut lut3ex v <<< 2 == lut lut3ez v) = true := by decide +kernel

theorem encL2Step_eq (mw x y a s : Nat) : encL2Step mw x y a s = enc2Step mw x y a s := by
  have h := List.all_eq_true.1 tab2shift ((y >>> s) &&& 0xFF) (List.mem_range.2 (byte_lt y s))
  unfold encL2Step enc2Step
  rw [beq_iff_eq.1 h]

theorem encL3Step_eq (mw x y z a s : Nat) : encL3Step mw x y z a s = enc3Step mw x y z a s := by
  have h1 := List.all_eq_true.1 tab3shift ((y >>> s) &&& 0xFF) (List.mem_range.2 (byte_lt y s))
  have h2 := List.all_eq_true.1 tab3shift ((z >>> s) &&& 0xFF) (List.mem_range.2 (byte_lt z s))
  simp only [Bool.and_eq_true, beq_iff_eq] at h1 h2
  unfold encL3Step enc3Step
  rw [h1.1, h2.2]
  simp only [Nat.or_assoc]

theorem encL_eq (mw cw : Nat) (xs : List Nat) : encL mw cw xs = encLUT mw cw xs := by
  have e2 : ∀ x y, encL2Step mw x y = enc2Step mw x y := fun x y => funext₂ (encL2Step_eq mw x y)
  have e3 : ∀ x y z, encL3Step mw x y z = enc3Step mw x y z := fun x y z => funext₂ (encL3Step_eq mw x y z)
  unfold encL encLUT
  split <;> simp only [e2, e3]

theorem crd2_getD (x y k : Nat) : crd2 x y (k % 2) = [x, y].getD (k % 2) 0 := by
  have h : k % 2 = 0 ∨ k % 2 = 1 := by omega
  rcases h with h | h <;> simp [h, crd2]

theorem crd3_getD (x y z k : Nat) : crd3 x y z (k % 3) = [x, y, z].getD (k % 3) 0 := by
  have h : k % 3 = 0 ∨ k % 3 = 1 ∨ k % 3 = 2 := by omega
  rcases h with h | h | h <;> simp [h, crd3]

/-! ### For loops -/

theorem encFor_term (x i s k : Nat) : ((x &&& 2 ^ i) <<< s).testBit k = (decide (k = s + i) && x.testBit i) := by
  rw [Nat.testBit_shiftLeft, Nat.testBit_and, Nat.testBit_two_pow]
  by_cases h : k = s + i
  · subst h; simp
  · by_cases h1 : s ≤ k
    · have : ¬ i = k - s := by omega
      simp [this, h]
    · simp [h1, h]

theorem encForC_bits {mw cw d j x : Nat} (hj : j < d) {n : Nat} (hn : n ≤ mw / d) :
    ∃ a, encForC mw cw d j n x = some a ∧
      ∀ k, a.testBit k = (decide (k % d = j) && decide (k / d < n) && x.testBit (k / d)) := by
  have hd : 0 < d := by omega
  induction n with
  | zero => exact ⟨0, rfl, by simp⟩
  | succ n ih =>
    obtain ⟨a, e, h⟩ := ih (by omega)
    have hk : d * n + j < mw := by
      have h1 : d * (n + 1) ≤ d * (mw / d) := Nat.mul_le_mul_left _ hn
      have h2 := Nat.mul_div_le mw d
      rw [Nat.mul_add] at h1; omega
    have hnw : n < mw := by
      have : n ≤ d * n := Nat.le_mul_of_pos_left n hd
      omega
    have hs : (d - 1) * n + j + n = d * n + j := by
      obtain ⟨e', rfl⟩ : ∃ e', d = e' + 1 := ⟨d - 1, by omega⟩
      simp only [Nat.add_sub_cancel, Nat.add_mul, Nat.one_mul]; omega
    have hsw : (d - 1) * n + j < max mw cw := lt_of_lt_of_le (by omega) (le_max_left _ _)
    refine ⟨(a ||| ((x &&& 2 ^ n) <<< ((d - 1) * n + j)) % 2 ^ max mw cw) % 2 ^ mw, ?_, ?_⟩
    · unfold encForC at e ⊢
      rw [List.range_succ, List.foldlM_append, e]
      have e1 : shl mw 1 n = some (2 ^ n) := by
        unfold shl
        rw [if_pos hnw, Nat.one_shiftLeft, Nat.mod_eq_of_lt (Nat.pow_lt_pow_right (by norm_num) hnw)]
      have e2 : shl (max mw cw) (x &&& 2 ^ n) ((d - 1) * n + j) = some (((x &&& 2 ^ n) <<< ((d - 1) * n + j)) % 2 ^ max mw cw) := by
        unfold shl; rw [if_pos hsw]
      simp [e1, e2]
    · intro k
      rw [Nat.testBit_mod_two_pow, Nat.testBit_or, h, Nat.testBit_mod_two_pow, encFor_term]
      rw [show (d - 1) * n + j + n = d * n + j from hs]
      have hdm := Nat.div_add_mod k d
      by_cases hkj : k % d = j
      · by_cases h1 : k / d = n
        · have : k = d * n + j := by rw [← hdm, hkj, h1]
          have h2 : k < mw := by omega
          have h3 : k < max mw cw := lt_of_lt_of_le h2 (le_max_left _ _)
          rw [h1, hkj]
          simp [this, hk]
        · have : ¬ k = d * n + j := by
            intro hk'
            apply h1
            rw [hk', Nat.mul_add_div hd, Nat.div_eq_of_lt hj, Nat.add_zero]
          have e1 : decide (k / d < n + 1) = decide (k / d < n) := by simp only [decide_eq_decide]; omega
          by_cases hkw : k < mw
          · simp [hkj, this, e1, hkw]
          · have : ¬ k / d < n := by
              intro h4
              have h5 : d * (k / d + 1) ≤ d * n := Nat.mul_le_mul_left _ h4
              rw [Nat.mul_add] at h5; omega
            simp [this, e1, hkw]
      · have : ¬ k = d * n + j := by
          intro hk'
          apply hkj
          rw [hk', Nat.mul_add_mod, Nat.mod_eq_of_lt hj]
        simp [hkj, this]

theorem encForC_spread {mw cw d j x n : Nat} (hj : j < d) (hn : n ≤ mw / d) (hx : x < 2 ^ n) :
    ∃ a, encForC mw cw d j n x = some a ∧ Spread mw d j x a := by
  obtain ⟨a, e, h⟩ := encForC_bits (cw := cw) (x := x) hj hn
  refine ⟨a, e, ?_⟩
  intro k
  rw [h]
  by_cases hk : k / d < n
  · have : k < mw := by
      have h1 : d * (k / d + 1) ≤ d * (mw / d) := Nat.mul_le_mul_left _ (by omega)
      have h2 := Nat.mul_div_le mw d
      have h3 := Nat.div_add_mod k d
      have h4 := Nat.mod_lt k (by omega : 0 < d)
      rw [Nat.mul_add] at h1; omega
    simp [hk, this]
  · rw [testBit_of_lt hx (by omega)]; simp

/-! ### Early termination with tables -/

theorem et2Loop_bits {mw cw j c mb : Nat} {t : List Nat} (ht : encTabOk 2 j t = true) (hmw : mw = 32 ∨ mw = 64)
    (hmb : mb < mw / 2) (hc : c < 2 ^ mb) :
    ∀ n i a, 8 ∣ i → mb < i + 8 * n → (∀ k, a.testBit k = (decide (k % 2 = j) && decide (k / 2 < i) && c.testBit (k / 2))) →
      ∃ b, et2Loop mw cw t c mb (n + 1) i a = some b ∧ ∀ k, b.testBit k = (decide (k % 2 = j) && c.testBit (k / 2)) := by
  intro n
  induction n with
  | zero =>
    intro i a _ h1 h2
    refine ⟨a, ?_, ?_⟩
    · unfold et2Loop; rw [if_neg (by omega)]
    · intro k
      rw [h2]
      by_cases hk : k / 2 < i
      · simp [hk]
      · rw [testBit_of_lt hc (by omega)]; simp
  | succ n ih =>
    intro i a h8 h1 h2
    by_cases hi : i ≤ mb
    · have e1 : shr (max cw 32) c i = some (c >>> i) := by
        unfold shr; rw [if_pos]
        exact lt_of_lt_of_le (by omega) (le_max_right cw 32)
      have e2 : shl mw (lut t ((c >>> i) &&& 0xFF)) (i * 2) = some ((lut t ((c >>> i) &&& 0xFF) <<< (i * 2)) % 2 ^ mw) := by
        unfold shl; rw [if_pos (by omega)]
      unfold et2Loop
      rw [if_pos hi, e1]
      simp only [Option.bind_eq_bind, Option.bind_some, e2]
      refine ih (i + 8) _ (by omega) (by omega) ?_
      intro k
      rw [Nat.testBit_or, h2, Nat.testBit_mod_two_pow, Nat.testBit_shiftLeft, encTab_testBit ht (by norm_num) (byte_lt _ _), byte_testBit]
      by_cases hk : k / 2 < i
      · have : ¬ i * 2 ≤ k := by omega
        have h3 : k / 2 < i + 8 := by omega
        simp [hk, this, h3]
      · have h3 : i * 2 ≤ k := by omega
        have h4 : (k - i * 2) % 2 = k % 2 := by omega
        have h5 : (k - i * 2) / 2 = k / 2 - i := by omega
        have h6 : i + (k / 2 - i) = k / 2 := by omega
        rw [h4, h5, h6]
        by_cases h7 : k / 2 < i + 8
        · have h8 : k / 2 - i < 8 := by omega
          by_cases hkw : k < mw
          · simp [hk, h3, h7, h8, hkw]
          · have : c.testBit (k / 2) = false := testBit_of_lt hc (by omega)
            simp [this]
        · have h8 : ¬ k / 2 - i < 8 := by omega
          simp [hk, h7, h8]
    · refine ⟨a, ?_, ?_⟩
      · unfold et2Loop; rw [if_neg hi]
      · intro k
        rw [h2]
        by_cases hk : k / 2 < i
        · simp [hk]
        · rw [testBit_of_lt hc (by omega)]; simp

theorem et2_spread {p : Plat} {mw cw j c : Nat} {t : List Nat} (ht : encTabOk 2 j t = true) (hmw : mw = 32 ∨ mw = 64)
    (hcw : cw = 16 ∨ cw = 32 ∨ cw = 64) (hc2 : mw ≤ 2 * cw) (hp : p.comp = .gcc → cw = 64) (hc : c < 2 ^ (mw / 2 - 1)) :
    ∃ a, et2 p mw cw t c = some a ∧ Spread mw 2 j c a := by
  unfold et2
  by_cases h0 : c = 0
  · subst h0
    rw [firstSetBit_zero]
    exact ⟨0, rfl, fun k => by simp⟩
  · have hl : c.log2 < mw / 2 - 1 := (Nat.log2_lt h0).2 hc
    have hcw' : c < 2 ^ cw := lt_of_lt_of_le hc (Nat.pow_le_pow_right (by norm_num) (by omega))
    rw [firstSetBit_eq hcw hp h0 hcw']
    have hb := et2Loop_bits (mw := mw) (cw := cw) (mb := c.log2 + 1) ht hmw (by omega) (lt_of_log2 h0) 9 0 0 (by simp) (by omega) (by simp)
    obtain ⟨b, e, h⟩ := hb
    refine ⟨b, e, ?_⟩
    intro k
    rw [h]
    by_cases hk : k < mw
    · simp [hk]
    · rw [testBit_of_lt hc (by omega)]; simp

/-- The last round shifts too far if the coordinate has its highest bit. -/
theorem et2_none {p : Plat} {mw cw c : Nat} (t : List Nat) (hmw : mw = 32 ∨ mw = 64)
    (hcw : cw = 16 ∨ cw = 32 ∨ cw = 64) (hc2 : mw ≤ 2 * cw) (hp : p.comp = .gcc → cw = 64) (hc : 2 ^ (mw / 2 - 1) ≤ c) (hc' : c < 2 ^ (mw / 2)) :
    et2 p mw cw t c = none := by
  have h0 : c ≠ 0 := by rintro rfl; simp at hc
  have hl : c.log2 = mw / 2 - 1 := by
    rw [Nat.log2_eq_iff h0]
    exact ⟨hc, by rwa [show mw / 2 - 1 + 1 = mw / 2 by omega]⟩
  have hcw' : c < 2 ^ cw := lt_of_lt_of_le hc' (Nat.pow_le_pow_right (by norm_num) (by omega))
  unfold et2
  rw [firstSetBit_eq hcw hp h0 hcw', hl]
  rcases hmw with rfl | rfl <;> rcases hcw with rfl | rfl | rfl <;> first | omega | simp [et2Loop, shl, shr]

theorem et3Loop_bits {mw cw j c : Nat} {t : List Nat} (ht : encTabOk 3 j t = true) :
    ∀ n a, n * 8 < max cw 32 → (∀ k, a.testBit k = (decide (k < mw) && decide (k % 3 = j) && c.testBit ((n + 1) * 8 + k / 3))) →
      ∃ b, et3Loop mw cw t c n a = some b ∧ Spread mw 3 j c b := by
  have step : ∀ s a, (∀ k, a.testBit k = (decide (k < mw) && decide (k % 3 = j) && c.testBit (s + 8 + k / 3))) →
      ∀ k, ((a <<< 24) % 2 ^ mw ||| lut t ((c >>> s) &&& 0xFF) % 2 ^ mw).testBit k
        = (decide (k < mw) && decide (k % 3 = j) && c.testBit (s + k / 3)) := by
    intro s a h k
    rw [Nat.testBit_or, Nat.testBit_mod_two_pow, Nat.testBit_shiftLeft, Nat.testBit_mod_two_pow,
      encTab_testBit ht (by norm_num) (byte_lt _ _), byte_testBit]
    by_cases hk : k < mw
    · by_cases h24 : 24 ≤ k
      · have h8 : ¬ k / 3 < 8 := by omega
        have e1 : (k - 24) % 3 = k % 3 := by omega
        have e2 : s + 8 + (k - 24) / 3 = s + k / 3 := by omega
        have e3 : k - 24 < mw := by omega
        rw [h, e1, e2]
        simp [hk, h24, h8, e3]
      · have h8 : k / 3 < 8 := by omega
        simp [hk, h24, h8]
    · simp [hk]
  intro n
  induction n with
  | zero =>
    intro a _ h
    refine ⟨_, rfl, ?_⟩
    intro k
    have := step 0 a (by simpa using h) k
    simpa using this
  | succ n ih =>
    intro a hn h
    unfold et3Loop
    have e1 : shr (max cw 32) c ((n + 1) * 8) = some (c >>> ((n + 1) * 8)) := by unfold shr; rw [if_pos hn]
    rw [e1]
    refine ih _ (by omega) ?_
    intro k
    exact step ((n + 1) * 8) a (fun k => by rw [h, show (n + 1 + 1) * 8 = (n + 1) * 8 + 8 by omega]) k

theorem et3_spread {p : Plat} {mw cw j c : Nat} {t : List Nat} (ht : encTabOk 3 j t = true) (hmw : mw = 32 ∨ mw = 64)
    (hcw : cw = 16 ∨ cw = 32 ∨ cw = 64) (hc2 : mw ≤ 2 * cw) (hp : p.comp = .gcc → cw = 64) (hc : c < 2 ^ (mw / 3)) :
    ∃ a, et3 p mw cw t c = some a ∧ Spread mw 3 j c a := by
  unfold et3
  by_cases h0 : c = 0
  · subst h0
    rw [firstSetBit_zero]
    exact ⟨0, rfl, fun k => by simp⟩
  · have hl : c.log2 < mw / 3 := (Nat.log2_lt h0).2 hc
    have hcw' : c < 2 ^ cw := lt_of_lt_of_le hc (Nat.pow_le_pow_right (by norm_num) (by omega))
    rw [firstSetBit_eq hcw hp h0 hcw']
    dsimp only
    have hq : ((c.log2 + 1 + 1) % 2 ^ 64 + 7) / 8 = (c.log2 + 9) / 8 := by omega
    rw [hq, if_pos (by omega)]
    refine et3Loop_bits ht _ 0 ?_ ?_
    · have : (c.log2 + 9) / 8 * 8 < 32 := by omega
      exact lt_of_lt_of_le this (le_max_right _ _)
    · intro k
      rw [testBit_of_lt (lt_of_log2 h0) (by omega)]; simp

theorem spread_shift {mw d j x a s : Nat} (hd : 0 < d) (h : Spread mw d 0 x a) (hs : s < d) (hj : j = s) : Spread mw d j x ((a <<< s) % 2 ^ mw) := by
  subst hj
  intro k
  rw [Nat.testBit_mod_two_pow, Nat.testBit_shiftLeft, h]
  have hdm := Nat.div_add_mod k d
  by_cases hk : j ≤ k
  · by_cases h1 : k % d = j
    · have e1 : k - j = d * (k / d) := by omega
      have e2 : (k - j) % d = 0 := by rw [e1, Nat.mul_mod_right]
      have e3 : (k - j) / d = k / d := by rw [e1, Nat.mul_div_cancel_left _ hd]
      rw [e2, e3]
      by_cases h2 : k < mw
      · have : k - j < mw := by omega
        simp [hk, h1, h2, this]
      · simp [h2]
    · have : ¬ (k - j) % d = 0 := by
        intro h2
        obtain ⟨q, hq⟩ := Nat.dvd_of_mod_eq_zero h2
        apply h1
        have : k = d * q + j := by omega
        rw [this, Nat.mul_add_mod, Nat.mod_eq_of_lt hs]
      simp [h1, this]
  · have : k % d = k := Nat.mod_eq_of_lt (by omega)
    have h2 : ¬ k = j := by omega
    simp [hk, this, h2]

/-! ### Magic bits -/

theorem spreadStep_or (mw s mask a b : Nat) : spreadStep mw s mask (a ||| b) = spreadStep mw s mask a ||| spreadStep mw s mask b := by
  unfold spreadStep
  apply Nat.eq_of_testBit_eq
  intro k
  simp only [Nat.testBit_and, Nat.testBit_or, Nat.testBit_mod_two_pow, Nat.testBit_shiftLeft]
  generalize a.testBit k = a1; generalize b.testBit k = b1; generalize a.testBit (k - s) = a2; generalize b.testBit (k - s) = b2
  generalize mask.testBit k = c; generalize decide (k < mw) = e; generalize decide (k ≥ s) = f
  revert a1 b1 a2 b2 c e f; decide

theorem mod_or (w a b : Nat) : (a ||| b) % 2 ^ w = a % 2 ^ w ||| b % 2 ^ w := by
  apply Nat.eq_of_testBit_eq
  intro k
  simp only [Nat.testBit_or, Nat.testBit_mod_two_pow]
  cases decide (k < w) <;> simp

theorem and_or (m a b : Nat) : (a ||| b) &&& m = (a &&& m) ||| (b &&& m) := by
  apply Nat.eq_of_testBit_eq
  intro k
  simp only [Nat.testBit_or, Nat.testBit_and]
  cases m.testBit k <;> simp

theorem split2_or (mw : Nat) (k : List Nat) (a b : Nat) : split2 mw k (a ||| b) = split2 mw k a ||| split2 mw k b := by
  unfold split2
  dsimp only
  rw [mod_or]
  split <;> simp only [spreadStep_or]

theorem split3_or (mw : Nat) (k : List Nat) (a b : Nat) : split3 mw k (a ||| b) = split3 mw k a ||| split3 mw k b := by
  unfold split3
  dsimp only
  rw [mod_or, and_or]
  split <;> simp only [spreadStep_or]

theorem spread_of_basis {mw d : Nat} (hd : 0 < d) {f : Nat → Nat} (h0 : f 0 = 0) (hom : ∀ a b, f (a ||| b) = f a ||| f b)
    (basis : ∀ n < mw / d, f (2 ^ n) = 2 ^ (d * n)) {x : Nat} (hx : x < 2 ^ (mw / d)) : Spread mw d 0 x (f x) := by
  have h := moves_or (f := f) (N := mw / d) (g := fun k => k / d) (c := fun k => decide (k % d = 0)) h0 hom (by
    intro n hn k
    rw [basis n hn, Nat.testBit_two_pow]
    have hdm := Nat.div_add_mod k d
    by_cases h : d * n = k
    · subst h
      simp [hd]
    · by_cases h1 : k % d = 0
      · have : ¬ k / d = n := by rintro rfl; omega
        simp [h, this]
      · simp [h, h1]) x hx
  intro k
  rw [h]
  by_cases hk : k < mw
  · simp [hk]
  · rw [testBit_of_lt hx (Nat.div_le_div_right (by omega))]; simp

theorem split2_basis32 : ∀ n < 32 / 2, split2 32 m2m32 (2 ^ n) = 2 ^ (2 * n) := by decide +kernel
theorem split2_basis64 : ∀ n < 64 / 2, split2 64 m2m64 (2 ^ n) = 2 ^ (2 * n) := by decide +kernel
theorem split3_basis32 : ∀ n < 32 / 3, split3 32 m3e32 (2 ^ n) = 2 ^ (3 * n) := by decide +kernel
theorem split3_basis64 : ∀ n < 64 / 3, split3 64 m3e64 (2 ^ n) = 2 ^ (3 * n) := by decide +kernel

theorem masks_some {p : Plat} {mw : Nat} (a b : List Nat) (hmw : mw = 32 ∨ mw = 64) (hp : mw = 64 ∨ p.fast = 32) :
    masks p mw a b = some (if mw = 32 then a else b) := by
  unfold masks
  rcases hmw with rfl | rfl
  · have : p.fast = 32 := by omega
    simp [this]
  · simp

theorem split2_spread {mw x : Nat} (hmw : mw = 32 ∨ mw = 64) (hx : x < 2 ^ (mw / 2)) :
    Spread mw 2 0 x (split2 mw (if mw = 32 then m2m32 else m2m64) x) := by
  rcases hmw with rfl | rfl
  · exact spread_of_basis (by norm_num) (by decide) (split2_or _ _) split2_basis32 hx
  · exact spread_of_basis (by norm_num) (by decide) (split2_or _ _) split2_basis64 hx

theorem split3_spread {mw x : Nat} (hmw : mw = 32 ∨ mw = 64) (hx : x < 2 ^ (mw / 3)) :
    Spread mw 3 0 x (split3 mw (if mw = 32 then m3e32 else m3e64) x) := by
  rcases hmw with rfl | rfl
  · exact spread_of_basis (by norm_num) (by decide) (split3_or _ _) split3_basis32 hx
  · exact spread_of_basis (by norm_num) (by decide) (split3_or _ _) split3_basis64 hx

end Rakau
