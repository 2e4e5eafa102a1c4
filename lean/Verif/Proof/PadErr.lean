import Verif.Proof.AccErr

/-! The coordinates of the padding in rounded arithmetic. -/
namespace Rakau
open Spec

variable {A : Arith ℚ} {u η lo hi b : ℝ}

theorem sqrtR (F : FlModel A u η lo hi) (hlo : 16 * lo * b ^ 4 ≤ 1) (hhi : 8 * b ^ 4 ≤ hi) (hb : 1 ≤ b) {k : Nat} (hk : 2 * k ≤ 16) {x : ℝ} {a : ℚ} (h : Near u (2 * k) x a)
    (hx : In b 4 x) : ∃ r : ℚ, A.fsqrt (.fin a) = .fin r ∧ Near u (k + 1) (√x) r := by
  obtain ⟨r1, r2, r3⟩ := near_rng F hlo hhi hb hk h hx.low hx.high
  rw [abs_of_pos r3] at r1 r2
  obtain ⟨r, e, n⟩ := F.fsqrt r1 r2
  exact ⟨r, e, (h.sqrt F.lt1 (hx.pos hb).le).trans F.lt1 n⟩

theorem addR (F : FlModel A u η lo hi) (hlo : 16 * lo * b ^ 4 ≤ 1) (hhi : 8 * b ^ 4 ≤ hi) (hb : 1 ≤ b) {k : Nat} (hk : k ≤ 16) {x y : ℝ} {a c : ℚ} (h : Near u k x a) (h' : Near u k y c)
    (hx : 0 ≤ x) (hy : 0 ≤ y) (h4 : In b 4 (x + y)) : ∃ r : ℚ, A.add (.fin a) (.fin c) = .fin r ∧ Near u (k + 1) (x + y) r := by
  have hs := h.add F.lt1 h' hx hy
  obtain ⟨r1, r2, _⟩ := near_rng F hlo hhi hb hk hs h4.low h4.high
  obtain ⟨r, e, n⟩ := F.near (q := a + c) (.inr (by push_cast; exact r1)) (by push_cast; exact r2)
  push_cast at n
  exact ⟨r, e, hs.trans F.lt1 n⟩

theorem mul_repr (L : A.Laws) {x y : Fl ℚ} {c : ℚ} (h : A.mul x y = .fin c) : A.Repr c := by
  unfold Arith.mul at h
  split at h
  · cases h
  · cases h
  · exact L.idem _ _ h

namespace Spec
/-- Half of the coordinate of the padding without rounding errors, from the size of the domain, the opening angle and the dimension. -/
noncomputable def padHalf (mac : Mac) (B t : ℝ) (d : Nat) : ℝ := B / (t * √d) + match mac with | .bh => B / 2 | .bhGeom => B
end Spec

/-- The coordinate of the padding. -/
theorem pad_near (L : A.Laws) (F : FlModel A u η lo hi) (hlo : 16 * lo * b ^ 4 ≤ 1) (hhi : 8 * b ^ 4 ≤ hi) (hb : 3 ≤ b) {c : Force ℚ} (hA : c.hw.A = A) {t mv B : ℚ} (ht : In b 1 (t : ℝ))
    (hmv : macValue A c.mac (.fin t) = .fin mv) (hval : c.macVal = .fin mv) (hbox : c.box = .fin B) (hB : In b 1 (B : ℝ)) (hd : 0 < c.d) (hdb : (c.d : ℝ) ≤ b ^ 2) :
    ∃ P : ℚ, c.padCoord = .fin P ∧ A.Repr P ∧ Near u 10 (2 * padHalf c.mac B t c.d) P := by
  have b1 : 1 ≤ b := by linarith
  have n1 : Near u 0 (1 : ℝ) ((1 : ℚ) : ℝ) := by rw [Rat.cast_one]; exact Near.refl F.u0 F.lt1 0 1
  have n2 : Near u 0 (2 : ℝ) ((2 : ℚ) : ℝ) := by rw [Rat.cast_ofNat]; exact Near.refl F.u0 F.lt1 0 2
  have nt : Near u 0 (t : ℝ) t := Near.refl F.u0 F.lt1 0 _
  have nB : Near u 0 (B : ℝ) B := Near.refl F.u0 F.lt1 0 _
  have nd : Near u (2 * 0) (c.d : ℝ) ((c.d : ℚ) : ℝ) := by rw [Rat.cast_natCast]; exact Near.refl F.u0 F.lt1 0 _
  have htt := ht.mul b1 ht
  have t0 := ht.pos b1
  have B0 := hB.pos b1
  have hd1 : (1 : ℝ) ≤ c.d := by exact_mod_cast hd
  have id : In b 4 (c.d : ℝ) := by
    have h1 : (1 : ℝ) ≤ b ^ 4 := one_le_pow₀ b1
    have h2 : b ^ 2 ≤ b ^ 4 := pow_le_pow_right₀ b1 (by norm_num)
    exact ⟨by nlinarith, by linarith⟩
  have s1 : 1 ≤ √(c.d : ℝ) := Real.one_le_sqrt.2 hd1
  have s3 : √(c.d : ℝ) ≤ b := by
    rw [Real.sqrt_le_iff]
    exact ⟨by linarith, hdb⟩
  have is : In b 1 (√(c.d : ℝ)) := ⟨by rw [pow_one]; nlinarith, by rw [pow_one]; linarith⟩
  have its := ht.mul b1 is
  have iq := hB.div b1 its
  have q0 := iq.pos b1
  have hq : (B : ℝ) / (t * √(c.d : ℝ)) ≤ b ^ 2 := by
    have h1 : (B : ℝ) / (t * √(c.d : ℝ)) ≤ B / t := div_le_div_of_nonneg_left B0.le t0 (le_mul_of_one_le_right t0.le s1)
    exact h1.trans (hB.div b1 ht).high
  have hb4 : 9 * b ^ 2 ≤ b ^ 4 := by
    have h9 : 9 ≤ b ^ 2 := by nlinarith
    have : b ^ 4 = b ^ 2 * b ^ 2 := by ring
    rw [this]
    exact mul_le_mul_of_nonneg_right h9 (sq_nonneg b)
  have hb2 : 3 * b ≤ b ^ 2 := by nlinarith
  have hB1 := hB.low
  have hB2 := hB.high
  rw [pow_one] at hB1 hB2
  have big : ∀ y : ℝ, B / 2 ≤ y → y ≤ b ^ 2 + b ^ 2 + (b + b) → In b 4 y := by
    intro y h1 h2
    refine ⟨?_, by linarith⟩
    have h3 : b ^ 4 * (B / 2) ≤ b ^ 4 * y := mul_le_mul_of_nonneg_left h1 (by positivity)
    have h4 : b ^ 4 * ((B : ℝ) / 2) = b ^ 3 * (b * B) / 2 := by ring
    have h5 : (3 : ℝ) ^ 3 ≤ b ^ 3 := pow_le_pow_left₀ (by norm_num) hb 3
    have h6 := mul_le_mul h5 hB1 (by norm_num) (by positivity)
    linarith
  obtain ⟨sd, sd1, sd2⟩ := sqrtR F hlo hhi b1 (k := 0) (by omega) nd id
  unfold Force.padCoord
  simp only
  rw [hA, hval, hbox]
  -- from the quotient and the second summand on
  have fin : ∀ {q h : ℚ} {y : ℝ}, Near u 6 ((B : ℝ) / (t * √(c.d : ℝ))) q → Near u 6 y h → (B : ℝ) / 2 ≤ y → y ≤ B →
      ∃ P : ℚ, A.mul (A.add (.fin q) (.fin h)) (.fin 2) = .fin P ∧ A.Repr P ∧ Near u 10 (2 * (B / (t * √(c.d : ℝ)) + y)) P := by
    intro q h y hq' hh h1 h2
    have i1 := big (B / (t * √(c.d : ℝ)) + y) (by linarith) (by nlinarith)
    obtain ⟨a, a1, a2⟩ := addR F hlo hhi b1 (by omega) hq' hh q0.le (by linarith) i1
    have i2 := big ((B / (t * √(c.d : ℝ)) + y) * 2) (by linarith) (by linarith)
    obtain ⟨P, p1, p2⟩ := mulR F hlo hhi b1 (by omega) a2 n2 i2.low i2.high
    rw [a1, p1]
    refine ⟨P, rfl, mul_repr L p1, ?_⟩
    rw [mul_comm 2]
    exact p2.mono F.u0 F.lt1 (by omega)
  unfold padHalf
  cases hm : c.mac with
  | bh =>
    rw [hm] at hmv
    simp only
    unfold macValue at hmv
    simp only at hmv
    have i1 := htt.mono b1 (show 1 + 1 ≤ 4 by omega)
    obtain ⟨t2, q1, q2⟩ := mulR F hlo hhi b1 (by omega) nt nt i1.low i1.high
    rw [q1] at hmv
    have i2 := (htt.inv b1).mono b1 (show 1 + 1 ≤ 4 by omega)
    obtain ⟨m, q3, q4⟩ := divR F hlo hhi b1 (by omega) n1 q2 (htt.pos b1).ne' i2.low i2.high
    rw [q3, Fl.fin.injEq] at hmv
    subst hmv
    have e1 : 1 / (1 / ((t : ℝ) * t)) = t * t := by field_simp
    obtain ⟨r, q5, q6⟩ := divR F hlo hhi b1 (by omega) n1 q4 ((htt.inv b1).pos b1).ne' (by rw [e1]; exact i1.low) (by rw [e1]; exact i1.high)
    rw [e1] at q6
    obtain ⟨r', q7, q8⟩ := sqrtR F hlo hhi b1 (k := 2) (by omega) (q6.mono F.u0 F.lt1 (by omega)) i1
    rw [← sq, Real.sqrt_sq t0.le] at q8
    have i3 := its.mono b1 (show 1 + 1 ≤ 4 by omega)
    obtain ⟨v, q9, q10⟩ := mulR F hlo hhi b1 (by omega) q8 sd2 i3.low i3.high
    have i4 := iq.mono b1 (show 1 + (1 + 1) ≤ 4 by omega)
    obtain ⟨q, q11, q12⟩ := divR F hlo hhi b1 (by omega) nB q10 (its.pos b1).ne' i4.low i4.high
    have i5 : In b 4 ((1 : ℝ) / 2) := by
      have : (1 : ℝ) ≤ b ^ 2 := one_le_pow₀ b1
      exact ⟨by linarith, by linarith⟩
    obtain ⟨hf, q13, q14⟩ := divR F hlo hhi b1 (by omega) n1 n2 (by norm_num) i5.low i5.high
    have i6 := big (B * (1 / 2)) (by linarith) (by nlinarith)
    obtain ⟨h, q15, q16⟩ := mulR F hlo hhi b1 (by omega) nB q14 i6.low i6.high
    obtain ⟨P, p1, p2, p3⟩ := fin (q12.mono F.u0 F.lt1 (by omega)) (q16.mono F.u0 F.lt1 (by omega)) (by linarith) (by linarith)
    rw [q5, q7, sd1, q9, q11, q13, q15]
    exact ⟨P, p1, p2, by rw [mul_one_div] at p3; exact p3⟩
  | bhGeom =>
    rw [hm] at hmv
    simp only
    unfold macValue at hmv
    simp only at hmv
    have i1 := ht.mono b1 (show 1 ≤ 4 by omega)
    have i2 := (ht.inv b1).mono b1 (show 1 ≤ 4 by omega)
    obtain ⟨m, q3, q4⟩ := divR F hlo hhi b1 (by omega) n1 nt t0.ne' i2.low i2.high
    rw [q3, Fl.fin.injEq] at hmv
    subst hmv
    have e1 : 1 / (1 / (t : ℝ)) = t := by field_simp
    obtain ⟨r, q5, q6⟩ := divR F hlo hhi b1 (by omega) n1 q4 ((ht.inv b1).pos b1).ne' (by rw [e1]; exact i1.low) (by rw [e1]; exact i1.high)
    rw [e1] at q6
    have i3 := its.mono b1 (show 1 + 1 ≤ 4 by omega)
    obtain ⟨v, q9, q10⟩ := mulR F hlo hhi b1 (by omega) q6 sd2 i3.low i3.high
    have i4 := iq.mono b1 (show 1 + (1 + 1) ≤ 4 by omega)
    obtain ⟨q, q11, q12⟩ := divR F hlo hhi b1 (by omega) nB q10 (its.pos b1).ne' i4.low i4.high
    obtain ⟨P, p1, p2, p3⟩ := fin (q12.mono F.u0 F.lt1 (by omega)) (nB.mono F.u0 F.lt1 (by omega)) (by linarith) le_rfl
    rw [q5, sd1, q9, q11]
    exact ⟨P, p1, p2, p3⟩

end Rakau
