import Verif.Proof.ErrPair

/-! Rounding errors of the force kernels: distances, and the effect of one body on the results of another. -/
namespace Rakau
open Spec

variable {u η lo hi : ℝ}

/-! ### Ranges -/

/-- `X` is zero or between `b^-n` and `b^n` in size. -/
structure Rng (b : ℝ) (n : Nat) (X : ℝ) : Prop where
  low : X = 0 ∨ 1 ≤ b ^ n * |X|
  high : |X| ≤ b ^ n

namespace Rng
variable {b X Y : ℝ} {n n' : Nat}

theorem mono (hb : 1 ≤ b) (h : Rng b n X) (hn : n ≤ n') : Rng b n' X := by
  have hp : b ^ n ≤ b ^ n' := pow_le_pow_right₀ hb hn
  exact ⟨h.low.imp_right (fun l => l.trans (mul_le_mul_of_nonneg_right hp (abs_nonneg X))), h.high.trans hp⟩

theorem mul (h : Rng b n X) (h' : Rng b n' Y) : Rng b (n + n') (X * Y) := by
  constructor
  · rcases h.low with z | l
    · exact .inl (by rw [z, zero_mul])
    · rcases h'.low with z | l'
      · exact .inl (by rw [z, mul_zero])
      · refine .inr ?_
        rw [abs_mul, pow_add]
        calc (1 : ℝ) ≤ (b ^ n * |X|) * (b ^ n' * |Y|) := one_le_mul_of_one_le_of_one_le l l'
          _ = _ := by ring
  · rw [abs_mul, pow_add]
    exact mul_le_mul h.high h'.high (abs_nonneg _) ((abs_nonneg _).trans h.high)

theorem inv (h : Rng b n X) : Rng b n X⁻¹ := by
  rcases h.low with z | l
  · rw [z, inv_zero, ← z]; exact h
  · have hx : 0 < |X| := by
      rcases eq_or_lt_of_le (abs_nonneg X) with e | e
      · rw [← e, mul_zero] at l; exact absurd l (by norm_num)
      · exact e
    constructor
    · right
      rw [abs_inv, ← div_eq_mul_inv, le_div_iff₀ hx, one_mul]
      exact h.high
    · rw [abs_inv, inv_le_iff_one_le_mul₀ hx]
      exact l

theorem div (h : Rng b n X) (h' : Rng b n' Y) : Rng b (n + n') (X / Y) := by
  rw [div_eq_mul_inv]
  exact h.mul h'.inv

theorem neg (h : Rng b n X) : Rng b n (-X) := by
  constructor
  · rw [abs_neg, neg_eq_zero]; exact h.low
  · rw [abs_neg]; exact h.high

end Rng

section
variable {A : Arith ℚ} {b : ℝ} {d κ k C : Nat} (F : FlModel A u η lo hi) (R : Span u η lo hi b d κ k C)
include F R

theorem Span.cnt {n : Nat} (hn : n ≤ C + k) : 2 * ((n : ℝ) * u) ≤ 1 := by
  have := R.errs
  have h1 : (n : ℝ) ≤ ((C + k : ℕ) : ℝ) := by exact_mod_cast hn
  have := mul_le_mul_of_nonneg_right h1 F.u0
  linarith

/-- Numbers close to one in range neither underflow nor overflow. -/
theorem Span.guard {n : Nat} {X x : ℝ} (h : Near u n X x) (hn : n ≤ C + k) (hX : Rng b 4 X) : (x = 0 ∨ lo ≤ |x|) ∧ |x| ≤ hi := by
  obtain ⟨_, w2, w3⟩ := h.within F.u0 F.lt1 (Span.cnt F R hn)
  have hb4 : (1 : ℝ) ≤ b ^ 4 := one_le_pow₀ R.b1
  constructor
  · rcases hX.low with z | l
    · left
      obtain ⟨t, e, _⟩ := h
      rw [e, z, zero_mul]
    · right
      have hl := Span.lo_le F R
      have : b ^ 4 * lo ≤ b ^ 4 * |x| := by nlinarith
      exact le_of_mul_le_mul_left this (by linarith)
  · have := Span.hi_ge R
    have := hX.high
    linarith

theorem Span.mul {n n' : Nat} {X Y : ℝ} {x y : ℚ} (h : Near u n X x) (h' : Near u n' Y y) (hn : n + n' + 1 ≤ C + k) (hX : Rng b 4 (X * Y)) :
    ∃ r : ℚ, A.mul (.fin x) (.fin y) = .fin r ∧ Near u (n + n' + 1) (X * Y) r := by
  have hm := h.mul F.lt1 h'
  obtain ⟨g1, g2⟩ := Span.guard F R hm (by omega) hX
  obtain ⟨r, e, hr⟩ := F.mul (a := x) (b := y) (g1.imp_left (fun h => by exact_mod_cast h)) g2
  exact ⟨r, e, hm.trans F.lt1 hr⟩

theorem Span.div {n n' : Nat} {X Y : ℝ} {x y : ℚ} (h : Near u n X x) (h' : Near u n' Y y) (hY : Y ≠ 0) (hn : n + n' + 1 ≤ C + k) (hX : Rng b 4 (X / Y)) :
    ∃ r : ℚ, A.div (.fin x) (.fin y) = .fin r ∧ Near u (n + n' + 1) (X / Y) r := by
  have hm := h.div F.lt1 h'
  obtain ⟨g1, g2⟩ := Span.guard F R hm (by omega) hX
  have hy : (y : ℝ) ≠ 0 := by
    obtain ⟨t, e, t0, _⟩ := h'.factor F.lt1
    rw [e]
    exact mul_ne_zero hY t0.ne'
  obtain ⟨r, e, hr⟩ := F.div (a := x) (b := y) (by exact_mod_cast hy) (g1.imp_left (fun h => by
    rcases div_eq_zero_iff.1 h with h | h
    · exact_mod_cast h
    · exact absurd h hy)) g2
  exact ⟨r, e, hm.trans F.lt1 hr⟩

theorem Span.sqrt {n : Nat} {X : ℝ} {x : ℚ} (h : Near u (2 * n) X x) (hn : 2 * n ≤ C + k) (h0 : 0 < X) (hX : Rng b 4 X) :
    ∃ r : ℚ, A.fsqrt (.fin x) = .fin r ∧ Near u (n + 1) (√X) r := by
  obtain ⟨g1, g2⟩ := Span.guard F R h hn hX
  have hx : (0 : ℝ) < x := by
    obtain ⟨t, e, t0, _⟩ := h.factor F.lt1
    rw [e]
    exact mul_pos h0 t0
  rw [abs_of_pos hx] at g1 g2
  rcases g1 with g1 | g1
  · exact absurd g1 hx.ne'
  · obtain ⟨r, e, hr⟩ := F.fsqrt g1 g2
    exact ⟨r, e, (h.sqrt F.lt1 h0.le).trans F.lt1 hr⟩

end

/-! ### Distances -/

/-- The inverse square root from the estimate `f` has `κ` relative errors, in the range used. -/
def FastOk (A : Arith ℚ) (u b : ℝ) (κ : Nat) (f : Fl ℚ → Fl ℚ) : Prop :=
  ∀ q : ℚ, 1 ≤ 2 * b ^ 2 * (q : ℝ) → (q : ℝ) ≤ 2 * b ^ 2 → ∃ r : ℚ, invSqrt A f (.fin q) = .fin r ∧ Near u κ (√(q : ℝ))⁻¹ r

/-- The computed squared softening length. -/
def SoftOk (u η e : ℝ) (e2 : ℚ) : Prop := Pos u η 3 1 e e2

section
variable {M : Mode ℚ} {b : ℝ} {d κ k C : Nat} (F : FlModel M.A u η lo hi) (R : Span u η lo hi b d κ k C)
include F R

theorem soft_near (hd : M.vec = true → d = 3) {y z t : Nat → ℚ} (ht : Diffs u d y z t) {e : ℝ} {e2 : ℚ} (he : SoftOk u η e e2)
    (h1 : 1 ≤ b ^ 2 * D2 d e (fun j => (y j : ℝ)) (fun j => (z j : ℝ))) (h2 : D2 d e (fun j => (y j : ℝ)) (fun j => (z j : ℝ)) ≤ b ^ 2) :
    ∃ q : ℚ, softD2 M (.fin e2) (Arr d (fun j => .fin (t j))) = .fin q ∧ Near u (2 * d + 4) (D2 d e (fun j => (y j : ℝ)) (fun j => (z j : ℝ))) q := by
  unfold softD2
  unfold D2 at h1 h2 ⊢
  by_cases hv : M.vec = true
  · rw [if_pos hv]
    obtain rfl := hd hv
    show ∃ q : ℚ, M.A.add (M.A.add (M.A.mul (.fin (t 0)) (.fin (t 0))) (M.A.mul (.fin (t 1)) (.fin (t 1)))) (M.A.fma (.fin (t 2)) (.fin (t 2)) (.fin e2)) = _ ∧ _
    simp only [Finset.sum_range_succ, Finset.sum_range_zero, zero_add] at h1 h2 ⊢
    have s0 := sq_nonneg ((z 0 : ℝ) - y 0)
    have s1 := sq_nonneg ((z 1 : ℝ) - y 1)
    have s2 := sq_nonneg ((z 2 : ℝ) - y 2)
    have se := he.nn
    obtain ⟨a0, e0, p0⟩ := mul_sq F R (ht 0 (by omega)) (by linarith)
    obtain ⟨a1, e1, p1⟩ := mul_sq F R (ht 1 (by omega)) (by linarith)
    obtain ⟨a3, e3, p3⟩ := add_sq F R p0 p1 (by omega) (by omega) (by linarith)
    obtain ⟨a4, e4, p4⟩ := fma_sq F R he (ht 2 (by omega)) (by omega) (by omega) (by omega) (by linarith)
    obtain ⟨a5, e5, p5⟩ := add_sq F R p3 p4 (by omega) (by omega) (by linarith)
    refine ⟨a5, by rw [e0, e1, e3, e4, e5], ?_⟩
    rw [show ∀ p q r s : ℝ, p + q + r + s = p + q + (s + r) by intros; ring] at h1 ⊢
    exact dist_near F R p5 (by omega) (by omega) h1
  · rw [if_neg hv]
    obtain ⟨r, e', p⟩ := fold_sq F R ht he h2
    exact ⟨r, e', dist_near F R p (by omega) (by omega) h1⟩

theorem plain_near (hd : M.vec = true → d = 3) {y z t : Nat → ℚ} (ht : Diffs u d y z t) {e : ℝ} {e2 : ℚ} (he : SoftOk u η e e2)
    (h1 : 1 ≤ b ^ 2 * D2 d e (fun j => (y j : ℝ)) (fun j => (z j : ℝ))) (h2 : D2 d e (fun j => (y j : ℝ)) (fun j => (z j : ℝ)) ≤ b ^ 2) :
    ∃ q : ℚ, M.A.add (plainD2 M (Arr d (fun j => .fin (t j)))) (.fin e2) = .fin q ∧
      Near u (2 * d + 4) (D2 d e (fun j => (y j : ℝ)) (fun j => (z j : ℝ))) q := by
  unfold plainD2
  unfold D2 at h1 h2 ⊢
  have se := he.nn
  by_cases hv : M.vec = true
  · rw [if_pos hv]
    obtain rfl := hd hv
    show ∃ q : ℚ, M.A.add (M.A.add (M.A.add (M.A.mul (.fin (t 0)) (.fin (t 0))) (M.A.mul (.fin (t 1)) (.fin (t 1)))) (M.A.mul (.fin (t 2)) (.fin (t 2)))) (.fin e2) = _ ∧ _
    simp only [Finset.sum_range_succ, Finset.sum_range_zero, zero_add] at h1 h2 ⊢
    have s0 := sq_nonneg ((z 0 : ℝ) - y 0)
    have s1 := sq_nonneg ((z 1 : ℝ) - y 1)
    have s2 := sq_nonneg ((z 2 : ℝ) - y 2)
    obtain ⟨a0, e0, p0⟩ := mul_sq F R (ht 0 (by omega)) (by linarith)
    obtain ⟨a1, e1, p1⟩ := mul_sq F R (ht 1 (by omega)) (by linarith)
    obtain ⟨a2, e2', p2⟩ := mul_sq F R (ht 2 (by omega)) (by linarith)
    obtain ⟨a3, e3, p3⟩ := add_sq F R p0 p1 (by omega) (by omega) (by linarith)
    obtain ⟨a4, e4, p4⟩ := add_sq F R p3 (p2.mono F.u0 F.lt1 F.η0 (by omega : 3 ≤ 3 + 1) le_rfl) (by omega) (by omega) (by linarith)
    obtain ⟨a5, e5, p5⟩ := add_sq F R p4 (he.mono F.u0 F.lt1 F.η0 (by omega : 3 ≤ 3 + 1 + 1) le_rfl) (by omega) (by omega) (by linarith)
    exact ⟨a5, by rw [e0, e1, e3, e2', e4, e5], dist_near F R p5 (by omega) (by omega) h1⟩
  · rw [if_neg hv]
    have hz : Pos u η 3 1 0 ((0 : ℚ) : ℝ) := by
      have := F.η0
      exact ⟨le_rfl, by simp, by simp [this], by simp [this]⟩
    have hs : 0 ≤ ∑ j ∈ Finset.range d, ((z j : ℝ) - y j) ^ 2 := Finset.sum_nonneg (fun j _ => sq_nonneg _)
    obtain ⟨r, e', p⟩ := fold_sq F R ht hz (by linarith)
    rw [add_zero] at p
    have h3 := R.d1
    obtain ⟨r', e'', p'⟩ := add_sq F R p (he.mono F.u0 F.lt1 F.η0 (by omega : 3 ≤ d + 3) le_rfl) (by omega) (by omega) h2
    exact ⟨r', by rw [e', e''], dist_near F R p' (by omega) (by omega) h1⟩

omit F R in
/-- The distance is in range. -/
theorem rng_dist {D : ℝ} (hb : 1 ≤ b) (h1 : 1 ≤ b ^ 2 * D) (h2 : D ≤ b ^ 2) : 0 < D ∧ 0 < √D ∧ √D * √D = D ∧ Rng b 1 (√D) := by
  have hb0 : 0 < b := by linarith
  have hD : 0 < D := by
    by_contra h
    have : b ^ 2 * D ≤ 0 := mul_nonpos_of_nonneg_of_nonpos (by positivity) (by linarith)
    linarith
  have hs := Real.sqrt_pos.2 hD
  have hss := Real.mul_self_sqrt hD.le
  refine ⟨hD, hs, hss, ?_⟩
  have hs2 : √D ^ 2 = D := by rw [pow_two]; exact hss
  constructor
  · right
    rw [pow_one, abs_of_pos hs]
    have : 1 ^ 2 ≤ (b * √D) ^ 2 := by rw [mul_pow, hs2]; linarith
    exact le_of_sq_le_sq this (by positivity)
  · rw [pow_one, abs_of_pos hs]
    have : √D ^ 2 ≤ b ^ 2 := by rw [hs2]; exact h2
    exact le_of_sq_le_sq this hb0.le

/-- Masses over distances. -/
theorem over_near (hf : ∀ f, M.fast = some f → FastOk M.A u b κ f) {D : ℝ} {q : ℚ} (hq : Near u (2 * d + 4) D q) (h1 : 1 ≤ b ^ 2 * D) (h2 : D ≤ b ^ 2)
    {m : ℚ} (hm : Rng b 1 (m : ℝ)) :
    (∃ g : ℚ, (mkDist M (.fin q)).over M.A (.fin m) = .fin g ∧ Near u (κ + d + 4) (m * (√D)⁻¹) g) ∧
    (∃ g : ℚ, (mkDist M (.fin q)).over3 M.A (.fin m) = .fin g ∧ Near u (3 * κ + 3 * d + 9) (m * ((√D)⁻¹) ^ 3) g) := by
  obtain ⟨hD, hs, hss, hr⟩ := rng_dist R.b1 h1 h2
  have hb1 := R.b1
  have hkd := R.kd
  have u0 := F.u0
  have u1 := F.lt1
  have hm0 := Near.refl u0 u1 0 (m : ℝ)
  have r3 : Rng b 4 (m * ((√D)⁻¹) ^ 3) := by
    have : Rng b 3 (((√D)⁻¹) ^ 3) := by
      have := (hr.inv.mul hr.inv).mul hr.inv
      rw [show (√D)⁻¹ ^ 3 = (√D)⁻¹ * (√D)⁻¹ * (√D)⁻¹ by ring]
      exact this
    exact hm.mul this
  have r1 : Rng b 4 (m * (√D)⁻¹) := (hm.mul hr.inv).mono hb1 (by omega)
  unfold mkDist Dist.over Dist.over3
  cases hfa : M.fast with
  | none =>
    simp only [Bool.false_eq_true, if_false]
    have hDr : Rng b 4 D := by rw [← hss]; exact (hr.mul hr).mono hb1 (by omega)
    obtain ⟨s, es, hs'⟩ := Span.sqrt F R (n := d + 2) (X := D) (by rw [show 2 * (d + 2) = 2 * d + 4 by ring]; exact hq) (by omega) hD hDr
    rw [es]
    obtain ⟨s3, e3, hs3⟩ := Span.mul F R hs' hq (by omega) (by rw [← hss, hss]; rw [show √D * D = √D * (√D * √D) by rw [hss]]; exact (hr.mul (hr.mul hr)).mono hb1 (by omega))
    rw [e3]
    constructor
    · obtain ⟨g, eg, hg⟩ := Span.div F R hm0 hs' hs.ne' (by omega) (by rw [div_eq_mul_inv]; exact r1)
      rw [div_eq_mul_inv] at hg
      exact ⟨g, eg, hg.mono u0 u1 (by omega)⟩
    · have e : (m : ℝ) / (√D * D) = m * ((√D)⁻¹) ^ 3 := by
        rw [show √D * D = √D * (√D * √D) by rw [hss]]
        field_simp
      obtain ⟨g, eg, hg⟩ := Span.div F R hm0 hs3 (mul_pos hs hD).ne' (by omega) (by rw [e]; exact r3)
      rw [e] at hg
      exact ⟨g, eg, hg.mono u0 u1 (by omega)⟩
  | some f =>
    simp only [if_true]
    obtain ⟨_, w2, w3⟩ := hq.within u0 u1 (Span.cnt F R (by omega))
    have hq0 : (0 : ℝ) ≤ q := hq.nonneg u1 hD.le
    rw [abs_of_pos hD, abs_of_nonneg hq0] at w2 w3
    have hb2 : 0 ≤ b ^ 2 := by positivity
    obtain ⟨i, ei, hi⟩ := hf f hfa q (by nlinarith) (by linarith)
    have hsq : Near u (d + 2) (√D) (√(q : ℝ)) := Near.sqrt u1 (by rw [show 2 * (d + 2) = 2 * d + 4 by ring]; exact hq) hD.le
    have hi' : Near u (d + 2 + κ) (√D)⁻¹ i := (hsq.inv u1).trans u1 hi
    rw [ei]
    constructor
    · obtain ⟨g, eg, hg⟩ := Span.mul F R hm0 hi' (by omega) r1
      exact ⟨g, eg, hg.mono u0 u1 (by omega)⟩
    · obtain ⟨i2, e2, hi2⟩ := Span.mul F R hi' hi' (by omega) ((hr.inv.mul hr.inv).mono hb1 (by omega))
      obtain ⟨i3, e3, hi3⟩ := Span.mul F R hi2 hi' (by omega) (((hr.inv.mul hr.inv).mul hr.inv).mono hb1 (by omega))
      rw [show (√D)⁻¹ * (√D)⁻¹ * (√D)⁻¹ = (√D)⁻¹ ^ 3 by ring] at hi3
      rw [e2, e3]
      obtain ⟨g, eg, hg⟩ := Span.mul F R hm0 hi3 (by omega) r3
      exact ⟨g, eg, hg.mono u0 u1 (by omega)⟩

end

/-! ### Pulls -/

/-- The pull of one body on another: real arithmetic. -/
noncomputable def newt (d : Nat) (e : ℝ) (y : Nat → ℚ) (m : ℚ) (z : Nat → ℚ) (m' : ℚ) : Val ℝ :=
  grav (fun q => (√q)⁻¹) (fun q => (√q)⁻¹ ^ 3) d e (fun j => (y j : ℝ)) m (fun j => (z j : ℝ)) m'

/-- Absolute values. -/
def absV (v : Val ℝ) : Val ℝ := (fun j => |v.1 j|, |v.2|)

/-- Computed sums of pulls: `S` are the true sums, `T` the sums of the sizes of the terms. -/
structure SmV (u η b : ℝ) (k c d : Nat) (S T : Val ℝ) (v : Val ℚ) : Prop where
  acc : ∀ j < d, Sm u η (b ^ 4) k c (S.1 j) (T.1 j) (v.1 j)
  pot : Sm u η (b ^ 4) k c S.2 T.2 v.2

/-- Two bodies in range. -/
structure PairIn (A : Arith ℚ) (b : ℝ) (d : Nat) (e : ℝ) (y : Nat → ℚ) (m : ℚ) (z : Nat → ℚ) (m' : ℚ) : Prop where
  ry : ∀ j < d, A.Repr (y j)
  rz : ∀ j < d, A.Repr (z j)
  near : 1 ≤ b ^ 2 * D2 d e (fun j => (y j : ℝ)) (fun j => (z j : ℝ))
  far : D2 d e (fun j => (y j : ℝ)) (fun j => (z j : ℝ)) ≤ b ^ 2
  rm : Rng b 1 (m : ℝ)
  rm' : Rng b 1 (m' : ℝ)

/-- Each difference is at most the distance. -/
theorem diff_le {d : Nat} {e : ℝ} {y z : Nat → ℝ} (he : 0 ≤ e) {j : Nat} (hj : j < d) : |z j - y j| ≤ √(D2 d e y z) := by
  apply Real.le_sqrt_of_sq_le
  rw [sq_abs]
  unfold D2
  have := Finset.single_le_sum (f := fun j => (z j - y j) ^ 2) (s := Finset.range d) (fun i _ => sq_nonneg _) (Finset.mem_range.2 hj)
  linarith

theorem pull_acc_le {b : ℝ} (hb : 1 ≤ b) {d : Nat} {e : ℝ} (he : 0 ≤ e) {y z : Nat → ℝ} (h1 : 1 ≤ b ^ 2 * D2 d e y z) (h2 : D2 d e y z ≤ b ^ 2) {m : ℝ}
    (hm : Rng b 1 m) {j : Nat} (hj : j < d) : |m * (√(D2 d e y z))⁻¹ ^ 3 * (z j - y j)| ≤ b ^ 4 := by
  obtain ⟨hD, hs, hss, hr⟩ := rng_dist hb h1 h2
  have hr2 := (hm.mul (hr.inv.mul hr.inv)).mono hb (by omega : 1 + (1 + 1) ≤ 4)
  refine le_trans ?_ hr2.high
  rw [show m * (√(D2 d e y z))⁻¹ ^ 3 * (z j - y j) = m * ((√(D2 d e y z))⁻¹ * (√(D2 d e y z))⁻¹) * ((√(D2 d e y z))⁻¹ * (z j - y j)) by ring, abs_mul]
  have : |(√(D2 d e y z))⁻¹ * (z j - y j)| ≤ 1 := by
    rw [abs_mul, abs_inv, abs_of_pos hs, inv_mul_eq_div, div_le_one hs]
    exact diff_le he hj
  exact mul_le_of_le_one_right (abs_nonneg _) this

section
variable {M : Mode ℚ} {b : ℝ} {d κ k C : Nat} (F : FlModel M.A u η lo hi) (R : Span u η lo hi b d κ k C)
include F R

/-- The components of an acceleration after one more term. -/
theorem accs_step (Q : Quant) {c l : Nat} (hc : c + 1 ≤ C) (hl : l + 2 ≤ k) {S T G : Nat → ℝ} {v t : Nat → ℚ} {X : Nat → ℝ} {g : ℚ} {H : ℝ}
    (hv : ∀ j < d, Sm u η (b ^ 4) k c (S j) (T j) (v j)) (ht : ∀ j < d, Near u 1 (X j) (t j)) (hg : Near u l H g) (hG : ∀ j < d, G j = H * X j) (hB : ∀ j < d, |G j| ≤ b ^ 4) :
    ∃ w : Nat → ℚ, List.zipWith (fun t a => M.A.fma t (.fin g) a) (Arr d (fun j => .fin (t j))) (if Q = .pot then [] else Arr d (fun j => .fin (v j))) =
      (if Q = .pot then [] else Arr d (fun j => .fin (w j))) ∧ ∀ j < d, Sm u η (b ^ 4) k (c + 1) (S j + G j) (T j + |G j|) (w j) := by
  have h : ∀ j, ∃ w : ℚ, j < d → M.A.fma (.fin (t j)) (.fin g) (.fin (v j)) = .fin w ∧ Sm u η (b ^ 4) k (c + 1) (S j + G j) (T j + |G j|) w := by
    intro j
    by_cases hj : j < d
    · have hn : Near u (1 + l) (G j) ((t j : ℝ) * g) := by rw [hG j hj, mul_comm H]; exact (ht j hj).mul F.lt1 hg
      obtain ⟨r, e, hr⟩ := (hv j hj).fma F R hc (by omega) hn (hB j hj)
      exact ⟨r, fun _ => ⟨e, hr⟩⟩
    · exact ⟨0, fun h => absurd h hj⟩
  choose w hw using h
  refine ⟨w, ?_, fun j hj => (hw j hj).2⟩
  by_cases hQ : Q = .pot
  · simp [hQ]
  · simp only [if_neg hQ]
    rw [zipWith_arr]
    apply arr_ext
    intro j hj
    exact (hw j hj).1

variable (hd : M.vec = true → d = 3) (hf : ∀ f, M.fast = some f → FastOk M.A u b κ f)
variable {e : ℝ} {e2 : ℚ} (he : SoftOk u η e e2) {y z : Nat → ℚ} {m m' : ℚ} (P : PairIn M.A b d e y m z m') (Q : Quant)
variable {c : Nat} (hc : c + 1 ≤ C) {S T : Val ℝ} {v : Val ℚ} (hv : SmV u η b k c d S T v)
include hd hf he P hc hv

omit hc hv hd hf in
theorem pair_diffs : ∃ t : Nat → ℚ, diffs M.A (Arr d (fun j => .fin (y j))) (Arr d (fun j => .fin (z j))) = Arr d (fun j => .fin (t j)) ∧ Diffs u d y z t := by
  apply diffs_near F R P.ry P.rz
  intro j hj
  obtain ⟨_, hs, _, hr⟩ := rng_dist R.b1 P.near P.far
  have h1 := diff_le (y := fun j => (y j : ℝ)) (z := fun j => (z j : ℝ)) he.nn hj
  have h2 := hr.high
  rw [abs_of_pos hs, pow_one] at h2
  exact h1.trans h2

omit hc hv hf F hd he in
theorem pot_rng : Rng b 4 ((m : ℝ) * m' * (√(D2 d e (fun j => (y j : ℝ)) (fun j => (z j : ℝ))))⁻¹) := by
  obtain ⟨_, _, _, hr⟩ := rng_dist R.b1 P.near P.far
  exact ((P.rm.mul P.rm').mul hr.inv).mono R.b1 (by omega)

theorem selfUpd1_err : ∃ w : Val ℚ, selfUpd1 M (.fin e2) (mkPt d y m) (mkPt d z m') (mkRes Q d v) = mkRes Q d w ∧
    SmV u η b k (c + 1) d (S + newt d e y m z m') (T + absV (newt d e y m z m')) w := by
  have hk := R.kd
  obtain ⟨t, et, ht⟩ := pair_diffs F R he P
  obtain ⟨q, eq, hq⟩ := soft_near F R hd ht he P.near P.far
  obtain ⟨_, g, eg, hg⟩ := over_near F R hf hq P.near P.far P.rm'
  obtain ⟨⟨o, eo, ho⟩, _⟩ := over_near F R hf hq P.near P.far P.rm
  obtain ⟨w, ew, hw⟩ := accs_step F R Q hc (by omega) hv.acc ht hg (fun _ _ => rfl) (fun j hj => pull_acc_le R.b1 he.nn P.near P.far P.rm' hj)
  have hp := (ho.mul F.lt1 (Near.refl F.u0 F.lt1 0 (m' : ℝ)))
  rw [show (m : ℝ) * (√(D2 d e (fun j => (y j : ℝ)) (fun j => (z j : ℝ))))⁻¹ * m' = m * m' * (√(D2 d e (fun j => (y j : ℝ)) (fun j => (z j : ℝ))))⁻¹ by ring] at hp
  obtain ⟨r, er, hr⟩ := hv.pot.subMul F R hc (by omega) hp (pot_rng R P).high
  refine ⟨(w, r), ?_, ⟨hw, hr⟩⟩
  unfold selfUpd1 mkPt mkRes mutPot
  simp only
  rw [et, eq, eg, eo, ew]
  congr 1
  by_cases hQ : Q = .acc
  · simp [hQ]
  · simp only [if_neg hQ, List.map_cons, List.map_nil]
    rw [er]

theorem selfUpd2_err : ∃ w : Val ℚ, selfUpd2 M (.fin e2) (mkPt d y m) (mkPt d z m') (mkRes Q d v) = mkRes Q d w ∧
    SmV u η b k (c + 1) d (S + newt d e z m' y m) (T + absV (newt d e z m' y m)) w := by
  have hk := R.kd
  obtain ⟨t, et, ht⟩ := pair_diffs F R he P
  obtain ⟨q, eq, hq⟩ := soft_near F R hd ht he P.near P.far
  obtain ⟨⟨o, eo, ho⟩, g, eg, hg⟩ := over_near F R hf hq P.near P.far P.rm
  have hsym : D2 d e (fun j => (y j : ℝ)) (fun j => (z j : ℝ)) = D2 d e (fun j => (z j : ℝ)) (fun j => (y j : ℝ)) := D2_comm _ _ _ _
  obtain ⟨w, ew, hw⟩ := accs_step F R Q hc (by omega) hv.acc (t := fun j => -t j) (X := fun j => (y j : ℝ) - z j)
    (fun j hj => by push_cast; rw [← neg_sub]; exact (ht j hj).neg) hg (G := (newt d e z m' y m).1) (fun j _ => by
      show (m : ℝ) * (√(D2 d e (fun j => (z j : ℝ)) (fun j => (y j : ℝ))))⁻¹ ^ 3 * ((y j : ℝ) - z j) = _
      rw [hsym]) (fun j hj => pull_acc_le R.b1 he.nn (by rw [← hsym]; exact P.near) (by rw [← hsym]; exact P.far) P.rm hj)
  have hp := (ho.mul F.lt1 (Near.refl F.u0 F.lt1 0 (m' : ℝ)))
  rw [show (m : ℝ) * (√(D2 d e (fun j => (y j : ℝ)) (fun j => (z j : ℝ))))⁻¹ * m' = m * m' * (√(D2 d e (fun j => (y j : ℝ)) (fun j => (z j : ℝ))))⁻¹ by ring] at hp
  obtain ⟨r, er, hr⟩ := hv.pot.subMul F R hc (by omega) hp (pot_rng R P).high
  refine ⟨(w, r), ?_, ⟨hw, ?_⟩⟩
  · unfold selfUpd2 mkPt mkRes mutPot
    simp only
    rw [et, eq, eg, eo]
    have e1 : List.zipWith (fun (t a : Fl ℚ) => M.A.fma t.neg (.fin g) a) (Arr d (fun j => .fin (t j))) (if Q = .pot then [] else Arr d (fun j => .fin (v.1 j))) =
        List.zipWith (fun (t a : Fl ℚ) => M.A.fma t (.fin g) a) (Arr d (fun j => .fin (-t j))) (if Q = .pot then [] else Arr d (fun j => .fin (v.1 j))) := by
      by_cases h : Q = .pot
      · simp [h]
      · simp only [if_neg h]
        rw [zipWith_arr, zipWith_arr]
        rfl
    rw [e1, ew]
    congr 1
    by_cases hQ : Q = .acc
    · simp [hQ]
    · simp only [if_neg hQ, List.map_cons, List.map_nil]
      rw [er]
  · have : (newt d e z m' y m).2 = -((m : ℝ) * m' * (√(D2 d e (fun j => (y j : ℝ)) (fun j => (z j : ℝ))))⁻¹) := by
      show -((m' : ℝ) * m * (√(D2 d e (fun j => (z j : ℝ)) (fun j => (y j : ℝ))))⁻¹) = _
      rw [hsym]; ring
    show Sm u η (b ^ 4) k (c + 1) (S.2 + (newt d e z m' y m).2) (T.2 + |(newt d e z m' y m).2|) r
    rw [this]
    exact hr

omit he hd hf in
/-- A potential term computed with a multiply-add. -/
theorem potFma {o : ℚ} (ho : Near u (κ + d + 4) (m' * (√(D2 d e (fun j => (y j : ℝ)) (fun j => (z j : ℝ))))⁻¹) o) :
    ∃ r : ℚ, M.A.fma (.fin (-m)) (.fin o) (.fin v.2) = .fin r ∧ Sm u η (b ^ 4) k (c + 1) (S.2 + (newt d e y m z m').2) (T.2 + |(newt d e y m z m').2|) r := by
  have hk := R.kd
  have hp := (Near.refl F.u0 F.lt1 0 ((-m : ℚ) : ℝ)).mul F.lt1 ho
  rw [show ((-m : ℚ) : ℝ) * (m' * (√(D2 d e (fun j => (y j : ℝ)) (fun j => (z j : ℝ))))⁻¹) = (newt d e y m z m').2 by
    show _ = -((m : ℝ) * m' * (√(D2 d e (fun j => (y j : ℝ)) (fun j => (z j : ℝ))))⁻¹)
    push_cast; ring] at hp
  exact hv.pot.fma F R hc (by omega) hp (pot_rng R P).neg.high

theorem leafUpd_err : ∃ w : Val ℚ, leafUpd M Q (.fin e2) (mkPt d y m) (mkPt d z m') (mkRes Q d v) = mkRes Q d w ∧
    SmV u η b k (c + 1) d (S + newt d e y m z m') (T + absV (newt d e y m z m')) w := by
  have hk := R.kd
  obtain ⟨t, et, ht⟩ := pair_diffs F R he P
  obtain ⟨q, eq, hq⟩ := soft_near F R hd ht he P.near P.far
  obtain ⟨⟨o', eo', ho'⟩, g, eg, hg⟩ := over_near F R hf hq P.near P.far P.rm'
  obtain ⟨⟨o, eo, ho⟩, _⟩ := over_near F R hf hq P.near P.far P.rm
  obtain ⟨w, ew, hw⟩ := accs_step F R Q hc (by omega) hv.acc ht hg (fun _ _ => rfl) (fun j hj => pull_acc_le R.b1 he.nn P.near P.far P.rm' hj)
  have hp := (ho.mul F.lt1 (Near.refl F.u0 F.lt1 0 (m' : ℝ)))
  rw [show (m : ℝ) * (√(D2 d e (fun j => (y j : ℝ)) (fun j => (z j : ℝ))))⁻¹ * m' = m * m' * (√(D2 d e (fun j => (y j : ℝ)) (fun j => (z j : ℝ))))⁻¹ by ring] at hp
  obtain ⟨r, er, hr⟩ := hv.pot.subMul F R hc (by omega) hp (pot_rng R P).high
  obtain ⟨r', er', hr'⟩ := potFma F R P hc hv ho'
  refine ⟨(w, if M.vec ∧ Q = .pot then r else r'), ?_, ⟨hw, ?_⟩⟩
  · unfold leafUpd mkPt mkRes mutPot
    simp only
    rw [et, eq, eg, eo, eo', ew]
    congr 1
    by_cases hQ : Q = .acc
    · simp [hQ]
    · simp only [if_neg hQ, List.map_cons, List.map_nil]
      split
      · rw [er]
      · show [M.A.fma (.fin (-m)) _ _] = _
        rw [er']
  · show Sm u η (b ^ 4) k (c + 1) _ _ ((if M.vec ∧ Q = .pot then r else r' : ℚ) : ℝ)
    split
    · exact hr
    · exact hr'

theorem comUpd_err : ∃ w : Val ℚ, comUpd M (.fin m') (macTmp M (.fin e2) (Arr d (fun j => .fin (z j))) (mkPt d y m)) (mkPt d y m) (mkRes Q d v) = mkRes Q d w ∧
    SmV u η b k (c + 1) d (S + newt d e y m z m') (T + absV (newt d e y m z m')) w := by
  have hk := R.kd
  obtain ⟨t, et, ht⟩ := pair_diffs F R he P
  obtain ⟨q, eq, hq⟩ := plain_near F R hd ht he P.near P.far
  obtain ⟨⟨o', eo', ho'⟩, g, eg, hg⟩ := over_near F R hf hq P.near P.far P.rm'
  obtain ⟨w, ew, hw⟩ := accs_step F R Q hc (by omega) hv.acc ht hg (fun _ _ => rfl) (fun j hj => pull_acc_le R.b1 he.nn P.near P.far P.rm' hj)
  obtain ⟨r', er', hr'⟩ := potFma F R P hc hv ho'
  refine ⟨(w, r'), ?_, ⟨hw, hr'⟩⟩
  unfold comUpd macTmp mkPt mkRes
  simp only
  rw [et, eq, eg, eo', ew]
  congr 1
  by_cases hQ : Q = .acc
  · simp [hQ]
  · simp only [if_neg hQ, List.map_cons, List.map_nil]
    show [M.A.fma (.fin (-m)) _ _] = _
    rw [er']

end

end Rakau
