import Verif.Proof.Near
import Verif.Proof.Force

/-! Rounding errors of the force kernels, for one pair of bodies. -/
namespace Rakau
open Spec

variable {A : Arith ℚ} {u η lo hi : ℝ}

/-! ### Operations -/

namespace FlModel

theorem lt1 (F : FlModel A u η lo hi) : u < 1 := by have := F.u1; linarith

/-- A result that is zero or in the normal range. -/
theorem near (F : FlModel A u η lo hi) {q : ℚ} (h1 : q = 0 ∨ lo ≤ |(q : ℝ)|) (h2 : |(q : ℝ)| ≤ hi) : ∃ r : ℚ, A.rnd q = .fin r ∧ Near u 1 q r := by
  rcases h1 with rfl | h1
  · exact ⟨0, F.zero, by simpa using Near.refl F.u0 F.lt1 1 0⟩
  · obtain ⟨r, e, h⟩ := F.rel q h1 h2
    exact ⟨r, e, Near.of_rel F.u0 F.lt1 h⟩

theorem mul (F : FlModel A u η lo hi) {a b : ℚ} (h1 : a * b = 0 ∨ lo ≤ |(a : ℝ) * b|) (h2 : |(a : ℝ) * b| ≤ hi) :
    ∃ r : ℚ, A.mul (.fin a) (.fin b) = .fin r ∧ Near u 1 ((a : ℝ) * b) r := by
  obtain ⟨r, e, h⟩ := F.near (q := a * b) (by push_cast; exact h1) (by push_cast; exact h2)
  push_cast at h
  exact ⟨r, e, h⟩

theorem div (F : FlModel A u η lo hi) {a b : ℚ} (hb : b ≠ 0) (h1 : a = 0 ∨ lo ≤ |(a : ℝ) / b|) (h2 : |(a : ℝ) / b| ≤ hi) :
    ∃ r : ℚ, A.div (.fin a) (.fin b) = .fin r ∧ Near u 1 ((a : ℝ) / b) r := by
  obtain ⟨r, e, h⟩ := F.near (q := a / b) (by push_cast; exact h1.imp_left (fun h => by rw [h, zero_div])) (by push_cast; exact h2)
  push_cast at h
  exact ⟨r, by show (if b = 0 then _ else A.rnd (a / b)) = _; rw [if_neg hb]; exact e, h⟩

theorem sub (F : FlModel A u η lo hi) {a b : ℚ} (ha : A.Repr a) (hb : A.Repr b) (h : |(a : ℝ) - b| ≤ hi) :
    ∃ r : ℚ, A.sub (.fin a) (.fin b) = .fin r ∧ Near u 1 ((a : ℝ) - b) r := by
  obtain ⟨r, e, h⟩ := F.diff a b ha hb (by push_cast; exact h)
  push_cast at h
  exact ⟨r, by show A.rnd (a + -b) = _; rw [← sub_eq_add_neg]; exact e, Near.of_rel F.u0 F.lt1 h⟩

theorem fsqrt (F : FlModel A u η lo hi) {q : ℚ} (h1 : lo ≤ q) (h2 : (q : ℝ) ≤ hi) : ∃ r : ℚ, A.fsqrt (.fin q) = .fin r ∧ Near u 1 (√(q : ℝ)) r := by
  obtain ⟨r, e, h⟩ := F.sqrt q h1 h2
  have hq : (0 : ℝ) ≤ q := F.lo0.le.trans h1
  have hq : 0 ≤ q := by exact_mod_cast hq
  refine ⟨r, by show (if q < 0 then _ else A.sqrt q) = _; rw [if_neg (not_lt.2 hq)]; exact e, Near.of_rel F.u0 F.lt1 ?_⟩
  rwa [abs_of_nonneg (Real.sqrt_nonneg _)]

/-- A product added to a sum. -/
theorem fma (F : FlModel A u η lo hi) {t g a : ℚ} (h1 : |(t : ℝ) * g| ≤ hi) (h2 : |(a : ℝ)| + ((1 + u) * |(t : ℝ) * g| + η) ≤ hi) :
    ∃ r : ℚ, ∃ p : ℝ, A.fma (.fin t) (.fin g) (.fin a) = .fin r ∧ |p - t * g| ≤ u * |(t : ℝ) * g| + η ∧ |r - (a + p)| ≤ u * |a + p| + η := by
  have := F.u0
  have := F.η0
  have hn := abs_nonneg ((t : ℝ) * g)
  unfold Arith.fma
  by_cases hf : A.fused
  · rw [if_pos hf]
    have hs : |(a : ℝ) + t * g| ≤ hi := by
      have := abs_add_le (a : ℝ) (t * g)
      have := mul_nonneg F.u0 hn
      linarith
    obtain ⟨r, e, h⟩ := F.rnd (t * g + a) (by push_cast; rw [add_comm]; exact hs)
    refine ⟨r, t * g, e, ?_, ?_⟩
    · rw [sub_self, abs_zero]; positivity
    · push_cast at h
      rwa [add_comm ((t : ℝ) * g)] at h
  · rw [if_neg hf]
    obtain ⟨p, e, h⟩ := F.rnd (t * g) (by push_cast; exact h1)
    push_cast at h
    have hp : |(p : ℝ)| ≤ (1 + u) * |(t : ℝ) * g| + η := by
      have := abs_add_le ((p : ℝ) - t * g) (t * g)
      rw [sub_add_cancel] at this
      linarith
    obtain ⟨r, e', h'⟩ := F.rnd (p + a) (by
      push_cast
      have := abs_add_le (p : ℝ) a
      linarith)
    refine ⟨r, p, ?_, h, ?_⟩
    · show A.add (A.rnd (t * g)) _ = _
      rw [e]
      exact e'
    · push_cast at h'
      rwa [add_comm (p : ℝ)] at h'

/-- A sum. -/
theorem add (F : FlModel A u η lo hi) {a b : ℚ} (h : |(a : ℝ) + b| ≤ hi) :
    ∃ r : ℚ, A.add (.fin a) (.fin b) = .fin r ∧ |(r : ℝ) - (a + b)| ≤ u * |(a : ℝ) + b| + η := by
  obtain ⟨r, e, h⟩ := F.rnd (a + b) (by push_cast; exact h)
  push_cast at h
  exact ⟨r, e, h⟩

end FlModel

/-! ### Sums of squares -/

/-- `a` is `S ≥ 0` up to `k` relative errors and `N` absolute ones. -/
structure Pos (u η : ℝ) (k N : Nat) (S a : ℝ) : Prop where
  nn : 0 ≤ S
  an : 0 ≤ a
  lb : (1 - u) ^ k * S - N * η ≤ a
  ub : a * (1 - u) ^ k ≤ S + N * η

namespace Pos
variable {k l N N' : Nat} {S S' a b : ℝ}

theorem mono (h0 : 0 ≤ u) (h1 : u < 1) (hη : 0 ≤ η) (h : Pos u η k N S a) (hk : k ≤ l) (hN : N ≤ N') : Pos u η l N' S a := by
  have hp : (1 - u) ^ l ≤ (1 - u) ^ k := pow_le_pow_of_le_one (by linarith) (by linarith) hk
  have hN : (N : ℝ) ≤ N' := by exact_mod_cast hN
  have hN := mul_le_mul_of_nonneg_right hN hη
  refine ⟨h.nn, h.an, ?_, ?_⟩
  · have := mul_le_mul_of_nonneg_right hp h.nn
    linarith [h.lb]
  · have := mul_le_mul_of_nonneg_left hp h.an
    linarith [h.ub]

/-- The rounded sum. -/
theorem add (h0 : 0 ≤ u) (h1 : u < 1) (hη : 0 ≤ η) (h : Pos u η k N S a) (h' : Pos u η k N' S' b) {r : ℝ} (r0 : 0 ≤ r) (hr : |r - (a + b)| ≤ u * |a + b| + η) :
    Pos u η (k + 1) (N + N' + 1) (S + S') r := by
  have hab : 0 ≤ a + b := add_nonneg h.an h'.an
  rw [abs_of_nonneg hab, abs_le] at hr
  have hp : 0 < (1 - u) ^ k := pow_pos (by linarith) k
  have hp1 : (1 - u) ^ k ≤ 1 := pow_le_one₀ (by linarith) (by linarith)
  have l1 := h.lb
  have l2 := h'.lb
  have u1 := h.ub
  have u2 := h'.ub
  have hN : 0 ≤ (N : ℝ) * η := by positivity
  have hN' : 0 ≤ (N' : ℝ) * η := by positivity
  refine ⟨add_nonneg h.nn h'.nn, r0, ?_, ?_⟩
  · push_cast
    have : (1 - u) * ((1 - u) ^ k * S - N * η + ((1 - u) ^ k * S' - N' * η)) ≤ (1 - u) * (a + b) := mul_le_mul_of_nonneg_left (by linarith) (by linarith)
    rw [pow_succ]
    nlinarith
  · push_cast
    have hu : 0 ≤ u * u := by positivity
    have e1 : r * (1 - u) ≤ (a + b) + η := by
      have : r ≤ (1 + u) * (a + b) + η := by linarith
      have := mul_le_mul_of_nonneg_right this (by linarith : 0 ≤ 1 - u)
      nlinarith
    have e2 := mul_le_mul_of_nonneg_right e1 hp.le
    rw [pow_succ]
    nlinarith

/-- The square of a number with one relative error. -/
theorem sq (_h0 : 0 ≤ u) (h1 : u < 1) {x t : ℝ} (h : Near u 1 x t) : Pos u η 2 0 (x ^ 2) (t * t) := by
  have hm : Near u 2 (x * x) (t * t) := h.mul h1 h
  obtain ⟨s, e, _, h2, h3⟩ := hm.factor h1
  have hx := mul_self_nonneg x
  refine ⟨sq_nonneg x, mul_self_nonneg t, ?_, ?_⟩
  · rw [e, pow_two x]
    have := mul_le_mul_of_nonneg_left h2 hx
    push_cast
    linarith
  · rw [e, pow_two x]
    have := mul_le_mul_of_nonneg_left h3 hx
    push_cast
    linarith

/-- The rounded square. -/
theorem sq_rnd (h0 : 0 ≤ u) (h1 : u < 1) (hη : 0 ≤ η) {x t r : ℝ} (h : Near u 1 x t) (r0 : 0 ≤ r) (hr : |r - t * t| ≤ u * |t * t| + η) :
    Pos u η 3 1 (x ^ 2) r := by
  have hz : Pos u η 2 0 0 0 := ⟨le_rfl, le_rfl, by simp, by simp⟩
  have := (sq (η := η) h0 h1 h).add h0 h1 hη hz r0 (by rw [add_zero]; exact hr)
  simpa using this

/-- Absolute errors are absorbed if the value is not tiny. -/
theorem near (h0 : 0 ≤ u) (h1 : u < 1) (h : Pos u η k N S a) (hk : 2 * (k * u) ≤ 1) (hS : 2 * (N * η) ≤ u * S) (hN : 0 ≤ N * η) : Near u (k + 1) S a := by
  have hh := Near.half_le h0 h1 hk
  have hp : 0 < (1 - u) ^ k := pow_pos (by linarith) k
  have hs := h.nn
  have l := h.lb
  have ub := h.ub
  rcases eq_or_lt_of_le hs with z | hs
  · have hz : a = 0 := by
      rw [← z] at ub hS
      have := h.an
      nlinarith
    rw [hz, ← z]
    exact Near.refl h0 h1 _ _
  · refine ⟨a / S, by field_simp, ?_, ?_⟩
    · rw [le_div_iff₀ hs, pow_succ]
      have : u * S * (1 / 2) ≤ u * S * (1 - u) ^ k := mul_le_mul_of_nonneg_left hh (by positivity)
      nlinarith
    · rw [div_mul_eq_mul_div, div_le_one hs, pow_succ]
      have : a * (1 - u) ^ k * (1 - u) ≤ (S + N * η) * (1 - u) := mul_le_mul_of_nonneg_right ub (by linarith)
      nlinarith

end Pos

/-! ### Squared distances -/

/-- The ranges of the quantities: `b` bounds distances and masses from above, and `1 / b` from below; `C` is the number of bodies, `κ` the number of relative
errors of a fast inverse square root, `k` the number of relative errors of a term. -/
structure Span (u η lo hi b : ℝ) (d κ k C : Nat) : Prop where
  b1 : 1 ≤ b
  d1 : 1 ≤ d
  low : 8 * (d + 2) * lo * b ^ 4 ≤ 1
  high : 8 * (C + 1) * b ^ 4 ≤ hi
  errs : 2 * ((C + k : ℕ) * u) ≤ 1
  kd : 3 * κ + 3 * d + 20 ≤ k

/-- The computed differences. -/
def Diffs (u : ℝ) (d : Nat) (y z : Nat → ℚ) (t : Nat → ℚ) : Prop := ∀ j < d, Near u 1 ((z j : ℝ) - y j) (t j)

section
variable {b : ℝ} {d κ k C : Nat} (F : FlModel A u η lo hi) (R : Span u η lo hi b d κ k C)
include F R

omit F in
theorem Span.hi_ge : 8 * b ^ 4 ≤ hi := by
  have h := R.high
  have hb : 0 ≤ b ^ 4 := by have := R.b1; positivity
  have : 0 ≤ (C : ℝ) * b ^ 4 := by positivity
  nlinarith

theorem Span.lo_le : 16 * lo * b ^ 4 ≤ 1 := by
  have h := R.low
  have hb : 0 ≤ b ^ 4 := by have := R.b1; positivity
  have : 0 ≤ (d : ℝ) * lo * b ^ 4 := by have := F.lo0; positivity
  nlinarith

theorem diffs_near {y z : Nat → ℚ} (hy : ∀ j < d, A.Repr (y j)) (hz : ∀ j < d, A.Repr (z j)) (hb : ∀ j < d, |(z j : ℝ) - y j| ≤ b) :
    ∃ t : Nat → ℚ, diffs A (Arr d (fun j => .fin (y j))) (Arr d (fun j => .fin (z j))) = Arr d (fun j => .fin (t j)) ∧ Diffs u d y z t := by
  have h : ∀ j, ∃ t : ℚ, j < d → A.sub (.fin (z j)) (.fin (y j)) = .fin t ∧ Near u 1 ((z j : ℝ) - y j) t := by
    intro j
    by_cases hj : j < d
    · have hbb : b ≤ hi := by
        have h1 := R.b1
        have : b ^ 1 ≤ b ^ 4 := pow_le_pow_right₀ h1 (by norm_num)
        have := Span.hi_ge R
        have : 0 ≤ b ^ 4 := by positivity
        linarith
      obtain ⟨t, e, h⟩ := F.sub (hz j hj) (hy j hj) ((hb j hj).trans hbb)
      exact ⟨t, fun _ => ⟨e, h⟩⟩
    · exact ⟨0, fun h => absurd h hj⟩
  choose t ht using h
  refine ⟨t, ?_, fun j hj => (ht j hj).2⟩
  unfold diffs
  rw [zipWith_arr]
  apply arr_ext
  intro j hj
  exact (ht j hj).1

/-- Bounds for the sums of squares. -/
theorem Span.sum_le {m N : Nat} {S a : ℝ} (h : Pos u η m N S a) (hm : m ≤ d + 4) (hN : N ≤ 2 * d + 3) (hS : S ≤ b ^ 2) : a ≤ 2 * b ^ 2 + 1 / 8 := by
  have hk : 2 * ((m : ℝ) * u) ≤ 1 := by
    have := R.errs
    have h1 : (m : ℝ) ≤ ((C + k : ℕ) : ℝ) := by have := R.kd; exact_mod_cast (by omega : m ≤ C + k)
    have := mul_le_mul_of_nonneg_right h1 F.u0
    linarith
  have hh := Near.half_le F.u0 F.lt1 hk
  have hη : (N : ℝ) * η ≤ 1 / 16 := by
    have h1 : (N : ℝ) ≤ 2 * (d + 2) := by
      have : (N : ℝ) ≤ ((2 * d + 3 : ℕ) : ℝ) := by exact_mod_cast hN
      push_cast at this
      linarith
    have h2 : η ≤ lo / 1024 := by
      have := F.ηlo
      have := mul_le_mul_of_nonneg_right F.u1 F.lo0.le
      linarith
    have h3 := R.low
    have h4 : (1 : ℝ) ≤ b ^ 4 := one_le_pow₀ R.b1
    have h5 : 0 ≤ 8 * (d + 2 : ℝ) * lo := by have := F.lo0; positivity
    have h6 : 8 * (d + 2 : ℝ) * lo ≤ 1 := by nlinarith
    have h7 : (N : ℝ) * η ≤ 2 * (d + 2) * (lo / 1024) := mul_le_mul h1 h2 F.η0 (by positivity)
    linarith
  have := h.ub
  have := h.an
  nlinarith

/-- The square of a difference, added to a sum of squares. -/
theorem fma_sq {m N : Nat} {S x : ℝ} {a t : ℚ} (h : Pos u η m N S a) (ht : Near u 1 x t) (h3 : 3 ≤ m) (hm : m + 1 ≤ d + 4) (hN : N + 2 ≤ 2 * d + 2) (hS : S + x ^ 2 ≤ b ^ 2) :
    ∃ r : ℚ, A.fma (.fin t) (.fin t) (.fin a) = .fin r ∧ Pos u η (m + 1) (N + 2) (S + x ^ 2) r := by
  have hu0 := F.u0
  have hu1 := F.lt1
  have hη := F.η0
  have hx := sq_nonneg x
  have hS0 := h.nn
  have ha := Span.sum_le F R h (by omega) (by omega) (by linarith)
  have htt := (Pos.sq (η := η) hu0 hu1 ht)
  have htb := Span.sum_le F R htt (by omega) (by omega) (by linarith)
  have hb := Span.hi_ge R
  have hb2 : b ^ 2 ≤ b ^ 4 := pow_le_pow_right₀ R.b1 (by norm_num)
  have hb1 : 1 ≤ b ^ 2 := one_le_pow₀ R.b1
  have htn : |(t : ℝ) * t| = t * t := abs_of_nonneg (mul_self_nonneg _)
  have hη1 : η ≤ 1 := by
    have := F.ηlo
    have h1 := Span.lo_le F R
    have h2 : lo ≤ 1 := by have := F.lo0; nlinarith
    have := mul_le_mul F.u1 h2 F.lo0.le (by norm_num)
    linarith
  have hu2 := F.u1
  have ha0 := h.an
  have htt0 := mul_self_nonneg (t : ℝ)
  unfold Arith.fma
  by_cases hf : A.fused
  · rw [if_pos hf]
    obtain ⟨r, e, hr⟩ := F.rnd (t * t + a) (by
      push_cast
      rw [abs_of_nonneg (by linarith)]
      linarith)
    refine ⟨r, e, ?_⟩
    have r0 : (0 : ℝ) ≤ r := by
      have : 0 ≤ t * t + a := by
        have : (0 : ℝ) ≤ ((t * t + a : ℚ) : ℝ) := by push_cast; linarith
        exact_mod_cast this
      exact_mod_cast F.pos _ _ this e
    push_cast at hr
    rw [add_comm ((t : ℝ) * t)] at hr
    have := h.add hu0 hu1 hη (htt.mono hu0 hu1 hη (by omega : 2 ≤ m) (Nat.zero_le 1)) r0 hr
    exact this
  · rw [if_neg hf]
    obtain ⟨p, e, hp⟩ := F.rnd (t * t) (by push_cast; rw [htn]; linarith)
    push_cast at hp
    have p0 : (0 : ℝ) ≤ p := by exact_mod_cast F.pos _ _ (mul_self_nonneg t) e
    have hpp := Pos.sq_rnd hu0 hu1 hη ht p0 hp
    have hpb := Span.sum_le F R hpp (by omega) (by omega) (by linarith)
    obtain ⟨r, e', hr⟩ := F.rnd (p + a) (by
      push_cast
      rw [abs_of_nonneg (by linarith)]
      linarith)
    refine ⟨r, ?_, ?_⟩
    · show A.add (A.rnd (t * t)) _ = _
      rw [e]
      exact e'
    · have r0 : (0 : ℝ) ≤ r := by
        have : 0 ≤ p + a := by
          have : (0 : ℝ) ≤ ((p + a : ℚ) : ℝ) := by push_cast; linarith
          exact_mod_cast this
        exact_mod_cast F.pos _ _ this e'
      push_cast at hr
      rw [add_comm (p : ℝ)] at hr
      exact h.add hu0 hu1 hη (hpp.mono hu0 hu1 hη h3 le_rfl) r0 hr

/-- A rounded square. -/
theorem mul_sq {x : ℝ} {t : ℚ} (ht : Near u 1 x t) (hS : x ^ 2 ≤ b ^ 2) : ∃ r : ℚ, A.mul (.fin t) (.fin t) = .fin r ∧ Pos u η 3 1 (x ^ 2) r := by
  have hu0 := F.u0
  have hu1 := F.lt1
  have hη := F.η0
  have htb := Span.sum_le F R (Pos.sq (η := η) hu0 hu1 ht) (by omega) (by omega) hS
  have hb := Span.hi_ge R
  have hb2 : b ^ 2 ≤ b ^ 4 := pow_le_pow_right₀ R.b1 (by norm_num)
  have hb1 : 1 ≤ b ^ 2 := one_le_pow₀ R.b1
  obtain ⟨p, e, hp⟩ := F.rnd (t * t) (by push_cast; rw [abs_of_nonneg (mul_self_nonneg _)]; linarith)
  push_cast at hp
  have p0 : (0 : ℝ) ≤ p := by exact_mod_cast F.pos _ _ (mul_self_nonneg t) e
  exact ⟨p, e, Pos.sq_rnd hu0 hu1 hη ht p0 hp⟩

/-- A sum of sums of squares. -/
theorem add_sq {m N N' : Nat} {S S' : ℝ} {a a' : ℚ} (h : Pos u η m N S a) (h' : Pos u η m N' S' a') (hm : m ≤ d + 4) (hN : N + N' ≤ 2 * d + 2)
    (hS : S + S' ≤ b ^ 2) : ∃ r : ℚ, A.add (.fin a) (.fin a') = .fin r ∧ Pos u η (m + 1) (N + N' + 1) (S + S') r := by
  have hu0 := F.u0
  have hu1 := F.lt1
  have hη := F.η0
  have hS0 := h.nn
  have hS0' := h'.nn
  have ha := Span.sum_le F R h (by omega) (by omega) (by linarith)
  have ha' := Span.sum_le F R h' (by omega) (by omega) (by linarith)
  have hb := Span.hi_ge R
  have hb2 : b ^ 2 ≤ b ^ 4 := pow_le_pow_right₀ R.b1 (by norm_num)
  have hb1 : 1 ≤ b ^ 2 := one_le_pow₀ R.b1
  have ha0 := h.an
  have ha0' := h'.an
  obtain ⟨r, e, hr⟩ := F.rnd (a + a') (by push_cast; rw [abs_of_nonneg (by linarith)]; linarith)
  have r0 : (0 : ℝ) ≤ r := by
    have : 0 ≤ a + a' := by
      have : (0 : ℝ) ≤ ((a + a' : ℚ) : ℝ) := by push_cast; linarith
      exact_mod_cast this
    exact_mod_cast F.pos _ _ this e
  push_cast at hr
  exact ⟨r, e, h.add hu0 hu1 hη h' r0 hr⟩

/-- The chain of multiply-adds. -/
theorem fold_sq {y z t : Nat → ℚ} (ht : Diffs u d y z t) {S : ℝ} {a : ℚ} (h : Pos u η 3 1 S a) (hS : ∑ j ∈ Finset.range d, ((z j : ℝ) - y j) ^ 2 + S ≤ b ^ 2) :
    ∃ r : ℚ, (Arr d (fun j => Fl.fin (t j))).foldl (fun acc t => A.fma t t acc) (.fin a) = .fin r ∧
      Pos u η (d + 3) (2 * d + 1) (∑ j ∈ Finset.range d, ((z j : ℝ) - y j) ^ 2 + S) r := by
  have key : ∀ i ≤ d, ∃ r : ℚ, (Arr i (fun j => Fl.fin (t j))).foldl (fun acc t => A.fma t t acc) (.fin a) = .fin r ∧
      Pos u η (i + 3) (2 * i + 1) (∑ j ∈ Finset.range i, ((z j : ℝ) - y j) ^ 2 + S) r := by
    intro i
    induction i with
    | zero => intro _; exact ⟨a, by simp [Arr], by simpa using h⟩
    | succ i ih =>
      intro hi
      obtain ⟨r, e, hr⟩ := ih (by omega)
      have hle : ∑ j ∈ Finset.range (i + 1), ((z j : ℝ) - y j) ^ 2 ≤ ∑ j ∈ Finset.range d, ((z j : ℝ) - y j) ^ 2 :=
        Finset.sum_le_sum_of_subset_of_nonneg (Finset.range_subset_range.2 hi) (fun j _ _ => sq_nonneg _)
      rw [Finset.sum_range_succ] at hle ⊢
      obtain ⟨r', e', hr'⟩ := fma_sq F R hr (ht i (by omega)) (by omega) (by omega) (by omega) (by linarith)
      refine ⟨r', ?_, ?_⟩
      · rw [Arr, List.range_succ, List.map_append, List.foldl_append]
        unfold Arr at e
        rw [e]
        exact e'
      · rw [show ∑ j ∈ Finset.range i, ((z j : ℝ) - y j) ^ 2 + ((z i : ℝ) - y i) ^ 2 + S = ∑ j ∈ Finset.range i, ((z j : ℝ) - y j) ^ 2 + S + ((z i : ℝ) - y i) ^ 2 by ring]
        exact hr'.mono F.u0 F.lt1 F.η0 (by omega) (by omega)
  exact key d le_rfl

/-- A squared distance is accurate. -/
theorem dist_near {m N : Nat} {S : ℝ} {a : ℚ} (h : Pos u η m N S a) (hm : m + 1 ≤ 2 * d + 4) (hN : N ≤ 2 * d + 3) (hS : 1 ≤ b ^ 2 * S) : Near u (2 * d + 4) S a := by
  have hk : 2 * ((m : ℝ) * u) ≤ 1 := by
    have := R.errs
    have h1 : (m : ℝ) ≤ ((C + k : ℕ) : ℝ) := by have := R.kd; exact_mod_cast (by omega : m ≤ C + k)
    have := mul_le_mul_of_nonneg_right h1 F.u0
    linarith
  have hη := F.η0
  refine (h.near F.u0 F.lt1 hk ?_ (by positivity)).mono F.u0 F.lt1 hm
  have h1 : (N : ℝ) ≤ 2 * (d + 2) := by
    have : (N : ℝ) ≤ ((2 * d + 3 : ℕ) : ℝ) := by exact_mod_cast hN
    push_cast at this
    linarith
  have h2 : (N : ℝ) * η ≤ 2 * (d + 2) * (u * lo) := mul_le_mul h1 F.ηlo hη (by positivity)
  have hb2 : b ^ 2 ≤ b ^ 4 := pow_le_pow_right₀ R.b1 (by norm_num)
  have hS0 := h.nn
  have h3 : 4 * (d + 2) * lo ≤ S := by
    have h4 := R.low
    have h5 : 0 ≤ 8 * (d + 2 : ℝ) * lo := by have := F.lo0; positivity
    have h6 : 8 * (d + 2 : ℝ) * lo * b ^ 2 ≤ b ^ 2 * S := by
      have := mul_le_mul_of_nonneg_left hb2 h5
      linarith
    have hb0 : 0 < b ^ 2 := by have := R.b1; positivity
    have : 8 * (d + 2 : ℝ) * lo ≤ S := by
      rw [mul_comm] at h6
      exact le_of_mul_le_mul_left h6 hb0
    linarith
  have := mul_le_mul_of_nonneg_left h3 F.u0
  nlinarith

/-! ### Terms -/

omit F R in
/-- The relative error of a term with `k` errors. -/
noncomputable def relErr (u : ℝ) (k : Nat) : ℝ := 1 / (1 - u) ^ k - 1

omit F R in
theorem relErr_nonneg (h0 : 0 ≤ u) (h1 : u < 1) (k : Nat) : 0 ≤ relErr u k := by
  have hp : 0 < (1 - u) ^ k := pow_pos (by linarith) k
  have : 1 ≤ 1 / (1 - u) ^ k := by rw [le_div_iff₀ hp, one_mul]; exact Near.pow_le_one' h0 h1 k
  unfold relErr
  linarith

omit F R in
theorem pow_up_le (h0 : 0 ≤ u) (h1 : u < 1) (c : Nat) : (1 + u) ^ c ≤ 1 / (1 - u) ^ c := by
  have hp : 0 < (1 - u) ^ c := pow_pos (by linarith) c
  rw [le_div_iff₀ hp, ← mul_pow]
  exact pow_le_one₀ (by nlinarith) (by nlinarith)

omit F R in
theorem grow_le (h0 : 0 ≤ u) (h1 : u < 1) (c k : Nat) : (1 + u) ^ c * (1 + relErr u k) ≤ 1 / (1 - u) ^ (c + k) := by
  have hp : 0 < (1 - u) ^ k := pow_pos (by linarith) k
  have : 1 + relErr u k = 1 / (1 - u) ^ k := by unfold relErr; ring
  rw [this, pow_add, ← one_div_mul_one_div]
  exact mul_le_mul_of_nonneg_right (pow_up_le h0 h1 c) (by positivity)

omit F R in
/-- A rounded value with one error more. -/
theorem term_err (h0 : 0 ≤ u) (h1 : u < 1) {k : Nat} {t x p : ℝ} (h : Near u k t x) (hp : |p - x| ≤ u * |x| + η) : |p - t| ≤ relErr u (k + 1) * |t| + η := by
  have h1u : 0 < 1 - u := by linarith
  have hpk : 0 < (1 - u) ^ k := pow_pos h1u k
  obtain ⟨s, e, s0, h2, h3⟩ := h.factor h1
  have hs : s ≤ 1 / (1 - u) ^ k := by rw [le_div_iff₀ hpk]; exact h3
  have hx : |x| = |t| * s := by rw [e, abs_mul, abs_of_pos s0]
  have hone : 1 + u ≤ 1 / (1 - u) := by rw [le_div_iff₀ h1u]; nlinarith
  have hq1 : 1 ≤ 1 / (1 - u) ^ k := by rw [le_div_iff₀ hpk, one_mul]; exact Near.pow_le_one' h0 h1 k
  have hxt : |x - t| ≤ (1 / (1 - u) ^ k - 1) * |t| := by
    rw [show x - t = t * (s - 1) by rw [e]; ring, abs_mul, mul_comm]
    apply mul_le_mul_of_nonneg_right _ (abs_nonneg t)
    rw [abs_le]
    constructor
    · have : 2 ≤ (1 - u) ^ k + 1 / (1 - u) ^ k := by
        have := sq_nonneg ((1 - u) ^ k - 1)
        rw [show (1 - u) ^ k + 1 / (1 - u) ^ k = (((1 - u) ^ k) ^ 2 + 1) / (1 - u) ^ k by field_simp, le_div_iff₀ hpk]
        nlinarith
      linarith
    · linarith
  have h4 : |p - t| ≤ |p - x| + |x - t| := by
    have := abs_add_le (p - x) (x - t)
    rwa [sub_add_sub_cancel] at this
  have h5 : u * |x| ≤ u * (1 / (1 - u) ^ k * |t|) := by
    rw [hx, mul_comm |t|]
    exact mul_le_mul_of_nonneg_left (mul_le_mul_of_nonneg_right hs (abs_nonneg t)) h0
  have h6 : (1 + u) * (1 / (1 - u) ^ k) - 1 ≤ relErr u (k + 1) := by
    unfold relErr
    rw [pow_succ, ← one_div_mul_one_div, mul_comm]
    have := mul_le_mul_of_nonneg_left hone (by positivity : 0 ≤ 1 / (1 - u) ^ k)
    linarith
  have h7 := mul_le_mul_of_nonneg_right h6 (abs_nonneg t)
  nlinarith

/-- A sum of at most `c` terms, each at most `B`. -/
structure Sm (u η B : ℝ) (k c : Nat) (S T a : ℝ) : Prop where
  sum : Summed u η (relErr u k) c (2 * c) S T a
  bound : T ≤ c * B

omit F R in
theorem Sm.zero {B : ℝ} : Sm u η B k 0 0 0 0 := ⟨Summed.zero, by simp⟩

theorem Span.eta_le : η ≤ 1 / 16384 := by
  have := F.ηlo
  have h1 := Span.lo_le F R
  have h4 : (1 : ℝ) ≤ b ^ 4 := one_le_pow₀ R.b1
  have h2 : 16 * lo ≤ 1 := by have := F.lo0; nlinarith
  have := mul_le_mul F.u1 (by linarith : lo ≤ 1 / 16) F.lo0.le (by norm_num)
  linarith

theorem Sm.size {c : Nat} {S T a : ℝ} (h : Sm u η (b ^ 4) k c S T a) (hc : c ≤ C) : |a| ≤ 3 * c * b ^ 4 := by
  have hs := h.sum.size
  have h0 := F.u0
  have h1 := F.lt1
  have hg := grow_le h0 h1 c k
  have hk : 2 * (((c + k : ℕ) : ℝ) * u) ≤ 1 := by
    have := R.errs
    have h1 : ((c + k : ℕ) : ℝ) ≤ ((C + k : ℕ) : ℝ) := by exact_mod_cast (by omega : c + k ≤ C + k)
    have := mul_le_mul_of_nonneg_right h1 h0
    linarith
  have hh := Near.half_le h0 h1 hk
  have hp : 0 < (1 - u) ^ (c + k) := pow_pos (by linarith) _
  have h2 : 1 / (1 - u) ^ (c + k) ≤ 2 := by rw [div_le_iff₀ hp]; linarith
  have hT : 0 ≤ T := (abs_nonneg S).trans h.sum.abs
  have hτ := relErr_nonneg h0 h1 k
  have hup : (1 + u) ^ c ≤ 2 := by
    have : (1 + u) ^ c * 1 ≤ (1 + u) ^ c * (1 + relErr u k) := mul_le_mul_of_nonneg_left (by linarith) (by positivity)
    linarith
  have hη := Span.eta_le F R
  have hb4 : (1 : ℝ) ≤ b ^ 4 := one_le_pow₀ R.b1
  have e1 : (1 + u) ^ c * (1 + relErr u k) * T ≤ 2 * (c * b ^ 4) := by
    refine le_trans (mul_le_mul_of_nonneg_right (hg.trans h2) hT) ?_
    have := h.bound
    linarith
  have e2 : ((2 * c : ℕ) : ℝ) * (1 + u) ^ c * η ≤ (2 * c) * 2 * (1 / 16384) := by
    push_cast
    apply mul_le_mul _ hη F.η0 (by positivity)
    exact mul_le_mul_of_nonneg_left hup (by positivity)
  have e3 : (c : ℝ) ≤ c * b ^ 4 := by nlinarith [Nat.cast_nonneg (α := ℝ) c]
  linarith

/-- A product is added to a sum. -/
theorem Sm.fma {c : Nat} {S T x : ℝ} {t g a : ℚ} (h : Sm u η (b ^ 4) k c S T a) (hc : c + 1 ≤ C) {l : Nat} (hl : l + 1 ≤ k) (hx : Near u l x ((t : ℝ) * g))
    (hb : |x| ≤ b ^ 4) : ∃ r : ℚ, A.fma (.fin t) (.fin g) (.fin a) = .fin r ∧ Sm u η (b ^ 4) k (c + 1) (S + x) (T + |x|) r := by
  have h0 := F.u0
  have h1 := F.lt1
  have hx := hx.mono h0 h1 (show l ≤ k - 1 by omega)
  have hk : 2 * (((k - 1 : ℕ) : ℝ) * u) ≤ 1 := by
    have := R.errs
    have h1 : ((k - 1 : ℕ) : ℝ) ≤ ((C + k : ℕ) : ℝ) := by exact_mod_cast (by omega : k - 1 ≤ C + k)
    have := mul_le_mul_of_nonneg_right h1 h0
    linarith
  obtain ⟨_, _, w3⟩ := hx.within h0 h1 hk
  have hsz := h.size F R (by omega)
  have hb4 : (1 : ℝ) ≤ b ^ 4 := one_le_pow₀ R.b1
  have hη := Span.eta_le F R
  have hu2 := F.u1
  have hhigh := R.high
  have hcC : (c : ℝ) + 1 ≤ C := by exact_mod_cast hc
  have hcb : ((c : ℝ) + 1) * b ^ 4 ≤ C * b ^ 4 := mul_le_mul_of_nonneg_right hcC (by positivity)
  have hc0 : 0 ≤ (c : ℝ) * b ^ 4 := by positivity
  obtain ⟨r, p, e, hp, hr⟩ := F.fma (t := t) (g := g) (a := a) (by nlinarith) (by nlinarith [abs_nonneg ((t : ℝ) * g)])
  refine ⟨r, e, ⟨?_, ?_⟩⟩
  · have hterm := term_err h0 h1 hx hp
    rw [show k - 1 + 1 = k by omega] at hterm
    exact h.sum.step h0 F.η0 (relErr_nonneg h0 h1 k) hterm hr
  · have := h.bound
    push_cast
    linarith

/-- A rounded product is subtracted from a sum. -/
theorem Sm.subMul {c : Nat} {S T x : ℝ} {t g a : ℚ} (h : Sm u η (b ^ 4) k c S T a) (hc : c + 1 ≤ C) {l : Nat} (hl : l + 1 ≤ k) (hx : Near u l x ((t : ℝ) * g))
    (hb : |x| ≤ b ^ 4) : ∃ r : ℚ, A.sub (.fin a) (A.mul (.fin t) (.fin g)) = .fin r ∧ Sm u η (b ^ 4) k (c + 1) (S + -x) (T + |-x|) r := by
  have h0 := F.u0
  have h1 := F.lt1
  have hx := hx.mono h0 h1 (show l ≤ k - 1 by omega)
  have hk : 2 * (((k - 1 : ℕ) : ℝ) * u) ≤ 1 := by
    have := R.errs
    have h1 : ((k - 1 : ℕ) : ℝ) ≤ ((C + k : ℕ) : ℝ) := by exact_mod_cast (by omega : k - 1 ≤ C + k)
    have := mul_le_mul_of_nonneg_right h1 h0
    linarith
  obtain ⟨_, _, w3⟩ := hx.within h0 h1 hk
  have hsz := h.size F R (by omega)
  have hb4 : (1 : ℝ) ≤ b ^ 4 := one_le_pow₀ R.b1
  have hη := Span.eta_le F R
  have hu2 := F.u1
  have hhigh := R.high
  have hcC : (c : ℝ) + 1 ≤ C := by exact_mod_cast hc
  have hcb : ((c : ℝ) + 1) * b ^ 4 ≤ C * b ^ 4 := mul_le_mul_of_nonneg_right hcC (by positivity)
  have hc0 : 0 ≤ (c : ℝ) * b ^ 4 := by positivity
  obtain ⟨p, e, hp⟩ := F.rnd (t * g) (by push_cast; nlinarith)
  push_cast at hp
  have hps : |(p : ℝ)| ≤ 3 * b ^ 4 := by
    have := abs_add_le ((p : ℝ) - t * g) (t * g)
    rw [sub_add_cancel] at this
    nlinarith [abs_nonneg ((t : ℝ) * g)]
  obtain ⟨r, e', hr⟩ := F.rnd (a + -p) (by
    push_cast
    have := abs_add_le (a : ℝ) (-p)
    rw [abs_neg] at this
    nlinarith)
  refine ⟨r, ?_, ⟨?_, ?_⟩⟩
  · show A.add (.fin a) (A.rnd (t * g)).neg = _
    rw [e]
    exact e'
  · have hterm := term_err h0 h1 hx hp
    rw [show k - 1 + 1 = k by omega] at hterm
    have hterm' : |-(p : ℝ) - -x| ≤ relErr u k * |-x| + η := by
      rw [abs_neg, show -(p : ℝ) - -x = -(p - x) by ring, abs_neg]; exact hterm
    push_cast at hr
    exact h.sum.step h0 F.η0 (relErr_nonneg h0 h1 k) hterm' hr
  · have := h.bound
    push_cast
    rw [abs_neg]
    linarith

/-- The sum of two sums. -/
theorem Sm.add {c c' : Nat} {S T S' T' : ℝ} {a a' : ℚ} (h : Sm u η (b ^ 4) k c S T a) (h' : Sm u η (b ^ 4) k c' S' T' a') (hc : c + c' + 1 ≤ C) :
    ∃ r : ℚ, A.add (.fin a) (.fin a') = .fin r ∧ Sm u η (b ^ 4) k (c + c' + 1) (S + S') (T + T') r := by
  have h0 := F.u0
  have h1 := F.lt1
  have hsz := h.size F R (by omega)
  have hsz' := h'.size F R (by omega)
  have hb4 : (1 : ℝ) ≤ b ^ 4 := one_le_pow₀ R.b1
  have hhigh := R.high
  have hcC : (c : ℝ) + c' + 1 ≤ C := by exact_mod_cast hc
  have hcb : ((c : ℝ) + c' + 1) * b ^ 4 ≤ C * b ^ 4 := mul_le_mul_of_nonneg_right hcC (by positivity)
  have hc0 : 0 ≤ (c : ℝ) * b ^ 4 := by positivity
  have hc0' : 0 ≤ (c' : ℝ) * b ^ 4 := by positivity
  obtain ⟨r, e, hr⟩ := F.add (a := a) (b := a') (by have := abs_add_le (a : ℝ) a'; nlinarith)
  refine ⟨r, e, ⟨?_, ?_⟩⟩
  · have hτ := relErr_nonneg h0 h1 k
    have g := (h.sum.mono h0 F.η0 hτ (show c ≤ c + c' by omega) le_rfl).add h0 F.η0 (h'.sum.mono h0 F.η0 hτ (show c' ≤ c + c' by omega) le_rfl) hr
    exact g.mono h0 F.η0 hτ le_rfl (by omega)
  · have := h.bound
    have := h'.bound
    push_cast
    nlinarith

end

end Rakau
