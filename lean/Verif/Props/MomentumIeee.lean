import Verif.Props.Momentum
import Verif.Props.TreeErr

/-!
C82 in IEEE arithmetic: total force, torque and energy of the results of the tree code, as computed in floating-point numbers.
-/
namespace Rakau
open Spec

section
variable {d : Nat} {e : ℝ} {x : Nat → Nat → ℚ}

/-- The sums of C65 are those of C57. -/
theorem newton_sums (n k : Nat) :
    (∀ j, ∑ l ∈ (Finset.range n).erase k, accelBy d e (fun j => (x j k : ℝ)) (fun j => (x j l : ℝ)) (x d l) j = accel d e (fun j l => (x j l : ℝ)) n k j) ∧
    ∑ l ∈ (Finset.range n).erase k, (x d l : ℝ) / (∑ j ∈ Finset.range d, ((x j l : ℝ) - x j k) ^ 2 + e) = accSize d e (fun j l => (x j l : ℝ)) n k ∧
    ∑ l ∈ (Finset.range n).erase k, energyBy d e (fun j => (x j k : ℝ)) (x d k) (fun j => (x j l : ℝ)) (x d l) = energy d e (fun j l => (x j l : ℝ)) n k ∧
    ∑ l ∈ (Finset.range n).erase k, (x d k : ℝ) * (x d l / √(∑ j ∈ Finset.range d, ((x j l : ℝ) - x j k) ^ 2 + e)) = -energy d e (fun j l => (x j l : ℝ)) n k := by
  have hE : (Finset.range n).erase k = (Finset.range n).filter (· ≠ k) := by
    ext l; simp [and_comm]
  rw [hE]
  refine ⟨fun j => rfl, rfl, ?_, ?_⟩
  · unfold energy energyBy
    rw [Finset.sum_neg_distrib]
  · unfold energy
    rw [neg_neg]
    exact Finset.sum_congr rfl fun l _ => by rw [mul_div_assoc]

end

section
variable {f : Format} {fused : Bool} {simd : Option (Simd ℚ)} {mac : Mac} {w d : Nat} {s : TS (rakauEnv (f.ieee fused) simd mac w d)} {x : Nat → Nat → ℚ} {b : ℝ} {B t eps : ℚ}

/-- C82 in IEEE arithmetic (any format, either acceptance criterion, with or without vector kernels and estimates of inverse square roots), for positive masses and data in range: the total force and the total torque of
the computed accelerations vanish, and the sum of the computed potentials is twice the binding energy, up to the constants of C65. `ca` and `cp` have a part of second order in `κ ≈ √d θ` and a part proportional to
rounding errors, `c0` accounts for underflow. The sums are those of the computed numbers in real arithmetic; particles are in the order of the tree. -/
theorem C82_ieee {κ ρ : ℝ} (T : TreeIn s x b B t eps κ ρ) (hf : f.Std) (hS : ∀ S, simd = some S → S.Adds (f.ieee fused)) (hs : Supported w d) (h : Reach _ s) (hz : s.n * cbits w d < 2 ^ 64)
    {rsqrt : Option (Fl ℚ → Fl ℚ)} {over : Overshift} (ho : over.Small) (hr : s.n + (⟨f.ieee fused, simd, rsqrt⟩ : Hw ℚ).pad < 2 ^ 64)
    (hx : IsData d s.n s.parts x) (hrep : ∀ j < d, ∀ k < s.n, (f.ieee fused).Repr (x j k))
    {κ' K : Nat} (R : Span f.unit f.tiny f.minNormal ((2 ^ (f.emax - 1) : ℚ) : ℝ) b d κ' K (s.n + (⟨f.ieee fused, simd, rsqrt⟩ : Hw ℚ).pad + 2))
    (he : 0 ≤ eps) {g : ℚ} (hg : 3 * (s.n + (⟨f.ieee fused, simd, rsqrt⟩ : Hw ℚ).pad + 2 : ℕ) * b ^ 4 * |(g : ℝ)| ≤ ((2 ^ (f.emax - 1) : ℚ) : ℝ))
    (hest : ∀ r, ((⟨f.ieee fused, simd, rsqrt⟩ : Hw ℚ).mode d).fast = some r → EstimateOk f.unit b κ' r)
    (Q : Quant) {split : List (Fl ℚ)} (hsp : checkSplit split = .ok ()) (ordered : Bool) {order : List Nat} (hord : order.Perm (List.range s.crit.length))
    {out : List (Res ℚ)} (hout : out.length = s.n) {N : ℕ} (hN : N = s.n + (⟨f.ieee fused, simd, rsqrt⟩ : Hw ℚ).pad + 1 + K) {ca cp c0 : ℝ}
    (hca : ca = (accErr κ + (3 * d + 1) * ρ + 2 * ((s.n + lanes simd d : ℕ) * f.unit)) * (1 + κ) ^ 2 + 4 * (1 + κ) ^ 2 * (N * f.unit))
    (hcp : cp = (κ ^ 2 / (1 - κ) + d * ρ + 2 * ((s.n + lanes simd d : ℕ) * f.unit)) * (1 + κ) + 4 * (1 + κ) * (N * f.unit)) (hc0 : c0 = (4 * N * |(g : ℝ)| + 1) * f.tiny) :
    ∃ (out' : List (Res ℚ)) (a : Nat → Nat → ℚ) (p : Nat → ℚ), s.accPot rsqrt over Q ordered (.fin t) (.fin g) (.fin eps) split order out = .ok out' ∧
      (∀ k < s.n, ∃ i, (if ordered then s.perm[k]? else some k) = some i ∧ out'[i]? = some (mkRes Q d (a k, p k))) ∧
      (∀ j < d, |∑ k ∈ Finset.range s.n, (x d k : ℝ) * a k j| ≤
        ∑ k ∈ Finset.range s.n, (x d k : ℝ) * (ca * (|(g : ℝ)| * accSize d ((eps : ℝ) ^ 2) (fun j l => (x j l : ℝ)) s.n k) + c0)) ∧
      (∀ i < d, ∀ j < d, |∑ k ∈ Finset.range s.n, (x d k : ℝ) * (x i k * a k j - x j k * a k i)| ≤
        ∑ k ∈ Finset.range s.n, (x d k : ℝ) * (|(x i k : ℝ)| + |(x j k : ℝ)|) * (ca * (|(g : ℝ)| * accSize d ((eps : ℝ) ^ 2) (fun j l => (x j l : ℝ)) s.n k) + c0)) ∧
      |∑ k ∈ Finset.range s.n, (p k : ℝ) - 2 * g * binding d ((eps : ℝ) ^ 2) (fun j l => (x j l : ℝ)) s.n| ≤
        cp * |(g : ℝ)| * (-2 * binding d ((eps : ℝ) ^ 2) (fun j l => (x j l : ℝ)) s.n) + s.n * c0 := by
  obtain ⟨out', o1, o2⟩ := C65_tree T hf hS hs h hz ho hr hx hrep R he hg hest Q hsp ordered hord hout
  have hm : ∀ k < s.n, (0 : ℝ) ≤ x d k := fun k hk => (T.mass_pos hk).le
  generalize hX : (fun j l => (x j l : ℝ)) = X
  have hXj : ∀ j l, (x j l : ℝ) = X j l := fun j l => by rw [← hX]
  have : ∀ k, ∃ v : Val ℚ, k < s.n → (∃ i, (if ordered then s.perm[k]? else some k) = some i ∧ out'[i]? = some (mkRes Q d v)) ∧
      (∀ j < d, |(v.1 j : ℝ) - g * accel d ((eps : ℝ) ^ 2) X s.n k j| ≤ ca * (|(g : ℝ)| * accSize d ((eps : ℝ) ^ 2) X s.n k) + c0) ∧
      |(v.2 : ℝ) - g * energy d ((eps : ℝ) ^ 2) X s.n k| ≤ cp * (|(g : ℝ)| * -energy d ((eps : ℝ) ^ 2) X s.n k) + c0 := by
    intro k
    by_cases hk : k < s.n
    · obtain ⟨i, v, i1, i2, b1, b2⟩ := o2 k hk
      obtain ⟨n1, n2, n3, n4⟩ := newton_sums (d := d) (e := (eps : ℝ) ^ 2) (x := x) s.n k
      refine ⟨v, fun _ => ⟨⟨i, i1, i2⟩, fun j hj => ?_, ?_⟩⟩
      · have := b1 j hj
        rw [n1, n2, ← hN, ← hca, ← hc0, hX] at this
        exact this
      · rw [n3, n4, ← hN, ← hcp, ← hc0, hX] at b2
        exact b2
    · exact ⟨(fun _ => 0, 0), fun h => absurd h hk⟩
  choose v hv using this
  simp only [hXj] at hm ⊢
  refine ⟨out', fun k => (v k).1, fun k => (v k).2, o1, fun k hk => (hv k hk).1, fun j hj => ?_, fun i hi j hj => ?_, ?_⟩
  · have e1 := sum_close (c := X d) (n := s.n) (fun k hk => (hv k hk).2.1 j hj)
    have z : ∑ k ∈ Finset.range s.n, X d k * (g * accel d ((eps : ℝ) ^ 2) X s.n k j) = 0 := by
      rw [Finset.sum_congr rfl (fun k _ => mul_left_comm (X d k) (g : ℝ) _), ← Finset.mul_sum, accel_total, mul_zero]
    rw [z, sub_zero] at e1
    exact e1.trans (le_of_eq (Finset.sum_congr rfl fun k hk => by rw [abs_of_nonneg (hm k (Finset.mem_range.1 hk))]))
  · have e1 := sum_close (c := X d) (n := s.n) (f := fun k => X i k * (v k).1 j - X j k * (v k).1 i)
      (g := fun k => g * (X i k * accel d ((eps : ℝ) ^ 2) X s.n k j - X j k * accel d ((eps : ℝ) ^ 2) X s.n k i))
      (B := fun k => (|X i k| + |X j k|) * (ca * (|(g : ℝ)| * accSize d ((eps : ℝ) ^ 2) X s.n k) + c0)) (fun k hk => by
        have b1 := (hv k hk).2.1 j hj
        have b2 := (hv k hk).2.1 i hi
        rw [show X i k * ((v k).1 j : ℝ) - X j k * (v k).1 i - g * (X i k * accel d ((eps : ℝ) ^ 2) X s.n k j - X j k * accel d ((eps : ℝ) ^ 2) X s.n k i) =
          X i k * ((v k).1 j - g * accel d ((eps : ℝ) ^ 2) X s.n k j) - X j k * ((v k).1 i - g * accel d ((eps : ℝ) ^ 2) X s.n k i) by ring]
        refine (abs_sub _ _).trans ?_
        rw [abs_mul, abs_mul, add_mul]
        exact add_le_add (mul_le_mul_of_nonneg_left b1 (abs_nonneg _)) (mul_le_mul_of_nonneg_left b2 (abs_nonneg _)))
    have z : ∑ k ∈ Finset.range s.n, X d k * (g * (X i k * accel d ((eps : ℝ) ^ 2) X s.n k j - X j k * accel d ((eps : ℝ) ^ 2) X s.n k i)) = 0 := by
      rw [Finset.sum_congr rfl (fun k _ => mul_left_comm (X d k) (g : ℝ) _), ← Finset.mul_sum, torque_total, mul_zero]
    rw [z, sub_zero] at e1
    refine e1.trans (le_of_eq (Finset.sum_congr rfl fun k hk => ?_))
    rw [abs_of_nonneg (hm k (Finset.mem_range.1 hk))]
    ring
  · have e1 := sum_close (c := fun _ => 1) (n := s.n) (fun k hk => (hv k hk).2.2)
    simp only [one_mul, abs_one] at e1
    rw [← Finset.mul_sum, energy_total, Finset.sum_add_distrib, ← Finset.mul_sum, ← Finset.mul_sum, Finset.sum_neg_distrib, energy_total] at e1
    simp only [Finset.sum_const, Finset.card_range, nsmul_eq_mul] at e1
    have q1 : 2 * (g : ℝ) * binding d ((eps : ℝ) ^ 2) X s.n = g * (2 * binding d ((eps : ℝ) ^ 2) X s.n) := by ring
    rw [q1]
    refine e1.trans (le_of_eq ?_)
    ring

end

set_option exponentiation.threshold 2000 in
/-- The total force of the sample of C65, in double precision with AVX, is less than 20% of the sum of the sizes of the forces. -/
example : ∃ (out' : List (Res ℚ)) (a : Nat → Nat → ℚ) (p : Nat → ℚ),
    farS.accPot none (maskedShift 32) .acc false (.fin (1 / 16)) (.fin 3) (.fin 0) [] [2, 0, 1] (List.replicate 3 ⟨[], []⟩) = .ok out' ∧
    (∀ k < 3, out'[k]? = some (mkRes .acc 3 (a k, p k))) ∧ ∀ j < 3, |(a 0 j : ℝ) + 3 * a 1 j + 65 * a 2 j| ≤ 1 / 5 * (3 * (2 * (3 / 7500 + 65 / 8112 + 3 * 65 / 12))) := by
  have hc : farS.crit.length = 3 := by decide +kernel
  have hpad : (⟨binary64.ieee true, some avx64, none⟩ : Hw ℚ).pad = 3 := by decide +kernel
  have hrep : ∀ k < 3, ∀ j < 3, (binary64.ieee true).rnd (farX j k) = .fin (farX j k) := by decide +kernel
  obtain ⟨out', a, p, o1, o2, o3, _⟩ := C82_ieee far_in (κ' := 0) (K := 29) (rsqrt := none) (over := maskedShift 32) (g := 3) (split := []) (order := [2, 0, 1]) (out := List.replicate 3 ⟨[], []⟩) binary64_std
    (by rintro S ⟨⟩; exact avx64_adds) ⟨.inl rfl, by decide⟩ farS_reach (by decide +kernel) (maskedShift_small _) (by decide +kernel)
    (by rw [far_n]; exact far_data) (by rw [far_n]; exact fun j hj k hk => hrep k hk j hj)
    (span64 (by norm_num) le_rfl (by norm_num) (by norm_num) (by rw [far_n, hpad]; norm_num)) le_rfl (by rw [far_n, hpad, far_hi]; norm_num)
    (by intro r hr; cases hr) .acc rfl false (by rw [hc]; decide) (by rw [far_n]; rfl) rfl rfl rfl rfl
  rw [far_n] at o2
  refine ⟨out', a, p, o1, fun k hk => ?_, fun j hj => ?_⟩
  · obtain ⟨i, i1, i2⟩ := o2 k hk
    obtain rfl : k = i := by simpa using i1
    exact i2
  · have := o3 j hj
    have ht : binary64.tiny ≤ (1 / 2 : ℚ) ^ 60 := by norm_num [Format.tiny, binary64]
    have ht' : ((binary64.tiny : ℚ) : ℝ) ≤ (1 / 2) ^ 60 := ((Rat.cast_le (K := ℝ)).2 ht).trans (by push_cast; norm_num)
    have f0 : (Finset.range 3).filter (· ≠ 0) = {1, 2} := by decide
    have f1 : (Finset.range 3).filter (· ≠ 1) = {0, 2} := by decide
    have f2 : (Finset.range 3).filter (· ≠ 2) = {0, 1} := by decide
    rw [far_n, hpad, unit64] at this
    simp only [accSize, Finset.sum_range_succ (n := 2), Finset.sum_range_succ (n := 1), Finset.sum_range_succ (n := 0), Finset.sum_range_zero, f0, f1, f2] at this
    norm_num [Finset.sum_pair, farX, Finset.sum_range_succ, lanes, avx64, accErr] at this ⊢
    norm_num at ht'
    linarith

end Rakau
