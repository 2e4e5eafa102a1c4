import Verif.Proof.TreeErr
import Verif.Props.Error

/-! The error of the tree in rounded arithmetic: sums over the bodies that stand for the particles. -/
namespace Rakau
open Spec

section Real
variable {d : Nat} {e κ ρ ν R : ℝ} {y c : Nat → ℝ} {z : Nat → Nat → ℝ} {m r : Nat → ℝ} {S : Finset Nat} {mh : ℝ}

theorem frac_le {a q : ℝ} {n : Nat} (ha : 0 ≤ a) (hR : 0 < R) {r : ℝ} (hr : 0 < r) (h : r ≤ q * R) : a / R ^ n ≤ q ^ n * (a / r ^ n) := by
  rw [mul_div_assoc', div_le_div_iff₀ (by positivity) (by positivity)]
  have h1 : r ^ n ≤ (q * R) ^ n := pow_le_pow_left₀ hr.le h n
  rw [mul_pow] at h1
  have := mul_le_mul_of_nonneg_left h1 ha
  linarith

/-- The acceleration due to a node with computed mass `mh` and centre of mass `c`, compared with those due to its particles. -/
theorem node_acc (he : 0 ≤ e) (hm : ∀ l ∈ S, 0 ≤ m l) (hc : ∀ j < d, |∑ l ∈ S, m l * (z l j - c j)| ≤ ρ * R * ∑ l ∈ S, m l) (hR : 0 < R) (hR2 : R * R = D2 d e y c)
    (hr : ∀ l ∈ S, 0 < r l ∧ r l * r l = D2 d e y (z l)) (h0 : 0 ≤ κ) (h1 : κ < 1) (hz : ∀ l ∈ S, ∑ j ∈ Finset.range d, (z l j - c j) ^ 2 ≤ (κ * R) ^ 2) (hρ : 0 ≤ ρ)
    (hν0 : 0 ≤ ν) (hν : ν ≤ 1) (hmh : |mh - ∑ l ∈ S, m l| ≤ ν * ∑ l ∈ S, m l) {j : Nat} (hj : j < d) :
    |mh * (c j - y j) / R ^ 3 - ∑ l ∈ S, m l * (z l j - y j) / r l ^ 3| ≤ (accErr κ + (3 * d + 1) * ρ + ν) * (1 + κ) ^ 2 * ∑ l ∈ S, m l / r l ^ 2 ∧
      |mh * (c j - y j) / R ^ 3| ≤ 2 * (1 + κ) ^ 2 * ∑ l ∈ S, m l / r l ^ 2 := by
  have hmono := monopole_acc_at he hm hc hR hR2 hr h0 h1 hz hj
  have hle : (∑ l ∈ S, m l) / R ^ 2 ≤ (1 + κ) ^ 2 * ∑ l ∈ S, m l / r l ^ 2 := by
    rw [Finset.sum_div, Finset.mul_sum]
    apply Finset.sum_le_sum
    intro l hl
    obtain ⟨r0, r1⟩ := hr l hl
    exact frac_le (hm l hl) hR r0 (len_le he hR hR2 r0 r1 h0 (hz l hl))
  have hcy : |c j - y j| ≤ R := by
    rw [← abs_of_pos hR]
    apply sq_le_sq.1
    have := Finset.single_le_sum (f := fun j => (c j - y j) ^ 2) (fun j _ => sq_nonneg _) (Finset.mem_range.2 hj)
    have h2 : R ^ 2 = ∑ j ∈ Finset.range d, (c j - y j) ^ 2 + e := by rw [sq, hR2]; rfl
    rw [h2]
    linarith
  have hM0 : 0 ≤ ∑ l ∈ S, m l := Finset.sum_nonneg hm
  set M := ∑ l ∈ S, m l
  have hone : ∀ a : ℝ, |a * (c j - y j) / R ^ 3| ≤ |a| / R ^ 2 := by
    intro a
    rw [abs_div, abs_mul, abs_of_pos (pow_pos hR 3), div_le_div_iff₀ (by positivity) (by positivity)]
    have := mul_le_mul_of_nonneg_left hcy (mul_nonneg (abs_nonneg a) (sq_nonneg R))
    have e1 : |a| * R ^ 3 = |a| * R ^ 2 * R := by ring
    rw [e1]
    linarith
  have hE : 0 ≤ accErr κ + (3 * d + 1) * ρ := add_nonneg (accErr_nonneg h1) (by positivity)
  constructor
  · have e1 : mh * (c j - y j) / R ^ 3 - ∑ l ∈ S, m l * (z l j - y j) / r l ^ 3 =
        (mh - M) * (c j - y j) / R ^ 3 - (∑ l ∈ S, m l * (z l j - y j) / r l ^ 3 - M * (c j - y j) / R ^ 3) := by ring
    rw [e1]
    refine (abs_sub _ _).trans ?_
    have h2 := (hone (mh - M)).trans (div_le_div_of_nonneg_right hmh (sq_nonneg R))
    have h3 : (accErr κ + (3 * d + 1) * ρ + ν) * (M / R ^ 2) ≤ (accErr κ + (3 * d + 1) * ρ + ν) * ((1 + κ) ^ 2 * ∑ l ∈ S, m l / r l ^ 2) :=
      mul_le_mul_of_nonneg_left hle (by linarith)
    rw [mul_div_assoc ν] at h2
    linarith
  · refine (hone mh).trans ?_
    have h2 : |mh| ≤ 2 * M := by
      have h3 : |mh| ≤ |mh - M| + |M| := by
        have := abs_add_le (mh - M) M
        rwa [sub_add_cancel] at this
      rw [abs_of_nonneg hM0] at h3
      have := mul_le_mul_of_nonneg_right hν hM0
      linarith
    have h4 := div_le_div_of_nonneg_right h2 (sq_nonneg R)
    rw [mul_div_assoc] at h4
    linarith

/-- The same for the potential. -/
theorem node_pot (he : 0 ≤ e) (hm : ∀ l ∈ S, 0 ≤ m l) (hc : ∀ j < d, |∑ l ∈ S, m l * (z l j - c j)| ≤ ρ * R * ∑ l ∈ S, m l) (hR : 0 < R) (hR2 : R * R = D2 d e y c)
    (hr : ∀ l ∈ S, 0 < r l ∧ r l * r l = D2 d e y (z l)) (h0 : 0 ≤ κ) (h1 : κ < 1) (hz : ∀ l ∈ S, ∑ j ∈ Finset.range d, (z l j - c j) ^ 2 ≤ (κ * R) ^ 2) (hρ : 0 ≤ ρ)
    (hν0 : 0 ≤ ν) (hν : ν ≤ 1) (hmh : |mh - ∑ l ∈ S, m l| ≤ ν * ∑ l ∈ S, m l) :
    |mh / R - ∑ l ∈ S, m l / r l| ≤ (κ ^ 2 / (1 - κ) + d * ρ + ν) * (1 + κ) * ∑ l ∈ S, m l / r l ∧ |mh / R| ≤ 2 * (1 + κ) * ∑ l ∈ S, m l / r l := by
  have hmono := monopole_error_at he hm hc hR hR2 hr h0 h1 hz
  have hle : (∑ l ∈ S, m l) / R ≤ (1 + κ) * ∑ l ∈ S, m l / r l := by
    rw [Finset.sum_div, Finset.mul_sum]
    apply Finset.sum_le_sum
    intro l hl
    obtain ⟨r0, r1⟩ := hr l hl
    have := frac_le (n := 1) (hm l hl) hR r0 (len_le he hR hR2 r0 r1 h0 (hz l hl))
    simpa using this
  have hM0 : 0 ≤ ∑ l ∈ S, m l := Finset.sum_nonneg hm
  set M := ∑ l ∈ S, m l
  have hE : 0 ≤ κ ^ 2 / (1 - κ) + d * ρ := add_nonneg (div_nonneg (sq_nonneg _) (by linarith)) (by positivity)
  constructor
  · have e1 : mh / R - ∑ l ∈ S, m l / r l = (mh - M) / R - (∑ l ∈ S, m l / r l - M / R) := by ring
    rw [e1]
    refine (abs_sub _ _).trans ?_
    have h2 : |(mh - M) / R| ≤ ν * M / R := by
      rw [abs_div, abs_of_pos hR]
      exact div_le_div_of_nonneg_right hmh hR.le
    have h3 : (κ ^ 2 / (1 - κ) + d * ρ + ν) * (M / R) ≤ (κ ^ 2 / (1 - κ) + d * ρ + ν) * ((1 + κ) * ∑ l ∈ S, m l / r l) :=
      mul_le_mul_of_nonneg_left hle (by linarith)
    rw [mul_div_assoc] at h2
    linarith
  · rw [abs_div, abs_of_pos hR]
    have h2 : |mh| ≤ 2 * M := by
      have h3 : |mh| ≤ |mh - M| + |M| := by
        have := abs_add_le (mh - M) M
        rwa [sub_add_cancel] at this
      rw [abs_of_nonneg hM0] at h3
      have := mul_le_mul_of_nonneg_right hν hM0
      linarith
    have h4 := div_le_div_of_nonneg_right h2 hR.le
    rw [mul_div_assoc] at h4
    linarith

end Real

section Node
variable {f : Format} {fused : Bool} {simd : Option (Simd ℚ)} {mac : Mac} {w d : Nat} {s : TS (rakauEnv (f.ieee fused) simd mac w d)}

/-- A node is accepted only if the check passes for every particle of the critical node. -/
theorem accepts_at (hS : SimdPos simd) (hs : Supported w d) (h : Reach _ s) (hz : s.n * cbits w d < 2 ^ 64) {x : Nat → Nat → ℚ} (hx : IsData d s.n s.parts x)
    {rsqrt : Option (Fl ℚ → Fl ℚ)} {over : Overshift} {Q : Quant} {mv g e : Fl ℚ} {cn : CNode} (hn : cn.fin ≤ s.n) {k : Nat} (h1 : cn.beg ≤ k) (h2 : k < cn.fin) {i : Nat}
    (ha : (s.force rsqrt over Q mv g e).accepts (cn.fin - cn.beg) ((s.force rsqrt over Q mv g e).slot cn) i = true) :
    (s.force rsqrt over Q mv g e).failsAt i (mkPt d (fun j => x j k) (x d k)) = false := by
  have hok := force_ok (s := s) hS hs h hz rsqrt over Q mv g e
  have hbp : 0 < (⟨f.ieee fused, simd, rsqrt⟩ : Hw ℚ).batch d := hok.hw.batch_pos d
  unfold Force.accepts at ha
  rw [decide_eq_true_eq] at ha
  have hl := div_steps (b := (⟨f.ieee fused, simd, rsqrt⟩ : Hw ℚ).batch d) hbp (show k - cn.beg < cn.fin - cn.beg by omega)
  rw [Nat.div_lt_iff_lt_mul hbp] at hl
  have := ha _ hl
  have e1 : (s.force rsqrt over Q mv g e).slot cn (k - cn.beg) = mkPt d (fun j => x j k) (x d k) := by
    unfold Force.slot
    rw [if_pos (by omega), show cn.beg + (k - cn.beg) = k by omega]
    exact Option.some.inj ((Force.pt_eq hok (show k < s.n by omega)).symm.trans (ptAt_data hx (by omega)))
  rwa [e1] at this

variable {x : Nat → Nat → ℚ} {b : ℝ} {B t eps : ℚ} (T : BoxIn s x b B t eps)
include T

/-- The stored mass and centre of mass of a node. -/
theorem BoxIn.stored (hf : f.Std) (hS : ∀ S, simd = some S → S.Adds (f.ieee fused)) (hs : Supported w d) (h : Reach _ s) (hz : s.n * cbits w d < 2 ^ 64) (hx : IsData d s.n s.parts x)
    (hlo : 16 * (f.minNormal : ℝ) * b ^ 4 ≤ 1) {i : Nat} (hi : i < s.tree.length) :
    ∃ (hp : i < s.props.length), s.props[i].mass = .fin (s.cm i) ∧ s.props[i].com = Arr d (fun j => .fin (s.cx i j)) ∧ (∀ j < d, (f.ieee fused).Repr (s.cx i j)) ∧
      |(s.cm i : ℝ) - ∑ k ∈ Finset.Ico s.tree[i].beg s.tree[i].fin, (x d k : ℝ)| ≤
        2 * ((s.n + lanes simd d : ℕ) * f.unit) * ∑ k ∈ Finset.Ico s.tree[i].beg s.tree[i].fin, (x d k : ℝ) ∧ Rng b 1 (s.cm i : ℝ) ∧ 0 < (s.cm i : ℝ) ∧
      (∀ j < d, |∑ l ∈ Finset.Ico s.tree[i].beg s.tree[i].fin, (x d l : ℝ) * (x j l - s.cx i j)| ≤
        24 * ((s.n + lanes simd d + 1 : ℕ) * (f.unit : ℝ)) * B * ∑ k ∈ Finset.Ico s.tree[i].beg s.tree[i].fin, (x d k : ℝ)) ∧
      (∀ l, s.tree[i].beg ≤ l → l < s.tree[i].fin → ∀ j < d, |(x j l : ℝ) - s.cx i j| ≤ B / 2 ^ s.tree[i].level + 24 * ((s.n + lanes simd d + 1 : ℕ) * (f.unit : ℝ)) * B) ∧
      ∀ j < d, |(s.cx i j : ℝ)| ≤ B := by
  obtain ⟨hp, m, c, a1, a2, a3, a4, a5, a6, a7, a8, a9⟩ := T.node hf hS hs h hz hx hlo hi
  have e1 : s.cm i = m := by
    unfold TS.cm
    rw [List.getElem?_eq_getElem hp, Option.map_some, Option.getD_some, a1]
    rfl
  have e2 : ∀ j < d, s.cx i j = c j := by
    intro j hj
    unfold TS.cx
    rw [List.getElem?_eq_getElem hp, Option.map_some, Option.getD_some, a2, List.getD_eq_getElem?_getD, arr_get hj]
    rfl
  rw [e1]
  refine ⟨hp, a1, ?_, fun j hj => by rw [e2 j hj]; exact a3 j hj, a4, a5, a6, fun j hj => by rw [e2 j hj]; exact a7 j hj, fun l l1 l2 j hj => by rw [e2 j hj]; exact a8 l l1 l2 j hj,
    fun j hj => by rw [e2 j hj]; exact a9 j hj⟩
  rw [a2]
  exact List.map_congr_left fun j hj => by rw [e2 j (List.mem_range.1 hj)]

/-- The distance of a particle and an accepted node. -/
theorem BoxIn.far_node (hf : f.Std) (hs : Supported w d) (h : Reach _ s) (hx : IsData d s.n s.parts x) {c : Nat → ℝ} (hc : ∀ j < d, |c j| ≤ B) {k : Nat} (hk : k < s.n) :
    ∑ j ∈ Finset.range d, (c j - x j k) ^ 2 + (eps : ℝ) ^ 2 ≤ b ^ 2 := by
  have B0 := T.box0
  have h1 : ∑ j ∈ Finset.range d, (c j - x j k) ^ 2 ≤ d * (2 * (B : ℝ)) ^ 2 := by
    apply sum_sq_le (v := fun j => c j - x j k)
    intro j hj
    have h1 := abs_le.1 (hc j hj)
    have h2 := abs_le.1 (T.coord hf hs h hx hk hj)
    rw [abs_le]
    constructor <;> linarith
  have h2 := T.far
  have h3 := sq_nonneg ((B : ℝ) / t)
  have h4 : 0 ≤ (d : ℝ) * (B : ℝ) ^ 2 := by positivity
  linarith

/-- A node that passes the check of a kernel for a particle: the ranges, and the distance compared with the size. -/
theorem BoxIn.passed (hf : f.Std) (hS : ∀ S, simd = some S → S.Adds (f.ieee fused)) (hs : Supported w d) (h : Reach _ s) (hz : s.n * cbits w d < 2 ^ 64) (hx : IsData d s.n s.parts x)
    (hrep : ∀ j < d, ∀ k < s.n, (f.ieee fused).Repr (x j k)) {κ' K C : Nat} (R : Span f.unit f.tiny f.minNormal ((2 ^ (f.emax - 1) : ℚ) : ℝ) b d κ' K C)
    {mv : ℚ} (hmv : macValue (f.ieee fused) mac (.fin t) = .fin mv) {k : Nat} (hkn : k < s.n) {i : Nat} (hi : i < s.tree.length) (hp : i < s.props.length)
    {M : Mode ℚ} {fu fl : Bool} (hM : M.A = f.ieee fu) (hvec : M.vec = true → d = 3)
    (ha : (macLh (f.ieee fl) mac (.fin mv) s.props[i]).ge (plainD2 M (diffs M.A (Arr d (fun j => .fin (x j k))) s.props[i].com)) = false) :
    (∃ pr, s.props[i]? = some pr ∧ pr.com = Arr d (fun j => .fin (s.cx i j)) ∧ pr.mass = .fin (s.cm i)) ∧
      PairIn (f.ieee fu) b d ((eps : ℝ) ^ 2) (fun j => x j k) (x d k) (s.cx i) (s.cm i) ∧
      (B : ℝ) / 2 ^ s.tree[i].level ≤ t * (1 + (d + 14 : ℕ) * f.unit) * √(D2 d ((eps : ℝ) ^ 2) (fun j => (x j k : ℝ)) (fun j => (s.cx i j : ℝ))) := by
  have F := Format.ieee_model hf fused
  have b1 := R.b1
  have hd := hs.dim.1
  obtain ⟨_, a1, a2, a3, a4, a5, a6, a7, a8, a9⟩ := T.stored hf hS hs h hz hx (Span.lo_le F R) hi
  have hfar := T.far_node hf hs h hx a9 hkn
  have e0 := sq_nonneg (eps : ℝ)
  obtain ⟨_, _, _, _, p, p1, p2, p3, p4, _⟩ := reach_node (rakauEnv_ok (f.ieee fused) simd mac hs) h hz hi
  have p2 : p.length ≤ cbits w d := p2
  have hdim := T.dim_in hd (l := s.tree[i].level) (by rw [p4]; exact p2)
  have key := passed_dim hf hs h hz R T.box T.theta hmv hi hdim (y := fun j => x j k) (fun j hj => hrep j hj k hkn) a3 hp a2 (by linarith) hM hvec ha
  have t0 := T.theta.pos b1
  have d0 := hdim.pos b1
  have hD : ∑ j ∈ Finset.range d, ((s.cx i j : ℝ) - x j k) ^ 2 ≤ D2 d ((eps : ℝ) ^ 2) (fun j => (x j k : ℝ)) (fun j => (s.cx i j : ℝ)) := by unfold D2; linarith
  set D := D2 d ((eps : ℝ) ^ 2) (fun j => (x j k : ℝ)) (fun j => (s.cx i j : ℝ))
  have hu : ((d + 14 : ℕ) : ℝ) * f.unit ≤ 1 := by
    have := R.errs
    have h1 : ((d + 14 : ℕ) : ℝ) ≤ ((C + K : ℕ) : ℝ) := by have := R.kd; exact_mod_cast (by omega : d + 14 ≤ C + K)
    have := mul_le_mul_of_nonneg_right h1 F.u0
    have : 0 ≤ ((d + 14 : ℕ) : ℝ) * f.unit := mul_nonneg (by positivity) F.u0
    linarith
  have hu0 : 0 ≤ ((d + 14 : ℕ) : ℝ) * f.unit := mul_nonneg (by positivity) F.u0
  have key2 : ((B : ℝ) / 2 ^ s.tree[i].level) ^ 2 ≤ (t * (1 + (d + 14 : ℕ) * f.unit)) ^ 2 * D := key.trans (mul_le_mul_of_nonneg_left hD (sq_nonneg _))
  have D0 : 0 ≤ D := le_trans (Finset.sum_nonneg fun j _ => sq_nonneg _) hD
  have hmain : (B : ℝ) / 2 ^ s.tree[i].level ≤ t * (1 + (d + 14 : ℕ) * f.unit) * √D := by
    apply le_of_sq_le_sq _ (by positivity)
    rw [mul_pow, Real.sq_sqrt D0]
    exact key2
  refine ⟨⟨s.props[i], List.getElem?_eq_getElem hp, a2, a1⟩, ?_, hmain⟩
  refine ⟨fun j hj => hrep j hj k hkn, a3, ?_, hfar, ⟨.inr ?_, ?_⟩, a5⟩
  · have h1 : 2 * (t : ℝ) ≤ b * ((B : ℝ) / 2 ^ s.tree[i].level) := by
      refine T.step.trans (mul_le_mul_of_nonneg_left ?_ (by linarith))
      exact div_le_div_of_nonneg_left T.box0.le (by positivity) (pow_le_pow_right₀ (by norm_num) (by rw [p4]; exact p2))
    have h2 : 2 * (t : ℝ) ≤ b * (2 * t * √D) := by
      refine h1.trans (mul_le_mul_of_nonneg_left (hmain.trans ?_) (by linarith))
      apply mul_le_mul_of_nonneg_right _ (Real.sqrt_nonneg _)
      nlinarith
    have h3 : 1 ≤ b * √D := by
      have : (2 * (t : ℝ)) * 1 ≤ 2 * t * (b * √D) := by linarith
      exact le_of_mul_le_mul_left this (by linarith)
    show 1 ≤ b ^ 2 * D
    have h4 := one_le_pow₀ h3 (n := 2)
    rwa [mul_pow, Real.sq_sqrt D0] at h4
  · have := T.mass k hkn
    rw [pow_one, abs_of_pos (T.mass_pos hkn)]
    linarith
  · rw [pow_one, abs_of_pos (T.mass_pos hkn)]
    exact T.mass_le hkn

/-- An accepted node seen from a particle: the ranges, and the distance compared with the size. -/
theorem BoxIn.seen (hf : f.Std) (hS : ∀ S, simd = some S → S.Adds (f.ieee fused)) (hs : Supported w d) (h : Reach _ s) (hz : s.n * cbits w d < 2 ^ 64) (hx : IsData d s.n s.parts x)
    (hrep : ∀ j < d, ∀ k < s.n, (f.ieee fused).Repr (x j k)) {κ' K C : Nat} (R : Span f.unit f.tiny f.minNormal ((2 ^ (f.emax - 1) : ℚ) : ℝ) b d κ' K C)
    {mv : ℚ} (hmv : macValue (f.ieee fused) mac (.fin t) = .fin mv) {rsqrt : Option (Fl ℚ → Fl ℚ)} {over : Overshift} {Q : Quant} {g e2 : Fl ℚ}
    {cn : CNode} (hn : cn.fin ≤ s.n) {k : Nat} (k1 : cn.beg ≤ k) (k2 : k < cn.fin) {i : Nat} (hi : i < s.tree.length)
    (ha : (s.force rsqrt over Q (.fin mv) g e2).accepts (cn.fin - cn.beg) ((s.force rsqrt over Q (.fin mv) g e2).slot cn) i = true) :
    NodeIn s rsqrt x b ((eps : ℝ) ^ 2) i k ∧
      (B : ℝ) / 2 ^ s.tree[i].level ≤ t * (1 + (d + 14 : ℕ) * f.unit) * √(D2 d ((eps : ℝ) ^ 2) (fun j => (x j k : ℝ)) (fun j => (s.cx i j : ℝ))) := by
  have hp : i < s.props.length := by rw [reach_props_length h]; exact hi
  obtain ⟨fu, hfu⟩ := mode_ieee (f := f) (fused := fused) (simd := simd) (d := d) rsqrt
  have hacc := accepts_at (fun S e => (hS S e).pos) hs h hz hx hn k1 k2 ha
  have hpr : (s.force rsqrt over Q (.fin mv) g e2).pr i = s.props[i] := by
    show (s.props[i]?).getD _ = _
    rw [List.getElem?_eq_getElem hp, Option.getD_some]
  unfold Force.failsAt macFails at hacc
  rw [hpr] at hacc
  obtain ⟨r1, r2, r3⟩ := T.passed hf hS hs h hz hx hrep R hmv (show k < s.n by omega) hi hp (M := (⟨f.ieee fused, simd, rsqrt⟩ : Hw ℚ).mode d) (fl := fused) hfu mode_vec hacc
  exact ⟨⟨r1, by rw [hfu]; exact r2⟩, r3⟩

/-- The coordinate of the padding. -/
theorem BoxIn.pad_val (hf : f.Std) (hs : Supported w d) {κ' K C : Nat} (R : Span f.unit f.tiny f.minNormal ((2 ^ (f.emax - 1) : ℚ) : ℝ) b d κ' K C)
    {mv : ℚ} (hmv : macValue (f.ieee fused) mac (.fin t) = .fin mv) {rsqrt : Option (Fl ℚ → Fl ℚ)} {over : Overshift} {Q : Quant} {g e2 : Fl ℚ} :
    ∃ P : ℚ, (s.force rsqrt over Q (.fin mv) g e2).padCoord = .fin P ∧ (f.ieee fused).Repr P ∧ Near (f.unit : ℝ) 10 (2 * padHalf mac B t d) P := by
  have F := Format.ieee_model hf fused
  have L : (f.ieee fused).Laws := Format.arith_laws hf.toOk _ _
  have hd := hs.dim
  have b3 := T.b3 hd.1
  have B0 := T.box0
  have t0 := T.theta.pos R.b1
  have iB : In b 1 (B : ℝ) := by
    have := T.dim_in hd.1 (l := 0) (by omega)
    simpa using this
  exact pad_near (c := s.force rsqrt over Q (.fin mv) g e2) L F (Span.lo_le F R) (Span.hi_ge R) b3 rfl T.theta hmv rfl T.box iB hd.1 (by
    show (d : ℝ) ≤ b ^ 2
    have h1 := T.far
    have h2 := T.box_ge
    have h3 : (d : ℝ) ≤ 64 := by exact_mod_cast (by omega : d ≤ 64)
    have h4 : 17 * d * (B : ℝ) ^ 2 ≤ b ^ 2 := by
      have := sq_nonneg ((B : ℝ) / t)
      have := sq_nonneg (eps : ℝ)
      linarith
    have h5 : (4 : ℝ) ^ 2 ≤ (b * B) ^ 2 := pow_le_pow_left₀ (by norm_num) h2 2
    have h6 := mul_le_mul_of_nonneg_left h4 (sq_nonneg b)
    have h7 := mul_le_mul_of_nonneg_left h5 (show (0 : ℝ) ≤ 17 * d by positivity)
    by_contra hc
    rw [not_le] at hc
    have h8 : b ^ 2 * b ^ 2 ≤ 64 * d := by nlinarith [sq_nonneg b]
    have : (0 : ℝ) < d := by exact_mod_cast hd.1
    nlinarith)

omit T in
/-- An accepted node that does not contain the particle: its contribution compared with those of its particles. -/
theorem TreeIn.com_err {κ ρ : ℝ} (T : TreeIn s x b B t eps κ ρ) (hf : f.Std) (hS : ∀ S, simd = some S → S.Adds (f.ieee fused)) (hs : Supported w d) (h : Reach _ s) (hz : s.n * cbits w d < 2 ^ 64) (hx : IsData d s.n s.parts x)
    (hlo : 16 * (f.minNormal : ℝ) * b ^ 4 ≤ 1) {k : Nat} (hk : k < s.n) {i : Nat} (hi : i < s.tree.length) (hout : ∀ l, s.tree[i].beg ≤ l → l < s.tree[i].fin → l ≠ k)
    (hnear : 1 ≤ b ^ 2 * D2 d ((eps : ℝ) ^ 2) (fun j => (x j k : ℝ)) (fun j => (s.cx i j : ℝ)))
    (hdim : (B : ℝ) / 2 ^ s.tree[i].level ≤ t * (1 + (d + 14 : ℕ) * f.unit) * √(D2 d ((eps : ℝ) ^ 2) (fun j => (x j k : ℝ)) (fun j => (s.cx i j : ℝ)))) :
    (∀ j < d, |accelBy d ((eps : ℝ) ^ 2) (fun j => (x j k : ℝ)) (fun j => (s.cx i j : ℝ)) (s.cm i) j -
        ∑ l ∈ Finset.Ico s.tree[i].beg s.tree[i].fin, accelBy d ((eps : ℝ) ^ 2) (fun j => (x j k : ℝ)) (fun j => (x j l : ℝ)) (x d l) j| ≤
          (accErr κ + (3 * d + 1) * ρ + 2 * ((s.n + lanes simd d : ℕ) * f.unit)) * (1 + κ) ^ 2 *
            ∑ l ∈ Finset.Ico s.tree[i].beg s.tree[i].fin, (x d l : ℝ) / D2 d ((eps : ℝ) ^ 2) (fun j => (x j k : ℝ)) (fun j => (x j l : ℝ)) ∧
      |accelBy d ((eps : ℝ) ^ 2) (fun j => (x j k : ℝ)) (fun j => (s.cx i j : ℝ)) (s.cm i) j| ≤
        2 * (1 + κ) ^ 2 * ∑ l ∈ Finset.Ico s.tree[i].beg s.tree[i].fin, (x d l : ℝ) / D2 d ((eps : ℝ) ^ 2) (fun j => (x j k : ℝ)) (fun j => (x j l : ℝ))) ∧
    |energyBy d ((eps : ℝ) ^ 2) (fun j => (x j k : ℝ)) (x d k) (fun j => (s.cx i j : ℝ)) (s.cm i) -
        ∑ l ∈ Finset.Ico s.tree[i].beg s.tree[i].fin, energyBy d ((eps : ℝ) ^ 2) (fun j => (x j k : ℝ)) (x d k) (fun j => (x j l : ℝ)) (x d l)| ≤
      (κ ^ 2 / (1 - κ) + d * ρ + 2 * ((s.n + lanes simd d : ℕ) * f.unit)) * (1 + κ) *
        ∑ l ∈ Finset.Ico s.tree[i].beg s.tree[i].fin, (x d k : ℝ) * (x d l / √(D2 d ((eps : ℝ) ^ 2) (fun j => (x j k : ℝ)) (fun j => (x j l : ℝ)))) ∧
    |energyBy d ((eps : ℝ) ^ 2) (fun j => (x j k : ℝ)) (x d k) (fun j => (s.cx i j : ℝ)) (s.cm i)| ≤
      2 * (1 + κ) * ∑ l ∈ Finset.Ico s.tree[i].beg s.tree[i].fin, (x d k : ℝ) * (x d l / √(D2 d ((eps : ℝ) ^ 2) (fun j => (x j k : ℝ)) (fun j => (x j l : ℝ)))) := by
  have F := Format.ieee_model hf fused
  have u0 := F.u0
  have b1 := T.nodes.b1
  have B0 := T.box0
  have t0 := T.theta.pos b1
  obtain ⟨hp, a1, a2, a3, a4, a5, a6, a7, a8, a9⟩ := T.stored hf hS hs h hz hx hlo hi
  obtain ⟨_, _, _, _, p, _, _, _, _, p5, p6, _⟩ := reach_node (rakauEnv_ok (f.ieee fused) simd mac hs) h hz hi
  have p5 : s.tree[i].beg < s.tree[i].fin := p5
  have p6 : s.tree[i].fin ≤ s.n := p6
  have e0 := sq_nonneg (eps : ℝ)
  have hD0 : 0 < D2 d ((eps : ℝ) ^ 2) (fun j => (x j k : ℝ)) (fun j => (s.cx i j : ℝ)) := by
    by_contra hc
    have := mul_nonpos_of_nonneg_of_nonpos (sq_nonneg b) (not_lt.1 hc)
    linarith
  have hR := Real.sqrt_pos.2 hD0
  have hR2 := Real.mul_self_sqrt hD0.le
  have hl0 : ∀ l ∈ Finset.Ico s.tree[i].beg s.tree[i].fin, 0 < D2 d ((eps : ℝ) ^ 2) (fun j => (x j k : ℝ)) (fun j => (x j l : ℝ)) := by
    intro l hl
    rw [Finset.mem_Ico] at hl
    have h1 : 1 ≤ b ^ 2 * D2 d ((eps : ℝ) ^ 2) (fun j => (x j k : ℝ)) (fun j => (x j l : ℝ)) := T.near k l hk (by omega) (Ne.symm (hout l hl.1 hl.2))
    by_contra hc
    have := mul_nonpos_of_nonneg_of_nonpos (sq_nonneg b) (not_lt.1 hc)
    linarith
  have hr : ∀ l ∈ Finset.Ico s.tree[i].beg s.tree[i].fin, 0 < √(D2 d ((eps : ℝ) ^ 2) (fun j => (x j k : ℝ)) (fun j => (x j l : ℝ))) ∧
      √(D2 d ((eps : ℝ) ^ 2) (fun j => (x j k : ℝ)) (fun j => (x j l : ℝ))) * √(D2 d ((eps : ℝ) ^ 2) (fun j => (x j k : ℝ)) (fun j => (x j l : ℝ))) =
        D2 d ((eps : ℝ) ^ 2) (fun j => (x j k : ℝ)) (fun j => (x j l : ℝ)) :=
    fun l hl => ⟨Real.sqrt_pos.2 (hl0 l hl), Real.mul_self_sqrt (hl0 l hl).le⟩
  set β := 24 * (((s.n + lanes simd d + 1 : ℕ) : ℝ) * (f.unit : ℝ)) * B with hβdef
  have β0 : 0 ≤ β := by positivity
  have hsp : ∀ l ∈ Finset.Ico s.tree[i].beg s.tree[i].fin, β ≤ ρ * √(D2 d ((eps : ℝ) ^ 2) (fun j => (x j k : ℝ)) (fun j => (s.cx i j : ℝ))) ∧
      ∑ j ∈ Finset.range d, ((x j l : ℝ) - s.cx i j) ^ 2 ≤ (κ * √(D2 d ((eps : ℝ) ^ 2) (fun j => (x j k : ℝ)) (fun j => (s.cx i j : ℝ)))) ^ 2 := by
    intro l hl
    have hl' := Finset.mem_Ico.1 hl
    have hsep : (4 * β) ^ 2 ≤ (ρ * √(D2 d ((eps : ℝ) ^ 2) (fun j => (x j k : ℝ)) (fun j => (x j l : ℝ)))) ^ 2 := by
      rw [mul_pow ρ, Real.sq_sqrt (hl0 l hl).le]
      have h1 := T.sep k l hk (by omega) (Ne.symm (hout l hl'.1 hl'.2))
      have e1 : 4 * β = 96 * (((s.n + lanes simd d + 1 : ℕ) : ℝ) * (f.unit : ℝ)) * B := by rw [hβdef]; ring
      rw [e1]
      exact h1
    have hs4 : 4 * β ≤ ρ * √(D2 d ((eps : ℝ) ^ 2) (fun j => (x j k : ℝ)) (fun j => (x j l : ℝ))) :=
      le_of_sq_le_sq hsep (mul_nonneg T.rho.le (Real.sqrt_nonneg _))
    obtain ⟨c1, c2, _⟩ := spread_real e0 hR hR2 (hr l hl).1 (hr l hl).2 (by positivity : (0 : ℝ) ≤ (B : ℝ) / 2 ^ s.tree[i].level) β0
      (mul_nonneg t0.le (by positivity)) hdim (fun j hj => a8 l hl'.1 hl'.2 j hj) T.rho hs4 T.kappa0 T.kappa1 T.kappa
    exact ⟨c1, c2⟩
  have hM0 : ∀ l ∈ Finset.Ico s.tree[i].beg s.tree[i].fin, 0 ≤ (x d l : ℝ) := fun l hl => (T.mass_pos (by rw [Finset.mem_Ico] at hl; omega)).le
  have hβR := (hsp s.tree[i].beg (Finset.mem_Ico.2 ⟨le_rfl, p5⟩)).1
  have hc : ∀ j < d, |∑ l ∈ Finset.Ico s.tree[i].beg s.tree[i].fin, (x d l : ℝ) * (x j l - s.cx i j)| ≤
      ρ * √(D2 d ((eps : ℝ) ^ 2) (fun j => (x j k : ℝ)) (fun j => (s.cx i j : ℝ))) * ∑ l ∈ Finset.Ico s.tree[i].beg s.tree[i].fin, (x d l : ℝ) :=
    fun j hj => (a7 j hj).trans (mul_le_mul_of_nonneg_right hβR (Finset.sum_nonneg hM0))
  have hν0 : 0 ≤ 2 * (((s.n + lanes simd d : ℕ) : ℝ) * (f.unit : ℝ)) := by positivity
  have hν1 : 2 * (((s.n + lanes simd d : ℕ) : ℝ) * (f.unit : ℝ)) ≤ 1 := by
    have h1 := T.errs
    have : ((s.n + lanes simd d : ℕ) : ℝ) ≤ ((s.n + lanes simd d + 2 : ℕ) : ℝ) := by exact_mod_cast (by omega)
    have := mul_le_mul_of_nonneg_right this u0
    linarith
  have hsq : ∀ l ∈ Finset.Ico s.tree[i].beg s.tree[i].fin, (x d l : ℝ) / √(D2 d ((eps : ℝ) ^ 2) (fun j => (x j k : ℝ)) (fun j => (x j l : ℝ))) ^ 2 =
      x d l / D2 d ((eps : ℝ) ^ 2) (fun j => (x j k : ℝ)) (fun j => (x j l : ℝ)) := fun l hl => by rw [Real.sq_sqrt (hl0 l hl).le]
  have hk0 := T.mass_pos hk
  refine ⟨?_, ?_⟩
  · intro j hj
    have := node_acc (m := fun l => (x d l : ℝ)) (z := fun l j => (x j l : ℝ)) e0 hM0 hc hR hR2 hr T.kappa0 T.kappa1 (fun l hl => (hsp l hl).2) T.rho.le hν0 hν1 a4 hj
    rw [Finset.sum_congr rfl hsq] at this
    exact this
  · have := node_pot (m := fun l => (x d l : ℝ)) (z := fun l j => (x j l : ℝ)) e0 hM0 hc hR hR2 hr T.kappa0 T.kappa1 (fun l hl => (hsp l hl).2) T.rho.le hν0 hν1 a4
    have e1 : ∀ (z : Nat → ℝ) (m' : ℝ), energyBy d ((eps : ℝ) ^ 2) (fun j => (x j k : ℝ)) (x d k) z m' = -(x d k * (m' / √(D2 d ((eps : ℝ) ^ 2) (fun j => (x j k : ℝ)) z))) := by
      intro z m'
      unfold energyBy D2
      ring
    simp only [e1]
    rw [Finset.sum_neg_distrib, ← Finset.mul_sum, abs_neg, abs_mul, abs_of_pos hk0]
    constructor
    · rw [neg_sub_neg, ← mul_sub, abs_mul, abs_of_pos hk0, abs_sub_comm]
      have := mul_le_mul_of_nonneg_left this.1 hk0.le
      linarith
    · have := mul_le_mul_of_nonneg_left this.2 hk0.le
      linarith

end Node

end Rakau
