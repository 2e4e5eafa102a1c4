import Verif.Proof.PadErr
import Verif.Props.CellErr
import Verif.Proof.Monopole

/-! The error of an accepted node in rounded arithmetic. -/
namespace Rakau
open Spec

section Real
variable {d : Nat} {e : ℝ} {y c z : Nat → ℝ}

/-- The triangle inequality for softened distances. -/
theorem tri (he : 0 ≤ e) {R r : ℝ} (hR : 0 < R) (hR2 : R * R = D2 d e y c) (hr : 0 < r) (hr2 : r * r = D2 d e y z) : (r - R) ^ 2 ≤ ∑ j ∈ Finset.range d, (z j - c j) ^ 2 := by
  refine len_diff hR hr (q := ∑ j ∈ Finset.range d, (c j - y j) * (z j - c j)) ?_ ?_
  · rw [hr2, hR2]
    unfold D2
    have : ∀ j ∈ Finset.range d, (z j - y j) ^ 2 = (c j - y j) ^ 2 + 2 * ((c j - y j) * (z j - c j)) + (z j - c j) ^ 2 := fun j _ => by ring
    rw [Finset.sum_congr rfl this, Finset.sum_add_distrib, Finset.sum_add_distrib, ← Finset.mul_sum]
    ring
  · refine (Finset.sum_mul_sq_le_sq_mul_sq (Finset.range d) (fun j => c j - y j) (fun j => z j - c j)).trans ?_
    apply mul_le_mul_of_nonneg_right _ (Finset.sum_nonneg (fun j _ => sq_nonneg _))
    rw [hR2]
    unfold D2
    linarith

theorem sum_sq_le {v : Nat → ℝ} {a : ℝ} (h : ∀ j < d, |v j| ≤ a) : ∑ j ∈ Finset.range d, v j ^ 2 ≤ d * a ^ 2 := by
  have : ∑ j ∈ Finset.range d, v j ^ 2 ≤ ∑ _j ∈ Finset.range d, a ^ 2 := by
    apply Finset.sum_le_sum
    intro j hj
    have := abs_le.1 (h j (Finset.mem_range.1 hj))
    exact sq_le_sq' this.1 this.2
  simpa using this

/-- A body at distance `r` within `dim + β` of the centre `c` (in each coordinate), which is at distance `R ≥ dim / t`. -/
theorem spread_real (he : 0 ≤ e) {R r dim β t ρ κ : ℝ} (hR : 0 < R) (hR2 : R * R = D2 d e y c) (hr : 0 < r) (hr2 : r * r = D2 d e y z) (hd0 : 0 ≤ dim) (hβ : 0 ≤ β) (ht : 0 ≤ t)
    (hdim : dim ≤ t * R) (hz : ∀ j < d, |z j - c j| ≤ dim + β) (hρ : 0 < ρ) (hβr : 4 * β ≤ ρ * r) (h0 : 0 ≤ κ) (h1 : κ < 1) (hκ : d * (t + ρ) ^ 2 ≤ κ ^ 2) :
    β ≤ ρ * R ∧ ∑ j ∈ Finset.range d, (z j - c j) ^ 2 ≤ (κ * R) ^ 2 ∧ r ≤ (1 + κ) * R := by
  have h2 := tri he hR hR2 hr hr2
  have hsum := sum_sq_le hz
  have d0 : (0 : ℝ) ≤ d := by positivity
  have hb : β ≤ ρ * R := by
    by_contra hc
    rw [not_le] at hc
    have hRb : R < β / ρ := by rw [lt_div_iff₀ hρ]; linarith
    have b0 : 0 < β := lt_of_le_of_lt (by positivity) hc
    have h3 : dim + β ≤ (t + ρ) * (β / ρ) := by
      have e1 : (t + ρ) * (β / ρ) = t * (β / ρ) + β := by field_simp
      rw [e1]
      have := mul_le_mul_of_nonneg_left hRb.le ht
      linarith
    have h4 : d * (dim + β) ^ 2 ≤ (κ * (β / ρ)) ^ 2 := by
      have h5 : (dim + β) ^ 2 ≤ ((t + ρ) * (β / ρ)) ^ 2 := pow_le_pow_left₀ (by linarith) h3 2
      have h6 := mul_le_mul_of_nonneg_left h5 d0
      have h7 := mul_le_mul_of_nonneg_right hκ (sq_nonneg (β / ρ))
      rw [mul_pow] at h6 ⊢
      linarith
    have h8 : r - R ≤ κ * (β / ρ) := abs_le_of_sq_le_sq' (h2.trans (hsum.trans h4)) (by positivity) |>.2
    have h9 : κ * (β / ρ) ≤ β / ρ := by
      have : 0 < β / ρ := by positivity
      nlinarith
    have h10 : 4 * (β / ρ) ≤ r := by
      have : 4 * (β / ρ) = 4 * β / ρ := by ring
      rw [this, div_le_iff₀ hρ]; linarith
    have : 0 < β / ρ := by positivity
    linarith
  have hs : ∑ j ∈ Finset.range d, (z j - c j) ^ 2 ≤ (κ * R) ^ 2 := by
    have h3 : dim + β ≤ (t + ρ) * R := by linarith
    have h5 : (dim + β) ^ 2 ≤ ((t + ρ) * R) ^ 2 := pow_le_pow_left₀ (by linarith) h3 2
    have h6 := mul_le_mul_of_nonneg_left h5 d0
    have h7 := mul_le_mul_of_nonneg_right hκ (sq_nonneg R)
    rw [mul_pow] at h6 ⊢
    linarith
  refine ⟨hb, hs, ?_⟩
  have := (abs_le_of_sq_le_sq' (h2.trans hs) (by positivity)).2
  linarith

end Real

section Node
variable {f : Format} {fused : Bool} {simd : Option (Simd ℚ)} {mac : Mac} {w d : Nat} {s : TS (rakauEnv (f.ieee fused) simd mac w d)}

/-- The coordinates of a stored centre of mass are numbers of the format. -/
theorem com_repr (hf : f.Std) (hs : Supported w d) (h : Reach _ s) (hz : s.n * cbits w d < 2 ^ 64) {i : Nat} (hi : i < s.tree.length) (hp : i < s.props.length)
    {m : ℚ} (hm : s.props[i].mass = .fin m) (m0 : m ≠ 0) {c : Nat → ℚ} (hc : s.props[i].com = (List.range d).map (fun j => .fin (c j))) : ∀ j < d, (f.ieee fused).Repr (c j) := by
  obtain ⟨_, _, _, _, p, p1, p2, p3, p4, p5, p6, p7, _⟩ := reach_node (rakauEnv_ok (f.ieee fused) simd mac hs) h hz hi
  have p7 : nodeProps (f.ieee fused) simd mac w d s.box s.tree[i] s.parts = .ok s.props[i] := p7
  have L : (f.ieee fused).Laws := Format.arith_laws hf.toOk _ _
  cases hns : nodeSums (f.ieee fused) simd d s.tree[i] s.parts with
  | none => unfold nodeProps at p7; rw [hns] at p7; cases p7
  | some cM =>
    obtain ⟨c0, M⟩ := cM
    obtain ⟨q1, q2⟩ := nodeProps_sums p7 hns
    rw [hm] at q1
    subst q1
    have q2 := q2 (by simp [Fl.eq, m0])
    intro j hj
    rw [hc] at q2
    have e : ((List.range d).map (fun j => Fl.fin (c j)))[j]? = some (.fin (c j)) := by rw [List.getElem?_map, List.getElem?_range hj]; rfl
    rw [q2, List.getElem?_map] at e
    cases hj' : c0[j]? with
    | none => rw [hj'] at e; cases e
    | some a => rw [hj'] at e; exact mul_repr L (Option.some.inj e)

/-- The data of a tree, in ranges that exclude overflow and underflow: `B` is the size of the domain, `b` bounds all quantities. -/
structure BoxIn (s : TS (rakauEnv (f.ieee fused) simd mac w d)) (x : Nat → Nat → ℚ) (b : ℝ) (B t eps : ℚ) : Prop where
  box : s.box = .fin B
  cell : 4 ≤ b * ((B : ℝ) / 2 ^ cbits w d)
  step : 2 * (t : ℝ) ≤ b * ((B : ℝ) / 2 ^ cbits w d)
  theta : In b 1 (t : ℝ)
  nodes : NodeSpan f.unit f.tiny f.minNormal ((2 ^ (f.emax - 1) : ℚ) : ℝ) b s.n (s.n + lanes simd d)
  errs : 64 * ((s.n + lanes simd d + 2 : ℕ) * (f.unit : ℝ)) ≤ 1
  mass : ∀ k < s.n, 2 ≤ b * (x d k : ℝ)
  total : 2 * ∑ k ∈ Finset.range s.n, (x d k : ℝ) ≤ b
  far : 9 * ((B : ℝ) / t) ^ 2 + 17 * d * (B : ℝ) ^ 2 + (eps : ℝ) ^ 2 ≤ b ^ 2

/-- Particles at distinct positions (or with softening), and small nodes: `ρ` and `κ` are the relative sizes of the rounding errors and of the nodes. -/
structure TreeIn (s : TS (rakauEnv (f.ieee fused) simd mac w d)) (x : Nat → Nat → ℚ) (b : ℝ) (B t eps : ℚ) (κ ρ : ℝ) : Prop extends BoxIn s x b B t eps where
  near : ∀ k l, k < s.n → l < s.n → k ≠ l → 1 ≤ b ^ 2 * (∑ j ∈ Finset.range d, ((x j l : ℝ) - x j k) ^ 2 + (eps : ℝ) ^ 2)
  sep : ∀ k l, k < s.n → l < s.n → k ≠ l →
    (96 * ((s.n + lanes simd d + 1 : ℕ) * (f.unit : ℝ)) * B) ^ 2 ≤ ρ ^ 2 * (∑ j ∈ Finset.range d, ((x j l : ℝ) - x j k) ^ 2 + (eps : ℝ) ^ 2)
  rho : 0 < ρ
  kappa0 : 0 ≤ κ
  kappa1 : κ < 1
  kappa : d * ((t : ℝ) * (1 + (d + 14 : ℕ) * f.unit) + ρ) ^ 2 ≤ κ ^ 2

section
variable {x : Nat → Nat → ℚ} {b : ℝ} {B t eps : ℚ} (T : BoxIn s x b B t eps)
include T

theorem BoxIn.box0 : (0 : ℝ) < B := by
  by_contra hc
  rw [not_lt] at hc
  have h1 : (B : ℝ) / 2 ^ cbits w d ≤ 0 := div_nonpos_of_nonpos_of_nonneg hc (by positivity)
  have h2 := mul_le_mul_of_nonneg_left h1 (show 0 ≤ b by linarith [T.nodes.b1])
  have h3 := T.cell
  linarith

theorem BoxIn.box_le (hd : 0 < d) : 3 * (B : ℝ) ≤ b := by
  have h := T.far
  have B0 := T.box0
  have hd1 : (1 : ℝ) ≤ d := by exact_mod_cast hd
  have h2 := sq_nonneg ((B : ℝ) / t)
  have h3 := sq_nonneg (eps : ℝ)
  have h4 : (B : ℝ) ^ 2 ≤ d * (B : ℝ) ^ 2 := le_mul_of_one_le_left (sq_nonneg _) hd1
  have : (3 * (B : ℝ)) ^ 2 ≤ b ^ 2 := by nlinarith
  exact le_of_sq_le_sq this (by linarith [T.nodes.b1])

theorem BoxIn.box_ge : 4 ≤ b * (B : ℝ) := by
  have h := T.cell
  have B0 := T.box0
  have h1 : (B : ℝ) / 2 ^ cbits w d ≤ B := div_le_self B0.le (one_le_pow₀ (by norm_num))
  have := mul_le_mul_of_nonneg_left h1 (show 0 ≤ b by linarith [T.nodes.b1])
  linarith

theorem BoxIn.dim_in (hd : 0 < d) {l : Nat} (hl : l ≤ cbits w d) : In b 1 ((B : ℝ) / 2 ^ l) where
  low := by
    rw [pow_one]
    have h1 := T.cell
    have h2 := mul_le_mul_of_nonneg_left (div_le_div_of_nonneg_left T.box0.le (by positivity) (pow_le_pow_right₀ (by norm_num : (1 : ℝ) ≤ 2) hl)) (show 0 ≤ b by linarith [T.nodes.b1])
    linarith
  high := by
    have h1 : (B : ℝ) / 2 ^ l ≤ B := div_le_self T.box0.le (one_le_pow₀ (by norm_num))
    have := T.box_le hd
    have := T.box0
    rw [pow_one]
    linarith

theorem BoxIn.inv_ok (hf : f.Std) (hd : 0 < d) : 0 < B ∧ f.minNormal ≤ 1 / B ∧ 1 / B ≤ 2 ^ (f.emax - 1) := by
  have B0 := T.box0
  have b1 := T.nodes.b1
  have h1 := T.nodes.low
  have h2 := T.nodes.high
  have hB := T.box_le hd
  have hB' := T.box_ge
  obtain ⟨hi, hhi⟩ : ∃ hi : ℝ, hi = ((2 ^ (f.emax - 1) : ℚ) : ℝ) := ⟨_, rfl⟩
  have lo0 := (Format.ieee_model hf fused).lo0
  rw [← hhi] at h2
  have hn : (0 : ℝ) ≤ (s.n : ℝ) := by positivity
  refine ⟨by exact_mod_cast B0, ?_, ?_⟩
  · rw [← Rat.cast_le (K := ℝ)]
    push_cast
    rw [le_div_iff₀ B0]
    have h3 : (f.minNormal : ℝ) * B ≤ f.minNormal * b := mul_le_mul_of_nonneg_left (by linarith) lo0.le
    have h4 : 0 ≤ (s.n : ℝ) * (f.minNormal * b) := by positivity
    have h5 : 0 ≤ (f.minNormal : ℝ) * b := by positivity
    linarith
  · rw [← Rat.cast_le (K := ℝ), ← hhi]
    push_cast
    rw [div_le_iff₀ B0]
    have h3 : b ≤ b ^ 3 := le_self_pow₀ b1 (by norm_num)
    have h4 : 0 ≤ (s.n : ℝ) * b ^ 3 := by positivity
    have h5 : b ≤ hi := by linarith
    have := mul_le_mul_of_nonneg_right h5 B0.le
    linarith

/-- The coordinates of the particles. -/
theorem BoxIn.coord (hf : f.Std) (hs : Supported w d) (h : Reach _ s) (hx : IsData d s.n s.parts x) {k j : Nat} (hk : k < s.n) (hj : j < d) : |(x j k : ℝ)| ≤ 33 / 64 * B := by
  obtain ⟨i1, i2, i3⟩ := T.inv_ok hf hs.dim.1
  obtain ⟨_, xs, hl, k1, _, _, k2⟩ := coords_at hf hs h hx T.box i1 i2 i3 hk
  have B0 := T.box0
  obtain ⟨y1, y2⟩ := k2 j hj
  have u1 := (Format.ieee_model hf fused).u1
  have hpw : (0 : ℝ) < 2 ^ cbits w d := by positivity
  have h1 : (0 : ℝ) ≤ (xs[j] : ℝ) / 2 ^ cbits w d := by positivity
  have h2 : ((xs[j] + 1 : ℕ) : ℝ) / 2 ^ cbits w d ≤ 1 := by
    rw [div_le_one hpw]
    have := k1 xs[j] (List.getElem_mem _)
    exact_mod_cast this
  have e : (x j k : ℝ) = x j k / B * B := by field_simp
  rw [e, abs_mul, abs_of_pos B0]
  apply mul_le_mul_of_nonneg_right _ B0.le
  rw [abs_le]
  constructor <;> linarith

theorem BoxIn.b3 (hd : 0 < d) : 3 ≤ b := by
  have h1 := T.box_le hd
  have h2 := T.box_ge
  have b1 := T.nodes.b1
  nlinarith

theorem BoxIn.eps_le (hd : 0 < d) : |(eps : ℝ)| ≤ b := by
  have h := T.far
  have h1 := sq_nonneg ((B : ℝ) / t)
  have h2 : 0 ≤ (d : ℝ) * (B : ℝ) ^ 2 := by positivity
  exact abs_le_of_sq_le_sq (by linarith) (by linarith [T.nodes.b1])

theorem BoxIn.mass_pos {k : Nat} (hk : k < s.n) : (0 : ℝ) < x d k := by
  have := T.mass k hk
  have := T.nodes.b1
  by_contra hc
  nlinarith

theorem BoxIn.mass_le {k : Nat} (hk : k < s.n) : (x d k : ℝ) ≤ b := by
  have h1 := Finset.single_le_sum (f := fun k => (x d k : ℝ)) (fun k hk => (T.mass_pos (Finset.mem_range.1 hk)).le) (Finset.mem_range.2 hk)
  have := T.total
  have := T.mass_pos hk
  linarith

/-- The smallest rounding unit is negligible. -/
theorem BoxIn.tiny (hf : f.Std) {C : Nat} (hC : C ≤ s.n + lanes simd d) (hlo : 16 * (f.minNormal : ℝ) * b ^ 4 ≤ 1) :
    (9 * ((C : ℝ) * b) + 1) * f.tiny ≤ (s.n + lanes simd d + 1 : ℕ) * (f.unit : ℝ) * B := by
  have F := Format.ieee_model hf fused
  have b1 := T.nodes.b1
  have B0 := T.box0
  have hB := T.box_ge
  have hC' : (C : ℝ) ≤ ((s.n + lanes simd d : ℕ) : ℝ) := by exact_mod_cast hC
  have u0 := F.u0
  have lo0 := F.lo0
  have hη := F.ηlo
  have e1 : ((s.n + lanes simd d + 1 : ℕ) : ℝ) = ((s.n + lanes simd d : ℕ) : ℝ) + 1 := by push_cast; ring
  rw [e1]
  generalize ((s.n + lanes simd d : ℕ) : ℝ) = N at hC' ⊢
  have h1 : 16 * ((f.minNormal : ℝ) * b) ≤ B := by
    have h2 : b ^ 2 ≤ b ^ 4 := pow_le_pow_right₀ b1 (by norm_num)
    have h3 := mul_le_mul_of_nonneg_left h2 (show 0 ≤ 16 * (f.minNormal : ℝ) by linarith)
    have h4 : b * (16 * ((f.minNormal : ℝ) * b)) ≤ b * B := by
      have : b * (16 * ((f.minNormal : ℝ) * b)) = 16 * f.minNormal * b ^ 2 := by ring
      linarith
    exact le_of_mul_le_mul_left h4 (by linarith)
  have h5 : (f.minNormal : ℝ) ≤ f.minNormal * b := le_mul_of_one_le_right lo0.le b1
  have C0 : (0 : ℝ) ≤ C := by positivity
  have h6 : (9 * ((C : ℝ) * b) + 1) * f.tiny ≤ (9 * ((C : ℝ) * b) + 1) * (f.unit * f.minNormal) := mul_le_mul_of_nonneg_left hη (by positivity)
  have h7 : 9 * ((C : ℝ) * b) * f.minNormal + f.minNormal ≤ N * B + B := by
    have h8 := mul_le_mul_of_nonneg_left h1 C0
    have h9 := mul_le_mul_of_nonneg_right hC' B0.le
    have h10 : 0 ≤ (C : ℝ) * (f.minNormal * b) := by positivity
    linarith
  have h11 := mul_le_mul_of_nonneg_left h7 u0
  have e2 : (9 * ((C : ℝ) * b) + 1) * (f.unit * f.minNormal) = f.unit * (9 * ((C : ℝ) * b) * f.minNormal + f.minNormal) := by ring
  linarith

/-- The stored mass and centre of mass of a node. -/
theorem BoxIn.node (hf : f.Std) (hS : ∀ S, simd = some S → S.Adds (f.ieee fused)) (hs : Supported w d) (h : Reach _ s) (hz : s.n * cbits w d < 2 ^ 64) (hx : IsData d s.n s.parts x)
    (hlo : 16 * (f.minNormal : ℝ) * b ^ 4 ≤ 1) {i : Nat} (hi : i < s.tree.length) :
    ∃ (hp : i < s.props.length) (m : ℚ) (c : Nat → ℚ), s.props[i].mass = .fin m ∧ s.props[i].com = Arr d (fun j => .fin (c j)) ∧ (∀ j < d, (f.ieee fused).Repr (c j)) ∧
      |(m : ℝ) - ∑ k ∈ Finset.Ico s.tree[i].beg s.tree[i].fin, (x d k : ℝ)| ≤
        2 * ((s.n + lanes simd d : ℕ) * f.unit) * ∑ k ∈ Finset.Ico s.tree[i].beg s.tree[i].fin, (x d k : ℝ) ∧ Rng b 1 (m : ℝ) ∧ 0 < (m : ℝ) ∧
      (∀ j < d, |∑ l ∈ Finset.Ico s.tree[i].beg s.tree[i].fin, (x d l : ℝ) * (x j l - c j)| ≤
        24 * ((s.n + lanes simd d + 1 : ℕ) * (f.unit : ℝ)) * B * ∑ k ∈ Finset.Ico s.tree[i].beg s.tree[i].fin, (x d k : ℝ)) ∧
      (∀ l, s.tree[i].beg ≤ l → l < s.tree[i].fin → ∀ j < d, |(x j l : ℝ) - c j| ≤ B / 2 ^ s.tree[i].level + 24 * ((s.n + lanes simd d + 1 : ℕ) * (f.unit : ℝ)) * B) ∧
      ∀ j < d, |(c j : ℝ)| ≤ B := by
  have F := Format.ieee_model hf fused
  have u0 := F.u0
  have b1 := T.nodes.b1
  have B0 := T.box0
  obtain ⟨i1, i2, i3⟩ := T.inv_ok hf hs.dim.1
  obtain ⟨_, _, _, _, p, _, _, _, _, p5, p6, _⟩ := reach_node (rakauEnv_ok (f.ieee fused) simd mac hs) h hz hi
  have p5 : s.tree[i].beg < s.tree[i].fin := p5
  have p6 : s.tree[i].fin ≤ s.n := p6
  have hN : s.tree[i].fin - s.tree[i].beg + lanes simd d ≤ s.n + lanes simd d := by omega
  have hsz : ((s.tree[i].fin - s.tree[i].beg : ℕ) : ℝ) ≤ (s.n : ℝ) := by exact_mod_cast (by omega : s.tree[i].fin - s.tree[i].beg ≤ s.n)
  have hpos : ∀ k, k < s.n → (0 : ℝ) < x d k := fun k hk => T.mass_pos hk
  have hmb : ∀ k, k < s.n → (x d k : ℝ) ≤ b := fun k hk => T.mass_le hk
  have G : NodeSpan f.unit f.tiny f.minNormal ((2 ^ (f.emax - 1) : ℚ) : ℝ) b (s.tree[i].fin - s.tree[i].beg) (s.tree[i].fin - s.tree[i].beg + lanes simd d) := by
    have lo0 := F.lo0
    refine ⟨b1, ?_, ?_, ?_⟩
    · refine le_trans ?_ T.nodes.low
      gcongr
    · refine le_trans ?_ T.nodes.high
      gcongr
    · refine le_trans ?_ T.nodes.errs
      have : ((s.tree[i].fin - s.tree[i].beg + lanes simd d + 2 : ℕ) : ℝ) ≤ ((s.n + lanes simd d + 2 : ℕ) : ℝ) := by exact_mod_cast (by omega)
      have := mul_le_mul_of_nonneg_right this u0
      linarith
  obtain ⟨hp, m, m1, m2, m3⟩ := C64_node hf hS hs h hz hx hi G (fun k k1 k2 => .inr ⟨by linarith [T.mass k (by omega)], hmb k (by omega)⟩)
    (fun j hj k k1 k2 => by
      have h1 := T.coord hf hs h hx (k := k) (by omega) hj
      have := T.box_le hs.dim.1
      linarith)
  obtain ⟨c, c1, c2⟩ := m3 ⟨s.tree[i].beg, le_rfl, p5, fun h0 => by have := hpos s.tree[i].beg (by omega); rw [h0] at this; simp at this⟩
  have hM0 : 0 < ∑ k ∈ Finset.Ico s.tree[i].beg s.tree[i].fin, (x d k : ℝ) :=
    Finset.sum_pos (fun k hk => hpos k (by rw [Finset.mem_Ico] at hk; omega)) ⟨s.tree[i].beg, Finset.mem_Ico.2 ⟨le_rfl, p5⟩⟩
  have hM2 : 2 * ∑ k ∈ Finset.Ico s.tree[i].beg s.tree[i].fin, (x d k : ℝ) ≤ b := by
    have : ∑ k ∈ Finset.Ico s.tree[i].beg s.tree[i].fin, (x d k : ℝ) ≤ ∑ k ∈ Finset.range s.n, (x d k : ℝ) :=
      Finset.sum_le_sum_of_subset_of_nonneg (fun k hk => by rw [Finset.mem_Ico] at hk; rw [Finset.mem_range]; omega) (fun k hk _ => (hpos k (Finset.mem_range.1 hk)).le)
    linarith [T.total]
  have hM1 : 2 ≤ b * ∑ k ∈ Finset.Ico s.tree[i].beg s.tree[i].fin, (x d k : ℝ) := by
    have h1 := Finset.single_le_sum (f := fun k => (x d k : ℝ)) (fun k hk => (hpos k (by rw [Finset.mem_Ico] at hk; omega)).le) (Finset.mem_Ico.2 ⟨le_rfl, p5⟩)
    have h2 := mul_le_mul_of_nonneg_left h1 (show 0 ≤ b by linarith)
    exact (T.mass _ (by omega)).trans h2
  have herr := T.errs
  have hNr : ((s.tree[i].fin - s.tree[i].beg + lanes simd d : ℕ) : ℝ) ≤ ((s.n + lanes simd d : ℕ) : ℝ) := by exact_mod_cast hN
  have hNu := mul_le_mul_of_nonneg_right hNr u0
  have hm2 : |(m : ℝ) - ∑ k ∈ Finset.Ico s.tree[i].beg s.tree[i].fin, (x d k : ℝ)| ≤
      2 * ((s.n + lanes simd d : ℕ) * f.unit) * ∑ k ∈ Finset.Ico s.tree[i].beg s.tree[i].fin, (x d k : ℝ) :=
    m2.trans (mul_le_mul_of_nonneg_right (by linarith) hM0.le)
  have hsmall : 2 * (((s.n + lanes simd d : ℕ) : ℝ) * f.unit) ≤ 1 / 2 := by
    have : ((s.n + lanes simd d : ℕ) : ℝ) ≤ ((s.n + lanes simd d + 2 : ℕ) : ℝ) := by exact_mod_cast (by omega)
    have := mul_le_mul_of_nonneg_right this u0
    linarith
  generalize hMdef : ∑ k ∈ Finset.Ico s.tree[i].beg s.tree[i].fin, (x d k : ℝ) = M at *
  have hml : M / 2 ≤ m := by
    have := (abs_le.1 hm2).1
    have := mul_le_mul_of_nonneg_right hsmall hM0.le
    linarith
  have hmu : (m : ℝ) ≤ 2 * M := by
    have := (abs_le.1 hm2).2
    have := mul_le_mul_of_nonneg_right hsmall hM0.le
    linarith
  have m0 : (0 : ℝ) < m := by linarith
  -- the error of the centre of mass
  have hσ : ∀ j < d, |(c j : ℝ) - (∑ k ∈ Finset.Ico s.tree[i].beg s.tree[i].fin, (x d k : ℝ) * x j k) / M| ≤ 15 * ((s.n + lanes simd d + 1 : ℕ) * (f.unit : ℝ)) * B := by
    intro j hj
    refine (c2 j hj).trans ?_
    have h1 := (wmean_bounds (I := Finset.Ico s.tree[i].beg s.tree[i].fin) (m := fun k => (x d k : ℝ)) (y := fun k => |(x j k : ℝ)|) (lo := 0) (hi := B)
      (fun k hk => (hpos k (by rw [Finset.mem_Ico] at hk; omega)).le) (by rw [hMdef]; exact hM0) (fun k hk => ⟨abs_nonneg _, by
        have := T.coord hf hs h hx (k := k) (by rw [Finset.mem_Ico] at hk; omega) hj
        linarith⟩)).2
    rw [hMdef] at h1
    have h2 := T.tiny hf hN hlo
    have h3 : ((s.tree[i].fin - s.tree[i].beg + lanes simd d + 1 : ℕ) : ℝ) ≤ ((s.n + lanes simd d + 1 : ℕ) : ℝ) := by exact_mod_cast (by omega)
    have h4 := mul_le_mul (mul_le_mul_of_nonneg_right h3 u0) h1 (by
      apply div_nonneg _ hM0.le
      exact Finset.sum_nonneg fun k hk => mul_nonneg (hpos k (by rw [Finset.mem_Ico] at hk; omega)).le (abs_nonneg _)) (by positivity)
    linarith
  have hE : (15 : ℝ) * ((s.n + lanes simd d + 1 : ℕ) * (f.unit : ℝ)) * B + 8 * f.unit * B ≤ 24 * ((s.n + lanes simd d + 1 : ℕ) * (f.unit : ℝ)) * B := by
    have h1 : (1 : ℝ) ≤ ((s.n + lanes simd d + 1 : ℕ) : ℝ) := by exact_mod_cast (by omega)
    have h2 := mul_le_mul_of_nonneg_right (mul_le_mul_of_nonneg_right h1 u0) B0.le
    have h3 : 0 ≤ (f.unit : ℝ) * B := by positivity
    linarith
  have hE0 : 0 ≤ (f.unit : ℝ) * B := by positivity
  refine ⟨hp, m, c, m1, c1, com_repr hf hs h hz hi hp m1 (by rintro rfl; simp at m0) c1, hm2, ⟨.inr ?_, ?_⟩, m0, ?_, ?_, ?_⟩
  · rw [pow_one, abs_of_pos m0]
    have := mul_le_mul_of_nonneg_left hml (show 0 ≤ b by linarith)
    linarith
  · rw [pow_one, abs_of_pos m0]
    linarith
  · intro j hj
    have e1 : ∑ l ∈ Finset.Ico s.tree[i].beg s.tree[i].fin, (x d l : ℝ) * (x j l - c j) =
        M * ((∑ k ∈ Finset.Ico s.tree[i].beg s.tree[i].fin, (x d k : ℝ) * x j k) / M - c j) := by
      have : ∀ l ∈ Finset.Ico s.tree[i].beg s.tree[i].fin, (x d l : ℝ) * (x j l - c j) = x d l * x j l - x d l * c j := fun l _ => by ring
      rw [Finset.sum_congr rfl this, Finset.sum_sub_distrib, ← Finset.sum_mul, hMdef, mul_sub, mul_div_cancel₀ _ hM0.ne']
    rw [e1, abs_mul, abs_of_pos hM0, abs_sub_comm, mul_comm]
    apply mul_le_mul_of_nonneg_right _ hM0.le
    linarith [hσ j hj]
  · intro l l1 l2 j hj
    obtain ⟨a, _, a2⟩ := C19_ieee hf hs h hz hx T.box i1 i2 i3 hi
    have h1 := wmean_bounds (I := Finset.Ico s.tree[i].beg s.tree[i].fin) (m := fun k => (x d k : ℝ)) (y := fun k => (x j k : ℝ))
      (fun k hk => (hpos k (by rw [Finset.mem_Ico] at hk; omega)).le) (by rw [hMdef]; exact hM0) (fun k hk => a2 k (Finset.mem_Ico.1 hk).1 (Finset.mem_Ico.1 hk).2 j hj)
    rw [hMdef] at h1
    have h2 := abs_le.1 (hσ j hj)
    have h3 := a2 l l1 l2 j hj
    rw [abs_le]
    constructor <;> linarith [h1.1, h1.2, h2.1, h2.2, h3.1, h3.2]
  · intro j hj
    have h1 := wmean_bounds (I := Finset.Ico s.tree[i].beg s.tree[i].fin) (m := fun k => (x d k : ℝ)) (y := fun k => (x j k : ℝ)) (lo := -(33 / 64 * B)) (hi := 33 / 64 * B)
      (fun k hk => (hpos k (by rw [Finset.mem_Ico] at hk; omega)).le) (by rw [hMdef]; exact hM0)
      (fun k hk => abs_le.1 (T.coord hf hs h hx (by rw [Finset.mem_Ico] at hk; omega) hj))
    rw [hMdef] at h1
    have h2 := abs_le.1 (hσ j hj)
    have h3 : 15 * (((s.n + lanes simd d + 1 : ℕ) : ℝ) * (f.unit : ℝ)) * B ≤ 15 / 64 * B := by
      apply mul_le_mul_of_nonneg_right _ B0.le
      have : ((s.n + lanes simd d + 1 : ℕ) : ℝ) ≤ ((s.n + lanes simd d + 2 : ℕ) : ℝ) := by exact_mod_cast (by omega)
      have := mul_le_mul_of_nonneg_right this u0
      linarith
    rw [abs_le]
    constructor <;> linarith [h1.1, h1.2, h2.1, h2.2]

end

end Node

end Rakau
