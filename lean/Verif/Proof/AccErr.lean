import Verif.Proof.ErrSum
import Verif.Proof.CellErr
import Verif.Props.Theta
import Verif.Props.Rounding

/-! The acceptance check in rounded arithmetic: the size of an accepted node is at most `θ` times the distance, up to a few rounding units. -/
namespace Rakau
open Spec

variable {A : Arith ℚ} {u η lo hi b : ℝ}

/-- A computed value in range. -/
theorem near_rng (F : FlModel A u η lo hi) (hlo : 16 * lo * b ^ 4 ≤ 1) (hhi : 8 * b ^ 4 ≤ hi) (hb : 1 ≤ b) {k : Nat} (hk : k ≤ 16) {x a : ℝ} (h : Near u k x a) (h1 : 1 ≤ b ^ 4 * x)
    (h2 : x ≤ b ^ 4) : lo ≤ |a| ∧ |a| ≤ hi ∧ 0 < a := by
  have hk' : 2 * ((k : ℝ) * u) ≤ 1 := by
    have : (k : ℝ) ≤ 16 := by exact_mod_cast hk
    have := mul_le_mul this F.u1 F.u0 (by norm_num)
    linarith
  have b4 : 0 < b ^ 4 := by positivity
  have x0 : 0 < x := by
    by_contra hc
    have : b ^ 4 * x ≤ 0 := mul_nonpos_of_nonneg_of_nonpos b4.le (by linarith)
    linarith
  obtain ⟨_, w2, w3⟩ := h.within F.u0 F.lt1 hk'
  obtain ⟨t, e, t0, _⟩ := h.factor F.lt1
  rw [abs_of_pos x0] at w2 w3
  refine ⟨?_, by linarith, by rw [e]; positivity⟩
  have : 16 * lo ≤ x := by
    have h3 : b ^ 4 * (16 * lo) ≤ b ^ 4 * x := by linarith
    exact le_of_mul_le_mul_left h3 b4
  have := F.lo0
  linarith

theorem mulR (F : FlModel A u η lo hi) (hlo : 16 * lo * b ^ 4 ≤ 1) (hhi : 8 * b ^ 4 ≤ hi) (hb : 1 ≤ b) {k l : Nat} (hk : k + l ≤ 16) {x y : ℝ} {a c : ℚ} (h : Near u k x a) (h' : Near u l y c)
    (h1 : 1 ≤ b ^ 4 * (x * y)) (h2 : x * y ≤ b ^ 4) : ∃ r : ℚ, A.mul (.fin a) (.fin c) = .fin r ∧ Near u (k + l + 1) (x * y) r := by
  have hm := h.mul F.lt1 h'
  obtain ⟨r1, r2, _⟩ := near_rng F hlo hhi hb hk hm h1 h2
  obtain ⟨r, e, n⟩ := F.mul (.inr r1) r2
  exact ⟨r, e, hm.trans F.lt1 n⟩

theorem divR (F : FlModel A u η lo hi) (hlo : 16 * lo * b ^ 4 ≤ 1) (hhi : 8 * b ^ 4 ≤ hi) (hb : 1 ≤ b) {k l : Nat} (hk : k + l ≤ 16) {x y : ℝ} {a c : ℚ} (h : Near u k x a) (h' : Near u l y c)
    (hy : y ≠ 0) (h1 : 1 ≤ b ^ 4 * (x / y)) (h2 : x / y ≤ b ^ 4) : ∃ r : ℚ, A.div (.fin a) (.fin c) = .fin r ∧ Near u (k + l + 1) (x / y) r := by
  have hm := h.div F.lt1 h'
  obtain ⟨r1, r2, _⟩ := near_rng F hlo hhi hb hk hm h1 h2
  have hc : c ≠ 0 := by
    obtain ⟨t, e, t0, _⟩ := h'.factor F.lt1
    rintro rfl
    simp only [Rat.cast_zero] at e
    exact mul_ne_zero hy t0.ne' e.symm
  obtain ⟨r, e, n⟩ := F.div hc (.inr r1) r2
  exact ⟨r, e, hm.trans F.lt1 n⟩

/-- Products of numbers between `1 / b` and `b`. -/
structure In (b : ℝ) (k : Nat) (x : ℝ) : Prop where
  low : 1 ≤ b ^ k * x
  high : x ≤ b ^ k

namespace In
variable {k l : Nat} {x y : ℝ}

theorem pos (hb : 1 ≤ b) (h : In b k x) : 0 < x := by
  by_contra hc
  have : b ^ k * x ≤ 0 := mul_nonpos_of_nonneg_of_nonpos (by positivity) (by linarith)
  linarith [h.low]

theorem mul (hb : 1 ≤ b) (h : In b k x) (h' : In b l y) : In b (k + l) (x * y) where
  low := by
    have := mul_le_mul h.low h'.low zero_le_one (by linarith [h.low])
    rw [one_mul] at this
    rw [pow_add]
    linarith
  high := by
    rw [pow_add]
    exact mul_le_mul h.high h'.high (h'.pos hb).le (by positivity)

theorem inv (hb : 1 ≤ b) (h : In b k x) : In b k (1 / x) where
  low := by
    rw [mul_one_div, le_div_iff₀ (h.pos hb), one_mul]; exact h.high
  high := by
    rw [div_le_iff₀ (h.pos hb)]; exact h.low

theorem div (hb : 1 ≤ b) (h : In b k x) (h' : In b l y) : In b (k + l) (x / y) := by
  have := h.mul hb (h'.inv hb)
  rwa [mul_one_div] at this

theorem mono (hb : 1 ≤ b) (hk : k ≤ l) (h : In b k x) : In b l x where
  low := by
    refine h.low.trans (mul_le_mul_of_nonneg_right ?_ (h.pos hb).le)
    exact pow_le_pow_right₀ hb hk
  high := h.high.trans (pow_le_pow_right₀ hb hk)

end In

/-- The left-hand side of the acceptance check is at least `(dim / θ)²` up to rounding errors. -/
theorem lh_lower (L : A.Laws) (F : FlModel A u η lo hi) (hlo : 16 * lo * b ^ 4 ≤ 1) (hhi : 8 * b ^ 4 ≤ hi) (hb : 1 ≤ b) {mac : Mac} {t mv : ℚ} (ht : In b 1 (t : ℝ))
    (hmv : macValue A mac (.fin t) = .fin mv) {pr : NProps ℚ} {dm δ : ℚ} {dim : ℝ} (hd : In b 1 dim) (hdm : Near u 1 dim dm)
    (hp : pr.dim = match mac with | .bh => A.mul (.fin dm) (.fin dm) | .bhGeom => .fin dm) (hδ : pr.delta = .fin δ) (δ0 : 0 ≤ δ) :
    ∃ q : ℚ, Fl.le (.fin q) (macLh A mac (.fin mv) pr) = true ∧ Near u 10 (dim ^ 2 / t ^ 2) q := by
  have htt := ht.mul hb ht
  have hdd := hd.mul hb hd
  have n1 : Near u 0 (1 : ℝ) ((1 : ℚ) : ℝ) := by rw [Rat.cast_one]; exact Near.refl F.u0 F.lt1 0 1
  have nt : Near u 0 (t : ℝ) t := Near.refl F.u0 F.lt1 0 _
  have e1 : dim ^ 2 / (t : ℝ) ^ 2 = dim * dim * (1 / (t * t)) := by rw [sq, sq, mul_one_div]
  have t0 := ht.pos hb
  unfold macLh
  cases mac with
  | bh =>
    simp only at hp ⊢
    unfold macValue at hmv
    simp only at hmv
    have i1 := htt.mono hb (show 1 + 1 ≤ 4 by omega)
    obtain ⟨t2, q1, q2⟩ := mulR F hlo hhi hb (by omega) nt nt i1.low i1.high
    rw [q1] at hmv
    have i2 := (htt.inv hb).mono hb (show 1 + 1 ≤ 4 by omega)
    obtain ⟨m, q3, q4⟩ := divR F hlo hhi hb (by omega) n1 q2 (htt.pos hb).ne' i2.low i2.high
    rw [q3, Fl.fin.injEq] at hmv
    subst hmv
    have i3 := hdd.mono hb (show 1 + 1 ≤ 4 by omega)
    obtain ⟨d2, q5, q6⟩ := mulR F hlo hhi hb (by omega) hdm hdm i3.low i3.high
    have i4 := hdd.mul hb (htt.inv hb)
    obtain ⟨r, q7, q8⟩ := mulR F hlo hhi hb (by omega) q6 q4 i4.low i4.high
    rw [hp, q5, q7, e1]
    exact ⟨r, by simp, q8.mono F.u0 F.lt1 (by omega)⟩
  | bhGeom =>
    simp only at hp ⊢
    unfold macValue at hmv
    simp only at hmv
    have i2 := (ht.inv hb).mono hb (show 1 ≤ 4 by omega)
    obtain ⟨m, q3, q4⟩ := divR F hlo hhi hb (by omega) n1 nt t0.ne' i2.low i2.high
    rw [q3, Fl.fin.injEq] at hmv
    subst hmv
    have i3 := (hd.mul hb (ht.inv hb))
    have i3' := i3.mono hb (show 1 + 1 ≤ 4 by omega)
    obtain ⟨p, q5, q6⟩ := mulR F hlo hhi hb (by omega) hdm q4 i3'.low i3'.high
    have i4 := i3.mul hb i3
    obtain ⟨r, q7, q8⟩ := mulR F hlo hhi hb (by omega) q6 q6 i4.low i4.high
    have dm0 : (0 : ℝ) ≤ dm := hdm.nonneg F.lt1 (hd.pos hb).le
    have m0 : (0 : ℝ) ≤ m := q4.nonneg F.lt1 (one_div_pos.2 t0).le
    have p0 : (0 : ℝ) ≤ p := q6.nonneg F.lt1 (i3.pos hb).le
    have dm0 : 0 ≤ dm := by exact_mod_cast dm0
    have m0 : 0 ≤ m := by exact_mod_cast m0
    have p0 : 0 ≤ p := by exact_mod_cast p0
    refine ⟨r, ?_, ?_⟩
    · rw [hp, hδ, ← q7]
      refine sq_mono L (show 0 ≤ p from p0) ?_
      rw [← q5]
      unfold Arith.fma
      split
      · exact L.mono _ _ (by linarith)
      · rw [q5]
        show Fl.le (.fin p) (A.rnd (p + δ)) = true
        have := L.mono p (p + δ) (by linarith)
        rwa [L.idem _ _ (show A.rnd (dm * m) = .fin p from q5)] at this
    · have e2 : dim ^ 2 / (t : ℝ) ^ 2 = dim * (1 / t) * (dim * (1 / t)) := by field_simp
      rw [e2]
      exact q8.mono F.u0 F.lt1 (by omega)

section
variable {d κ k C : Nat} {M : Mode ℚ}

/-- The squared distance of the acceptance check. -/
theorem plain_pos (F : FlModel M.A u η lo hi) (R : Span u η lo hi b d κ k C) (hd : M.vec = true → d = 3) {y z t : Nat → ℚ} (ht : Diffs u d y z t)
    (h2 : ∑ j ∈ Finset.range d, ((z j : ℝ) - y j) ^ 2 ≤ b ^ 2) :
    ∃ q : ℚ, plainD2 M (Arr d (fun j => .fin (t j))) = .fin q ∧ Pos u η (d + 3) (2 * d + 1) (∑ j ∈ Finset.range d, ((z j : ℝ) - y j) ^ 2) q := by
  unfold plainD2
  by_cases hv : M.vec = true
  · rw [if_pos hv]
    obtain rfl := hd hv
    show ∃ q : ℚ, M.A.add (M.A.add (M.A.mul (.fin (t 0)) (.fin (t 0))) (M.A.mul (.fin (t 1)) (.fin (t 1)))) (M.A.mul (.fin (t 2)) (.fin (t 2))) = _ ∧ _
    simp only [Finset.sum_range_succ, Finset.sum_range_zero, zero_add] at h2 ⊢
    have s0 := sq_nonneg ((z 0 : ℝ) - y 0)
    have s1 := sq_nonneg ((z 1 : ℝ) - y 1)
    have s2 := sq_nonneg ((z 2 : ℝ) - y 2)
    obtain ⟨a0, e0, p0⟩ := mul_sq F R (ht 0 (by omega)) (by linarith)
    obtain ⟨a1, e1, p1⟩ := mul_sq F R (ht 1 (by omega)) (by linarith)
    obtain ⟨a2, e2', p2⟩ := mul_sq F R (ht 2 (by omega)) (by linarith)
    obtain ⟨a3, e3, p3⟩ := add_sq F R p0 p1 (by omega) (by omega) (by linarith)
    obtain ⟨a4, e4, p4⟩ := add_sq F R p3 (p2.mono F.u0 F.lt1 F.η0 (by omega : 3 ≤ 3 + 1) le_rfl) (by omega) (by omega) (by linarith)
    exact ⟨a4, by rw [e0, e1, e3, e2', e4], p4.mono F.u0 F.lt1 F.η0 (by omega) (by omega)⟩
  · rw [if_neg hv]
    have hz : Pos u η 3 1 0 ((0 : ℚ) : ℝ) := by
      have := F.η0
      exact ⟨le_rfl, by simp, by simp [this], by simp [this]⟩
    obtain ⟨r, e', p⟩ := fold_sq F R ht hz (by linarith)
    rw [add_zero] at p
    exact ⟨r, e', p⟩

/-- The computed squared distance, if larger than a number that is not tiny. -/
theorem dist_lower (F : FlModel M.A u η lo hi) (R : Span u η lo hi b d κ k C) {D a q x : ℝ} (h : Pos u η (d + 3) (2 * d + 1) D a) (hq : q ≤ a) (hx : In b 4 x) (hqx : Near u 10 x q) :
    x * (1 - u) ^ (d + 14) ≤ D := by
  have u0 := F.u0
  have u1 := F.u1
  have b1 := R.b1
  have x0 := hx.pos b1
  have hp : 0 < (1 - u) ^ (d + 3) := pow_pos (by linarith) _
  have hk : 2 * (((d + 3 : ℕ) : ℝ) * u) ≤ 1 := by
    have := R.errs
    have h1 : ((d + 3 : ℕ) : ℝ) ≤ ((C + k : ℕ) : ℝ) := by have := R.kd; exact_mod_cast (by omega : d + 3 ≤ C + k)
    have := mul_le_mul_of_nonneg_right h1 u0
    linarith
  have hh := Near.half_le u0 F.lt1 hk
  have hh2 : 1 / 2 ≤ (1 - u) ^ 10 := Near.half_le u0 F.lt1 (k := 10) (by norm_num; linarith)
  obtain ⟨t, e, t0, t1, _⟩ := hqx.factor F.lt1
  have hqx' : x * (1 - u) ^ 10 ≤ q := by rw [e]; exact mul_le_mul_of_nonneg_left t1 x0.le
  have ha2 : x / 2 ≤ a := by
    have := mul_le_mul_of_nonneg_left hh2 x0.le
    linarith
  have hN : ((2 * d + 1 : ℕ) : ℝ) * η ≤ u * (a / 2) := by
    have h1 : ((2 * d + 1 : ℕ) : ℝ) * η ≤ (2 * (d + 2)) * (u * lo) := by
      apply mul_le_mul _ F.ηlo F.η0 (by positivity)
      push_cast
      linarith
    have h4 : 8 * (d + 2) * lo ≤ x := by
      have hb4 : 0 < b ^ 4 := by positivity
      have := R.low
      have h3 : b ^ 4 * (8 * (d + 2) * lo) ≤ b ^ 4 * x := by linarith [hx.low]
      exact le_of_mul_le_mul_left h3 hb4
    have h5 := mul_le_mul_of_nonneg_left (show 8 * (d + 2) * lo ≤ 2 * a by linarith) u0
    linarith
  have ub := h.ub
  have hmain : a * ((1 - u) ^ (d + 3) * (1 - u)) ≤ D := by
    have a0 := h.an
    have : a * u * (1 / 2) ≤ a * u * (1 - u) ^ (d + 3) := mul_le_mul_of_nonneg_left hh (by positivity)
    linarith
  have h6 : x * (1 - u) ^ (d + 14) ≤ a * ((1 - u) ^ (d + 3) * (1 - u)) := by
    have e2 : x * (1 - u) ^ (d + 14) = x * (1 - u) ^ 10 * ((1 - u) ^ (d + 3) * (1 - u)) := by ring
    rw [e2]
    exact mul_le_mul_of_nonneg_right (hqx'.trans hq) (mul_nonneg hp.le (by linarith))
  linarith

end

theorem acc_real {t D dim : ℝ} {m : Nat} (u0 : 0 ≤ u) (u1 : u < 1) (hm : 2 * (m * u) ≤ 1) (ht : 0 < t) (h : dim ^ 2 / t ^ 2 * (1 - u) ^ m ≤ D) :
    dim ^ 2 ≤ (t * (1 + m * u)) ^ 2 * D := by
  have hb := Near.bern u0 u1 m
  have t2 : 0 < t ^ 2 := by positivity
  have mu : 0 ≤ m * u := by positivity
  have h1 : dim ^ 2 * (1 - u) ^ m ≤ t ^ 2 * D := by
    have := mul_le_mul_of_nonneg_left h t2.le
    have e : t ^ 2 * (dim ^ 2 / t ^ 2 * (1 - u) ^ m) = dim ^ 2 * (1 - u) ^ m := by field_simp
    rwa [e] at this
  have h2 : 1 ≤ (1 + m * u) ^ 2 * (1 - u) ^ m := by
    have h3 := mul_le_mul_of_nonneg_left hb (sq_nonneg (1 + m * u))
    nlinarith [mul_nonneg mu mu, mul_nonneg (mul_nonneg mu mu) (show 0 ≤ 1 - 2 * (m * u) by linarith), mul_nonneg mu (show 0 ≤ 1 - 2 * (m * u) by linarith)]
  have h4 := mul_le_mul_of_nonneg_left h2 (sq_nonneg dim)
  have h5 := mul_le_mul_of_nonneg_left h1 (sq_nonneg (1 + m * u))
  have e : (t * (1 + m * u)) ^ 2 * D = (1 + m * u) ^ 2 * (t ^ 2 * D) := by ring
  rw [e]
  linarith

section Tree
variable {f : Format} {fused : Bool} {simd : Option (Simd ℚ)} {mac : Mac} {w d : Nat} {s : TS (rakauEnv (f.ieee fused) simd mac w d)}

/-- A node that passes the check of a kernel: its size is at most `θ (1 + (d + 14) u)` times the distance of the target. -/
theorem passed_dim (hf : f.Std) (hs : Supported w d) (h : Reach _ s) (hz : s.n * cbits w d < 2 ^ 64) {b : ℝ} {κ K C : Nat}
    (R : Span f.unit f.tiny f.minNormal ((2 ^ (f.emax - 1) : ℚ) : ℝ) b d κ K C) {B : ℚ} (hB : s.box = .fin B) {t mv : ℚ} (ht : In b 1 (t : ℝ))
    (hmv : macValue (f.ieee fused) mac (.fin t) = .fin mv) {i : Nat} (hi : i < s.tree.length) (hdim : In b 1 ((B : ℝ) / 2 ^ s.tree[i].level))
    {y c : Nat → ℚ} (hy : ∀ j < d, (f.ieee fused).Repr (y j)) (hc : ∀ j < d, (f.ieee fused).Repr (c j)) (hp : i < s.props.length) (hcom : s.props[i].com = Arr d (fun j => .fin (c j)))
    (hfar : ∑ j ∈ Finset.range d, ((c j : ℝ) - y j) ^ 2 ≤ b ^ 2) {M : Mode ℚ} {fu fl : Bool} (hM : M.A = f.ieee fu) (hvec : M.vec = true → d = 3)
    (hacc : (macLh (f.ieee fl) mac (.fin mv) s.props[i]).ge (plainD2 M (diffs M.A (Arr d (fun j => .fin (y j))) s.props[i].com)) = false) :
    ((B : ℝ) / 2 ^ s.tree[i].level) ^ 2 ≤ (t * (1 + (d + 14 : ℕ) * f.unit)) ^ 2 * ∑ j ∈ Finset.range d, ((c j : ℝ) - y j) ^ 2 := by
  have F := Format.ieee_model hf fused
  have FM : FlModel M.A _ _ _ _ := hM ▸ Format.ieee_model hf fu
  have L : (f.ieee fused).Laws := Format.arith_laws hf.toOk _ _
  have b1 := R.b1
  have hlo := Span.lo_le F R
  have hhi := Span.hi_ge R
  obtain ⟨_, _, _, _, p, p1, p2, p3, p4, p5, p6, p7, _⟩ := reach_node (rakauEnv_ok (f.ieee fused) simd mac hs) h hz hi
  have p7 : nodeProps (f.ieee fused) simd mac w d s.box s.tree[i] s.parts = .ok s.props[i] := p7
  obtain ⟨_, a, δ, _, s2, _, s4⟩ := reach_sizes L (ieee_sqrt_nonneg f fused) hs h hz hi
  obtain ⟨dm, d1, d2, d3⟩ := nodeProps_size p7
  have hd := hs.dim
  have hlev : s.tree[i].level < w := by
    rw [p4]
    have p2 : p.length ≤ cbits w d := p2
    have := cbits_mul_lt hd.1 hd.2.1
    have := Nat.le_mul_of_pos_right (cbits w d) hd.1
    omega
  have hw : w ≤ 64 := by rcases hs.1 with rfl | rfl <;> omega
  have n0 : Near (f.unit : ℝ) 0 (B : ℝ) B := Near.refl F.u0 F.lt1 0 _
  have n1 : Near (f.unit : ℝ) 0 ((2 : ℝ) ^ s.tree[i].level) ((2 ^ s.tree[i].level : ℚ) : ℝ) := by push_cast; exact Near.refl F.u0 F.lt1 0 _
  have i1 := hdim.mono b1 (show 1 ≤ 4 by omega)
  obtain ⟨q, q1, q2⟩ := divR F hlo hhi b1 (by omega) n0 n1 (by positivity) i1.low i1.high
  have hdm : dm = .fin q := by
    rw [nodeDim_eq _ hlev, Except.ok.injEq] at d1
    rw [← d1, hB, ← q1]
    push_cast
    rw [L.pow _ (by omega)]
  subst hdm
  obtain ⟨ql, e1, e2'⟩ := lh_lower (A := f.ieee fl) (Format.arith_laws hf.toOk _ _) (Format.ieee_model hf fl) hlo hhi b1 ht hmv (pr := s.props[i]) hdim q2 (by
    cases mac with
    | bh => exact (d2 rfl).1
    | bhGeom => exact (d3 rfl).1) s2 s4
  have hcb : ∀ j < d, |(c j : ℝ) - y j| ≤ b := by
    intro j hj
    have h1 := Finset.single_le_sum (f := fun j => ((c j : ℝ) - y j) ^ 2) (fun j _ => sq_nonneg _) (Finset.mem_range.2 hj)
    exact abs_le_of_sq_le_sq (h1.trans hfar) (by linarith)
  obtain ⟨td, t1, t2⟩ := diffs_near FM R (y := y) (z := c) (by rw [hM]; exact hy) (by rw [hM]; exact hc) hcb
  obtain ⟨D, D1, D2'⟩ := plain_pos FM R hvec t2 hfar
  rw [hcom, t1, D1] at hacc
  have hqD : ql < D := by
    by_contra hc
    rw [not_lt] at hc
    have : Fl.le (.fin D) (macLh (f.ieee fl) mac (.fin mv) s.props[i]) = true := Fl.le_trans' (b := .fin ql) (by simpa using hc) e1
    exact absurd (hacc.symm.trans this) (by decide)
  have hx := (hdim.mul b1 hdim).div b1 (ht.mul b1 ht)
  rw [← sq, ← sq] at hx
  have key := dist_lower FM R D2' (q := ql) (by exact_mod_cast hqD.le) hx e2'
  refine acc_real F.u0 F.lt1 ?_ (ht.pos b1) key
  have := R.errs
  have h1 : ((d + 14 : ℕ) : ℝ) ≤ ((C + K : ℕ) : ℝ) := by have := R.kd; exact_mod_cast (by omega : d + 14 ≤ C + K)
  have := mul_le_mul_of_nonneg_right h1 F.u0
  linarith

/-- An accepted node: its size is at most `θ (1 + (d + 14) u)` times the distance of the target. -/
theorem accepted_dim (hf : f.Std) (hs : Supported w d) (h : Reach _ s) (hz : s.n * cbits w d < 2 ^ 64) {rsqrt : Option (Fl ℚ → Fl ℚ)} {over : Overshift} {Q : Quant} {b : ℝ} {κ K C : Nat}
    (R : Span f.unit f.tiny f.minNormal ((2 ^ (f.emax - 1) : ℚ) : ℝ) b d κ K C) {B : ℚ} (hB : s.box = .fin B) {t mv : ℚ} (ht : In b 1 (t : ℝ))
    (hmv : macValue (f.ieee fused) mac (.fin t) = .fin mv) {g e2 : Fl ℚ} {i : Nat} (hi : i < s.tree.length) (hdim : In b 1 ((B : ℝ) / 2 ^ s.tree[i].level))
    {y c : Nat → ℚ} {my : ℚ} (hy : ∀ j < d, (f.ieee fused).Repr (y j)) (hc : ∀ j < d, (f.ieee fused).Repr (c j)) (hp : i < s.props.length) (hcom : s.props[i].com = Arr d (fun j => .fin (c j)))
    (hfar : ∑ j ∈ Finset.range d, ((c j : ℝ) - y j) ^ 2 ≤ b ^ 2)
    (hacc : (s.force rsqrt over Q (.fin mv) g e2).failsAt i (mkPt d y my) = false) :
    ((B : ℝ) / 2 ^ s.tree[i].level) ^ 2 ≤ (t * (1 + (d + 14 : ℕ) * f.unit)) ^ 2 * ∑ j ∈ Finset.range d, ((c j : ℝ) - y j) ^ 2 := by
  have hpr : (s.force rsqrt over Q (.fin mv) g e2).pr i = s.props[i] := by
    show (s.props[i]?).getD _ = _
    rw [List.getElem?_eq_getElem hp, Option.getD_some]
  obtain ⟨fu, hfu⟩ := mode_ieee (f := f) (fused := fused) (simd := simd) (d := d) rsqrt
  unfold Force.failsAt macFails at hacc
  rw [hpr] at hacc
  exact passed_dim hf hs h hz R hB ht hmv hi hdim hy hc hp hcom hfar (M := (⟨f.ieee fused, simd, rsqrt⟩ : Hw ℚ).mode d) (fl := fused) hfu mode_vec hacc

end Tree

end Rakau
