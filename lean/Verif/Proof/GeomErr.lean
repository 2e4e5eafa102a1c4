import Verif.Proof.TreeSum

/-! The cube of a node and the size data of the acceptance checks in rounded arithmetic. -/
namespace Rakau
open Spec

variable {A : Arith ℚ} {u η lo hi b : ℝ}

/-- Twice the root bounds the rounded root, even of a tiny number. -/
theorem Format.sqrt_le (f : Format) {fused : Bool} {q r : ℚ} (hq : 0 ≤ q) (h : (f.ieee fused).fsqrt (.fin q) = .fin r) : 0 ≤ r ∧ r ^ 2 ≤ 4 * q := by
  have h : f.sqrt q = .fin r := by
    have e : (f.ieee fused).fsqrt (.fin q) = if q < 0 then .nan else f.sqrt q := rfl
    rwa [e, if_neg (not_lt.2 hq)] at h
  rcases hq.eq_or_lt with rfl | hq
  · unfold Format.sqrt at h
    simp at h
    subst h
    simp
  · obtain ⟨m, e1, e2, _⟩ := sqrt_nearest f hq
    rw [e1, Fl.fin.injEq] at h
    subst h
    have hp : (0 : ℚ) < 2 ^ Max.max (ilog q / 2 - ((f.prec : ℤ) - 1)) f.emin := by positivity
    generalize (2 : ℚ) ^ Max.max (ilog q / 2 - ((f.prec : ℤ) - 1)) f.emin = v at *
    refine ⟨by positivity, ?_⟩
    rcases e2 with rfl | e2
    · simp; linarith
    · rcases Nat.eq_zero_or_pos m with rfl | hm
      · simp; linarith
      · have : (1 : ℚ) ≤ m := by exact_mod_cast hm
        have h1 : (m * v) ^ 2 ≤ (2 * ((m - 1 / 2) * v)) ^ 2 := by
          apply pow_le_pow_left₀ (by positivity)
          nlinarith
        nlinarith

/-- The centre of a cube from its corner. -/
theorem centre_real (L : A.Laws) (F : FlModel A u η lo hi) (hlo : 16 * lo * b ^ 4 ≤ 1) (hhi : 8 * b ^ 4 ≤ hi) (hb : 1 ≤ b) {B : ℚ} {c l C : Nat} (hl : l ≤ C) (hC : C ≤ 64)
    (hB : 4 ≤ b * ((B : ℝ) / 2 ^ C)) (hB' : (B : ℝ) ≤ b) (hc : c ≤ 2 ^ C) :
    ∃ z : ℚ, A.fma (A.rnd (c : ℚ)) (A.mul (.fin B) (A.div (.fin 1) (A.rnd ((2 ^ C : Nat) : ℚ))))
        (A.sub (A.mul (A.div (.fin B) (A.rnd ((2 ^ l : Nat) : ℚ))) (.fin (1 / 2))) (A.mul (.fin B) (.fin (1 / 2)))) = .fin z ∧ A.Repr z ∧
      |(z : ℝ) - (c * (B / 2 ^ C) + B / 2 ^ l / 2 - B / 2)| ≤ 16 * u * B := by
  have u0 := F.u0
  have u1 := F.u1
  have b4 : 1 ≤ b ^ 4 := one_le_pow₀ hb
  have b14 : b ≤ b ^ 4 := le_self_pow₀ hb (by norm_num)
  have b24 : b ^ 2 ≤ b ^ 4 := pow_le_pow_right₀ hb (by norm_num)
  have hCr : (1 : ℝ) ≤ 2 ^ C := one_le_pow₀ (by norm_num)
  have hlr : (1 : ℝ) ≤ 2 ^ l := one_le_pow₀ (by norm_num)
  have hlC : (2 : ℝ) ^ l ≤ 2 ^ C := pow_le_pow_right₀ (by norm_num) hl
  have B0 : (0 : ℝ) < B := by
    by_contra hc
    have h1 : (B : ℝ) / 2 ^ C ≤ 0 := div_nonpos_of_nonpos_of_nonneg (by linarith) (by positivity)
    nlinarith
  have hBC : 4 * 2 ^ C ≤ b * (B : ℝ) := by
    rw [mul_div_assoc', le_div_iff₀ (by positivity)] at hB
    exact hB
  have hC2 : 4 * (2 : ℝ) ^ C ≤ b ^ 2 := by nlinarith
  -- the sizes
  have n0 : ∀ q : ℚ, Near u 0 (q : ℝ) q := fun q => Near.refl F.u0 F.lt1 0 _
  have n1 : Near u 0 (1 : ℝ) ((1 : ℚ) : ℝ) := by rw [Rat.cast_one]; exact Near.refl F.u0 F.lt1 0 1
  have nh : Near u 0 (1 / 2 : ℝ) ((1 / 2 : ℚ) : ℝ) := by push_cast; exact Near.refl F.u0 F.lt1 0 _
  have npow : ∀ m : Nat, Near u 0 ((2 : ℝ) ^ m) ((2 ^ m : ℚ) : ℝ) := fun m => by push_cast; exact Near.refl F.u0 F.lt1 0 _
  have rpow : ∀ m ≤ 64, A.rnd ((2 ^ m : Nat) : ℚ) = .fin (2 ^ m) := fun m hm => by push_cast; exact L.pow m hm
  have lowC : 1 ≤ b ^ 4 * (1 / 2 ^ C) := by
    rw [mul_one_div, le_div_iff₀ (by positivity)]
    linarith
  have hiC : (1 : ℝ) / 2 ^ C ≤ b ^ 4 := by
    rw [div_le_iff₀ (by positivity)]
    nlinarith
  obtain ⟨r1, e1, m1⟩ := divR F hlo hhi hb (by omega) n1 (npow C) (by positivity) lowC hiC
  have low2 : 1 ≤ b ^ 4 * ((B : ℝ) * (1 / 2 ^ C)) := by
    rw [mul_one_div]
    have := mul_le_mul_of_nonneg_right b14 (show 0 ≤ (B : ℝ) / 2 ^ C by positivity)
    linarith
  have leB : (B : ℝ) * (1 / 2 ^ C) ≤ B := by
    rw [mul_one_div]
    exact div_le_self B0.le hCr
  obtain ⟨r2, e2, m2⟩ := mulR F hlo hhi hb (by omega) (n0 B) m1 low2 (by linarith)
  have hdim : 4 ≤ b * ((B : ℝ) / 2 ^ l) := hB.trans (mul_le_mul_of_nonneg_left (div_le_div_of_nonneg_left B0.le (by positivity) hlC) (by linarith))
  have hdB : (B : ℝ) / 2 ^ l ≤ B := div_le_self B0.le hlr
  have hd0 : 0 < (B : ℝ) / 2 ^ l := by positivity
  have up : ∀ {y : ℝ}, 0 < y → 1 ≤ b * y → 1 ≤ b ^ 4 * y := fun h0 h => h.trans (mul_le_mul_of_nonneg_right b14 h0.le)
  obtain ⟨r3, e3, m3⟩ := divR F hlo hhi hb (by omega) (n0 B) (npow l) (by positivity) (up hd0 (by linarith)) (by linarith)
  obtain ⟨r4, e4, m4⟩ := mulR F hlo hhi hb (by omega) m3 nh (up (by positivity) (by linarith)) (by linarith)
  have hbB : 4 ≤ b * (B : ℝ) := hB.trans (mul_le_mul_of_nonneg_left (div_le_self B0.le hCr) (by linarith))
  obtain ⟨r5, e5, m5⟩ := mulR F hlo hhi hb (by omega) (n0 B) nh (up (by positivity) (by linarith)) (by linarith)
  have w : ∀ {k : Nat} {x y : ℝ}, k ≤ 4 → Near u k x y → 0 ≤ x → |y - x| ≤ 2 * (k * u) * x := by
    intro k x y hk h hx
    obtain ⟨h1, _⟩ := h.within F.u0 F.lt1 (by
      have : (k : ℝ) ≤ 4 := by exact_mod_cast hk
      nlinarith)
    rwa [abs_of_nonneg hx] at h1
  have w4 := abs_le.1 (w (by omega) m4 (by positivity))
  have w5 := abs_le.1 (w (by omega) m5 (by positivity))
  have uB : 0 ≤ u * (B : ℝ) := mul_nonneg u0 B0.le
  have uB1 : u * (B : ℝ) ≤ B / 1024 := by nlinarith
  have ud : u * ((B : ℝ) / 2 ^ l) ≤ u * B := mul_le_mul_of_nonneg_left hdB u0
  norm_num at w4 w5
  have h45 : |(r4 : ℝ) - r5| ≤ 33 / 64 * B := by
    rw [abs_le]
    constructor <;> linarith
  obtain ⟨r6, e6, m6⟩ := F.sub (mul_repr L e4) (mul_repr L e5) (h45.trans (by nlinarith))
  have w6 : |(r6 : ℝ) - (r4 - r5)| ≤ 2 * (u * B) := by
    obtain ⟨h1, _⟩ := m6.within F.u0 F.lt1 (by push_cast; linarith)
    push_cast at h1
    have := mul_le_mul_of_nonneg_left h45 u0
    linarith
  have w6 := abs_le.1 w6
  have lo1 : lo ≤ 1 := by have := F.lo0; nlinarith
  have hcr : (c : ℝ) ≤ 2 ^ C := by exact_mod_cast hc
  obtain ⟨r7, e7, m7⟩ := F.near (q := (c : ℚ)) (by
    rcases Nat.eq_zero_or_pos c with rfl | h
    · left; simp
    · right
      have : (1 : ℝ) ≤ c := by exact_mod_cast h
      push_cast
      rw [abs_of_nonneg (by linarith)]
      linarith) (by push_cast; rw [abs_of_nonneg (Nat.cast_nonneg _)]; linarith)
  push_cast at m7
  have m72 := m7.mul F.lt1 m2
  have hcB : (c : ℝ) * (B * (1 / 2 ^ C)) ≤ B := by
    rw [mul_one_div]
    have := mul_le_mul_of_nonneg_right hcr (show 0 ≤ (B : ℝ) / 2 ^ C by positivity)
    rwa [mul_div_cancel₀ _ (by positivity : (2 : ℝ) ^ C ≠ 0)] at this
  have hcB0 : 0 ≤ (c : ℝ) * (B * (1 / 2 ^ C)) := by positivity
  have w7 : |(r7 : ℝ) * r2 - c * (B * (1 / 2 ^ C))| ≤ 6 * (u * B) := by
    have h1 := w (by omega) m72 hcB0
    have h2 := mul_le_mul_of_nonneg_left hcB u0
    push_cast at h1
    linarith
  have eX : (c : ℝ) * (B / 2 ^ C) = c * (B * (1 / 2 ^ C)) := by ring
  rw [eX]
  generalize (c : ℝ) * (B * (1 / 2 ^ C)) = X at *
  generalize (B : ℝ) / 2 ^ l = Y at *
  have w7 := abs_le.1 w7
  have hη : η ≤ u * B := by
    have h1 := F.ηlo
    have h2 : lo ≤ B := by
      have h3 : b ^ 4 * lo ≤ b ^ 4 * B := by
        have := mul_le_mul_of_nonneg_right b14 B0.le
        linarith
      exact le_of_mul_le_mul_left h3 (by linarith)
    exact h1.trans (mul_le_mul_of_nonneg_left h2 u0)
  have hs : |(r7 : ℝ) * r2 + r6| ≤ 9 / 8 * B := by
    rw [abs_le]
    constructor <;> linarith
  have hBhi : 2 * (B : ℝ) ≤ hi := by linarith
  have us := mul_le_mul_of_nonneg_left hs u0
  rw [rpow C hC, rpow l (by omega), e1, e2, e3, e4, e5, e6, e7]
  unfold Arith.fma
  split
  · obtain ⟨z, z1, z2⟩ := F.rnd (r7 * r2 + r6) (by push_cast; linarith)
    refine ⟨z, z1, L.idem _ _ z1, ?_⟩
    push_cast at z2
    have z2 := abs_le.1 z2
    rw [abs_le]
    constructor <;> linarith
  · have hm : |(r7 : ℝ) * r2| ≤ 65 / 64 * B := by
      rw [abs_le]
      constructor <;> linarith
    have um := mul_le_mul_of_nonneg_left hm u0
    obtain ⟨v, v1, v2⟩ := F.rnd (r7 * r2) (by push_cast; linarith)
    push_cast at v2
    have v2 := abs_le.1 v2
    have hs' : |(v : ℝ) + r6| ≤ 9 / 8 * B := by
      rw [abs_le]
      constructor <;> linarith
    have us' := mul_le_mul_of_nonneg_left hs' u0
    obtain ⟨z, z1, z2⟩ := F.rnd (v + r6) (by push_cast; linarith)
    refine ⟨z, ?_, L.idem _ _ z1, ?_⟩
    · show A.add (A.rnd (r7 * r2)) _ = _
      rw [v1]
      exact z1
    · push_cast at z2
      have z2 := abs_le.1 z2
      rw [abs_le]
      constructor <;> linarith

section
variable {f : Format} {fused : Bool} {simd : Option (Simd ℚ)} {mac : Mac} {w d : Nat} {s : TS (rakauEnv (f.ieee fused) simd mac w d)}

/-- The particles of a node in the cube given by the computed centre and size of the node. -/
theorem node_centre (hf : f.Std) (hs : Supported w d) (h : Reach _ s) (hz : s.n * cbits w d < 2 ^ 64) {x : Nat → Nat → ℚ} (hx : IsData d s.n s.parts x) {B : ℚ} (hB : s.box = .fin B)
    {b : ℝ} (hb : 1 ≤ b) (hlo : 16 * (f.minNormal : ℝ) * b ^ 4 ≤ 1) (hhi : 8 * b ^ 4 ≤ ((2 ^ (f.emax - 1) : ℚ) : ℝ)) (h1 : 4 ≤ b * ((B : ℝ) / 2 ^ cbits w d)) (h2 : (B : ℝ) ≤ b)
    (i1 : 0 < B) (i2 : f.minNormal ≤ 1 / B) (i3 : 1 / B ≤ 2 ^ (f.emax - 1)) {i : Nat} (hi : i < s.tree.length) :
    ∃ z : Nat → ℚ, nodeCentre (f.ieee fused) w d s.tree[i].code (.fin B) = .ok (Arr d (fun j => .fin (z j))) ∧ (∀ j < d, (f.ieee fused).Repr (z j)) ∧
      ∀ k, s.tree[i].beg ≤ k → k < s.tree[i].fin → ∀ j < d, |(x j k : ℝ) - z j| ≤ B / 2 ^ s.tree[i].level / 2 + 20 * f.unit * B := by
  have F := Format.ieee_model hf fused
  have L : (f.ieee fused).Laws := Format.arith_laws hf.toOk _ _
  obtain ⟨hcl, _, _, hp, p, p1, p2, p3, p4, p5, p6, p7, p8⟩ := reach_node (rakauEnv_ok (f.ieee fused) simd mac hs) h hz hi
  have p2 : p.length ≤ cbits w d := p2
  have p1 : p.Ok d := p1
  have p3 : s.tree[i].code = p.code d := p3
  have p5 : s.tree[i].beg < s.tree[i].fin := p5
  have p6 : s.tree[i].fin ≤ s.n := p6
  have p8 : ∀ k (hk : k < s.codes.length), (s.tree[i].beg ≤ k ∧ k < s.tree[i].fin) ↔ InNode d (cbits w d) p s.codes[k] := p8
  have hd := hs.dim
  have B0 : (0 : ℝ) < B := by exact_mod_cast i1
  obtain ⟨c, g1, g2, g3⟩ := nodeCentre_eq (f.ieee fused) hs p1 p2 (.fin B)
  -- the cells of the particles
  have cell : ∀ k, s.tree[i].beg ≤ k → k < s.tree[i].fin → ∀ j (hj : j < d), c[j] ≤ 2 ^ cbits w d ∧
      (c[j] : ℝ) / 2 ^ cbits w d - 4 * f.unit ≤ x j k / B + 1 / 2 ∧ (x j k : ℝ) / B + 1 / 2 ≤ (c[j] : ℝ) / 2 ^ cbits w d + 1 / 2 ^ p.length + 4 * f.unit := by
    intro k k1 k2 j hj
    obtain ⟨c1, xs, x1, x2, x3, x4, x5⟩ := coords_at hf hs h hx hB i1 i2 i3 (k := k) (by omega)
    have e2 := (inNode_iff hd.1 p1 p2 x4).1 ((p8 _ c1).1 ⟨k1, k2⟩)
    rw [← Nat.shiftRight_eq_div_pow] at e2
    obtain ⟨c', a1, a2, a3⟩ := C07_node_cube (w := w) (L := p.length) (q := pv d p) (xs := xs) (by rw [x1]; exact hs) (by rw [x1]; exact p2) (by rw [x1]; exact x2) x3 (by rw [x1]; exact pv_lt d p p1)
    have : c = c' := by
      simp only [x1] at a1
      rw [g1, Option.some.injEq] at a1
      exact a1
    subst this
    have hcell := a3.1 (by rw [x1]; exact e2) j (by omega)
    have hcell : c[j] ≤ xs[j] ∧ xs[j] < c[j] + 2 ^ (cbits w d - p.length) := by simpa only [x1] using hcell
    obtain ⟨b1, b2⟩ := x5 j hj
    have hxl := x2 xs[j] (List.getElem_mem _)
    refine ⟨by omega, ?_, ?_⟩
    · refine le_trans ?_ b1
      have : (c[j] : ℝ) ≤ xs[j] := by exact_mod_cast hcell.1
      gcongr
    · refine b2.trans ?_
      have h3 : ((xs[j] + 1 : ℕ) : ℝ) ≤ (c[j] : ℝ) + 2 ^ (cbits w d - p.length) := by exact_mod_cast hcell.2
      have h4 : (1 : ℝ) / 2 ^ p.length = 2 ^ (cbits w d - p.length) / 2 ^ cbits w d := by
        rw [div_eq_div_iff (by positivity) (by positivity), one_mul, ← pow_add, Nat.sub_add_cancel p2]
      rw [h4, ← add_div]
      gcongr
  have hcen : ∀ j, ∃ z : ℚ, ∀ hj : j < d, (f.ieee fused).fma ((f.ieee fused).rnd (c[j] : ℚ)) ((f.ieee fused).mul (.fin B) ((f.ieee fused).div (.fin 1) ((f.ieee fused).rnd ((2 ^ cbits w d : Nat) : ℚ))))
        ((f.ieee fused).sub ((f.ieee fused).mul ((f.ieee fused).div (.fin B) ((f.ieee fused).rnd ((2 ^ p.length : Nat) : ℚ))) (.fin (1 / 2))) ((f.ieee fused).mul (.fin B) (.fin (1 / 2)))) = .fin z ∧
      (f.ieee fused).Repr z ∧ |(z : ℝ) - (c[j] * (B / 2 ^ cbits w d) + B / 2 ^ p.length / 2 - B / 2)| ≤ 16 * f.unit * B := by
    intro j
    by_cases hj : j < d
    · obtain ⟨z, z1⟩ := centre_real (c := c[j]) (l := p.length) (C := cbits w d) L F hlo hhi hb p2 ((cbits_le w d).trans hd.2.2) h1 h2 (cell _ le_rfl p5 j hj).1
      exact ⟨z, fun _ => z1⟩
    · exact ⟨0, fun h => absurd h hj⟩
  choose z hz' using hcen
  refine ⟨z, ?_, fun j hj => (hz' j hj).2.1, ?_⟩
  · rw [p3, g3, Except.ok.injEq]
    apply List.ext_getElem
    · simp [g2]
    · intro j h3 h4
      have hj : j < d := by simpa [g2] using h3
      rw [List.getElem_map, List.getElem_map, List.getElem_range]
      exact (hz' j hj).1
  · intro k k1 k2 j hj
    obtain ⟨_, y1, y2⟩ := cell k k1 k2 j hj
    have z3 := abs_le.1 (hz' j hj).2.2
    rw [p4]
    have e1 := mul_le_mul_of_nonneg_right y1 B0.le
    have e2 := mul_le_mul_of_nonneg_right y2 B0.le
    have e3 : ((x j k : ℝ) / B + 1 / 2) * B = x j k + B / 2 := by field_simp
    rw [e3] at e1 e2
    have e4 : ((c[j] : ℝ) / 2 ^ cbits w d - 4 * f.unit) * B = c[j] * (B / 2 ^ cbits w d) - 4 * f.unit * B := by ring
    have e5 : ((c[j] : ℝ) / 2 ^ cbits w d + 1 / 2 ^ p.length + 4 * f.unit) * B = c[j] * (B / 2 ^ cbits w d) + B / 2 ^ p.length + 4 * f.unit * B := by ring
    rw [e4] at e1
    rw [e5] at e2
    rw [abs_le]
    constructor <;> linarith [z3.1, z3.2]

theorem nodeProps_geom {A : Arith ℚ} {box : Fl ℚ} {nd : Node} {parts : List (List (Fl ℚ))} {r : NProps ℚ}
    (h : nodeProps A simd .bhGeom w d box nd parts = .ok r) : ∃ geo q, nodeCentre A w d nd.code box = .ok geo ∧ dist2 A r.com geo = some q ∧ r.delta = A.fsqrt q := by
  unfold nodeProps at h
  simp only [bind, Except.bind] at h
  repeat' split at h
  all_goals first
    | (cases h; done)
    | skip
  all_goals
    rename_i geo hg _ _ _ _ _ _ _ _ q hq _
    cases h
    refine ⟨geo, q, hg, ?_, rfl⟩
    revert hq
    cases dist2 A _ geo <;> simp [ofUB]

/-- The computed squared distance of two points. -/
theorem dist2_pos {A : Arith ℚ} {κ k C : Nat} (hs : d = 2 ∨ d = 3) (F : FlModel A u η lo hi) (R : Span u η lo hi b d κ k C) {y z : Nat → ℚ} (hy : ∀ j < d, A.Repr (y j)) (hz : ∀ j < d, A.Repr (z j))
    (h2 : ∑ j ∈ Finset.range d, ((y j : ℝ) - z j) ^ 2 ≤ b ^ 2) :
    ∃ q : ℚ, dist2 A (Arr d (fun j => .fin (y j))) (Arr d (fun j => .fin (z j))) = some (.fin q) ∧ Pos u η (d + 3) (2 * d + 1) (∑ j ∈ Finset.range d, ((y j : ℝ) - z j) ^ 2) q := by
  have hbb : b ≤ hi := by
    have h1 := R.b1
    have : b ^ 1 ≤ b ^ 4 := pow_le_pow_right₀ h1 (by norm_num)
    have := Span.hi_ge R
    have : 0 ≤ b ^ 4 := by positivity
    linarith
  have hsub : ∀ j < d, ∃ t : ℚ, A.sub (.fin (y j)) (.fin (z j)) = .fin t ∧ Near u 1 ((y j : ℝ) - z j) t := by
    intro j hj
    refine F.sub (hy j hj) (hz j hj) (le_trans ?_ hbb)
    have h1 := Finset.single_le_sum (f := fun j => ((y j : ℝ) - z j) ^ 2) (fun j _ => sq_nonneg _) (Finset.mem_range.2 hj)
    exact abs_le_of_sq_le_sq (h1.trans h2) (by linarith [R.b1])
  have s0 := sq_nonneg ((y 0 : ℝ) - z 0)
  have s1 := sq_nonneg ((y 1 : ℝ) - z 1)
  have s2 := sq_nonneg ((y 2 : ℝ) - z 2)
  rcases hs with rfl | rfl
  · obtain ⟨t0, e0, n0⟩ := hsub 0 (by omega)
    obtain ⟨t1, e1, n1⟩ := hsub 1 (by omega)
    simp only [Finset.sum_range_succ, Finset.sum_range_zero, zero_add] at h2 ⊢
    obtain ⟨a0, f0, p0⟩ := mul_sq F R n0 (by linarith)
    obtain ⟨a1, f1, p1⟩ := fma_sq F R p0 n1 (by omega) (by omega) (by omega) (by linarith)
    refine ⟨a1, ?_, p1.mono F.u0 F.lt1 F.η0 (by omega) (by omega)⟩
    show some (A.fma (A.sub (.fin (y 1)) (.fin (z 1))) (A.sub (.fin (y 1)) (.fin (z 1))) (A.mul (A.sub (.fin (y 0)) (.fin (z 0))) (A.sub (.fin (y 0)) (.fin (z 0))))) = _
    rw [e0, e1, f0, f1]
  · obtain ⟨t0, e0, n0⟩ := hsub 0 (by omega)
    obtain ⟨t1, e1, n1⟩ := hsub 1 (by omega)
    obtain ⟨t2, e2, n2⟩ := hsub 2 (by omega)
    simp only [Finset.sum_range_succ, Finset.sum_range_zero, zero_add] at h2 ⊢
    obtain ⟨a0, f0, p0⟩ := mul_sq F R n0 (by linarith)
    obtain ⟨a1, f1, p1⟩ := fma_sq F R p0 n1 (by omega) (by omega) (by omega) (by linarith)
    obtain ⟨a2, f2, p2⟩ := fma_sq F R p1 n2 (by omega) (by omega) (by omega) (by linarith)
    refine ⟨a2, ?_, p2.mono F.u0 F.lt1 F.η0 (by omega) (by omega)⟩
    show some (A.fma (A.sub (.fin (y 2)) (.fin (z 2))) (A.sub (.fin (y 2)) (.fin (z 2))) (A.fma (A.sub (.fin (y 1)) (.fin (z 1))) (A.sub (.fin (y 1)) (.fin (z 1))) (A.mul (A.sub (.fin (y 0)) (.fin (z 0))) (A.sub (.fin (y 0)) (.fin (z 0)))))) = _
    rw [e0, e1, e2, f0, f1, f2]

end

section
variable {f : Format} {fused : Bool} {simd : Option (Simd ℚ)} {mac : Mac} {w d : Nat} {s : TS (rakauEnv (f.ieee fused) simd mac w d)}
variable {x : Nat → Nat → ℚ} {b : ℝ} {B t eps : ℚ} (T : BoxIn s x b B t eps)
include T

/-- The centre of mass and the centre of a node. -/
theorem BoxIn.centre (hf : f.Std) (hS : ∀ S, simd = some S → S.Adds (f.ieee fused)) (hs : Supported w d) (h : Reach _ s) (hz : s.n * cbits w d < 2 ^ 64) (hx : IsData d s.n s.parts x)
    {κ' K C : Nat} (R : Span f.unit f.tiny f.minNormal ((2 ^ (f.emax - 1) : ℚ) : ℝ) b d κ' K C) {i : Nat} (hi : i < s.tree.length) :
    ∃ z : Nat → ℚ, nodeCentre (f.ieee fused) w d s.tree[i].code (.fin B) = .ok (Arr d (fun j => .fin (z j))) ∧ (∀ j < d, (f.ieee fused).Repr (z j)) ∧
      ∀ j < d, |(s.cx i j : ℝ) - z j| ≤ 229 / 256 * B := by
  have F := Format.ieee_model hf fused
  have u0 := F.u0
  have u1 := F.u1
  have B0 := T.box0
  obtain ⟨i1, i2, i3⟩ := T.inv_ok hf hs.dim.1
  have hB := T.box_le hs.dim.1
  obtain ⟨z, z1, z2, z3⟩ := node_centre hf hs h hz hx T.box R.b1 (Span.lo_le F R) (Span.hi_ge R) T.cell (by linarith) i1 i2 i3 hi
  obtain ⟨hp, a1, a2, a3, a4, a5, a6, a7, a8, a9⟩ := T.stored hf hS hs h hz hx (Span.lo_le F R) hi
  obtain ⟨_, _, _, _, p, _, _, _, _, p5, p6, _⟩ := reach_node (rakauEnv_ok (f.ieee fused) simd mac hs) h hz hi
  have p5 : s.tree[i].beg < s.tree[i].fin := p5
  have p6 : s.tree[i].fin ≤ s.n := p6
  refine ⟨z, z1, z2, fun j hj => ?_⟩
  have hpos : ∀ k ∈ Finset.Ico s.tree[i].beg s.tree[i].fin, (0 : ℝ) < x d k := fun k hk => T.mass_pos (by rw [Finset.mem_Ico] at hk; omega)
  have hM0 : 0 < ∑ k ∈ Finset.Ico s.tree[i].beg s.tree[i].fin, (x d k : ℝ) := Finset.sum_pos hpos ⟨s.tree[i].beg, Finset.mem_Ico.2 ⟨le_rfl, p5⟩⟩
  have hdB : (B : ℝ) / 2 ^ s.tree[i].level ≤ B := div_le_self B0.le (one_le_pow₀ (by norm_num))
  have h1 : |∑ l ∈ Finset.Ico s.tree[i].beg s.tree[i].fin, (x d l : ℝ) * (x j l - z j)| ≤ (133 / 256 * B) * ∑ k ∈ Finset.Ico s.tree[i].beg s.tree[i].fin, (x d k : ℝ) := by
    refine (Finset.abs_sum_le_sum_abs _ _).trans ?_
    rw [Finset.mul_sum]
    apply Finset.sum_le_sum
    intro l hl
    rw [abs_mul, abs_of_pos (hpos l hl), mul_comm]
    apply mul_le_mul_of_nonneg_right _ (hpos l hl).le
    have := z3 l (Finset.mem_Ico.1 hl).1 (Finset.mem_Ico.1 hl).2 j hj
    have := mul_le_mul_of_nonneg_right u1 B0.le
    linarith
  have h2 := a7 j hj
  have h3 : 24 * (((s.n + lanes simd d + 1 : ℕ) : ℝ) * (f.unit : ℝ)) * B ≤ 24 / 64 * B := by
    apply mul_le_mul_of_nonneg_right _ B0.le
    have := T.errs
    have : ((s.n + lanes simd d + 1 : ℕ) : ℝ) ≤ ((s.n + lanes simd d + 2 : ℕ) : ℝ) := by exact_mod_cast (by omega)
    have := mul_le_mul_of_nonneg_right this u0
    linarith
  have h2 := h2.trans (mul_le_mul_of_nonneg_right h3 hM0.le)
  have e : (∑ k ∈ Finset.Ico s.tree[i].beg s.tree[i].fin, (x d k : ℝ)) * ((s.cx i j : ℝ) - z j) =
      ∑ l ∈ Finset.Ico s.tree[i].beg s.tree[i].fin, (x d l : ℝ) * (x j l - z j) - ∑ l ∈ Finset.Ico s.tree[i].beg s.tree[i].fin, (x d l : ℝ) * (x j l - s.cx i j) := by
    rw [← Finset.sum_sub_distrib, Finset.sum_mul]
    exact Finset.sum_congr rfl fun l _ => by ring
  generalize ∑ k ∈ Finset.Ico s.tree[i].beg s.tree[i].fin, (x d k : ℝ) = M at *
  have h4 := (abs_sub (∑ l ∈ Finset.Ico s.tree[i].beg s.tree[i].fin, (x d l : ℝ) * (x j l - z j)) (∑ l ∈ Finset.Ico s.tree[i].beg s.tree[i].fin, (x d l : ℝ) * (x j l - s.cx i j))).trans (add_le_add h1 h2)
  rw [← e, abs_mul, abs_of_pos hM0] at h4
  have h5 : M * |(s.cx i j : ℝ) - z j| ≤ M * (229 / 256 * B) := by linarith
  exact le_of_mul_le_mul_left h5 hM0

/-- The stored distance of the centre of mass from the centre of a node. -/
theorem BoxIn.delta_le (hf : f.Std) (hS : ∀ S, simd = some S → S.Adds (f.ieee fused)) (hs : Supported w d) (h : Reach _ s) (hz : s.n * cbits w d < 2 ^ 64) (hx : IsData d s.n s.parts x)
    {κ' K C : Nat} (R : Span f.unit f.tiny f.minNormal ((2 ^ (f.emax - 1) : ℚ) : ℝ) b d κ' K C) {i : Nat} (hi : i < s.tree.length) :
    ∃ (hp : i < s.props.length) (δ : ℚ), s.props[i].delta = .fin δ ∧ 0 ≤ δ ∧ (δ : ℝ) ^ 2 ≤ (93 / 100) ^ 2 * d * (B : ℝ) ^ 2 := by
  have F := Format.ieee_model hf fused
  have L : (f.ieee fused).Laws := Format.arith_laws hf.toOk _ _
  have u0 := F.u0
  have u1 := F.u1
  have B0 := T.box0
  have b1 := R.b1
  obtain ⟨hp, a, δ, s1, s2, s3, s4⟩ := reach_sizes L (ieee_sqrt_nonneg f fused) hs h hz hi
  refine ⟨hp, δ, s2, s4, ?_⟩
  obtain ⟨_, _, _, _, p, _, _, _, _, p5, p6, p7, _⟩ := reach_node (rakauEnv_ok (f.ieee fused) simd mac hs) h hz hi
  have p7 : nodeProps (f.ieee fused) simd mac w d s.box s.tree[i] s.parts = .ok s.props[i] := p7
  have hd0 : (0 : ℝ) ≤ d := Nat.cast_nonneg d
  cases mac with
  | bh =>
    obtain ⟨_, _, d2, _⟩ := nodeProps_size p7
    have := (d2 rfl).2
    rw [s2, Fl.fin.injEq] at this
    subst this
    simp only [Rat.cast_zero]
    rw [zero_pow two_ne_zero]
    positivity
  | bhGeom =>
    obtain ⟨geo, q, g1, g2, g3⟩ := nodeProps_geom p7
    obtain ⟨z, z1, z2, z3⟩ := T.centre hf hS hs h hz hx R hi
    obtain ⟨_, a1, a2, a3, a4, a5, a6, a7, a8, a9⟩ := T.stored hf hS hs h hz hx (Span.lo_le F R) hi
    rw [T.box, z1, Except.ok.injEq] at g1
    subst g1
    have hS2 : ∑ j ∈ Finset.range d, ((s.cx i j : ℝ) - z j) ^ 2 ≤ d * (229 / 256 * B) ^ 2 := sum_sq_le (v := fun j => (s.cx i j : ℝ) - z j) fun j hj => z3 j hj
    have hfar := T.far
    have hle : ∑ j ∈ Finset.range d, ((s.cx i j : ℝ) - z j) ^ 2 ≤ b ^ 2 := by
      have := sq_nonneg ((B : ℝ) / t)
      have := sq_nonneg (eps : ℝ)
      have : 0 ≤ (d : ℝ) * (B : ℝ) ^ 2 := by positivity
      nlinarith
    obtain ⟨q', e, P⟩ := dist2_pos hs.2 F R a3 z2 hle
    rw [a2, e, Option.some.injEq] at g2
    subst g2
    rw [s2] at g3
    have q0 : 0 ≤ q' := by exact_mod_cast P.an
    have hd3 : d ≤ 3 := by rcases hs.2 with h | h <;> omega
    have hd2 : (2 : ℝ) ≤ d := by exact_mod_cast (show 2 ≤ d by rcases hs.2 with h | h <;> omega)
    have hd3' : (d : ℝ) ≤ 3 := by exact_mod_cast hd3
    have hB := T.box_ge
    have lo0 := F.lo0
    have hloB : 256 * (f.minNormal : ℝ) ≤ (B : ℝ) ^ 2 := by
      have h1 := Span.lo_le F R
      have h2 : (16 : ℝ) ≤ (b * B) ^ 2 := by nlinarith
      have hb2 : 1 ≤ b ^ 2 := one_le_pow₀ b1
      have h3 : b ^ 2 * (256 * (f.minNormal : ℝ)) ≤ b ^ 2 * (B : ℝ) ^ 2 := by
        have : b ^ 2 * (f.minNormal : ℝ) ≤ b ^ 2 * b ^ 2 * (f.minNormal : ℝ) := by
          have := mul_le_mul_of_nonneg_right hb2 (show 0 ≤ b ^ 2 * (f.minNormal : ℝ) by positivity)
          linarith
        nlinarith
      exact le_of_mul_le_mul_left h3 (by linarith)
    by_cases hq : (f.minNormal : ℝ) ≤ q'
    · obtain ⟨r, e1, n1⟩ := F.fsqrt hq (by
        have := Span.sum_le F R P (by omega) (by omega) hle
        have := Span.hi_ge R
        have : b ^ 2 ≤ b ^ 4 := pow_le_pow_right₀ b1 (by norm_num)
        have : 1 ≤ b ^ 2 := one_le_pow₀ b1
        linarith)
      rw [e1, Fl.fin.injEq] at g3
      subst g3
      obtain ⟨w1, _⟩ := n1.within F.u0 F.lt1 (by push_cast; linarith)
      have hsq := Real.sqrt_nonneg (q' : ℝ)
      rw [abs_of_nonneg hsq] at w1
      have w2 := (abs_le.1 w1).2
      push_cast at w2
      have hr : (δ : ℝ) ≤ 513 / 512 * √(q' : ℝ) := by
        have := mul_le_mul_of_nonneg_right u1 hsq
        linarith
      have hδ0 : (0 : ℝ) ≤ δ := by exact_mod_cast s4
      have hδ2 : (δ : ℝ) ^ 2 ≤ (513 / 512) ^ 2 * q' := by
        have := pow_le_pow_left₀ hδ0 hr 2
        rwa [mul_pow, Real.sq_sqrt P.an] at this
      have hub := P.ub
      have hbern : 1 - (6 : ℝ) / 1024 ≤ (1 - (f.unit : ℝ)) ^ (d + 3) := by
        have h1 := Near.bern u0 F.lt1 (d + 3)
        have : ((d + 3 : ℕ) : ℝ) * f.unit ≤ 6 * (1 / 1024) := by
          apply mul_le_mul _ u1 u0 (by norm_num)
          push_cast
          linarith
        linarith
      have h1 := mul_le_mul_of_nonneg_left hbern P.an
      have hη : ((2 * d + 1 : ℕ) : ℝ) * (f.tiny : ℝ) ≤ (B : ℝ) ^ 2 / 1024 := by
        have h2 := F.ηlo
        have h3 := mul_le_mul_of_nonneg_right u1 lo0.le
        have h4 : ((2 * d + 1 : ℕ) : ℝ) ≤ 7 := by push_cast; linarith
        have := mul_le_mul h4 (h2.trans h3) F.η0 (by norm_num)
        linarith
      have hB2 : 2 * (B : ℝ) ^ 2 ≤ d * (B : ℝ) ^ 2 := mul_le_mul_of_nonneg_right hd2 (sq_nonneg _)
      have hB2' := sq_nonneg (B : ℝ)
      nlinarith
    · rw [not_le] at hq
      have h1 := (Format.sqrt_le f q0 g3.symm).2
      have h1 : (δ : ℝ) ^ 2 ≤ 4 * q' := by exact_mod_cast h1
      have hB2 : 2 * (B : ℝ) ^ 2 ≤ d * (B : ℝ) ^ 2 := mul_le_mul_of_nonneg_right hd2 (sq_nonneg _)
      nlinarith [sq_nonneg (B : ℝ)]

end

/-- The left-hand side of the acceptance check. -/
theorem lh_near {A : Arith ℚ} {u η lo hi b : ℝ} (F : FlModel A u η lo hi) (hlo : 16 * lo * b ^ 4 ≤ 1) (hhi : 8 * b ^ 4 ≤ hi) (hb : 1 ≤ b) {mac : Mac} {t mv : ℚ} (ht : In b 1 (t : ℝ))
    (hmv : macValue A mac (.fin t) = .fin mv) {pr : NProps ℚ} {dm δ : ℚ} {dim : ℝ} (hd : In b 1 dim) (hdm : Near u 1 dim dm)
    (hp : pr.dim = match mac with | .bh => A.mul (.fin dm) (.fin dm) | .bhGeom => .fin dm) (hδ : pr.delta = .fin δ) (δ0 : 0 ≤ δ) (hbh : mac = .bh → δ = 0) (hX : dim / t + δ ≤ b ^ 2) :
    ∃ q : ℚ, macLh A mac (.fin mv) pr = .fin q ∧ Near u 10 ((dim / t + δ) ^ 2) q := by
  have htt := ht.mul hb ht
  have hdd := hd.mul hb hd
  have n1 : Near u 0 (1 : ℝ) ((1 : ℚ) : ℝ) := by rw [Rat.cast_one]; exact Near.refl F.u0 F.lt1 0 1
  have nt : Near u 0 (t : ℝ) t := Near.refl F.u0 F.lt1 0 _
  have t0 := ht.pos hb
  unfold macLh
  cases mac with
  | bh =>
    simp only at hp ⊢
    unfold macValue at hmv
    simp only at hmv
    rw [hbh rfl, Rat.cast_zero, add_zero]
    have i1 := htt.mono hb (show 1 + 1 ≤ 4 by omega)
    obtain ⟨t2, q1, q2⟩ := mulR F hlo hhi hb (by omega) nt nt i1.low i1.high
    rw [q1] at hmv
    have i2 := (htt.inv hb).mono hb (show 1 + 1 ≤ 4 by omega)
    obtain ⟨m, q3, q4⟩ := divR F hlo hhi hb (by omega) n1 q2 (htt.pos hb).ne' i2.low i2.high
    rw [q3, Fl.fin.injEq] at hmv
    subst hmv
    have i3 := hdd.mono hb (show 1 + 1 ≤ 4 by omega)
    obtain ⟨d2, q5, q6⟩ := mulR F hlo hhi hb (by omega) hdm hdm i3.low i3.high
    have i4 := hdd.mul hb (htt.inv hb)
    obtain ⟨r, q7, q8⟩ := mulR F hlo hhi hb (by omega) q6 q4 i4.low i4.high
    rw [hp, q5, q7, show (dim / (t : ℝ)) ^ 2 = dim * dim * (1 / (t * t)) by field_simp]
    exact ⟨r, rfl, q8.mono F.u0 F.lt1 (by omega)⟩
  | bhGeom =>
    simp only at hp ⊢
    unfold macValue at hmv
    simp only at hmv
    have i2 := (ht.inv hb).mono hb (show 1 ≤ 4 by omega)
    obtain ⟨m, q3, q4⟩ := divR F hlo hhi hb (by omega) n1 nt t0.ne' i2.low i2.high
    rw [q3, Fl.fin.injEq] at hmv
    subst hmv
    have e1 : dim * (1 / (t : ℝ)) = dim / t := by rw [mul_one_div]
    have i3 := hd.mul hb (ht.inv hb)
    rw [e1] at i3
    have i3' := i3.mono hb (show 1 + 1 ≤ 4 by omega)
    have p0 := i3.pos hb
    have δ0' : (0 : ℝ) ≤ δ := by exact_mod_cast δ0
    have nδ : Near u 3 (δ : ℝ) δ := (Near.refl F.u0 F.lt1 0 _).mono F.u0 F.lt1 (by omega)
    have iX : In b 2 (dim / t + δ) := ⟨i3.low.trans (mul_le_mul_of_nonneg_left (by linarith) (by positivity)), hX⟩
    have key : ∃ r : ℚ, A.fma (.fin dm) (.fin m) (.fin δ) = .fin r ∧ Near u 4 (dim / t + δ) r := by
      unfold Arith.fma
      split
      · have n2 := ((hdm.mul F.lt1 q4).mono F.u0 F.lt1 (show 1 + (0 + 0 + 1) ≤ 3 by omega)).add F.lt1 nδ (e1.symm ▸ p0.le) δ0'
        rw [e1] at n2
        have iX' := iX.mono hb (show 2 ≤ 4 by omega)
        obtain ⟨r1, r2, _⟩ := near_rng F hlo hhi hb (by omega) n2 iX'.low iX'.high
        obtain ⟨r, e, n⟩ := F.near (q := dm * m + δ) (.inr (by push_cast; exact r1)) (by push_cast; exact r2)
        push_cast at n
        exact ⟨r, e, n2.trans F.lt1 n⟩
      · obtain ⟨p, q5, q6⟩ := mulR F hlo hhi hb (by omega) hdm q4 (e1 ▸ i3'.low) (e1 ▸ i3'.high)
        rw [e1] at q6
        rw [q5]
        exact addR F hlo hhi hb (by omega) (q6.mono F.u0 F.lt1 (by omega)) nδ p0.le δ0' (iX.mono hb (by omega))
    obtain ⟨r, r1, r2⟩ := key
    have iXX := iX.mul hb iX
    obtain ⟨q, q7, q8⟩ := mulR F hlo hhi hb (by omega) r2 r2 iXX.low iXX.high
    rw [hp, hδ, r1, q7, sq]
    exact ⟨q, rfl, q8.mono F.u0 F.lt1 (by omega)⟩

/-- The comparison of the left-hand side with the distance of the padding. -/
theorem pad_real {A : Arith ℚ} {u η lo hi b : ℝ} {d κ k C : Nat} (F : FlModel A u η lo hi) (R : Span u η lo hi b d κ k C) (hd : d = 2 ∨ d = 3) {X S D l : ℝ} (hXb : 2 ≤ b * X) (X0 : 0 < X)
    (hS : (11 / 10 * X) ^ 2 ≤ S) (hl : Near u 10 (X ^ 2) l) (hD : Pos u η (d + 3) (2 * d + 1) S D) : l < D := by
  have u0 := F.u0
  have u1 := F.u1
  have b1 := R.b1
  obtain ⟨v1, _, _⟩ := hl.within F.u0 F.lt1 (by norm_num; linarith)
  rw [abs_of_pos (show 0 < X ^ 2 by positivity)] at v1
  have v2 : 2 * (((10 : ℕ) : ℝ) * u) * X ^ 2 ≤ 20 / 1024 * X ^ 2 := by
    apply mul_le_mul_of_nonneg_right _ (by positivity)
    push_cast
    linarith
  have v3 := (abs_le.1 (v1.trans v2)).2
  have hd3 : (d : ℝ) ≤ 3 := by exact_mod_cast (show d ≤ 3 by rcases hd with h | h <;> omega)
  have hbern : 1 - (6 : ℝ) / 1024 ≤ (1 - u) ^ (d + 3) := by
    have h1 := Near.bern u0 F.lt1 (d + 3)
    have : ((d + 3 : ℕ) : ℝ) * u ≤ 6 * (1 / 1024) := by
      apply mul_le_mul _ u1 u0 (by norm_num)
      push_cast
      linarith
    linarith
  have l1 := hD.lb
  have l2 := mul_le_mul_of_nonneg_right hbern hD.nn
  have lo0 := F.lo0
  have hloX : 64 * lo ≤ X ^ 2 := by
    have h1 := Span.lo_le F R
    have h2 : (4 : ℝ) ≤ (b * X) ^ 2 := by nlinarith
    have hb2 : 1 ≤ b ^ 2 := one_le_pow₀ b1
    have h3 : b ^ 2 * (64 * lo) ≤ b ^ 2 * X ^ 2 := by
      have : b ^ 2 * lo ≤ b ^ 2 * b ^ 2 * lo := by
        have := mul_le_mul_of_nonneg_right hb2 (show 0 ≤ b ^ 2 * lo by positivity)
        linarith
      nlinarith
    exact le_of_mul_le_mul_left h3 (by linarith)
  have hη : ((2 * d + 1 : ℕ) : ℝ) * η ≤ X ^ 2 / 1024 := by
    have h2 := F.ηlo
    have h3 := mul_le_mul_of_nonneg_right u1 lo0.le
    have h4 : ((2 * d + 1 : ℕ) : ℝ) ≤ 7 := by push_cast; linarith
    have := mul_le_mul h4 (h2.trans h3) F.η0 (by norm_num)
    linarith
  have hX2 : 0 < X ^ 2 := by positivity
  rw [mul_pow] at hS
  linarith

section
variable {f : Format} {fused : Bool} {simd : Option (Simd ℚ)} {mac : Mac} {w d : Nat} {s : TS (rakauEnv (f.ieee fused) simd mac w d)}
variable {x : Nat → Nat → ℚ} {b : ℝ} {B t eps : ℚ} (T : BoxIn s x b B t eps)
include T

/-- The sum of size and distance in the acceptance check. -/
theorem BoxIn.reach_le (hd : 0 < d) (b1 : 1 ≤ b) {i : Nat} (hi : i < s.tree.length) {δ : ℚ} (h : (δ : ℝ) ^ 2 ≤ (93 / 100) ^ 2 * d * (B : ℝ) ^ 2) : (B : ℝ) / 2 ^ s.tree[i].level / t + δ ≤ b ^ 2 := by
  have B0 := T.box0
  have t0 := T.theta.pos b1
  have hdB : (B : ℝ) / 2 ^ s.tree[i].level ≤ B := div_le_self B0.le (one_le_pow₀ (by norm_num))
  have h1 := T.far
  have h2 : (B : ℝ) / 2 ^ s.tree[i].level / t ≤ B / t := div_le_div_of_nonneg_right hdB t0.le
  have hBt : 0 < (B : ℝ) / t := by positivity
  have e0 := sq_nonneg (eps : ℝ)
  have hdB : 0 ≤ (d : ℝ) * (B : ℝ) ^ 2 := by positivity
  have h3 : (3 * ((B : ℝ) / t)) ^ 2 ≤ b ^ 2 := by nlinarith
  have h4 : (2 * (δ : ℝ)) ^ 2 ≤ b ^ 2 := by nlinarith [sq_nonneg ((B : ℝ) / t)]
  have h3 := le_of_sq_le_sq h3 (by linarith)
  have h4 := le_of_sq_le_sq h4 (by linarith)
  nlinarith

/-- The left-hand side of the acceptance check for a node of the tree. -/
theorem BoxIn.lh (hf : f.Std) (hS : ∀ S, simd = some S → S.Adds (f.ieee fused)) (hs : Supported w d) (h : Reach _ s) (hz : s.n * cbits w d < 2 ^ 64) (hx : IsData d s.n s.parts x)
    {κ' K C : Nat} (R : Span f.unit f.tiny f.minNormal ((2 ^ (f.emax - 1) : ℚ) : ℝ) b d κ' K C) {mv : ℚ} (hmv : macValue (f.ieee fused) mac (.fin t) = .fin mv) {i : Nat} (hi : i < s.tree.length) :
    ∃ (hp : i < s.props.length) (δ q : ℚ), s.props[i].delta = .fin δ ∧ 0 ≤ δ ∧ (δ : ℝ) ^ 2 ≤ (93 / 100) ^ 2 * d * (B : ℝ) ^ 2 ∧ (mac = .bh → δ = 0) ∧
      macLh (f.ieee fused) mac (.fin mv) s.props[i] = .fin q ∧ Near (f.unit : ℝ) 10 ((B / 2 ^ s.tree[i].level / t + δ) ^ 2) q := by
  have F := Format.ieee_model hf fused
  have L : (f.ieee fused).Laws := Format.arith_laws hf.toOk _ _
  have b1 := R.b1
  have hd := hs.dim
  have hlo := Span.lo_le F R
  have hhi := Span.hi_ge R
  have B0 := T.box0
  have t0 := T.theta.pos b1
  obtain ⟨hp, δ, s2, s4, s5⟩ := T.delta_le hf hS hs h hz hx R hi
  obtain ⟨_, _, _, _, p, p1, p2, p3, p4, p5, p6, p7, _⟩ := reach_node (rakauEnv_ok (f.ieee fused) simd mac hs) h hz hi
  have p7 : nodeProps (f.ieee fused) simd mac w d s.box s.tree[i] s.parts = .ok s.props[i] := p7
  have p2 : p.length ≤ cbits w d := p2
  obtain ⟨dm, d1, d2, d3⟩ := nodeProps_size p7
  have hdim := T.dim_in hd.1 (l := s.tree[i].level) (by rw [p4]; exact p2)
  have hlev : s.tree[i].level < w := by
    rw [p4]
    have := cbits_mul_lt hd.1 hd.2.1
    have := Nat.le_mul_of_pos_right (cbits w d) hd.1
    omega
  have n0 : Near (f.unit : ℝ) 0 (B : ℝ) B := Near.refl F.u0 F.lt1 0 _
  have n1 : Near (f.unit : ℝ) 0 ((2 : ℝ) ^ s.tree[i].level) ((2 ^ s.tree[i].level : ℚ) : ℝ) := by push_cast; exact Near.refl F.u0 F.lt1 0 _
  have i1 := hdim.mono b1 (show 1 ≤ 4 by omega)
  obtain ⟨q, q1, q2⟩ := divR F hlo hhi b1 (by omega) n0 n1 (by positivity) i1.low i1.high
  have hdm : dm = .fin q := by
    rw [nodeDim_eq _ hlev, Except.ok.injEq] at d1
    rw [← d1, T.box, ← q1]
    push_cast
    rw [L.pow _ (by omega)]
  subst hdm
  have hbh : mac = .bh → δ = 0 := by
    intro hm
    have := (d2 hm).2
    rw [s2, Fl.fin.injEq] at this
    exact this
  have hX := T.reach_le hd.1 b1 hi s5
  obtain ⟨r, r1, r2⟩ := lh_near F hlo hhi b1 T.theta hmv (pr := s.props[i]) hdim q2 (by
    cases mac with
    | bh => exact (d2 rfl).1
    | bhGeom => exact (d3 rfl).1) s2 s4 hbh hX
  exact ⟨hp, δ, r, s2, s4, s5, hbh, r1, r2⟩

/-- The stored centre of mass. -/
theorem BoxIn.com_le (hf : f.Std) (hS : ∀ S, simd = some S → S.Adds (f.ieee fused)) (hs : Supported w d) (h : Reach _ s) (hz : s.n * cbits w d < 2 ^ 64) (hx : IsData d s.n s.parts x)
    {κ' K C : Nat} (R : Span f.unit f.tiny f.minNormal ((2 ^ (f.emax - 1) : ℚ) : ℝ) b d κ' K C) {i : Nat} (hi : i < s.tree.length) {j : Nat} (hj : j < d) : |(s.cx i j : ℝ)| ≤ 57 / 64 * B := by
  have F := Format.ieee_model hf fused
  have u0 := F.u0
  have B0 := T.box0
  obtain ⟨hp, a1, a2, a3, a4, a5, a6, a7, a8, a9⟩ := T.stored hf hS hs h hz hx (Span.lo_le F R) hi
  obtain ⟨_, _, _, _, p, _, _, _, _, p5, p6, _⟩ := reach_node (rakauEnv_ok (f.ieee fused) simd mac hs) h hz hi
  have p5 : s.tree[i].beg < s.tree[i].fin := p5
  have p6 : s.tree[i].fin ≤ s.n := p6
  have hpos : ∀ k ∈ Finset.Ico s.tree[i].beg s.tree[i].fin, (0 : ℝ) < x d k := fun k hk => T.mass_pos (by rw [Finset.mem_Ico] at hk; omega)
  have hM0 : 0 < ∑ k ∈ Finset.Ico s.tree[i].beg s.tree[i].fin, (x d k : ℝ) := Finset.sum_pos hpos ⟨s.tree[i].beg, Finset.mem_Ico.2 ⟨le_rfl, p5⟩⟩
  have h1 : |∑ l ∈ Finset.Ico s.tree[i].beg s.tree[i].fin, (x d l : ℝ) * x j l| ≤ (33 / 64 * B) * ∑ k ∈ Finset.Ico s.tree[i].beg s.tree[i].fin, (x d k : ℝ) := by
    refine (Finset.abs_sum_le_sum_abs _ _).trans ?_
    rw [Finset.mul_sum]
    apply Finset.sum_le_sum
    intro l hl
    rw [abs_mul, abs_of_pos (hpos l hl), mul_comm]
    exact mul_le_mul_of_nonneg_right (T.coord hf hs h hx (by rw [Finset.mem_Ico] at hl; omega) hj) (hpos l hl).le
  have h3 : 24 * (((s.n + lanes simd d + 1 : ℕ) : ℝ) * (f.unit : ℝ)) * B ≤ 24 / 64 * B := by
    apply mul_le_mul_of_nonneg_right _ B0.le
    have := T.errs
    have : ((s.n + lanes simd d + 1 : ℕ) : ℝ) ≤ ((s.n + lanes simd d + 2 : ℕ) : ℝ) := by exact_mod_cast (by omega)
    have := mul_le_mul_of_nonneg_right this u0
    linarith
  have h2 := (a7 j hj).trans (mul_le_mul_of_nonneg_right h3 hM0.le)
  have e : (∑ k ∈ Finset.Ico s.tree[i].beg s.tree[i].fin, (x d k : ℝ)) * (s.cx i j : ℝ) =
      ∑ l ∈ Finset.Ico s.tree[i].beg s.tree[i].fin, (x d l : ℝ) * x j l - ∑ l ∈ Finset.Ico s.tree[i].beg s.tree[i].fin, (x d l : ℝ) * (x j l - s.cx i j) := by
    rw [← Finset.sum_sub_distrib, Finset.sum_mul]
    exact Finset.sum_congr rfl fun l _ => by ring
  generalize ∑ k ∈ Finset.Ico s.tree[i].beg s.tree[i].fin, (x d k : ℝ) = M at *
  have h4 := (abs_sub (∑ l ∈ Finset.Ico s.tree[i].beg s.tree[i].fin, (x d l : ℝ) * x j l) (∑ l ∈ Finset.Ico s.tree[i].beg s.tree[i].fin, (x d l : ℝ) * (x j l - s.cx i j))).trans (add_le_add h1 h2)
  rw [← e, abs_mul, abs_of_pos hM0] at h4
  have h5 : M * |(s.cx i j : ℝ)| ≤ M * (57 / 64 * B) := by linarith
  exact le_of_mul_le_mul_left h5 hM0

/-- The padding passes the acceptance check of every node. -/
theorem BoxIn.pad_passes (hf : f.Std) (hS : ∀ S, simd = some S → S.Adds (f.ieee fused)) (hs : Supported w d) (h : Reach _ s) (hz : s.n * cbits w d < 2 ^ 64) (hx : IsData d s.n s.parts x)
    {κ' K C : Nat} (R : Span f.unit f.tiny f.minNormal ((2 ^ (f.emax - 1) : ℚ) : ℝ) b d κ' K C) {mv : ℚ} (hmv : macValue (f.ieee fused) mac (.fin t) = .fin mv)
    {rsqrt : Option (Fl ℚ → Fl ℚ)} {over : Overshift} {Q : Quant} {g e2 : Fl ℚ} {i : Nat} (hi : i < s.tree.length) {cn : CNode} {l : Nat} (hl : cn.fin - cn.beg ≤ l) :
    (s.force rsqrt over Q (.fin mv) g e2).failsAt i ((s.force rsqrt over Q (.fin mv) g e2).slot cn l) = false := by
  have F := Format.ieee_model hf fused
  obtain ⟨fu, hfu⟩ := mode_ieee (f := f) (fused := fused) (simd := simd) (d := d) rsqrt
  have FM : FlModel ((⟨f.ieee fused, simd, rsqrt⟩ : Hw ℚ).mode d).A _ _ _ _ := hfu ▸ Format.ieee_model hf fu
  have u0 := F.u0
  have u1 := F.u1
  have b1 := R.b1
  have B0 := T.box0
  have t0 := T.theta.pos b1
  have hd := hs.dim.1
  have d1 : (1 : ℝ) ≤ d := by exact_mod_cast hd
  have sd : 0 < √(d : ℝ) := Real.sqrt_pos.2 (by linarith)
  have sd2 : √(d : ℝ) * √(d : ℝ) = d := Real.mul_self_sqrt (by linarith)
  obtain ⟨hp, δ, ql, e1, δ0, e3, e4, e5, e6⟩ := T.lh hf hS hs h hz hx R hmv hi
  obtain ⟨_, _, a2, a3, _⟩ := T.stored hf hS hs h hz hx (Span.lo_le F R) hi
  obtain ⟨P, p1, p2, p3⟩ := T.pad_val hf hs R hmv (rsqrt := rsqrt) (over := over) (Q := Q) (g := g) (e2 := e2)
  have hc := fun j hj => T.com_le hf hS hs h hz hx R hi (j := j) hj
  have δ0' : (0 : ℝ) ≤ δ := by exact_mod_cast δ0
  set q := (B : ℝ) / (t * √(d : ℝ)) with hq
  have q0 : 0 < q := by positivity
  have hqt : √(d : ℝ) * q = B / t := by rw [hq]; field_simp
  have hH : q + B / 2 ≤ padHalf mac B t d ∧ padHalf mac B t d ≤ q + B := by
    unfold padHalf
    cases mac <;> constructor <;> simp only <;> linarith
  obtain ⟨w1, _, _⟩ := p3.within F.u0 F.lt1 (by norm_num; linarith)
  rw [abs_of_pos (show 0 < 2 * padHalf mac B t d by linarith [hH.1])] at w1
  have w2 : 2 * (((10 : ℕ) : ℝ) * f.unit) * (2 * padHalf mac B t d) ≤ 20 / 1024 * (2 * padHalf mac B t d) := by
    apply mul_le_mul_of_nonneg_right _ (by linarith [hH.1])
    push_cast
    linarith
  have w3 := abs_le.1 (w1.trans w2)
  -- the distance from above
  have hfar : ∑ j ∈ Finset.range d, ((s.cx i j : ℝ) - P) ^ 2 ≤ b ^ 2 := by
    have h1 : ∑ j ∈ Finset.range d, ((s.cx i j : ℝ) - P) ^ 2 ≤ d * (41 / 20 * q + 147 / 50 * B) ^ 2 := by
      apply sum_sq_le (v := fun j => (s.cx i j : ℝ) - P)
      intro j hj
      have := abs_le.1 (hc j hj)
      rw [abs_le]
      constructor <;> linarith [hH.1, hH.2]
    have h2 : (41 / 20 * q + 147 / 50 * (B : ℝ)) ^ 2 ≤ 9 * q ^ 2 + 17 * (B : ℝ) ^ 2 := by nlinarith [sq_nonneg (3 * q - 4 * (B : ℝ))]
    have h3 : (d : ℝ) * q ^ 2 = (B / t) ^ 2 := by rw [← hqt, mul_pow, sq √(d : ℝ), sd2]
    have h4 := mul_le_mul_of_nonneg_left h2 (show (0 : ℝ) ≤ d by linarith)
    have h5 := T.far
    have := sq_nonneg (eps : ℝ)
    linarith
  -- and from below
  obtain ⟨_, _, _, _, p, _, p2', _, p4, _⟩ := reach_node (rakauEnv_ok (f.ieee fused) simd mac hs) h hz hi
  have p2' : p.length ≤ cbits w d := p2'
  have hdB : (B : ℝ) / 2 ^ s.tree[i].level ≤ B := div_le_self B0.le (one_le_pow₀ (by norm_num))
  have hBt : (B : ℝ) / 2 ^ s.tree[i].level / t ≤ √(d : ℝ) * q := by rw [hqt]; exact div_le_div_of_nonneg_right hdB t0.le
  set X := (B : ℝ) / 2 ^ s.tree[i].level / t + δ with hX
  have X0 : 0 < X := by positivity
  have hXb : 2 ≤ b * X := by
    have h1 : 2 * (t : ℝ) ≤ b * ((B : ℝ) / 2 ^ s.tree[i].level) := by
      refine T.step.trans (mul_le_mul_of_nonneg_left ?_ (by linarith))
      exact div_le_div_of_nonneg_left B0.le (by positivity) (pow_le_pow_right₀ (by norm_num) (by rw [p4]; exact p2'))
    have h2 : 2 ≤ b * ((B : ℝ) / 2 ^ s.tree[i].level / t) := by
      rw [← mul_div_assoc, le_div_iff₀ t0]
      exact h1
    nlinarith
  have hlow : 11 / 10 * X ≤ √(d : ℝ) * (P - 57 / 64 * B) := by
    cases hm : mac with
    | bh =>
      have hδ := e4 hm
      rw [hm] at w3
      unfold padHalf at w3
      simp only at w3
      have h1 : 19 / 10 * q ≤ P - 57 / 64 * B := by linarith [w3.1]
      have h2 := mul_le_mul_of_nonneg_left h1 sd.le
      rw [hX, hδ, Rat.cast_zero, add_zero]
      have : 0 < √(d : ℝ) * q := by positivity
      linarith
    | bhGeom =>
      rw [hm] at w3
      unfold padHalf at w3
      simp only at w3
      have h1 : 19 / 10 * q + 21 / 20 * B ≤ P - 57 / 64 * B := by linarith [w3.1]
      have h2 := mul_le_mul_of_nonneg_left h1 sd.le
      have h3 : (δ : ℝ) ≤ 93 / 100 * (√(d : ℝ) * B) := by
        apply le_of_sq_le_sq _ (by positivity)
        calc (δ : ℝ) ^ 2 ≤ (93 / 100) ^ 2 * d * (B : ℝ) ^ 2 := e3
          _ = _ := by rw [mul_pow, mul_pow, sq √(d : ℝ), sd2]; ring
      have : 0 < √(d : ℝ) * q := by positivity
      have : 0 < √(d : ℝ) * B := by positivity
      rw [hX]
      linarith
  have hS2 : (11 / 10 * X) ^ 2 ≤ ∑ j ∈ Finset.range d, ((s.cx i j : ℝ) - P) ^ 2 := by
    have hY : 0 ≤ (P : ℝ) - 57 / 64 * B := by
      by_contra hn
      rw [not_le] at hn
      have := mul_neg_of_pos_of_neg sd hn
      linarith
    have h1 := pow_le_pow_left₀ (by positivity) hlow 2
    rw [mul_pow √(d : ℝ), sq √(d : ℝ), sd2] at h1
    refine h1.trans ?_
    have h2 := Finset.card_nsmul_le_sum (Finset.range d) (fun j => ((s.cx i j : ℝ) - P) ^ 2) (((P : ℝ) - 57 / 64 * B) ^ 2) (by
      intro j hj
      have := (abs_le.1 (hc j (Finset.mem_range.1 hj))).2
      rw [← neg_sq ((s.cx i j : ℝ) - P), neg_sub]
      exact pow_le_pow_left₀ hY (by linarith) 2)
    rwa [Finset.card_range, nsmul_eq_mul] at h2
  have hpt : (s.force rsqrt over Q (.fin mv) g e2).slot cn l = mkPt d (fun _ => P) 0 := by
    unfold Force.slot
    rw [if_neg (by omega), p1]
    show (⟨List.replicate d (.fin P), .fin 0⟩ : Pt ℚ) = _
    unfold mkPt Arr
    rw [List.map_const', List.length_range]
  have hpr : (s.force rsqrt over Q (.fin mv) g e2).pr i = s.props[i] := by
    show (s.props[i]?).getD _ = _
    rw [List.getElem?_eq_getElem hp, Option.getD_some]
  have hmode : (s.force rsqrt over Q (.fin mv) g e2).M = (⟨f.ieee fused, simd, rsqrt⟩ : Hw ℚ).mode d := rfl
  have hcb : ∀ j < d, |(s.cx i j : ℝ) - P| ≤ b := by
    intro j hj
    have h1 := Finset.single_le_sum (f := fun j => ((s.cx i j : ℝ) - P) ^ 2) (fun j _ => sq_nonneg _) (Finset.mem_range.2 hj)
    exact abs_le_of_sq_le_sq (h1.trans hfar) (by linarith)
  obtain ⟨td, t1, t2⟩ := diffs_near FM R (y := fun _ => P) (z := s.cx i) (by rw [hfu]; exact fun _ _ => p2) (by rw [hfu]; exact a3) hcb
  obtain ⟨D, D1, D2'⟩ := plain_pos FM R mode_vec t2 hfar
  rw [hpt]
  unfold Force.failsAt macFails
  rw [hpr, hmode, a2]
  unfold mkPt
  simp only
  rw [t1, D1]
  show (macLh (f.ieee fused) mac (.fin mv) s.props[i]).ge (.fin D) = false
  rw [e5]
  have hqD : (ql : ℝ) < D := pad_real F R hs.2 hXb X0 hS2 e6 D2'
  have hqD : ql < D := by exact_mod_cast hqD
  simp [Fl.ge, hqD]

end

end Rakau
