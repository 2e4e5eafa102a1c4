import Verif.Proof.Near
import Verif.Proof.ErrPair
import Verif.Props.NodeProps

/-! Rounding errors of the discretisation: the particles of a node lie in the cube of the node up to a few rounding units. -/
namespace Rakau
open Spec

variable {f : Format} {fused : Bool}

/-- The scaled coordinate, with the errors of all roundings. -/
theorem scaled_err {u η z i t r P q C y : ℝ} (u0 : 0 ≤ u) (u1 : u ≤ 1 / 1024) (hη0 : 0 ≤ η) (hη : 16 * η ≤ u) (hy : |y| ≤ 33 / 64) (hC : 1 ≤ C)
    (h1 : |z * i - y| ≤ u * |y|) (h2 : |t - z * i| ≤ u * |z * i| + η) (h3 : |r - (1 / 2 + t)| ≤ u * |1 / 2 + t| + η) (h4 : |P - r * C| ≤ u * |r * C| + η)
    (hq : P = q * C) : |q - (y + 1 / 2)| ≤ 4 * u := by
  subst hq
  rw [← sub_mul, abs_mul, abs_mul, abs_of_pos (by linarith : (0 : ℝ) < C)] at h4
  have h5 : |q - r| ≤ u * |r| + η := by
    have a1 : |q - r| * C ≤ (u * |r|) * C + η := by linarith
    by_contra hc
    rw [not_le] at hc
    have hη1 : 0 ≤ |q - r| - u * |r| - η := by linarith
    nlinarith
  have m1 : u * |y| ≤ u * (33 / 64) := mul_le_mul_of_nonneg_left hy u0
  have hzi : |z * i| ≤ 34 / 64 := by
    have := abs_add_le (z * i - y) y
    rw [sub_add_cancel] at this
    linarith
  have m2 : u * |z * i| ≤ u * (34 / 64) := mul_le_mul_of_nonneg_left hzi u0
  have ht : |t| ≤ 35 / 64 := by
    have := abs_add_le (t - z * i) (z * i)
    rw [sub_add_cancel] at this
    linarith
  have ht2 : |1 / 2 + t| ≤ 67 / 64 := by
    have := abs_add_le (1 / 2 : ℝ) t
    rw [abs_of_pos (by norm_num : (0 : ℝ) < 1 / 2)] at this
    linarith
  have m3 : u * |1 / 2 + t| ≤ u * (67 / 64) := mul_le_mul_of_nonneg_left ht2 u0
  have hr : |r| ≤ 68 / 64 := by
    have := abs_add_le (r - (1 / 2 + t)) (1 / 2 + t)
    rw [sub_add_cancel] at this
    linarith
  have m4 : u * |r| ≤ u * (68 / 64) := mul_le_mul_of_nonneg_left hr u0
  rw [abs_le] at h1 h2 h3 h5 ⊢
  constructor <;> linarith [h1.1, h1.2, h2.1, h2.2, h3.1, h3.2, h5.1, h5.2]

theorem tiny_le (hf : f.Std) : 16 * (f.tiny : ℝ) ≤ f.unit := by
  have h : 16 * f.tiny ≤ f.unit := by
    rw [Format.tiny_eq]
    have h1 : f.minNormal ≤ 1 / 16 := by
      unfold Format.minNormal
      calc (2 : ℚ) ^ (f.emin + ((f.prec : ℤ) - 1)) ≤ 2 ^ (-4 : ℤ) := zpow_le_zpow_right₀ (by norm_num) (by have := hf.emin2; omega)
        _ = 1 / 16 := by norm_num
    have := Format.unit_pos (f := f)
    nlinarith
  have := (Rat.cast_le (K := ℝ)).2 h
  push_cast at this
  exact this

/-- The cell of an accepted coordinate. -/
theorem disc_cell (hf : f.Std) {w d : Nat} (hs : Supported w d) {b x : ℚ} (hb : 0 < b) (h1 : f.minNormal ≤ 1 / b) (h2 : 1 / b ≤ 2 ^ (f.emax - 1)) {v : Nat}
    (hv : discSingle (f.ieee fused) w (cbits w d) (.fin x) (invBox (f.ieee fused) (.fin b)) = .ok v) :
    (v : ℝ) / 2 ^ cbits w d - 4 * f.unit ≤ x / b + 1 / 2 ∧ (x : ℝ) / b + 1 / 2 ≤ (v + 1 : ℕ) / 2 ^ cbits w d + 4 * f.unit := by
  obtain ⟨hi, hhi⟩ : ∃ hi : ℝ, hi = ((2 ^ (f.emax - 1) : ℚ) : ℝ) := ⟨_, rfl⟩
  have F := Format.ieee_model hf fused
  rw [← hhi] at F
  have hcb : cbits w d ≤ w := cbits_le w d
  have hcb2 : cbits w d ≤ 32 := by
    have := hs.dim
    have := cbits_mul_lt (w := w) this.1 this.2.1
    rcases hs.1 with h | h <;> rcases hs.2 with h' | h' <;> subst h <;> subst h' <;> omega
  have hacc := Format.disc_accepted (fused := fused) (sqrt := (f.ieee fused).sqrt) hf.toOk (by have := hf.emin2; omega) hcb (by omega) hb h1 h2 hv
  obtain ⟨i, e, i1, i2⟩ := Format.invBox_normal (fused := fused) (sqrt := (f.ieee fused).sqrt) hf.toOk hb h1 h2
  have e : invBox (f.ieee fused) (.fin b) = .fin i := e
  rw [e] at hv
  have u0 : (0 : ℝ) ≤ f.unit := F.u0
  have u1 : (f.unit : ℝ) ≤ 1 / 1024 := F.u1
  have q0 := Format.unit_pos (f := f)
  have q1 := Format.unit_le' hf.prec10
  have hb' : (0 : ℝ) < b := by exact_mod_cast hb
  have hy : |(x : ℝ) / b| ≤ 33 / 64 := by
    have a1 := (Rat.cast_lt (K := ℝ)).2 hacc.1
    have a2 := (Rat.cast_lt (K := ℝ)).2 hacc.2
    push_cast at a1 a2
    rw [abs_le]
    constructor
    · rw [le_div_iff₀ hb']
      by_contra hc
      nlinarith
    · rw [div_le_iff₀ hb']
      by_contra hc
      nlinarith
  have hzi : |(x : ℝ) * i - x / b| ≤ f.unit * |(x : ℝ) / b| := by
    have a1 := (Rat.cast_le (K := ℝ)).2 i1
    have a2 := (Rat.cast_le (K := ℝ)).2 i2
    push_cast at a1 a2
    have e1 : (x : ℝ) * i - x / b = x / b * (i * b - 1) := by field_simp
    rw [e1, abs_mul, mul_comm]
    apply mul_le_mul_of_nonneg_right _ (abs_nonneg _)
    rw [div_le_iff₀ hb'] at a1
    rw [le_div_iff₀ hb'] at a2
    rw [abs_le]
    constructor <;> linarith
  have hzi2 : |(x : ℝ) * i| ≤ 1 := by
    have := abs_add_le ((x : ℝ) * i - x / b) (x / b)
    rw [sub_add_cancel] at this
    nlinarith
  have hhi : (2 : ℝ) ^ 64 ≤ hi := by
    rw [hhi]
    push_cast
    exact pow_le_pow_right₀ (by norm_num) (by have := hf.emax; omega)
  have hη := tiny_le hf
  have hη0 := F.η0
  obtain ⟨r, t, e1, t1, t2⟩ := F.fma (t := x) (g := i) (a := 1 / 2) (hzi2.trans (le_trans (by norm_num) hhi)) (by
    push_cast
    rw [abs_of_pos (by norm_num : (0 : ℝ) < 1 / 2)]
    refine le_trans ?_ hhi
    nlinarith)
  have hr : |(r : ℝ)| ≤ 4 := by
    have := abs_add_le ((r : ℝ) - ((1 / 2 : ℚ) + t)) ((1 / 2 : ℚ) + t)
    rw [sub_add_cancel] at this
    have h3 := abs_add_le ((1 / 2 : ℚ) : ℝ) t
    have h4 := abs_add_le (t - x * i) (x * i)
    rw [sub_add_cancel] at h4
    push_cast at this h3 t2
    rw [abs_of_pos (by norm_num : (0 : ℝ) < 1 / 2)] at h3
    have m1 := mul_le_mul_of_nonneg_left hzi2 u0
    have hmid : |1 / 2 + t| ≤ 2 := by linarith
    have m2 := mul_le_mul_of_nonneg_left hmid u0
    linarith
  have hC1 : (1 : ℝ) ≤ 2 ^ cbits w d := one_le_pow₀ (by norm_num)
  have hC2 : (2 : ℝ) ^ cbits w d ≤ 2 ^ 32 := pow_le_pow_right₀ (by norm_num) hcb2
  obtain ⟨P, e2, p1⟩ := F.rnd (r * 2 ^ cbits w d) (by
    push_cast
    rw [abs_mul, abs_of_pos (by positivity : (0 : ℝ) < 2 ^ cbits w d)]
    refine le_trans (mul_le_mul hr hC2 (by positivity) (by norm_num)) (le_trans (by norm_num) hhi))
  have hsc : discScaled (f.ieee fused) (cbits w d) (.fin x) (.fin i) = .fin P := by
    unfold discScaled
    rw [e1]
    exact e2
  rcases discSingle_cases (f.ieee fused) hcb (.fin x) (.fin i) with ⟨q, c1, c2, c3, c4⟩ | ⟨_, c4⟩
  swap
  · rw [c4] at hv; cases hv
  rw [hsc, Fl.fin.injEq] at c1
  subst c1
  rw [c4, Except.ok.injEq] at hv
  have hfl : ((v : ℤ)) = ⌊P⌋ := by rw [← hv]; exact Int.toNat_of_nonneg (Int.floor_nonneg.2 c2)
  have f1 : (v : ℝ) ≤ P := by
    have : ((v : ℤ) : ℚ) ≤ P := by rw [hfl]; exact Int.floor_le P
    exact_mod_cast (Rat.cast_le (K := ℝ)).2 this
  have f2 : (P : ℝ) ≤ v + 1 := by
    have : P ≤ ((v : ℤ) : ℚ) + 1 := by rw [hfl]; exact (Int.lt_floor_add_one P).le
    exact_mod_cast (Rat.cast_le (K := ℝ)).2 this
  push_cast at p1 t2
  have key := scaled_err (q := P / 2 ^ cbits w d) u0 u1 hη0 hη hy hC1 hzi t1 t2 p1 (by field_simp)
  rw [abs_le] at key
  have g1 : (v : ℝ) / 2 ^ cbits w d ≤ P / 2 ^ cbits w d := div_le_div_of_nonneg_right f1 (by positivity)
  have g2 : (P : ℝ) / 2 ^ cbits w d ≤ (v + 1 : ℕ) / 2 ^ cbits w d := div_le_div_of_nonneg_right (by push_cast; exact f2) (by positivity)
  constructor <;> linarith [key.1, key.2]

section
variable {K : Type} [Field K] [LinearOrder K] [FloorRing K]

/-- The code of a particle of a reachable tree. -/
theorem code_at {A : Arith K} {simd : Option (Simd K)} {mac : Mac} {w d : Nat} {s : TS (rakauEnv A simd mac w d)} (h : Reach _ s) {x : Nat → Nat → K}
    (hx : IsData d s.n s.parts x) {k : Nat} (hk : k < s.n) :
    ∃ hkc : k < s.codes.length, codeOf A w d s.box ((List.range d).map (fun j => .fin (x j k))) = .ok s.codes[k] := by
  have I := reach_inv h
  have hcl := (rawCodes_spec.1 I.codes).1
  have hkc : k < s.codes.length := by omega
  refine ⟨hkc, ?_⟩
  have hcode := (rawCodes_spec.1 I.codes).2 k hkc
  have hco : coordsAt d s.parts k = some ((List.range d).map (fun j => .fin (x j k))) := by
    unfold coordsAt
    rw [mapM_some_iff]
    apply forall₂_of_getElem
    · rw [List.length_take, hx.1]; simp
    · intro j hj hj'
      have hjd : j < d := by simpa using hj'
      obtain ⟨v, hv, hvv⟩ := hx.2 j (by omega)
      have e : (s.parts.take d)[j] = v := by
        rw [List.getElem_take]
        exact Option.some.inj ((List.getElem?_eq_getElem _).symm.trans hv)
      rw [e, hvv.get hk]; simp
  have h1 : (do codeOf A w d s.box (← ofUB (coordsAt d s.parts k))) = .ok s.codes[k] := hcode
  rw [hco] at h1
  exact h1

end

section
variable {simd : Option (Simd ℚ)} {mac : Mac} {w d : Nat} {s : TS (rakauEnv (f.ieee fused) simd mac w d)}

/-- The discretised coordinates of a particle. -/
theorem coords_at (hf : f.Std) (hs : Supported w d) (h : Reach _ s) {x : Nat → Nat → ℚ} (hx : IsData d s.n s.parts x) {b : ℚ} (hb : s.box = .fin b) (hb0 : 0 < b)
    (h1 : f.minNormal ≤ 1 / b) (h2 : 1 / b ≤ 2 ^ (f.emax - 1)) {k : Nat} (hk : k < s.n) :
    ∃ (hkc : k < s.codes.length) (xs : List Nat) (hl : xs.length = d), (∀ r ∈ xs, r < 2 ^ cbits w d) ∧ mortonEncode w xs = some s.codes[k] ∧ s.codes[k] < 2 ^ (cbits w d * d) ∧
      ∀ j (hj : j < d), (xs[j] : ℝ) / 2 ^ cbits w d - 4 * f.unit ≤ x j k / b + 1 / 2 ∧ (x j k : ℝ) / b + 1 / 2 ≤ (xs[j] + 1 : ℕ) / 2 ^ cbits w d + 4 * f.unit := by
  obtain ⟨hkc, hc⟩ := code_at h hx hk
  refine ⟨hkc, ?_⟩
  rw [hb] at hc
  rcases codeOf_cases (f.ieee fused) hs (box := .fin b) (c := (List.range d).map (fun j => .fin (x j k))) (by simp) with ⟨xs, v, k1, k2, k3, k4, k5⟩ | ⟨_, k2⟩
  swap
  · rw [k2] at hc; cases hc
  rw [k5, Except.ok.injEq] at hc
  subst hc
  have hl : xs.length = d := by have := k1.length_eq; simpa using this.symm
  refine ⟨xs, hl, k2, k3, by have := k4.1; rw [hl] at this; exact this, ?_⟩
  intro j hj
  have := (forall₂_getElem k1).2 j (by simpa using hj) (by omega)
  rw [List.getElem_map, List.getElem_range] at this
  exact disc_cell hf hs hb0 h1 h2 this

/-- C19 in IEEE arithmetic: the particles of a node at level `L` lie in one cell of the grid of `2 ^ L` cells per dimension, up to `4 u` times the box size. -/
theorem node_cell (hf : f.Std) (hs : Supported w d) (h : Reach _ s) (hz : s.n * cbits w d < 2 ^ 64) {x : Nat → Nat → ℚ} (hx : IsData d s.n s.parts x) {b : ℚ}
    (hb : s.box = .fin b) (hb0 : 0 < b) (h1 : f.minNormal ≤ 1 / b) (h2 : 1 / b ≤ 2 ^ (f.emax - 1)) {i : Nat} (hi : i < s.tree.length) :
    ∃ a : Nat → Nat, (∀ j < d, a j < 2 ^ s.tree[i].level) ∧ ∀ k, s.tree[i].beg ≤ k → k < s.tree[i].fin → ∀ j < d,
      (a j : ℝ) / 2 ^ s.tree[i].level - 4 * f.unit ≤ x j k / b + 1 / 2 ∧ (x j k : ℝ) / b + 1 / 2 ≤ (a j + 1 : ℕ) / 2 ^ s.tree[i].level + 4 * f.unit := by
  obtain ⟨hcl, _, _, hp, p, p1, p2, p3, p4, p5, p6, p7, p8⟩ := reach_node (rakauEnv_ok (f.ieee fused) simd mac hs) h hz hi
  have p2 : p.length ≤ cbits w d := p2
  have p1 : p.Ok d := p1
  have p5 : s.tree[i].beg < s.tree[i].fin := p5
  have p6 : s.tree[i].fin ≤ s.n := p6
  have p8 : ∀ k (hk : k < s.codes.length), (s.tree[i].beg ≤ k ∧ k < s.tree[i].fin) ↔ InNode d (cbits w d) p s.codes[k] := p8
  have hd := hs.dim
  obtain ⟨c0, ys, y1, y2, y3, y4, y5⟩ := coords_at hf hs h hx hb hb0 h1 h2 (k := s.tree[i].beg) (by omega)
  have hpw : (2 : ℝ) ^ cbits w d = 2 ^ (cbits w d - p.length) * 2 ^ p.length := by rw [← pow_add, Nat.sub_add_cancel p2]
  rw [p4]
  refine ⟨fun j => ys.getD j 0 >>> (cbits w d - p.length), ?_, ?_⟩
  · intro j hj
    have : ys.getD j 0 < 2 ^ cbits w d := by
      rw [List.getD_eq_getElem?_getD, List.getElem?_eq_getElem (by omega), Option.getD_some]
      exact y2 _ (List.getElem_mem _)
    simp only
    rw [Nat.shiftRight_eq_div_pow, Nat.div_lt_iff_lt_mul (Nat.two_pow_pos _), ← pow_add, Nat.add_sub_cancel' p2]
    exact this
  · intro k k1 k2 j hj
    obtain ⟨c1, xs, x1, x2, x3, x4, x5⟩ := coords_at hf hs h hx hb hb0 h1 h2 (k := k) (by omega)
    have e1 := (inNode_iff hd.1 p1 p2 y4).1 ((p8 _ c0).1 ⟨le_rfl, p5⟩)
    have e2 := (inNode_iff hd.1 p1 p2 x4).1 ((p8 _ c1).1 ⟨k1, k2⟩)
    rw [← Nat.shiftRight_eq_div_pow] at e1 e2
    have hcell := (C07_prefix_cell (w := w) (L := p.length) (xs := ys) (ys := xs) (by rw [y1]; exact hs) (by omega) (by rw [y1]; exact p2) (by rw [y1]; exact y2) (by rw [y1]; exact x2) y3 x3).1
      (by rw [y1, e1, e2]) j (by omega)
    have hcell : ys[j] >>> (cbits w d - p.length) = xs[j] >>> (cbits w d - p.length) := by simpa only [y1] using hcell
    have hg : ys.getD j 0 = ys[j] := by rw [List.getD_eq_getElem?_getD, List.getElem?_eq_getElem (by omega), Option.getD_some]
    simp only
    rw [hg, hcell]
    obtain ⟨b1, b2⟩ := x5 j hj
    have hq : (0 : ℝ) < 2 ^ (cbits w d - p.length) := by positivity
    have hq' : (0 : ℝ) < 2 ^ p.length := by positivity
    have g1 : ((xs[j] >>> (cbits w d - p.length) : ℕ) : ℝ) / 2 ^ p.length ≤ (xs[j] : ℝ) / 2 ^ cbits w d := by
      rw [hpw, div_le_div_iff₀ hq' (by positivity), Nat.shiftRight_eq_div_pow]
      have : ((xs[j] / 2 ^ (cbits w d - p.length) : ℕ) : ℝ) * 2 ^ (cbits w d - p.length) ≤ xs[j] := by exact_mod_cast Nat.div_mul_le_self _ _
      nlinarith
    have g2 : ((xs[j] + 1 : ℕ) : ℝ) / 2 ^ cbits w d ≤ ((xs[j] >>> (cbits w d - p.length)) + 1 : ℕ) / 2 ^ p.length := by
      rw [hpw, div_le_div_iff₀ (by positivity) hq', Nat.shiftRight_eq_div_pow]
      have : ((xs[j] + 1 : ℕ) : ℝ) ≤ ((xs[j] / 2 ^ (cbits w d - p.length) + 1 : ℕ) : ℝ) * 2 ^ (cbits w d - p.length) := by
        exact_mod_cast Nat.succ_le_of_lt (Nat.lt_mul_of_div_lt (Nat.lt_succ_self _) (Nat.two_pow_pos _))
      nlinarith
    constructor <;> linarith

end

end Rakau
