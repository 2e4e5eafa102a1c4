import Verif.Proof.NodeErr
import Verif.Props.Padding
import Mathlib.Data.Rat.BigOperators
import Mathlib.Tactic.IntervalCases

/-! Property theorems about the accuracy of the masses and centres of mass of the nodes in IEEE arithmetic (C64). -/
namespace Rakau
open Spec

section
variable {α : Type} [AddCommMonoid α]

theorem range_sum (f : Nat → α) (beg n : Nat) : ((∑ i ∈ Finset.range n, ({beg + i} : Multiset Nat)).map f).sum = ∑ k ∈ Finset.Ico beg (beg + n), f k := by
  induction n with
  | zero => simp
  | succ n ih => rw [Finset.sum_range_succ, Multiset.map_add, Multiset.sum_add, ih, ← Nat.add_assoc, Finset.sum_Ico_succ_top (by omega)]; simp

end

theorem range_card (beg n : Nat) : (∑ i ∈ Finset.range n, ({beg + i} : Multiset Nat)).card = n := by
  induction n with
  | zero => simp
  | succ n ih => rw [Finset.sum_range_succ, Multiset.card_add, ih]; simp

theorem range_mem {beg n k : Nat} (h : k ∈ ∑ i ∈ Finset.range n, ({beg + i} : Multiset Nat)) : beg ≤ k ∧ k < beg + n := by
  induction n with
  | zero => simp at h
  | succ n ih =>
    rw [Finset.sum_range_succ, Multiset.mem_add, Multiset.mem_singleton] at h
    rcases h with h | rfl
    · have := ih h; omega
    · omega

section
variable {f : Format} {fused : Bool} {simd : Option (Simd ℚ)} {mac : Mac} {w d : Nat} {s : TS (rakauEnv (f.ieee fused) simd mac w d)}

/-- C64: node masses and centres of mass in IEEE arithmetic. Let the masses of the particles of a node be zero or between `1 / b` and `b`, and their coordinates at most `b` in size; `M` is the sum of the masses,
`N` the number of particles plus the number of vector lanes. Then the mass of the node is `M` up to a relative error `2 N u`. If `M` is positive, each coordinate of the centre of mass is the mean of the coordinates, with the
masses as weights, up to `14 (N + 1) u` times the mean of the sizes of the coordinates, and a multiple of the smallest rounding unit. The horizontal sum may add the lanes in any order. -/
theorem C64_node (hf : f.Std) (hS : ∀ S, simd = some S → S.Adds (f.ieee fused)) (hs : Supported w d) (h : Reach _ s) (hz : s.n * cbits w d < 2 ^ 64)
    {x : Nat → Nat → ℚ} (hx : IsData d s.n s.parts x) {i : Nat} (hi : i < s.tree.length) {b : ℝ}
    (G : NodeSpan f.unit f.tiny f.minNormal ((2 ^ (f.emax - 1) : ℚ) : ℝ) b (s.tree[i].fin - s.tree[i].beg) (s.tree[i].fin - s.tree[i].beg + lanes simd d))
    (hm : ∀ k, s.tree[i].beg ≤ k → k < s.tree[i].fin → x d k = 0 ∨ 1 ≤ b * (x d k : ℝ) ∧ (x d k : ℝ) ≤ b)
    (hc : ∀ j < d, ∀ k, s.tree[i].beg ≤ k → k < s.tree[i].fin → |(x j k : ℝ)| ≤ b) :
    ∃ (hp : i < s.props.length) (m : ℚ), s.props[i].mass = .fin m ∧
      |(m : ℝ) - ∑ k ∈ Finset.Ico s.tree[i].beg s.tree[i].fin, (x d k : ℝ)| ≤
        2 * ((s.tree[i].fin - s.tree[i].beg + lanes simd d : ℕ) * f.unit) * ∑ k ∈ Finset.Ico s.tree[i].beg s.tree[i].fin, (x d k : ℝ) ∧
      ((∃ k, s.tree[i].beg ≤ k ∧ k < s.tree[i].fin ∧ x d k ≠ 0) → ∃ c : Nat → ℚ, s.props[i].com = (List.range d).map (fun j => .fin (c j)) ∧
        ∀ j < d, |(c j : ℝ) - (∑ k ∈ Finset.Ico s.tree[i].beg s.tree[i].fin, (x d k : ℝ) * x j k) / ∑ k ∈ Finset.Ico s.tree[i].beg s.tree[i].fin, (x d k : ℝ)| ≤
          14 * ((s.tree[i].fin - s.tree[i].beg + lanes simd d + 1 : ℕ) * f.unit) *
              ((∑ k ∈ Finset.Ico s.tree[i].beg s.tree[i].fin, (x d k : ℝ) * |(x j k : ℝ)|) / ∑ k ∈ Finset.Ico s.tree[i].beg s.tree[i].fin, (x d k : ℝ)) +
            (9 * ((s.tree[i].fin - s.tree[i].beg + lanes simd d : ℕ) * b) + 1) * f.tiny) := by
  obtain ⟨_, _, _, hp, p, p1, p2, p3, p4, p5, p6, p7, _⟩ := reach_node (rakauEnv_ok (f.ieee fused) simd mac hs) h hz hi
  have p7 : nodeProps (f.ieee fused) simd mac w d s.box s.tree[i] s.parts = .ok s.props[i] := p7
  have p5 : s.tree[i].beg < s.tree[i].fin := p5
  have p6 : s.tree[i].fin ≤ s.n := p6
  have F := Format.ieee_model hf fused
  refine ⟨hp, ?_⟩
  obtain ⟨sz, hsz⟩ : ∃ sz, s.tree[i].fin = s.tree[i].beg + sz := ⟨s.tree[i].fin - s.tree[i].beg, by omega⟩
  have hsub : s.tree[i].fin - s.tree[i].beg = sz := by omega
  obtain ⟨C, M, e1, e2, e3⟩ := nodeSums_accum (A := f.ieee fused) hS hx p5.le p6 (massR_accum F G (x d)) (massR_up F G (x d)) (RC := fun j => ComR _ _ b _ _ (x d) (x j))
    (fun j _ => comR_accum F G (x d) (x j)) (fun j _ fu => comR_up F G (x d) (x j) fu)
  obtain ⟨q1, q2⟩ := nodeProps_sums p7 e1
  rw [hsub] at G e2 e3 ⊢
  have hmo : ∀ k ∈ ∑ i_1 ∈ Finset.range sz, ({s.tree[i].beg + i_1} : Multiset Nat), MassOk b (x d k) := by
    intro k hk
    have := range_mem hk
    exact (hm k this.1 (by omega)).imp_left (fun h => by rw [h]; simp)
  obtain ⟨m, rfl, hm1⟩ := e2 le_rfl (range_card _ _).le hmo
  simp only [range_sum] at hm1
  have hsum := mass_sum (b := b) (s := (∑ i_1 ∈ Finset.range sz, ({s.tree[i].beg + i_1} : Multiset Nat)).map (fun k => (x d k : ℝ))) G.b1 (by
    intro y hy
    obtain ⟨k, hk, rfl⟩ := Multiset.mem_map.1 hy
    exact hmo k hk)
  rw [range_sum, Multiset.card_map, range_card, ← hsz] at hsum
  rw [← hsz] at hm1
  refine ⟨m, q1, ?_, ?_⟩
  · have := (hm1.within F.u0 F.lt1 (errs_le F.u0 G.errs (by omega))).1
    rwa [abs_of_nonneg hsum.1] at this
  · rintro ⟨k, k1, k2, k3⟩
    have hpos : ∀ k ∈ Finset.Ico s.tree[i].beg s.tree[i].fin, (0 : ℝ) ≤ (x d k : ℝ) := by
      intro k hk
      rw [Finset.mem_Ico] at hk
      have := G.b1
      rcases hm k hk.1 hk.2 with h0 | h0
      · rw [h0]; simp
      · by_contra hc
        nlinarith [h0.1]
    have hM1 : 1 ≤ b * ∑ k ∈ Finset.Ico s.tree[i].beg s.tree[i].fin, (x d k : ℝ) := by
      rcases hsum.2.1 with h0 | h0
      · have := (Finset.sum_eq_zero_iff_of_nonneg hpos).1 h0 k (Finset.mem_Ico.2 ⟨k1, k2⟩)
        exact absurd (by exact_mod_cast this) k3
      · exact h0
    have hcom : ∀ j, ∃ q : ℚ, j < d → (f.ieee fused).mul (C j) ((f.ieee fused).div (.fin 1) (.fin m)) = .fin q ∧
        |(q : ℝ) - (∑ k ∈ Finset.Ico s.tree[i].beg s.tree[i].fin, (x d k : ℝ) * x j k) / ∑ k ∈ Finset.Ico s.tree[i].beg s.tree[i].fin, (x d k : ℝ)| ≤
          14 * ((sz + lanes simd d + 1 : ℕ) * f.unit) *
              ((∑ k ∈ Finset.Ico s.tree[i].beg s.tree[i].fin, (x d k : ℝ) * |(x j k : ℝ)|) / ∑ k ∈ Finset.Ico s.tree[i].beg s.tree[i].fin, (x d k : ℝ)) +
            (9 * ((sz + lanes simd d : ℕ) * b) + 1) * f.tiny := by
      intro j
      by_cases hj : j < d
      · have hco : ∀ k ∈ ∑ i_1 ∈ Finset.range sz, ({s.tree[i].beg + i_1} : Multiset Nat), MassOk b (x d k) ∧ |(x j k : ℝ)| ≤ b := by
          intro k hk
          have := range_mem hk
          exact ⟨hmo k hk, hc j hj k this.1 (by omega)⟩
        obtain ⟨a, ha, ha2⟩ := e3 j hj le_rfl (range_card _ _).le hco
        have hps := (prod_sum G.b1 hco).2
        simp only [range_sum] at ha2
        rw [range_sum, range_card] at hps
        rw [← hsz] at ha2 hps
        have hT : ∑ k ∈ Finset.Ico s.tree[i].beg s.tree[i].fin, |(x d k : ℝ) * x j k| = ∑ k ∈ Finset.Ico s.tree[i].beg s.tree[i].fin, (x d k : ℝ) * |(x j k : ℝ)| := by
          apply Finset.sum_congr rfl
          intro k hk
          rw [abs_mul, abs_of_nonneg (hpos k hk)]
        rw [hT] at ha2 hps
        obtain ⟨c, c1, c2⟩ := com_near F G hm1 hM1 hsum.2.2 ha2 hps
        exact ⟨c, fun _ => ⟨by rw [ha]; exact c1, c2⟩⟩
      · exact ⟨0, fun h => absurd h hj⟩
    choose c hc using hcom
    refine ⟨c, ?_, fun j hj => (hc j hj).2⟩
    have hm0 := (inv_near F G hm1 hM1 hsum.2.2).1
    rw [q2 (by simp [Fl.eq, hm0.ne']), List.map_map]
    apply List.map_congr_left
    intro j hj
    exact (hc j (by simpa using hj)).1

/-- A mean with non-negative weights lies between bounds of the values. -/
theorem wmean_bounds {I : Finset Nat} {m y : Nat → ℝ} (hm : ∀ k ∈ I, 0 ≤ m k) (hM : 0 < ∑ k ∈ I, m k) {lo hi : ℝ} (hy : ∀ k ∈ I, lo ≤ y k ∧ y k ≤ hi) :
    lo ≤ (∑ k ∈ I, m k * y k) / ∑ k ∈ I, m k ∧ (∑ k ∈ I, m k * y k) / ∑ k ∈ I, m k ≤ hi := by
  constructor
  · rw [le_div_iff₀ hM, Finset.mul_sum]
    exact Finset.sum_le_sum fun k hk => by nlinarith [hm k hk, (hy k hk).1]
  · rw [div_le_iff₀ hM, Finset.mul_sum]
    exact Finset.sum_le_sum fun k hk => by nlinarith [hm k hk, (hy k hk).2]

/-- C64: in IEEE arithmetic, each coordinate of the centre of mass of a node lies between any bounds of the coordinates of its particles, up to rounding errors: `14 (N + 1) u` times the larger size of the two bounds, and a multiple of the
smallest rounding unit. -/
theorem C64_inside (hf : f.Std) (hS : ∀ S, simd = some S → S.Adds (f.ieee fused)) (hs : Supported w d) (h : Reach _ s) (hz : s.n * cbits w d < 2 ^ 64)
    {x : Nat → Nat → ℚ} (hx : IsData d s.n s.parts x) {i : Nat} (hi : i < s.tree.length) {b : ℝ}
    (G : NodeSpan f.unit f.tiny f.minNormal ((2 ^ (f.emax - 1) : ℚ) : ℝ) b (s.tree[i].fin - s.tree[i].beg) (s.tree[i].fin - s.tree[i].beg + lanes simd d))
    (hm : ∀ k, s.tree[i].beg ≤ k → k < s.tree[i].fin → x d k = 0 ∨ 1 ≤ b * (x d k : ℝ) ∧ (x d k : ℝ) ≤ b)
    (hc : ∀ j < d, ∀ k, s.tree[i].beg ≤ k → k < s.tree[i].fin → |(x j k : ℝ)| ≤ b)
    (hp : ∃ k, s.tree[i].beg ≤ k ∧ k < s.tree[i].fin ∧ x d k ≠ 0) {j : Nat} (hj : j < d) {y z : ℝ}
    (hyz : ∀ k, s.tree[i].beg ≤ k → k < s.tree[i].fin → y ≤ (x j k : ℝ) ∧ (x j k : ℝ) ≤ z) :
    ∃ (hp : i < s.props.length) (c : ℚ), s.props[i].com[j]? = some (.fin c) ∧
      y - (14 * ((s.tree[i].fin - s.tree[i].beg + lanes simd d + 1 : ℕ) * f.unit) * max |y| |z| + (9 * ((s.tree[i].fin - s.tree[i].beg + lanes simd d : ℕ) * b) + 1) * f.tiny) ≤ (c : ℝ) ∧
      (c : ℝ) ≤ z + (14 * ((s.tree[i].fin - s.tree[i].beg + lanes simd d + 1 : ℕ) * f.unit) * max |y| |z| + (9 * ((s.tree[i].fin - s.tree[i].beg + lanes simd d : ℕ) * b) + 1) * f.tiny) := by
  obtain ⟨hl, m, _, _, h3⟩ := C64_node hf hS hs h hz hx hi G hm hc
  obtain ⟨c, c1, c2⟩ := h3 hp
  obtain ⟨k, k1, k2, k3⟩ := hp
  have F := Format.ieee_model hf fused
  have hpos : ∀ k ∈ Finset.Ico s.tree[i].beg s.tree[i].fin, (0 : ℝ) ≤ (x d k : ℝ) := by
    intro k hk
    rw [Finset.mem_Ico] at hk
    have := G.b1
    rcases hm k hk.1 hk.2 with h0 | h0
    · rw [h0]; simp
    · by_contra hc
      nlinarith [h0.1]
  have hM : 0 < ∑ k ∈ Finset.Ico s.tree[i].beg s.tree[i].fin, (x d k : ℝ) :=
    Finset.sum_pos' hpos ⟨k, Finset.mem_Ico.2 ⟨k1, k2⟩, lt_of_le_of_ne (hpos k (Finset.mem_Ico.2 ⟨k1, k2⟩)) (by exact_mod_cast k3.symm)⟩
  have hr : ∀ k ∈ Finset.Ico s.tree[i].beg s.tree[i].fin, y ≤ (x j k : ℝ) ∧ (x j k : ℝ) ≤ z := fun k hk => hyz k (Finset.mem_Ico.1 hk).1 (Finset.mem_Ico.1 hk).2
  obtain ⟨m1, m2⟩ := wmean_bounds hpos hM hr
  have m3 := (wmean_bounds (y := fun k => |(x j k : ℝ)|) (lo := 0) (hi := max |y| |z|) hpos hM fun k hk => ⟨abs_nonneg _, abs_le_max_abs_abs (hr k hk).1 (hr k hk).2⟩).2
  have e := c2 j hj
  have e2 := mul_le_mul_of_nonneg_left m3 (show (0 : ℝ) ≤ 14 * ((s.tree[i].fin - s.tree[i].beg + lanes simd d + 1 : ℕ) * f.unit) from by have := F.u0; positivity)
  rw [abs_le] at e
  refine ⟨hl, c j, ?_, by linarith [e.1], by linarith [e.2]⟩
  rw [c1, List.getElem?_map, List.getElem?_range hj]
  rfl

end

/-! An example in single precision, with vectors of two lanes. -/

def sse32 : Simd ℚ := ⟨2, true, fun l => l.foldl (binary32.ieee true).add (.fin 0)⟩

@[reducible] def posEnv : Env := rakauEnv (binary32.ieee true) (some sse32) .bh 32 3

/-- Three particles; the reciprocal of their total mass cannot be represented. -/
def posInp : Input posEnv := ⟨some (.fin 16), 2, 2, [[-4, 4, 2], [-4, 4, 2], [-4, 4, 2], [1, 65, 3]].map (·.map .fin)⟩

def posS : TS posEnv := okOr posInp.exec (TS.default _)

theorem posS_reach : Reach _ posS := reach_exec _ rfl (by decide +kernel) (by decide +kernel)

def posX (j k : Nat) : ℚ := if j = 3 then [1, 3, 65].getD k 0 else [-4, 2, 4].getD k 0

theorem sse32_adds : Simd.Adds (binary32.ieee true) sse32 := ⟨by decide, fun l h => ⟨_, h.le, addsUp_foldl _ l⟩⟩

theorem pos_data : IsData 3 3 posS.parts posX := isData_of_eq (by decide +kernel)

theorem pos_span : NodeSpan binary32.unit binary32.tiny binary32.minNormal ((2 ^ (binary32.emax - 1) : ℚ) : ℝ) 100 3 5 := by
  constructor <;> norm_num [Format.unit, Format.tiny, Format.minNormal, binary32]

/-- C64, at the root of the example: the stored mass is 69; the centre of mass is not exact. -/
example : ∃ (hi : 0 < posS.tree.length) (hp : 0 < posS.props.length) (m : ℚ) (c : Nat → ℚ), posS.tree[0].beg = 0 ∧ posS.tree[0].fin = 3 ∧ posS.props[0].mass = .fin m ∧
    |(m : ℝ) - 69| ≤ 2 * (5 * binary32.unit) * 69 ∧ posS.props[0].com = (List.range 3).map (fun j => .fin (c j)) ∧
    ∀ j < 3, |(c j : ℝ) - 262 / 69| ≤ 14 * (6 * binary32.unit) * (270 / 69) + 4501 * binary32.tiny ∧ c j ≠ 262 / 69 := by
  have hi : 0 < posS.tree.length := by decide +kernel
  have hb : posS.tree[0].beg = 0 := (by decide +kernel : ∃ h : 0 < posS.tree.length, posS.tree[0].beg = 0).2
  have hf : posS.tree[0].fin = 3 := (by decide +kernel : ∃ h : 0 < posS.tree.length, posS.tree[0].fin = 3).2
  have hn : posS.n = 3 := by decide +kernel
  obtain ⟨hp, m, h1, h2, h3⟩ := C64_node (b := 100) binary32_std (simd := some sse32) (by rintro S ⟨⟩; exact sse32_adds) ⟨.inl rfl, by decide⟩ posS_reach (by decide +kernel)
    (by rw [hn]; exact pos_data) hi (by rw [hb, hf]; exact pos_span)
    (by rw [hb, hf]; intro k _ hk; interval_cases k <;> norm_num [posX]) (by rw [hb, hf]; intro j hj k _ hk; interval_cases j <;> interval_cases k <;> norm_num [posX])
  rw [hb, hf] at h2 h3
  obtain ⟨c, c1, c2⟩ := h3 ⟨0, le_rfl, by decide, by norm_num [posX]⟩
  refine ⟨hi, hp, m, c, hb, hf, h1, ?_, c1, fun j hj => ⟨?_, ?_⟩⟩
  · norm_num [Finset.sum_Ico_eq_sum_range, Finset.sum_range_succ, posX, lanes, sse32] at h2 ⊢; exact h2
  · have := c2 j hj
    interval_cases j <;> norm_num [Finset.sum_Ico_eq_sum_range, Finset.sum_range_succ, posX, lanes, sse32] at this ⊢ <;> linarith
  · have hc := (by decide +kernel : ∃ h : 0 < posS.props.length, ∀ j < 3, posS.props[0].com[j]? ≠ some (.fin (262 / 69))).2 j hj
    rw [c1, List.getElem?_map, List.getElem?_range hj] at hc
    intro he
    simp [he] at hc

/-- C64, at the node of the second and third particle. -/
example : ∃ (i : Nat) (hi : i < posS.tree.length) (hp : i < posS.props.length) (c : ℚ), posS.tree[i].beg = 1 ∧ posS.tree[i].fin = 3 ∧ posS.props[i].com[1]? = some (.fin c) ∧
    2 - (14 * (5 * binary32.unit) * 4 + 3601 * binary32.tiny) ≤ (c : ℝ) ∧ (c : ℝ) ≤ 4 + (14 * (5 * binary32.unit) * 4 + 3601 * binary32.tiny) := by
  have hi : 2 < posS.tree.length := by decide +kernel
  have hb : posS.tree[2].beg = 1 := (by decide +kernel : ∃ h : 2 < posS.tree.length, posS.tree[2].beg = 1).2
  have hf : posS.tree[2].fin = 3 := (by decide +kernel : ∃ h : 2 < posS.tree.length, posS.tree[2].fin = 3).2
  have hn : posS.n = 3 := by decide +kernel
  obtain ⟨hp, c, h1, h2, h3⟩ := C64_inside (b := 100) (y := 2) (z := 4) (j := 1) binary32_std (simd := some sse32) (by rintro S ⟨⟩; exact sse32_adds) ⟨.inl rfl, by decide⟩ posS_reach (by decide +kernel)
    (by rw [hn]; exact pos_data) hi (by rw [hb, hf]; constructor <;> norm_num [Format.unit, Format.tiny, Format.minNormal, binary32, lanes, sse32])
    (by rw [hb, hf]; intro k _ hk; interval_cases k <;> norm_num [posX]) (by rw [hb, hf]; intro j hj k _ hk; interval_cases j <;> interval_cases k <;> norm_num [posX])
    ⟨1, by rw [hb], by rw [hf]; decide, by norm_num [posX]⟩ (by decide) (by rw [hb, hf]; intro k _ hk; interval_cases k <;> norm_num [posX])
  rw [hb, hf] at h2 h3
  refine ⟨2, hi, hp, c, hb, hf, h1, ?_, ?_⟩
  · norm_num [lanes, sse32] at h2 ⊢; linarith
  · norm_num [lanes, sse32] at h3 ⊢; linarith

end Rakau
