import Verif.Proof.GeomErr
import Verif.Props.TreeErr

/-!
C19, C21, C24, C60 in IEEE arithmetic, for positive masses and data in range (`BoxIn`): the computed centres of the nodes, the acceptance check compared with the one
in real numbers, and the padding of the critical nodes, which never makes a node fail the check.
-/
namespace Rakau
open Spec

theorem not_ge_of_lt {a b : Fl ℚ} (h : a.lt b = true) : a.ge b = false := by
  cases a <;> cases b <;> simp_all [Fl.ge]

section
variable {f : Format} {fused : Bool} {simd : Option (Simd ℚ)} {mac : Mac} {w d : Nat} {s : TS (rakauEnv (f.ieee fused) simd mac w d)}
  {x : Nat → Nat → ℚ} {b : ℝ} {B t eps : ℚ} (T : BoxIn s x b B t eps)

/-- C19: the computed centre of a node (any IEEE format, either arithmetic for multiply-adds). Every particle of the node is within half of the size of the node, up to rounding errors, in each dimension. -/
theorem C19_ieee_centre (hf : f.Std) (hs : Supported w d) (h : Reach _ s) (hz : s.n * cbits w d < 2 ^ 64) (hx : IsData d s.n s.parts x) (hB : s.box = .fin B)
    (hb : 1 ≤ b) (hlo : 16 * (f.minNormal : ℝ) * b ^ 4 ≤ 1) (hhi : 8 * b ^ 4 ≤ ((2 ^ (f.emax - 1) : ℚ) : ℝ)) (h1 : 4 ≤ b * ((B : ℝ) / 2 ^ cbits w d)) (h2 : (B : ℝ) ≤ b)
    (i1 : 0 < B) (i2 : f.minNormal ≤ 1 / B) (i3 : 1 / B ≤ 2 ^ (f.emax - 1)) {i : Nat} (hi : i < s.tree.length) :
    ∃ z : Nat → ℚ, nodeCentre (f.ieee fused) w d s.tree[i].code s.box = .ok (Arr d (fun j => .fin (z j))) ∧
      ∀ k, s.tree[i].beg ≤ k → k < s.tree[i].fin → ∀ j < d, |(x j k : ℝ) - z j| ≤ B / 2 ^ s.tree[i].level / 2 + 20 * f.unit * B := by
  obtain ⟨z, z1, _, z3⟩ := node_centre hf hs h hz hx hB hb hlo hhi h1 h2 i1 i2 i3 hi
  exact ⟨z, by rw [hB]; exact z1, z3⟩

include T

/-- C21 in IEEE arithmetic: for every critical node the results are computed from a list of visits `vs` such that the size of a node used as a whole, divided by the opening angle (plus the stored
distance of centre and centre of mass, with the second criterion), is at most the distance of its stored centre of mass from every particle of the critical node, in real numbers and up to rounding errors. -/
theorem C21_ieee (hf : f.Std) (hS : ∀ S, simd = some S → S.Adds (f.ieee fused)) (hs : Supported w d) (h : Reach _ s) (hz : s.n * cbits w d < 2 ^ 64) (hx : IsData d s.n s.parts x)
    (hrep : ∀ j < d, ∀ k < s.n, (f.ieee fused).Repr (x j k)) {κ' K C : Nat} (R : Span f.unit f.tiny f.minNormal ((2 ^ (f.emax - 1) : ℚ) : ℝ) b d κ' K C)
    {mv : ℚ} (hmv : macValue (f.ieee fused) mac (.fin t) = .fin mv) {rsqrt : Option (Fl ℚ → Fl ℚ)} {over : Overshift} (ho : over.Small)
    (hr : s.n + (⟨f.ieee fused, simd, rsqrt⟩ : Hw ℚ).pad < 2 ^ 64) (Q : Quant) (g e2 : Fl ℚ) {cn : CNode} (hc : cn ∈ s.crit) :
    ∃ vs, (s.force rsqrt over Q (.fin mv) g e2).node cn = .ok (Arr (cn.fin - cn.beg) (fun a =>
        (s.force rsqrt over Q (.fin mv) g e2).scaled ((s.force rsqrt over Q (.fin mv) g e2).total cn vs a))) ∧
      ∀ v ∈ vs, ∀ i, v.ev = some (.com i) → ∃ (hi : i < s.tree.length) (hp : i < s.props.length) (δ : ℚ) (c : Nat → ℚ),
        s.props[i].com = Arr d (fun j => .fin (c j)) ∧ s.props[i].delta = .fin δ ∧ 0 ≤ δ ∧ (mac = .bh → δ = 0) ∧
        ∀ k, cn.beg ≤ k → k < cn.fin → (B : ℝ) / 2 ^ s.tree[i].level / t + δ ≤ (1 + (d + 14 : ℕ) * f.unit) * √(∑ j ∈ Finset.range d, ((c j : ℝ) - x j k) ^ 2) := by
  have F := Format.ieee_model hf fused
  have b1 := R.b1
  have hcn := (crit_tiling (rakauEnv_ok (f.ieee fused) simd mac hs) h hz).1 cn hc
  obtain ⟨_, vs, _, _, _, _, v1, _, _, hn, _⟩ := node_val (fun S e => (hS S e).pos) hs h hz ho hr Q (.fin mv) g e2 hc
  refine ⟨vs, hn, ?_⟩
  intro v hv i hev
  obtain ⟨hidx, hacc⟩ := (v1 v hv).com i hev
  have hi : i < s.tree.length := by rw [hidx]; exact (v1 v hv).idx
  obtain ⟨hp, δ, ql, e1, δ0, e3, e4, e5, e6⟩ := T.lh hf hS hs h hz hx R hmv hi
  obtain ⟨_, _, a2, a3, _, _, _, _, _, a9⟩ := T.stored hf hS hs h hz hx (Span.lo_le F R) hi
  refine ⟨hi, hp, δ, s.cx i, a2, e1, δ0, e4, fun k k1 k2 => ?_⟩
  have hkn : k < s.n := by omega
  obtain ⟨fu, hfu⟩ := mode_ieee (f := f) (fused := fused) (simd := simd) (d := d) rsqrt
  have FM : FlModel ((⟨f.ieee fused, simd, rsqrt⟩ : Hw ℚ).mode d).A _ _ _ _ := hfu ▸ Format.ieee_model hf fu
  have hfar : ∑ j ∈ Finset.range d, ((s.cx i j : ℝ) - x j k) ^ 2 ≤ b ^ 2 := by
    have := T.far_node hf hs h hx a9 hkn
    have := sq_nonneg (eps : ℝ)
    linarith
  have hcb : ∀ j < d, |(s.cx i j : ℝ) - x j k| ≤ b := by
    intro j hj
    have h1 := Finset.single_le_sum (f := fun j => ((s.cx i j : ℝ) - x j k) ^ 2) (fun j _ => sq_nonneg _) (Finset.mem_range.2 hj)
    exact abs_le_of_sq_le_sq (h1.trans hfar) (by linarith)
  have hfail := accepts_at (fun S e => (hS S e).pos) hs h hz hx hcn.2 k1 k2 hacc
  obtain ⟨td, t1, t2⟩ := diffs_near FM R (y := fun j => x j k) (z := s.cx i) (by rw [hfu]; exact fun j hj => hrep j hj k hkn) (by rw [hfu]; exact a3) hcb
  obtain ⟨D, D1, D2'⟩ := plain_pos FM R mode_vec t2 hfar
  have hpr : (s.force rsqrt over Q (.fin mv) g e2).pr i = s.props[i] := by
    show (s.props[i]?).getD _ = _
    rw [List.getElem?_eq_getElem hp, Option.getD_some]
  have hmode : (s.force rsqrt over Q (.fin mv) g e2).M = (⟨f.ieee fused, simd, rsqrt⟩ : Hw ℚ).mode d := rfl
  unfold Force.failsAt macFails at hfail
  rw [hpr, hmode, a2] at hfail
  unfold mkPt at hfail
  simp only at hfail
  rw [t1, D1] at hfail
  have hfail : (macLh (f.ieee fused) mac (.fin mv) s.props[i]).ge (.fin D) = false := hfail
  rw [e5] at hfail
  have hqD : ql < D := by simpa [Fl.ge] using hfail
  obtain ⟨_, _, _, _, p, _, p2, _, p4, _⟩ := reach_node (rakauEnv_ok (f.ieee fused) simd mac hs) h hz hi
  have p2 : p.length ≤ cbits w d := p2
  have hdim := T.dim_in hs.dim.1 (l := s.tree[i].level) (by rw [p4]; exact p2)
  have i3 := hdim.div b1 T.theta
  have δ0' : (0 : ℝ) ≤ δ := by exact_mod_cast δ0
  have hXb := T.reach_le hs.dim.1 b1 (i := i) hi e3
  have iX : In b (1 + 1) ((B : ℝ) / 2 ^ s.tree[i].level / t + δ) := ⟨i3.low.trans (mul_le_mul_of_nonneg_left (by linarith) (by positivity)), hXb⟩
  have iXX := iX.mul b1 iX
  rw [← sq] at iXX
  have key := dist_lower FM R D2' (q := ql) (by exact_mod_cast hqD.le) iXX e6
  have X0 := iX.pos b1
  have := acc_real (t := 1) (D := ∑ j ∈ Finset.range d, ((s.cx i j : ℝ) - x j k) ^ 2) (dim := (B : ℝ) / 2 ^ s.tree[i].level / t + δ) F.u0 F.lt1 (m := d + 14) (by
    have := R.errs
    have h1 : ((d + 14 : ℕ) : ℝ) ≤ ((C + K : ℕ) : ℝ) := by have := R.kd; exact_mod_cast (by omega : d + 14 ≤ C + K)
    have := mul_le_mul_of_nonneg_right h1 F.u0
    linarith) one_pos (by rw [one_pow, div_one]; exact key)
  rw [one_mul] at this
  have u0 := F.u0
  apply le_of_sq_le_sq _ (by positivity)
  rw [mul_pow, Real.sq_sqrt D2'.nn]
  exact this

/-- C24 in IEEE arithmetic: the outcome of the acceptance check on the buffer of a critical node, padding included, is the outcome on the particles of the node alone
(the computed left-hand side is less than the computed squared distance): the padding never makes a check fail that all the particles pass. -/
theorem C24_ieee_partial (hf : f.Std) (hS : ∀ S, simd = some S → S.Adds (f.ieee fused)) (hs : Supported w d) (h : Reach _ s) (hz : s.n * cbits w d < 2 ^ 64) (hx : IsData d s.n s.parts x)
    {κ' K C : Nat} (R : Span f.unit f.tiny f.minNormal ((2 ^ (f.emax - 1) : ℚ) : ℝ) b d κ' K C) {mv : ℚ} (hmv : macValue (f.ieee fused) mac (.fin t) = .fin mv)
    (rsqrt : Option (Fl ℚ → Fl ℚ)) (over : Overshift) (Q : Quant) (g e2 : Fl ℚ) {cn : CNode} (hc : cn ∈ s.crit) {i : Nat} (hi : i < s.tree.length) :
    (s.force rsqrt over Q (.fin mv) g e2).accepts (cn.fin - cn.beg) ((s.force rsqrt over Q (.fin mv) g e2).slot cn) i = true ↔
      ∀ k, cn.beg ≤ k → k < cn.fin → ∃ hp : i < s.props.length, (macLh (f.ieee fused) mac (.fin mv) s.props[i]).lt (plainD2 ((⟨f.ieee fused, simd, rsqrt⟩ : Hw ℚ).mode d)
        (diffs ((⟨f.ieee fused, simd, rsqrt⟩ : Hw ℚ).mode d).A (Arr d (fun j => .fin (x j k))) s.props[i].com)) = true := by
  have F := Format.ieee_model hf fused
  have L : (f.ieee fused).Laws := Format.arith_laws hf.toOk _ _
  have hcn := (crit_tiling (rakauEnv_ok (f.ieee fused) simd mac hs) h hz).1 cn hc
  obtain ⟨hp, δ, ql, _, _, _, _, e5, _⟩ := T.lh hf hS hs h hz hx R hmv hi
  obtain ⟨_, _, a2, a3, _⟩ := T.stored hf hS hs h hz hx (Span.lo_le F R) hi
  have hpr : (s.force rsqrt over Q (.fin mv) g e2).pr i = s.props[i] := by
    show (s.props[i]?).getD _ = _
    rw [List.getElem?_eq_getElem hp, Option.getD_some]
  have hD : ∀ k, Fl.Nonneg (plainD2 ((⟨f.ieee fused, simd, rsqrt⟩ : Hw ℚ).mode d) (diffs ((⟨f.ieee fused, simd, rsqrt⟩ : Hw ℚ).mode d).A (Arr d (fun j => .fin (x j k))) s.props[i].com)) := by
    intro k
    have := plainD2_nonneg (d := d) (a := (List.range d).map (fun j => x j k)) (b := (List.range d).map (s.cx i)) (mode_laws L rsqrt (simd := simd)) mode_vec (by simp) (by simp)
    rw [List.map_map, List.map_map] at this
    rw [a2]
    exact this
  constructor
  · intro ha k k1 k2
    have hfail := accepts_at (fun S e => (hS S e).pos) hs h hz hx hcn.2 k1 k2 ha
    unfold Force.failsAt macFails at hfail
    rw [hpr] at hfail
    exact ⟨hp, lt_of_not_ge (by rw [e5]; simp) (hD k).ne_nan hfail⟩
  · intro hall
    have hok := force_ok (s := s) (fun S e => (hS S e).pos) hs h hz rsqrt over Q (.fin mv) g e2
    apply decide_eq_true
    intro l _
    by_cases hl : l < cn.fin - cn.beg
    · obtain ⟨_, hlt⟩ := hall (cn.beg + l) (by omega) (by omega)
      have e1 : (s.force rsqrt over Q (.fin mv) g e2).slot cn l = mkPt d (fun j => x j (cn.beg + l)) (x d (cn.beg + l)) := by
        unfold Force.slot
        rw [if_pos hl]
        exact Option.some.inj ((Force.pt_eq hok (show cn.beg + l < s.n by omega)).symm.trans (ptAt_data hx (by omega)))
      rw [e1]
      unfold Force.failsAt macFails
      rw [hpr]
      exact not_ge_of_lt hlt
    · exact T.pad_passes hf hS hs h hz hx R hmv hi (by omega)

/-- C60 in IEEE arithmetic with any vector kernels, padded critical nodes included, for positive masses and data in range: let `θ₀ ≤ θ` be valid opening angles. The results of a critical node with `θ₀` are computed from
visits `vs`, those with `θ` from visits `vs'`, such that `vs` refines `vs'`. -/
theorem C60_ieee_partial (hf : f.Std) (hS : ∀ S, simd = some S → S.Adds (f.ieee fused)) (hs : Supported w d) (h : Reach _ s) (hz : s.n * cbits w d < 2 ^ 64) (hx : IsData d s.n s.parts x)
    {κ' K C : Nat} (R : Span f.unit f.tiny f.minNormal ((2 ^ (f.emax - 1) : ℚ) : ℝ) b d κ' K C)
    {rsqrt : Option (Fl ℚ → Fl ℚ)} {over : Overshift} (ho : over.Small) (hr : s.n + (⟨f.ieee fused, simd, rsqrt⟩ : Hw ℚ).pad < 2 ^ 64) (Q : Quant)
    {t₀ : ℚ} {G e0 mv mv' e : Fl ℚ} (ht : t₀ ≤ t) (h1 : checkParams (f.ieee fused) mac (.fin t₀) G e0 = .ok (mv, e)) (h2 : checkParams (f.ieee fused) mac (.fin t) G e0 = .ok (mv', e))
    {cn : CNode} (hc : cn ∈ s.crit) :
    ∃ vs vs', (s.force rsqrt over Q mv G e).node cn = .ok (Arr (cn.fin - cn.beg) (fun a =>
        (s.force rsqrt over Q mv G e).scaled ((s.force rsqrt over Q mv G e).total cn vs a))) ∧
      (s.force rsqrt over Q mv' G e).node cn = .ok (Arr (cn.fin - cn.beg) (fun a =>
        (s.force rsqrt over Q mv' G e).scaled ((s.force rsqrt over Q mv' G e).total cn vs' a))) ∧ Refines s.tree vs vs' := by
  have hSp : SimdPos simd := fun S e => (hS S e).pos
  have L : (f.ieee fused).Laws := Format.arith_laws hf.toOk _ _
  obtain ⟨_, vs, _, _, _, _, _, _, v1, n1, _⟩ := node_val hSp hs h hz ho hr Q mv G e hc
  obtain ⟨_, vs', _, _, _, _, _, _, v2, n2, _⟩ := node_val hSp hs h hz ho hr Q mv' G e hc
  refine ⟨vs, vs', n1, n2, visits_refine (rakauEnv_ok (f.ieee fused) simd mac hs) h hz ho ?_ hc (crit_pos h hc) v1 v2⟩
  intro i hi ha
  apply decide_eq_true
  intro l _
  by_cases hl : l < cn.fin - cn.beg
  · exact accepts_larger hSp hs h hz L (ieee_sqrt_nonneg f fused) ht h1 h2 hi ha hl
  · obtain ⟨_, m', rfl, _, m2⟩ := checkParams_mac h2
    exact T.pad_passes hf hS hs h hz hx R m2 hi (by omega)

end

/-! ### Examples -/

@[reducible] def geoEnv : Env := rakauEnv (binary64.ieee true) (some avx64) .bhGeom 32 3

/-- The particles of `farInp` with the second acceptance criterion. -/
def geoInp : Input geoEnv := ⟨some (.fin 64), 1, 1, [[-30, 22, 20], [-30, 22, 20], [-30, 22, 20], [1, 65, 3]].map (·.map .fin)⟩

def geoS : TS geoEnv := okOr geoInp.exec (TS.default _)

theorem geoS_reach : Reach _ geoS := reach_exec _ rfl (by decide +kernel) (by decide +kernel)

theorem geo_data : IsData 3 3 geoS.parts farX := isData_of_eq (by decide +kernel)

theorem geo_n : geoS.n = 3 := by decide +kernel

set_option exponentiation.threshold 2000 in
theorem geo_in {t : ℚ} (t1 : 1 / 16 ≤ t) (t2 : t ≤ 1) : BoxIn geoS farX (2 ^ 200) 64 t 0 where
  box := by decide +kernel
  cell := by rw [show cbits 32 3 = 10 by decide]; norm_num
  step := by
    have : (t : ℝ) ≤ 1 := by exact_mod_cast t2
    rw [show cbits 32 3 = 10 by decide]
    norm_num
    linarith
  theta := by
    have h1 : (1 / 16 : ℝ) ≤ t := by have := (Rat.cast_le (K := ℝ)).2 t1; push_cast at this; exact this
    have h2 : (t : ℝ) ≤ 1 := by exact_mod_cast t2
    constructor <;> norm_num <;> linarith
  nodes := by
    rw [geo_n, far_hi, unit64]
    have : ((binary64.minNormal : ℚ) : ℝ) = 2⁻¹ ^ 1022 := by
      unfold Format.minNormal binary64
      push_cast
      norm_num
    rw [this]
    constructor <;> norm_num [lanes, avx64]
  errs := by rw [geo_n, unit64]; norm_num [lanes, avx64]
  mass := by rw [geo_n]; intro k hk; interval_cases k <;> norm_num [farX]
  total := by rw [geo_n]; norm_num [Finset.sum_range_succ, farX]
  far := by
    have h1 : (1 / 16 : ℝ) ≤ t := by have := (Rat.cast_le (K := ℝ)).2 t1; push_cast at this; exact this
    have h2 : ((64 : ℚ) : ℝ) / t ≤ 1024 := by
      rw [div_le_iff₀ (by linarith)]
      push_cast
      linarith
    have h3 : 0 ≤ ((64 : ℚ) : ℝ) / t := by push_cast; positivity
    have := pow_le_pow_left₀ h3 h2 2
    norm_num at this ⊢
    linarith

theorem geo_span : Span (binary64.unit : ℝ) binary64.tiny binary64.minNormal ((2 ^ (binary64.emax - 1) : ℚ) : ℝ) (2 ^ 200) 3 0 29 8 :=
  span64 (by norm_num) le_rfl (by norm_num) (by norm_num) (by norm_num)

/-- Node 5 of the tree, of size 4, with the particles at 20 and 22: its computed centre is at (22, 22, 22); both are within 2 up to rounding errors. -/
example : geoS.tree[5]? = some ⟨1, 3, 2, 8135, 4⟩ ∧ nodeCentre (binary64.ieee true) 32 3 8135 (.fin 64) = .ok (Arr 3 (fun _ => .fin 22)) ∧
    ∃ z : Nat → ℚ, nodeCentre (binary64.ieee true) 32 3 8135 geoS.box = .ok (Arr 3 (fun j => .fin (z j))) ∧ ∀ j < 3, |(20 : ℝ) - z j| ≤ 64 / 2 ^ 4 / 2 + 20 * (1 / 2) ^ 53 * 64 := by
  have T := geo_in (t := 1) (by norm_num) le_rfl
  have hS : ∀ S, some avx64 = some S → S.Adds (binary64.ieee true) := by rintro S ⟨⟩; exact avx64_adds
  have F := Format.ieee_model binary64_std true
  obtain ⟨i1, i2, i3⟩ := T.inv_ok binary64_std (by decide)
  have hl : 5 < geoS.tree.length := by decide +kernel
  have ht : geoS.tree[5] = ⟨1, 3, 2, 8135, 4⟩ := by
    have : geoS.tree[5]? = some ⟨1, 3, 2, 8135, 4⟩ := by decide +kernel
    rw [List.getElem?_eq_getElem hl] at this
    exact Option.some.inj this
  obtain ⟨z, z1, z2⟩ := C19_ieee_centre binary64_std ⟨.inl rfl, by decide⟩ geoS_reach (by decide +kernel) (by rw [geo_n]; exact geo_data) T.box geo_span.b1 (Span.lo_le F geo_span) (Span.hi_ge geo_span) T.cell
    (by norm_num) i1 i2 i3 hl
  rw [ht] at z1 z2
  refine ⟨by decide +kernel, by decide +kernel, z, z1, fun j hj => ?_⟩
  have := z2 1 le_rfl (by decide) j hj
  have hj3 : j ≠ 3 := by omega
  rw [unit64] at this
  have e : (farX j 1 : ℝ) = 20 := by norm_num [farX, hj3]
  rw [e] at this
  simp only [Rat.cast_ofNat] at this
  exact this

/-- C24 and C60 with AVX and the second criterion: the critical node of particle 0 has one particle and three padding slots. With `θ = 1` node 2 (of size 32, with the other two particles) is used as a whole, with `θ = 1/16` it is opened
and node 5 (of size 4) is used; both outcomes are those for particle 0 alone, and the second computation refines the first. -/
example :
    let S := fun mv => geoS.force none (maskedShift 32) .acc (.fin mv) (.fin 1) (.fin 0)
    ((S 1).accepts 1 ((S 1).slot ⟨8, 0, 1⟩) 2 = true ∧ (S 16).accepts 1 ((S 16).slot ⟨8, 0, 1⟩) 2 = false ∧ (S 16).accepts 1 ((S 16).slot ⟨8, 0, 1⟩) 5 = true) ∧
    (∀ i < geoS.tree.length, (S 1).accepts 1 ((S 1).slot ⟨8, 0, 1⟩) i = true ↔ ∃ hp : i < geoS.props.length, (macLh (binary64.ieee true) .bhGeom (.fin 1) geoS.props[i]).lt
      (plainD2 ((⟨binary64.ieee true, some avx64, none⟩ : Hw ℚ).mode 3) (diffs ((⟨binary64.ieee true, some avx64, none⟩ : Hw ℚ).mode 3).A [.fin (-30), .fin (-30), .fin (-30)] geoS.props[i].com)) = true) ∧
    ∃ vs vs', (S 16).node ⟨8, 0, 1⟩ = .ok (Arr 1 (fun a => (S 16).scaled ((S 16).total ⟨8, 0, 1⟩ vs a))) ∧
      (S 1).node ⟨8, 0, 1⟩ = .ok (Arr 1 (fun a => (S 1).scaled ((S 1).total ⟨8, 0, 1⟩ vs' a))) ∧ Refines geoS.tree vs vs' := by
  have T := geo_in (t := 1) (by norm_num) le_rfl
  have hS : ∀ S, some avx64 = some S → S.Adds (binary64.ieee true) := by rintro S ⟨⟩; exact avx64_adds
  have hc : ⟨8, 0, 1⟩ ∈ geoS.crit := by decide +kernel
  refine ⟨⟨by decide +kernel, by decide +kernel, by decide +kernel⟩, fun i hi => ?_, ?_⟩
  · refine (C24_ieee_partial T binary64_std hS ⟨.inl rfl, by decide⟩ geoS_reach (by decide +kernel) (by rw [geo_n]; exact geo_data) geo_span (mv := 1) (by decide +kernel) none (maskedShift 32) .acc (.fin 1) (.fin 0) hc hi).trans ?_
    constructor
    · intro h
      exact h 0 le_rfl (by decide)
    · intro h k _ k2
      obtain rfl : k = 0 := by simpa using k2
      exact h
  · exact C60_ieee_partial T (t₀ := 1 / 16) (cn := ⟨8, 0, 1⟩) (e0 := .fin 0) binary64_std hS ⟨.inl rfl, by decide⟩ geoS_reach (by decide +kernel) (by rw [geo_n]; exact geo_data) geo_span (maskedShift_small _) (by decide +kernel) .acc
      (by norm_num) (by decide +kernel) (by decide +kernel) hc

set_option exponentiation.threshold 2000 in
/-- C21 on the same tree with `θ = 1`: node 2 is used for particle 0, and its size plus the stored distance from its centre (16, 16, 16) to its centre of mass is at most the distance from particle 0. -/
example :
    let S := geoS.force none (maskedShift 32) .acc (.fin 1) (.fin 1) (.fin 0)
    (travGo (maskedShift 32) 32 3 geoS.tree 8 (S.accepts 1 (S.slot ⟨8, 0, 1⟩)) geoS.tree.length 0).map (fun r => r.map (·.map (·.ev))) = some (.ok [none, none, some (.com 2)]) ∧
    ∃ vs, S.node ⟨8, 0, 1⟩ = .ok (Arr 1 (fun a => S.scaled (S.total ⟨8, 0, 1⟩ vs a))) ∧
      ∀ v ∈ vs, ∀ i, v.ev = some (.com i) → ∃ (hi : i < geoS.tree.length) (hp : i < geoS.props.length) (δ : ℚ) (c : Nat → ℚ), geoS.props[i].com = Arr 3 (fun j => .fin (c j)) ∧ geoS.props[i].delta = .fin δ ∧ 0 ≤ δ ∧
        (64 : ℝ) / 2 ^ geoS.tree[i].level + δ ≤ (1 + 17 * (1 / 2) ^ 53) * √(∑ j ∈ Finset.range 3, ((c j : ℝ) + 30) ^ 2) := by
  have T := geo_in (t := 1) (by norm_num) le_rfl
  have hS : ∀ S, some avx64 = some S → S.Adds (binary64.ieee true) := by rintro S ⟨⟩; exact avx64_adds
  have hrep : ∀ k < 3, ∀ j < 3, (binary64.ieee true).rnd (farX j k) = .fin (farX j k) := by decide +kernel
  refine ⟨by decide +kernel, ?_⟩
  obtain ⟨vs, v1, v2⟩ := C21_ieee T (mv := 1) (cn := ⟨8, 0, 1⟩) (rsqrt := none) binary64_std hS ⟨.inl rfl, by decide⟩ geoS_reach (by decide +kernel) (by rw [geo_n]; exact geo_data)
    (by rw [geo_n]; exact fun j hj k hk => hrep k hk j hj) geo_span (by decide +kernel) (maskedShift_small 32) (by decide +kernel) .acc (.fin 1) (.fin 0) (by decide +kernel)
  refine ⟨vs, v1, fun v hv i hev => ?_⟩
  obtain ⟨hi, hp, δ, c, c1, c2, c3, _, c5⟩ := v2 v hv i hev
  refine ⟨hi, hp, δ, c, c1, c2, c3, ?_⟩
  have := c5 0 le_rfl (by decide)
  rw [unit64] at this
  norm_num [Finset.sum_range_succ, farX] at this ⊢
  exact this

end Rakau
