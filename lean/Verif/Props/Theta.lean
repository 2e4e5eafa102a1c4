import Verif.Proof.Refine
import Verif.Props.Padding
import Verif.Props.Box

/-! Property theorems on the opening angle: C60 (a smaller angle only refines the computation). -/
namespace Rakau
open Spec

variable {K : Type} [Field K] [LinearOrder K] [IsStrictOrderedRing K] [FloorRing K]

/-! ### Monotonicity of the acceptance check -/

/-- The square root never returns a negative number. -/
def SqrtNonneg (A : Arith K) : Prop := ∀ q r, A.sqrt q = .fin r → 0 ≤ r

omit [IsStrictOrderedRing K] [FloorRing K] in
/-- The size data of a node. -/
theorem nodeProps_size {A : Arith K} {simd : Option (Simd K)} {mac : Mac} {w d : Nat} {box : Fl K} {nd : Node} {parts : List (List (Fl K))} {r : NProps K}
    (h : nodeProps A simd mac w d box nd parts = .ok r) : ∃ dim, nodeDim A w nd.level box = .ok dim ∧
      (mac = .bh → r.dim = A.mul dim dim ∧ r.delta = .fin 0) ∧ (mac = .bhGeom → r.dim = dim ∧ ∃ q, r.delta = A.fsqrt q) := by
  unfold nodeProps at h
  cases mac with
  | bh =>
    simp only [bind, Except.bind] at h
    repeat' split at h
    all_goals first
      | (cases h; done)
      | (cases h; rename_i dim hd _; exact ⟨dim, hd, fun _ => ⟨rfl, rfl⟩, fun h => by cases h⟩)
  | bhGeom =>
    simp only [bind, Except.bind] at h
    repeat' split at h
    all_goals first
      | (cases h; done)
      | (cases h; rename_i dim hd _ _ v _ _; exact ⟨dim, hd, (fun h => by cases h), fun _ => ⟨rfl, v, rfl⟩⟩)

/-- The size data of the nodes of a tree are not negative. -/
theorem reach_sizes {A : Arith K} (L : A.Laws) (hq : SqrtNonneg A) {simd : Option (Simd K)} {mac : Mac} {w d : Nat} (hs : Supported w d)
    {s : TS (rakauEnv A simd mac w d)} (h : Reach _ s) (hz : s.n * cbits w d < 2 ^ 64) {i : Nat} (hi : i < s.tree.length) :
    ∃ (hp : i < s.props.length) (a δ : K), s.props[i].dim = .fin a ∧ s.props[i].delta = .fin δ ∧ 0 ≤ a ∧ 0 ≤ δ := by
  obtain ⟨_, _, _, hp, p, p1, p2, p3, p4, p5, p6, p7, _⟩ := reach_node (rakauEnv_ok A simd mac hs) h hz hi
  obtain ⟨_, _, _, _, f1, f2⟩ := reach_props hs h hz hi
  obtain ⟨a, ha⟩ := Fl.isFinite_iff.1 f1
  obtain ⟨δ, hδ⟩ := Fl.isFinite_iff.1 f2
  refine ⟨hp, a, δ, ha, hδ, ?_⟩
  obtain ⟨b, hb, b0, _⟩ := C56_box L hs h
  have p7 : nodeProps A simd mac w d s.box s.tree[i] s.parts = .ok s.props[i] := p7
  obtain ⟨dim, d1, d2, d3⟩ := nodeProps_size p7
  have hd := hs.dim
  have hlev : s.tree[i].level < w := by
    rw [p4]
    have p2 : p.length ≤ cbits w d := p2
    have := cbits_mul_lt hd.1 hd.2.1
    have := Nat.le_mul_of_pos_right (cbits w d) hd.1
    omega
  have hw : w ≤ 64 := by rcases hs.1 with rfl | rfl <;> omega
  rw [nodeDim_eq A hlev] at d1
  have hdim : dim = A.rnd (b / 2 ^ s.tree[i].level) := by
    rw [Except.ok.injEq] at d1
    rw [← d1, hb]
    push_cast
    rw [L.pow _ (by omega)]
    unfold Arith.div
    simp only
    rw [if_neg (by positivity)]
  have hdn : dim.Nonneg := by rw [hdim]; exact nonneg_rnd L (by positivity)
  cases mac with
  | bh =>
    obtain ⟨e1, e2⟩ := d2 rfl
    rw [e1] at ha
    rw [e2] at hδ
    have := nonneg_sq L hdn.ne_nan
    rw [ha] at this
    refine ⟨this, ?_⟩
    rw [Fl.fin.injEq] at hδ
    exact hδ.le
  | bhGeom =>
    obtain ⟨e1, q, e2⟩ := d3 rfl
    rw [e1] at ha
    rw [ha] at hdn
    refine ⟨hdn, ?_⟩
    rw [hδ] at e2
    unfold Arith.fsqrt at e2
    cases q with
    | nan => cases e2
    | inf t => simp only at e2; split at e2 <;> cases e2
    | fin q =>
      simp only at e2
      split at e2
      · cases e2
      · exact hq _ _ e2.symm

/-- A larger angle gives a smaller acceptance value. -/
theorem macValue_anti {A : Arith K} (L : A.Laws) (mac : Mac) {t t' : K} (h0 : 0 < t) (h : t ≤ t') {mv mv' : K} (h1 : macValue A mac (.fin t) = .fin mv)
    (h2 : macValue A mac (.fin t') = .fin mv') (h3 : 0 < mv') : mv' ≤ mv := by
  have key : ∀ {q q' : K}, 0 ≤ q → q ≤ q' → A.div (.fin 1) (.fin q) = .fin mv → A.div (.fin 1) (.fin q') = .fin mv' → mv' ≤ mv := by
    intro q q' hq hqq e1 e2
    unfold Arith.div at e1 e2
    simp only [one_ne_zero, if_false] at e1 e2
    split at e1
    · cases e1
    · split at e2
      · cases e2
      · rename_i n1 n2
        have hq : 0 < q := lt_of_le_of_ne hq (Ne.symm n1)
        exact L.fin_le (one_div_le_one_div_of_le hq hqq) e2 e1
  cases mac with
  | bhGeom => exact key h0.le h h1 h2
  | bh =>
    unfold macValue at h1 h2
    simp only at h1 h2
    have m1 : Fl.le (A.mul (.fin t) (.fin t)) (A.mul (.fin t') (.fin t')) = true :=
      L.mono _ _ (mul_le_mul h h h0.le (h0.le.trans h))
    have n1 : (A.mul (.fin t) (.fin t)).Nonneg := nonneg_sq L (by simp)
    cases e1 : A.mul (.fin t) (.fin t) with
    | nan => rw [e1] at n1; exact n1.elim
    | inf s =>
      rw [e1] at m1 n1
      have n1 : s = false := n1
      subst n1
      cases e2 : A.mul (.fin t') (.fin t') with
      | nan => rw [e2] at m1; cases m1
      | inf s' => rw [e2] at h2; simp [Arith.div] at h2; exact absurd h2 (h3.ne)
      | fin q => rw [e2] at m1; cases m1
    | fin q =>
      rw [e1] at n1 h1 m1
      cases e2 : A.mul (.fin t') (.fin t') with
      | nan => rw [e2] at m1; cases m1
      | inf s' => rw [e2] at h2; simp [Arith.div] at h2; exact absurd h2 (h3.ne)
      | fin q' =>
        rw [e2] at h2 m1
        exact key n1 (by simpa using m1) h1 h2

omit [FloorRing K] in
theorem sq_mono {A : Arith K} (L : A.Laws) {a b : Fl K} (ha : a.Nonneg) (h : Fl.le a b = true) : Fl.le (A.mul a a) (A.mul b b) = true := by
  cases a with
  | nan => exact ha.elim
  | inf s =>
    have ha : s = false := ha
    subst ha
    cases b with
    | nan => cases h
    | inf t => simp [Arith.mul, Arith.mulPre, Fl.le, Fl.ge, Fl.lt]
    | fin q => cases h
  | fin p =>
    have ha : 0 ≤ p := ha
    cases b with
    | nan => cases h
    | inf t =>
      have n := L.notNan (p * p)
      show Fl.le (A.rnd (p * p)) (A.mul (.inf t) (.inf t)) = true
      cases e : A.rnd (p * p) with
      | nan => exact absurd e n
      | inf u => cases u <;> simp [Arith.mul, Arith.mulPre, Fl.le, Fl.ge, Fl.lt]
      | fin r => simp [Arith.mul, Arith.mulPre, Fl.le, Fl.ge, Fl.lt]
    | fin q =>
      have h : p ≤ q := by simpa using h
      exact L.mono _ _ (mul_le_mul h h ha (ha.trans h))

theorem nonneg_fma {A : Arith K} (L : A.Laws) {a b c : K} (ha : 0 ≤ a) (hb : 0 ≤ b) (hc : 0 ≤ c) : (A.fma (.fin a) (.fin b) (.fin c)).Nonneg := by
  unfold Arith.fma
  split
  · exact nonneg_rnd L (add_nonneg (mul_nonneg ha hb) hc)
  · exact nonneg_add L (nonneg_rnd L (mul_nonneg ha hb)) hc

/-- The left-hand side of the criterion grows with the acceptance value. -/
theorem macLh_mono {A : Arith K} (L : A.Laws) (mac : Mac) {p : NProps K} {a δ mv mv' : K} (h1 : p.dim = .fin a) (h2 : p.delta = .fin δ) (ha : 0 ≤ a) (hδ : 0 ≤ δ)
    (h0 : 0 ≤ mv') (h : mv' ≤ mv) : Fl.le (macLh A mac (.fin mv') p) (macLh A mac (.fin mv) p) = true := by
  unfold macLh
  rw [h1, h2]
  cases mac with
  | bh => exact L.mono _ _ (mul_le_mul_of_nonneg_left h ha)
  | bhGeom =>
    refine sq_mono L (nonneg_fma L ha h0 hδ) ?_
    have hm : a * mv' ≤ a * mv := mul_le_mul_of_nonneg_left h ha
    unfold Arith.fma
    split
    · exact L.mono _ _ (by linarith)
    · exact add_mono L (L.mono _ _ hm)

theorem steps_dvd {size b : Nat} (hb : 0 < b) (h : b ∣ size) : steps size b * b = size := by
  obtain ⟨k, rfl⟩ := h
  unfold steps
  rw [Nat.mul_add_div hb, Nat.div_eq_of_lt (by omega), Nat.add_zero, Nat.mul_comm]

/-! ### Refinement -/

/-- `vs` refines `vs'`: it visits every node that `vs'` visits and opens every leaf that `vs'` opens, and every node that it uses as a whole is, or is below, a
node that `vs'` uses as a whole (so that no particle or group of particles is merged with others that was not in `vs'`). -/
def Spec.Refines (tree : List Node) (vs vs' : List Visit) : Prop :=
  (∀ v' ∈ vs', ∃ v ∈ vs, v.idx = v'.idx) ∧ (∀ v' ∈ vs', ∀ l, v'.ev = some (.leaf l) → v' ∈ vs) ∧
  ∀ v ∈ vs, ∀ k, v.ev = some (.com k) → ∃ v' ∈ vs', ∃ m, v'.ev = some (.com m) ∧
    ∃ (hk : k < tree.length) (hm : m < tree.length), tree[m].beg ≤ tree[k].beg ∧ tree[k].fin ≤ tree[m].fin

/-- The traversals of a tree with two acceptance checks. -/
theorem visits_refine {env : Env} (E : EnvOk env) {s : TS env} (h : Reach env s) (hz : s.n * cbits env.w env.d < 2 ^ 64) {over : Overshift} (ho : over.Small)
    {acc acc' : Nat → Bool} (hacc : ∀ i, i < s.tree.length → acc i = true → acc' i = true) {c : CNode} (hc : c ∈ s.crit) (hn : 0 < s.n) {vs vs' : List Visit}
    (hv : travGo over env.w env.d s.tree c.code acc s.tree.length 0 = some (.ok vs))
    (hv' : travGo over env.w env.d s.tree c.code acc' s.tree.length 0 = some (.ok vs')) : Refines s.tree vs vs' := by
  obtain ⟨hcl, B, split, hb⟩ := reach_build E h hz hn
  obtain ⟨t, ht, t1, t2, t3⟩ := crit_node B hb hc
  have D := build_dfs B hb
  have st := fun acc => (fun i (hi : i < s.tree.length) => travStep_spec B hb ho acc ht i hi)
  rw [← t1] at hv hv'
  obtain ⟨a, b, c⟩ := trav_refine D hacc (st acc) (st acc') hv hv' ⟨le_rfl, fun k _ k1 k2 => by omega⟩
  refine ⟨a, b, ?_⟩
  intro v hv1 k hk
  rcases c v hv1 k hk with h0 | ⟨v', h1, m, hm, e1, e2, e3⟩
  · omega
  · have hkl : k < s.tree.length := by
      have := D.sub m hm
      omega
    exact ⟨v', h1, m, e1, hkl, hm, build_nested B hb hm hkl e2 e3⟩

variable {A : Arith K} {simd : Option (Simd K)} {mac : Mac} {w d : Nat} {s : TS (rakauEnv A simd mac w d)}

omit [IsStrictOrderedRing K] [FloorRing K] in
/-- The acceptance value of valid parameters. -/
theorem checkParams_mac {A : Arith K} {t : K} {G eps mv e : Fl K} (hp : checkParams A mac (.fin t) G eps = .ok (mv, e)) :
    0 < t ∧ ∃ m, mv = .fin m ∧ 0 < m ∧ macValue A mac (.fin t) = .fin m := by
  unfold checkParams at hp
  split at hp
  · cases hp
  · rename_i c1
    simp only at hp
    split at hp
    · cases hp
    · rename_i c2
      cases he : computeEps2 A eps with
      | error _ => rw [he] at hp; cases hp
      | ok e' =>
        cases hg : checkG G with
        | error _ => rw [he, hg] at hp; cases hp
        | ok _ =>
          rw [he, hg] at hp
          simp only [bind, Except.bind, Except.ok.injEq, Prod.mk.injEq] at hp
          rw [Bool.or_eq_true, not_or] at c1 c2
          obtain ⟨m, hm⟩ := Fl.isFinite_iff.1 (show (macValue A mac (.fin t)).isFinite = true by simpa using c2.1)
          have c2 := c2.2
          rw [hm] at c2 hp
          exact ⟨by simpa [Fl.le, Fl.ge, Fl.lt] using c1.2, m, hp.1.symm, by simpa using c2, hm⟩

/-- A node accepted with an angle passes the check with a larger angle for every particle of the critical node. -/
theorem accepts_larger (hS : SimdPos simd) (hs : Supported w d) (h : Reach _ s) (hz : s.n * cbits w d < 2 ^ 64) (L : A.Laws) (hq : SqrtNonneg A)
    {rsqrt : Option (Fl K → Fl K)} {over : Overshift} {Q : Quant}
    {t t' : K} {G eps mv mv' e : Fl K} (ht : t ≤ t') (h1 : checkParams A mac (.fin t) G eps = .ok (mv, e)) (h2 : checkParams A mac (.fin t') G eps = .ok (mv', e))
    {cn : CNode} {i : Nat} (hi : i < s.tree.length) (ha : (s.force rsqrt over Q mv G e).accepts (cn.fin - cn.beg) ((s.force rsqrt over Q mv G e).slot cn) i = true)
    {l : Nat} (hl' : l < cn.fin - cn.beg) : (s.force rsqrt over Q mv' G e).failsAt i ((s.force rsqrt over Q mv' G e).slot cn l) = false := by
  obtain ⟨hp, a, δ, p1, p2, p3, p4⟩ := reach_sizes L hq hs h hz hi
  obtain ⟨t0, m, rfl, _, m1⟩ := checkParams_mac h1
  obtain ⟨_, m', rfl, m0, m2⟩ := checkParams_mac h2
  have hmm := macValue_anti L mac t0 ht m1 m2 m0
  have hlh := macLh_mono L mac p1 p2 p3 p4 m0.le hmm
  have hpr : ∀ mv, (s.force rsqrt over Q mv G e).pr i = s.props[i] := by
    intro mv
    show (s.props[i]?).getD _ = _
    rw [List.getElem?_eq_getElem hp, Option.getD_some]
  have hbp : 0 < (⟨A, simd, rsqrt⟩ : Hw K).batch d := (force_ok (s := s) hS hs h hz rsqrt over Q (.fin m') G e).hw.batch_pos d
  unfold Force.accepts at ha
  rw [decide_eq_true_eq] at ha
  have hl : l < steps (cn.fin - cn.beg) ((⟨A, simd, rsqrt⟩ : Hw K).batch d) * (⟨A, simd, rsqrt⟩ : Hw K).batch d := by
    have := div_steps hbp hl'
    rwa [Nat.div_lt_iff_lt_mul hbp] at this
  have f1 := ha l hl
  have hslot : ∀ mv, (s.force rsqrt over Q mv G e).slot cn l = (s.force rsqrt over Q (.fin m) G e).pt (cn.beg + l) := by
    intro mv
    unfold Force.slot
    rw [if_pos hl']
    rfl
  rw [hslot] at f1 ⊢
  by_contra hf
  rw [Bool.not_eq_false] at hf
  have : (s.force rsqrt over Q (.fin m) G e).failsAt i ((s.force rsqrt over Q (.fin m) G e).pt (cn.beg + l)) = true := by
    unfold Force.failsAt macFails at hf ⊢
    rw [hpr] at hf ⊢
    exact Fl.le_trans' hf hlh
  rw [this] at f1
  cases f1

/-- C60, in every arithmetic that satisfies the laws of rounding, for critical nodes that fill whole batches (every critical node of the scalar kernels, whose
batches have size 1): let `θ ≤ θ'` be valid opening angles. The results of the critical node with `θ` are computed from visits `vs`, those with `θ'` from visits
`vs'`, such that `vs` refines `vs'`. -/
theorem C60_batches_partial (hS : SimdPos simd) (hs : Supported w d) (h : Reach _ s) (hz : s.n * cbits w d < 2 ^ 64) (L : A.Laws) (hq : SqrtNonneg A)
    {rsqrt : Option (Fl K → Fl K)} {over : Overshift} (ho : over.Small) (hr : s.n + (⟨A, simd, rsqrt⟩ : Hw K).pad < 2 ^ 64) (Q : Quant)
    {t t' : K} {G eps mv mv' e : Fl K} (ht : t ≤ t') (h1 : checkParams A mac (.fin t) G eps = .ok (mv, e)) (h2 : checkParams A mac (.fin t') G eps = .ok (mv', e))
    {cn : CNode} (hc : cn ∈ s.crit) (hb : (⟨A, simd, rsqrt⟩ : Hw K).batch d ∣ cn.fin - cn.beg) :
    ∃ vs vs', (s.force rsqrt over Q mv G e).node cn = .ok (Arr (cn.fin - cn.beg) (fun a =>
        (s.force rsqrt over Q mv G e).scaled ((s.force rsqrt over Q mv G e).total cn vs a))) ∧
      (s.force rsqrt over Q mv' G e).node cn = .ok (Arr (cn.fin - cn.beg) (fun a =>
        (s.force rsqrt over Q mv' G e).scaled ((s.force rsqrt over Q mv' G e).total cn vs' a))) ∧ Refines s.tree vs vs' := by
  obtain ⟨_, vs, _, _, _, _, _, _, v1, n1, _⟩ := node_val hS hs h hz ho hr Q mv G e hc
  obtain ⟨_, vs', _, _, _, _, _, _, v2, n2, _⟩ := node_val hS hs h hz ho hr Q mv' G e hc
  refine ⟨vs, vs', n1, n2, visits_refine (rakauEnv_ok A simd mac hs) h hz ho ?_ hc (crit_pos h hc) v1 v2⟩
  intro i hi ha
  have hbp := (force_ok (s := s) hS hs h hz rsqrt over Q mv' G e).hw.batch_pos d
  have hall := fun l => accepts_larger hS hs h hz L hq ht h1 h2 hi ha (l := l)
  unfold Force.accepts
  rw [decide_eq_true_eq]
  intro l hl
  apply hall
  have := steps_dvd (b := (⟨A, simd, rsqrt⟩ : Hw K).batch d) hbp hb
  have hl : l < steps (cn.fin - cn.beg) ((⟨A, simd, rsqrt⟩ : Hw K).batch d) * (⟨A, simd, rsqrt⟩ : Hw K).batch d := hl
  rw [this] at hl
  exact hl

/-- C60, in exact arithmetic with any vector kernels, for non-negative masses: there the padding of the critical nodes plays no role. -/
theorem C60_exact_partial {rsqrt : Option (Fl K → Fl K)} {over : Overshift} {x : Nat → Nat → K} {b t t' e : K} (h0 : 0 < t) (ht : t ≤ t')
    (H : Sit s rsqrt over x b (invTheta mac t) e) (hm : ∀ k < s.n, 0 ≤ x d k) (Q : Quant) (g : K) {cn : CNode} (hc : cn ∈ s.crit) :
    ∃ vs vs', (s.fc rsqrt over Q (invTheta mac t) g e).node cn = .ok (Arr (cn.fin - cn.beg) (fun a =>
        (s.fc rsqrt over Q (invTheta mac t) g e).scaled ((s.fc rsqrt over Q (invTheta mac t) g e).total cn vs a))) ∧
      (s.fc rsqrt over Q (invTheta mac t') g e).node cn = .ok (Arr (cn.fin - cn.beg) (fun a =>
        (s.fc rsqrt over Q (invTheta mac t') g e).scaled ((s.fc rsqrt over Q (invTheta mac t') g e).total cn vs' a))) ∧ Refines s.tree vs vs' := by
  have h0' : 0 < t' := lt_of_lt_of_le h0 ht
  have H' : Sit s rsqrt over x b (invTheta mac t') e := { H with mpos := invTheta_pos mac h0' }
  obtain ⟨_, vs, _, _, _, _, _, _, v1, n1, _⟩ := node_val H.simdPos H.supp H.reach H.size H.small H.room Q (.fin (invTheta mac t)) (.fin g) (.fin e) hc
  obtain ⟨_, vs', _, _, _, _, _, _, v2, n2, _⟩ := node_val H.simdPos H.supp H.reach H.size H.small H.room Q (.fin (invTheta mac t')) (.fin g) (.fin e) hc
  refine ⟨vs, vs', n1, n2, visits_refine (rakauEnv_ok A simd mac H.supp) H.reach H.size H.small ?_ hc (crit_pos H.reach hc) v1 v2⟩
  intro i hi ha
  have ha := (C24_acceptance H hm Q g hc hi).1 ha
  refine (C24_acceptance H' hm Q g hc hi).2 fun k k1 k2 => lt_of_le_of_lt ?_ (ha k k1 k2)
  have hd : 0 ≤ s.cdim b i := div_nonneg H.bpos.le (by positivity)
  have hmv : invTheta mac t' ≤ invTheta mac t := by
    unfold invTheta
    split
    · exact one_div_le_one_div_of_le (by positivity) (mul_le_mul ht ht h0.le h0'.le)
    · exact one_div_le_one_div_of_le h0 ht
  have hpos := (invTheta_pos mac h0').le
  unfold TS.bound
  split
  · exact mul_le_mul_of_nonneg_left hmv (by positivity)
  · rename_i hg
    have hg : mac = .bhGeom := by cases mac <;> simp_all
    have hδ := (H.delta_le hm hg hi).1
    have := mul_le_mul_of_nonneg_left hmv hd
    exact pow_le_pow_left₀ (by positivity) (by linarith) 2

/-- C60 fails for masses of both signs with vector kernels, in double precision: on the tree of `C24_mixed_fails`, for the first critical node (one particle,
three padding slots), node 2 is opened with `θ = 1` (because of the padding) but used as a whole with `θ = 1/2`: the smaller angle gives the coarser result. -/
theorem C60_mixed_fails :
    let s := mixS (some avx64)
    let S := s.force none (maskedShift 32) .acc (.fin 4) (.fin 1) (.fin 0)
    let S' := s.force none (maskedShift 32) .acc (.fin 1) (.fin 1) (.fin 0)
    Reach _ s ∧ checkParams (binary64.ieee true) .bh (.fin (1 / 2)) (.fin 1) (.fin 0) = .ok (.fin 4, .fin 0) ∧
    checkParams (binary64.ieee true) .bh (.fin 1) (.fin 1) (.fin 0) = .ok (.fin 1, .fin 0) ∧ ⟨8, 0, 1⟩ ∈ s.crit ∧
    ∃ vs vs', travGo (maskedShift 32) 32 3 s.tree 8 (S.accepts 1 (S.slot ⟨8, 0, 1⟩)) s.tree.length 0 = some (.ok vs) ∧
      travGo (maskedShift 32) 32 3 s.tree 8 (S'.accepts 1 (S'.slot ⟨8, 0, 1⟩)) s.tree.length 0 = some (.ok vs') ∧
      (∃ v ∈ vs, v.ev = some (.com 2)) ∧ (∀ v ∈ vs', ∀ i, v.ev ≠ some (.com i)) ∧ ¬ Refines s.tree vs vs' := by
  refine ⟨mix_reach.1, by decide +kernel, by decide +kernel, by decide +kernel, ?_⟩
  refine ⟨[⟨0, none⟩, ⟨1, none⟩, ⟨2, some (.com 2)⟩], [⟨0, none⟩, ⟨1, none⟩, ⟨2, some (.leaf 2)⟩], by decide +kernel, by decide +kernel,
    ⟨⟨2, some (.com 2)⟩, by decide, rfl⟩, ?_, ?_⟩
  · intro v hv i hi
    simp only [List.mem_cons, List.not_mem_nil, or_false] at hv
    rcases hv with rfl | rfl | rfl <;> simp at hi
  · rintro ⟨_, _, h⟩
    obtain ⟨v', hv, m, hm, _⟩ := h ⟨2, some (.com 2)⟩ (by decide) 2 rfl
    simp only [List.mem_cons, List.not_mem_nil, or_false] at hv
    rcases hv with rfl | rfl | rfl <;> simp at hm

/-- The square roots of the IEEE formats are not negative. -/
theorem ieee_sqrt_nonneg (f : Format) (fused : Bool) : SqrtNonneg (f.ieee fused) := by
  intro q r h
  have h : f.sqrt q = .fin r := h
  unfold Format.sqrt at h
  split at h
  · rw [Fl.fin.injEq] at h; exact h.le
  · rw [Fl.fin.injEq] at h
    rw [← h]
    positivity

/-- In double precision without vector kernels, on the tree of `mixS`: node 2 is opened with `θ = 1/16` and used as a whole with `θ = 1`. -/
example : ∃ mv mv' e, checkParams (binary64.ieee true) .bh (.fin (1 / 16)) (.fin 1) (.fin 0) = .ok (mv, e) ∧
    checkParams (binary64.ieee true) .bh (.fin 1) (.fin 1) (.fin 0) = .ok (mv', e) ∧
    let S := (mixS none).force none (maskedShift 32) .acc mv (.fin 1) e
    let S' := (mixS none).force none (maskedShift 32) .acc mv' (.fin 1) e
    S.accepts 1 (S.slot ⟨8, 0, 1⟩) 2 = false ∧ S'.accepts 1 (S'.slot ⟨8, 0, 1⟩) 2 = true ∧
    ∃ vs vs', S.node ⟨8, 0, 1⟩ = .ok (Arr 1 (fun a => S.scaled (S.total ⟨8, 0, 1⟩ vs a))) ∧
      S'.node ⟨8, 0, 1⟩ = .ok (Arr 1 (fun a => S'.scaled (S'.total ⟨8, 0, 1⟩ vs' a))) ∧ Refines (mixS none).tree vs vs' := by
  refine ⟨.fin 256, .fin 1, .fin 0, by decide +kernel, by decide +kernel, by decide +kernel, by decide +kernel, ?_⟩
  exact C60_batches_partial (cn := ⟨8, 0, 1⟩) (rsqrt := none) (mv := .fin 256) (mv' := .fin 1) (G := .fin 1) (e := .fin 0) (by intro S h; cases h)
    ⟨.inl rfl, by decide⟩ mix_reach.2 (by decide +kernel) (Format.arith_laws binary64_ok _ _) (ieee_sqrt_nonneg _ _) (maskedShift_small 32)
    (by decide +kernel) .acc (t := 1 / 16) (t' := 1) (eps := .fin 0) (by norm_num) (by decide +kernel) (by decide +kernel) (by decide +kernel) (by decide +kernel)

/-- The sample tree with vector kernels and both acceptance criteria, with the angles 3/4 and 3/2 (see the example after `C24_values` for a node whose
treatment differs). -/
example (mac : Mac) {cn : CNode} (hc : cn ∈ (gS mac).crit) : ∃ vs vs',
    ((gS mac).fc (some estQ) (maskedShift 32) .both (invTheta mac (3 / 4)) 1 0).node cn = .ok (Arr (cn.fin - cn.beg) (fun a =>
      ((gS mac).fc (some estQ) (maskedShift 32) .both (invTheta mac (3 / 4)) 1 0).scaled
        (((gS mac).fc (some estQ) (maskedShift 32) .both (invTheta mac (3 / 4)) 1 0).total cn vs a))) ∧
    ((gS mac).fc (some estQ) (maskedShift 32) .both (invTheta mac (3 / 2)) 1 0).node cn = .ok (Arr (cn.fin - cn.beg) (fun a =>
      ((gS mac).fc (some estQ) (maskedShift 32) .both (invTheta mac (3 / 2)) 1 0).scaled
        (((gS mac).fc (some estQ) (maskedShift 32) .both (invTheta mac (3 / 2)) 1 0).total cn vs' a))) ∧ Refines (gS mac).tree vs vs' :=
  C60_exact_partial (by norm_num) (by norm_num) (g_sit mac estQ_ok (invTheta_pos mac (by norm_num)) le_rfl) (g_mass mac) .both 1 hc

end Rakau
