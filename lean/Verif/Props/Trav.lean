import Verif.Proof.Trav
import Verif.Props.NodeProps

/-!
Property theorems on the traversal: C20 (every other particle is used exactly once), C35 (shifts), C52 (bounds, termination). They hold for
every outcome `acc` of the acceptance checks.
-/
namespace Rakau
open Spec

/-- What is known of the nodes of a reachable tree with particles. -/
theorem reach_build {env : Env} (E : EnvOk env) {s : TS env} (h : Reach env s) (hz : s.n * cbits env.w env.d < 2 ^ 64) (hn : 0 < s.n) :
    s.codes.length = s.n ∧ BuildInput s.cfg s.codes ∧ ∃ split, IsBuild s.cfg s.codes split (.ok (s.tree, s.crit)) := by
  have I := reach_inv h
  obtain ⟨hcl, hcs⟩ := rawCodes_spec.1 I.codes
  refine ⟨hcl, ⟨E.dim, I.sorted, codes_bound E I.codes, by rw [hcl]; exact hz, ?_⟩, I.built⟩
  intro h0
  rw [h0] at hcl
  simp at hcl; omega

/-- A critical node is a node of the tree. -/
theorem crit_node {g : Cfg} {codes : List Nat} (I : BuildInput g codes) {split : Nat} {tree : List Node} {crit : List CNode}
    (h : IsBuild g codes split (.ok (tree, crit))) {c : CNode} (hc : c ∈ crit) :
    ∃ t, ∃ ht : t < tree.length, tree[t].code = c.code ∧ tree[t].beg = c.beg ∧ tree[t].fin = c.fin := by
  obtain ⟨ps, hlen, _, h2, _⟩ := C13_critical_nodes I h
  obtain ⟨i, hi, rfl⟩ := List.getElem_of_mem hc
  obtain ⟨_, _, n, hn, n1, n2, n3, _⟩ := h2 i hi
  obtain ⟨t, ht, rfl⟩ := List.getElem_of_mem hn
  exact ⟨t, ht, n1, n2, n3⟩

/-- C20: for a critical node `c` and any outcome of the acceptance checks, the accepted nodes and the opened leaves stand, taken
together in the order of the traversal, for exactly the particles outside `c`: the list of their particles is
`0, …, c.beg - 1, c.fin, …, n - 1`, each once. -/
theorem C20_sources {env : Env} (E : EnvOk env) {s : TS env} (h : Reach env s) (hz : s.n * cbits env.w env.d < 2 ^ 64) (hn : 0 < s.n)
    {over : Overshift} (ho : over.Small) (acc : Nat → Bool) {c : CNode} (hc : c ∈ s.crit) :
    ∃ vs, travGo over env.w env.d s.tree c.code acc s.tree.length 0 = some (.ok vs) ∧
      sources s.tree vs = List.range c.beg ++ List.range' c.fin (s.n - c.fin) := by
  obtain ⟨hcl, B, split, hb⟩ := reach_build E h hz hn
  obtain ⟨t, ht, t1, t2, t3⟩ := crit_node B hb hc
  have D := build_dfs B hb
  rw [hcl] at D
  obtain ⟨vs, v1, _, _, v4⟩ := trav_spec D ht (fun i hi => travStep_spec B hb ho acc ht i hi) s.tree.length 0 (by omega) (by left; omega)
  rw [if_pos (Nat.zero_le _), D.first, t2, t3, Nat.sub_zero, ← List.range_eq_range'] at v4
  rw [t1] at v1
  exact ⟨vs, v1, v4⟩

/-- C20: with the other particles of its own critical node, every target particle `k` gets each other particle exactly once and
never itself: the list of all sources is a permutation of `0, …, n - 1` without `k`. -/
theorem C20_each_once {env : Env} (E : EnvOk env) {s : TS env} (h : Reach env s) (hz : s.n * cbits env.w env.d < 2 ^ 64)
    {over : Overshift} (ho : over.Small) (acc : Nat → Bool) {k : Nat} (hk : k < s.n) :
    ∃! i, ∃ hi : i < s.crit.length, (s.crit[i].beg ≤ k ∧ k < s.crit[i].fin) ∧
      ∃ vs, travGo over env.w env.d s.tree s.crit[i].code acc s.tree.length 0 = some (.ok vs) ∧
        (sources s.tree vs ++ (List.range' s.crit[i].beg (s.crit[i].fin - s.crit[i].beg)).filter (· ≠ k)).Perm
          ((List.range s.n).filter (· ≠ k)) := by
  have hn : 0 < s.n := by omega
  obtain ⟨hcl, B, split, hb⟩ := reach_build E h hz hn
  obtain ⟨_, _, htl, _, huniq⟩ := C13_tiling B hb
  obtain ⟨i, ⟨hi, hr⟩, hu⟩ := huniq k (by omega)
  refine ⟨i, ⟨hi, hr, ?_⟩, fun j hj => hu j ⟨hj.1, hj.2.1⟩⟩
  obtain ⟨vs, v1, v2⟩ := C20_sources E h hz hn ho acc (List.getElem_mem hi)
  refine ⟨vs, v1, ?_⟩
  obtain ⟨t, ht, t1, t2, t3⟩ := crit_node B hb (List.getElem_mem hi)
  have hfin : s.crit[i].fin ≤ s.n := by
    have := (build_dfs B hb).range t ht
    omega
  set b := s.crit[i].beg
  set e := s.crit[i].fin
  have hsp : List.range s.n = List.range b ++ (List.range' b (e - b) ++ List.range' e (s.n - e)) := by
    rw [range'_append' (by omega) hfin, List.range_eq_range', List.range_eq_range']
    have := range'_append' (a := 0) (Nat.zero_le b) (show b ≤ s.n by omega)
    rw [Nat.sub_zero] at this
    rw [this, Nat.sub_zero]
  have f1 : (List.range b).filter (· ≠ k) = List.range b := by
    rw [List.filter_eq_self]; intro x hx; rw [List.mem_range] at hx; simp; omega
  have f2 : (List.range' e (s.n - e)).filter (· ≠ k) = List.range' e (s.n - e) := by
    rw [List.filter_eq_self]; intro x hx; rw [List.mem_range'_1] at hx; simp; omega
  rw [v2, hsp, List.filter_append, List.filter_append, f1, f2, List.append_assoc]
  exact List.Perm.append_left _ List.perm_append_comm

/-- The sample tree of `Verif/Props/NodeProps.lean`: 6 particles, 4 critical nodes. For the second one, with node 4 (3 coincident
particles) accepted and the other nodes opened. The over-wide shifts are those of x86. -/
example : EnvOk ratEnv ∧ Reach ratEnv ratS ∧ (maskedShift 32).Small ∧
    ratS.crit.map (fun c => (c.code, c.beg, c.fin)) = [(13, 0, 1), (14, 1, 2), (120, 2, 5), (127, 5, 6)] ∧
    travGo (maskedShift 32) 32 3 ratS.tree 14 (fun i => decide (i = 4)) ratS.tree.length 0 =
      some (.ok [⟨0, none⟩, ⟨1, some (.leaf 1)⟩, ⟨2, none⟩, ⟨3, none⟩, ⟨4, some (.com 4)⟩, ⟨13, some (.leaf 13)⟩]) ∧
    sources ratS.tree [⟨0, none⟩, ⟨1, some (.leaf 1)⟩, ⟨2, none⟩, ⟨3, none⟩, ⟨4, some (.com 4)⟩, ⟨13, some (.leaf 13)⟩] = [0, 2, 3, 4, 5] := by
  refine ⟨rakauEnv_ok _ _ _ ⟨.inl rfl, .inr rfl⟩, rat_reach, maskedShift_small _, ?_, ?_, ?_⟩ <;> decide +kernel

/-- More iterations change nothing once the traversal has finished. -/
theorem travGo_mono {over : Overshift} {w d : Nat} {tree : List Node} {tgt : Nat} {acc : Nat → Bool} {fuel i : Nat}
    {r : Except Err (List Visit)} (h : travGo over w d tree tgt acc fuel i = some r) (m : Nat) :
    travGo over w d tree tgt acc (fuel + m) i = some r := by
  induction fuel generalizing i r with
  | zero =>
    unfold travGo at h ⊢
    cases he : tree[i]? with
    | none => rw [he] at h; exact h
    | some nd => rw [he] at h; simp at h
  | succ fuel ih =>
    rw [Nat.add_right_comm]
    unfold travGo at h ⊢
    cases he : tree[i]? with
    | none => rw [he] at h; exact h
    | some nd =>
      rw [he] at h
      simp only at h ⊢
      cases hs : travStep over w d tgt acc i nd with
      | error e => rw [hs] at h; exact h
      | ok je =>
        rw [hs] at h
        obtain ⟨j, ev⟩ := je
        simp only [Option.map_eq_some_iff] at h ⊢
        obtain ⟨a, h1, h2⟩ := h
        exact ⟨a, ih h1, h2⟩

/-- C52: the traversal terminates after at most as many iterations as there are nodes, visits strictly increasing node indices
below the number of nodes, and refers to particle indices below `n` only. -/
theorem C52_traversal {env : Env} (E : EnvOk env) {s : TS env} (h : Reach env s) (hz : s.n * cbits env.w env.d < 2 ^ 64)
    {over : Overshift} (ho : over.Small) (acc : Nat → Bool) {c : CNode} (hc : c ∈ s.crit) (hn : 0 < s.n) :
    ∃ vs, (∀ fuel, s.tree.length ≤ fuel → travGo over env.w env.d s.tree c.code acc fuel 0 = some (.ok vs)) ∧
      vs.length ≤ s.tree.length ∧ vs.Pairwise (fun a b => a.idx < b.idx) ∧ (∀ v ∈ vs, v.idx < s.tree.length) ∧
      (∀ v ∈ vs, ∀ i, v.ev = some (.com i) ∨ v.ev = some (.leaf i) → i = v.idx) ∧
      ∀ k ∈ sources s.tree vs, k < s.n := by
  obtain ⟨hcl, B, split, hb⟩ := reach_build E h hz hn
  obtain ⟨t, ht, t1, t2, t3⟩ := crit_node B hb hc
  have D := build_dfs B hb
  rw [hcl] at D
  obtain ⟨vs, v1, v2, v3, v4⟩ := trav_spec D ht (fun i hi => travStep_spec B hb ho acc ht i hi) s.tree.length 0 (by omega) (by left; omega)
  rw [t1] at v1
  refine ⟨vs, fun fuel hf => ?_, ?_, v2, fun v hv => (v3 v hv).2.idx, ?_, ?_⟩
  · have := travGo_mono v1 (fuel - s.tree.length)
    rwa [Nat.add_sub_cancel' hf] at this
  · have hnd : (vs.map (·.idx)).Nodup := by
      rw [List.Nodup, List.pairwise_map]
      exact v2.imp (fun h => Nat.ne_of_lt h)
    have hsub : vs.map (·.idx) ⊆ List.range s.tree.length := by
      intro x hx
      obtain ⟨v, hv, rfl⟩ := List.mem_map.1 hx
      exact List.mem_range.2 (v3 v hv).2.idx
    have := (hnd.subperm hsub).length_le
    simpa using this
  · rintro v hv i (he | he)
    · exact ((v3 v hv).2.com i he).1
    · exact ((v3 v hv).2.leaf i he).1
  · intro k hk
    have hr := D.range t ht
    rw [v4, if_pos (Nat.zero_le _), D.first] at hk
    rcases List.mem_append.1 hk with hk | hk <;> rw [List.mem_range'_1] at hk <;> omega

/-- All nodes opened: the nodes visited for the third critical node. -/
example : (travGo (maskedShift 32) 32 3 ratS.tree 120 (fun _ => false) 20 0).map (fun r => r.map (fun vs => vs.map (·.idx))) =
    some (.ok [0, 1, 2, 3, 4, 13]) := by decide +kernel

/-! ### Over-wide shifts -/

/-- The shift amount computed at a source node (tree.hpp:2828). -/
abbrev shiftAt (w d tgtCode : Nat) (nd : Node) : Nat := mulSz (subW w (treeLevel w d tgtCode) nd.level) d

/-- C35 (the part that holds): when the source node is not deeper than the target, the shift amount is `d` times the difference of the
levels, and below the width of the code type. Missing: source nodes deeper than the target, see `C35_undefined`. -/
theorem C35_partial {env : Env} (E : EnvOk env) {s : TS env} (h : Reach env s) (hz : s.n * cbits env.w env.d < 2 ^ 64) (hn : 0 < s.n)
    {c : CNode} (hc : c ∈ s.crit) {i : Nat} (hi : i < s.tree.length) (hle : s.tree[i].level ≤ treeLevel env.w env.d c.code) :
    shiftAt env.w env.d c.code s.tree[i] = (treeLevel env.w env.d c.code - s.tree[i].level) * env.d ∧
      shiftAt env.w env.d c.code s.tree[i] < env.w := by
  obtain ⟨hcl, B, split, hb⟩ := reach_build E h hz hn
  obtain ⟨t, ht, t1, t2, t3⟩ := crit_node B hb hc
  obtain ⟨_, _, _, _, p, p1, p2, p3, p4, _⟩ := reach_node E h hz hi
  obtain ⟨_, _, _, _, q, q1, q2, q3, q4, _⟩ := reach_node E h hz ht
  have hl : treeLevel env.w env.d c.code = q.length := by
    rw [← t1, q3]; exact treeLevel_code E.dim.1 E.dim.2.1 _ q1 q2
  unfold shiftAt
  rw [hl, p4] at hle ⊢
  obtain ⟨e1, e2⟩ := (shiftAmount E.dim.1 E.dim.2.1 E.dim.2.2 q2 p2).1 hle
  exact ⟨e1, by rw [e1]; exact e2⟩

/-- C35 is false: whenever the source node is deeper than the target, the shift amount is at least the width of the code type. -/
theorem C35_undefined {env : Env} (E : EnvOk env) (hs : Supported env.w env.d) {s : TS env} (h : Reach env s)
    (hz : s.n * cbits env.w env.d < 2 ^ 64) (hn : 0 < s.n) {c : CNode} (hc : c ∈ s.crit) {i : Nat} (hi : i < s.tree.length)
    (hlt : treeLevel env.w env.d c.code < s.tree[i].level) : env.w ≤ shiftAt env.w env.d c.code s.tree[i] := by
  obtain ⟨hcl, B, split, hb⟩ := reach_build E h hz hn
  obtain ⟨t, ht, t1, t2, t3⟩ := crit_node B hb hc
  obtain ⟨_, _, _, _, p, p1, p2, p3, p4, _⟩ := reach_node E h hz hi
  obtain ⟨_, _, _, _, q, q1, q2, q3, q4, _⟩ := reach_node E h hz ht
  have hl : treeLevel env.w env.d c.code = q.length := by
    rw [← t1, q3]; exact treeLevel_code E.dim.1 E.dim.2.1 _ q1 q2
  unfold shiftAt
  rw [hl, p4] at hlt ⊢
  exact (shiftAmount E.dim.1 E.dim.2.1 E.dim.2.2 q2 p2).2 hs.1 hs.2 hlt

theorem strict_go {w d : Nat} {tree : List Node} {tgt : Nat} {acc : Nat → Bool} {over : Overshift} (fuel i : Nat) {vs : List Visit}
    (h : travGo over w d tree tgt acc fuel i = some (.ok vs)) :
    travGo strictShift w d tree tgt acc fuel i =
      if ∀ v ∈ vs, ∀ nd ∈ tree[v.idx]?, shiftAt w d tgt nd < w then some (.ok vs) else some (.error .ub) := by
  induction fuel generalizing i vs with
  | zero =>
    unfold travGo at h ⊢
    cases he : tree[i]? with
    | none => rw [he] at h; simp at h; subst h; simp
    | some nd => rw [he] at h; simp at h
  | succ fuel ih =>
    unfold travGo at h ⊢
    cases he : tree[i]? with
    | none => rw [he] at h; simp at h; subst h; simp
    | some nd =>
      rw [he] at h
      simp only at h ⊢
      cases hs : travStep over w d tgt acc i nd with
      | error e => rw [hs] at h; simp at h
      | ok je =>
        rw [hs] at h
        obtain ⟨j, ev⟩ := je
        simp only [Option.map_eq_some_iff] at h
        obtain ⟨r, h1, h2⟩ := h
        cases r with
        | error e => simp [Except.map] at h2
        | ok us =>
          simp only [Except.map, Except.ok.injEq] at h2
          subst h2
          by_cases hw : shiftAt w d tgt nd < w
          · have hst : travStep strictShift w d tgt acc i nd = .ok (j, ev) := by
              rw [← hs]; unfold travStep shrO
              rw [if_pos hw, if_pos hw]
            rw [hst]
            simp only
            rw [ih _ h1]
            by_cases hall : ∀ v ∈ us, ∀ nd ∈ tree[v.idx]?, shiftAt w d tgt nd < w
            · rw [if_pos hall, if_pos]
              · rfl
              · intro v hv
                rcases List.mem_cons.1 hv with rfl | hv
                · rw [he]; intro nd' hnd; simp at hnd; subst hnd; exact hw
                · exact hall v hv
            · rw [if_neg hall, if_neg (fun h' => hall (fun v hv => h' v (List.mem_cons_of_mem _ hv)))]
              rfl
          · have hst : travStep strictShift w d tgt acc i nd = .error .ub := by
              unfold travStep shrO
              rw [if_neg hw]; rfl
            rw [hst, if_neg]
            intro h'
            exact hw (h' _ List.mem_cons_self nd (by simp [he]))

/-- C35, exactly when: with over-wide shifts undefined, as in C++, the traversal has a defined outcome if and only if no visited node is
deeper than the target. (`vs` are the nodes visited with the shifts of x86, where the traversal is always defined.) -/
theorem C35_defined_iff {env : Env} (E : EnvOk env) (hs : Supported env.w env.d) {s : TS env} (h : Reach env s)
    (hz : s.n * cbits env.w env.d < 2 ^ 64) (hn : 0 < s.n) (acc : Nat → Bool) {c : CNode} (hc : c ∈ s.crit) :
    ∃ vs, travGo (maskedShift env.w) env.w env.d s.tree c.code acc s.tree.length 0 = some (.ok vs) ∧
      travGo strictShift env.w env.d s.tree c.code acc s.tree.length 0 =
        if ∀ v ∈ vs, ∀ nd ∈ s.tree[v.idx]?, nd.level ≤ treeLevel env.w env.d c.code then some (.ok vs) else some (.error .ub) := by
  obtain ⟨vs, v1, _⟩ := C20_sources E h hz hn (maskedShift_small env.w) acc hc
  refine ⟨vs, v1, ?_⟩
  rw [strict_go _ _ v1]
  have : (∀ v ∈ vs, ∀ nd ∈ s.tree[v.idx]?, shiftAt env.w env.d c.code nd < env.w) ↔
      ∀ v ∈ vs, ∀ nd ∈ s.tree[v.idx]?, nd.level ≤ treeLevel env.w env.d c.code := by
    refine forall₂_congr fun v hv => forall₂_congr fun nd hnd => ?_
    obtain ⟨hi, rfl⟩ := List.getElem?_eq_some_iff.1 (Option.mem_def.1 hnd)
    constructor
    · intro h1
      by_contra h2
      have := C35_undefined E hs h hz hn hc hi (by omega)
      omega
    · intro h1; exact (C35_partial E h hz hn hc hi h1).2
  simp only [this]

/-- C35 is false: on the sample tree, the traversal for the first critical node (level 1), with no accepted node, executes an undefined shift
at node 4 (level 2). With the third critical node (level 2) as target all the shifts are defined. -/
theorem C35_fails : Reach ratEnv ratS ∧ ⟨13, 0, 1⟩ ∈ ratS.crit ∧
    travGo strictShift 32 3 ratS.tree 13 (fun _ => false) ratS.tree.length 0 = some (.error .ub) ∧
    travGo strictShift 32 3 ratS.tree 120 (fun _ => false) ratS.tree.length 0 =
      some (.ok [⟨0, none⟩, ⟨1, some (.leaf 1)⟩, ⟨2, some (.leaf 2)⟩, ⟨3, none⟩, ⟨4, none⟩, ⟨13, some (.leaf 13)⟩]) := by
  refine ⟨rat_reach, ?_, ?_, ?_⟩ <;> decide +kernel

example : ratS.tree[4]?.map (shiftAt 32 3 13) = some ((2 ^ 32 - 1) * 3) ∧ ratS.tree[3]?.map (shiftAt 32 3 120) = some 3 := by
  decide +kernel

end Rakau
