import Verif.Proof.View
import Verif.Props.Build

/-! Rebuilding from the ordered view, absence of undefined behaviour and existence of outcomes. -/
namespace Rakau
open Spec

variable {env : Env}

/-- Laws of the floating-point environment used by some of the state theorems. -/
structure EnvOk (env : Env) : Prop where
  /-- supported dimension and code width (tree.hpp:560-566, static assertions) -/
  dim : 0 < env.d ∧ env.d < env.w ∧ env.w ≤ 64
  /-- codes have `cbits * d` bits -/
  codeBound : ∀ b c v, env.code b c = .ok v → v < 2 ^ (cbits env.w env.d * env.d)
  /-- deducing the box size does not depend on the order of the particles -/
  deducePerm : ∀ (a b : List (List env.F)) (n : Nat) (srt : List Nat), srt.Perm (List.range n) → a.length = env.d + 1 →
    (∀ v ∈ a, v.length = n) → a.mapM (fun v => applyIsort v srt) = some b → env.deduce b = env.deduce a
  /-- nor on the masses -/
  deduceMass : ∀ a b : List (List env.F), a.take env.d = b.take env.d → env.deduce a = env.deduce b

/-- The floating-point operations have no undefined behaviour where the tree uses them. -/
structure EnvNoUB (env : Env) : Prop where
  deduce : ∀ (a : List (List env.F)) (n : Nat), a.length = env.d + 1 → (∀ v ∈ a, v.length = n) → env.deduce a ≠ .error .ub
  code : ∀ b c, c.length = env.d → env.code b c ≠ .error .ub
  props : ∀ (b : env.F) (nd : Node) (a : List (List env.F)) (n : Nat), a.length = env.d + 1 → (∀ v ∈ a, v.length = n) →
    nd.beg < nd.fin → nd.fin ≤ n → (∃ p : Path, p.Ok env.d ∧ p.length ≤ cbits env.w env.d ∧ nd.code = p.code env.d ∧ nd.level = p.length) →
    env.props b nd a ≠ .error .ub

/-! ### The ordered view determines codes, nodes and critical nodes -/

theorem isort_isort {α : Type} {n : Nat} {v w u : List α} {p q : List Nat} (hp : p.Perm (List.range n)) (hv : v.length = n)
    (hq : q.length = n) (hpq : ∀ i k : Nat, p[i]? = some k → q[k]? = some i) (h1 : applyIsort v q = some w)
    (h2 : applyIsort w p = some u) : u = v := by
  obtain ⟨a1, a2⟩ := applyIsort_spec h1
  obtain ⟨b1, b2⟩ := applyIsort_spec h2
  have hpl := perm_length hp
  apply List.ext_getElem?
  intro i
  by_cases hi : i < n
  · have hi' : i < p.length := by omega
    rw [b2 i hi']
    have := hpq i p[i] (List.getElem?_eq_getElem hi')
    have hl := getElem?_lt this
    rw [a2 _ hl]
    rw [List.getElem?_eq_getElem hl, Option.some.injEq] at this
    rw [this]
  · rw [List.getElem?_eq_none (by omega), List.getElem?_eq_none (by omega)]

/-- The codes of the ordered table: reordered by `perm` they are the stored codes. -/
theorem shows_raw {s : TS env} (hs : TInv s) {a : List (List env.F)} (ha : Shows s a) :
    ∃ raw, rawCodes env s.box a s.n = .ok raw ∧ applyIsort raw s.perm = some s.codes ∧ s.codes.Perm raw ∧
      IsSortOf (codeLt raw) (List.range raw.length) s.perm := by
  obtain ⟨a', h1, h2⟩ := shows_exists hs
  obtain rfl := shows_unique ha h1
  have hcl : s.codes.length = s.n := (rawCodes_spec.1 hs.codes).1
  obtain ⟨hk, hk2⟩ := inv_both hs.perm hs.invLen hs.inv
  have hip : s.invPerm.Perm (List.range s.n) := by
    apply (List.perm_ext_iff_of_nodup ?_ List.nodup_range).2
    · intro x
      rw [List.mem_range]
      constructor
      · intro hx
        obtain ⟨k, hk', rfl⟩ := List.getElem_of_mem hx
        have := getElem?_lt (hk2 k _ (List.getElem?_eq_getElem hk'))
        rwa [perm_length hs.perm] at this
      · intro hx
        have hx' : x < s.perm.length := by rw [perm_length hs.perm]; exact hx
        exact List.mem_of_getElem? (hs.inv x _ (List.getElem?_eq_getElem hx'))
    · rw [List.nodup_iff_getElem?_ne_getElem?]
      intro i j hij hj he
      rw [List.getElem?_eq_getElem hj] at he
      have := inv_inj hs i j _ he (List.getElem?_eq_getElem hj)
      omega
  obtain ⟨raw, hr⟩ := applyIsort_exists (v := s.codes) hip hcl
  have hrl := (applyIsort_spec hr).1
  have hrn : raw.length = s.n := hrl.trans hs.invLen
  have hrc := rawCodes_isort hs.codes hip h2 hr
  have hpm := applyIsort_perm_of hip hcl hr
  obtain ⟨c, hc⟩ := applyIsort_exists (v := raw) hs.perm hrn
  have hcc := isort_isort hs.perm hcl hs.invLen hs.inv hr hc
  subst hcc
  refine ⟨raw, hrc, hc, hpm.symm, by rw [hrn]; exact hs.perm, ?_⟩
  rw [List.pairwise_iff_getElem]
  intro i j hi hj hij
  obtain ⟨c1, c2⟩ := applyIsort_spec hc
  have hso := List.pairwise_iff_getElem.1 hs.sorted i j (by omega) (by omega) hij
  have e1 := c2 i hi
  have e2 := c2 j hj
  rw [List.getElem?_eq_getElem (by omega)] at e1 e2
  simp only [codeLt, cAt, decide_eq_false_iff_not, Nat.not_lt, List.getD_eq_getElem?_getD, ← e1, ← e2]
  simpa using hso

theorem isBuild_det {g : Cfg} {codes : List Nat} (hd : 0 < g.d ∧ g.d < g.w ∧ g.w ≤ 64) (hs : codes.Pairwise (· ≤ ·))
    (hb : ∀ c ∈ codes, c < 2 ^ (cbits g.w g.d * g.d)) (hz : codes.length * cbits g.w g.d < 2 ^ 64) {s1 s2 : Nat}
    {r1 r2 : Except Err (List Node × List CNode)} (h1 : IsBuild g codes s1 r1) (h2 : IsBuild g codes s2 r2) : r1 = r2 := by
  by_cases hn : codes = []
  · cases h1 with
    | empty => cases h2 with
      | empty => rfl
      | run _ _ _ _ h => exact absurd hn h
      | fail _ h => exact absurd hn h
    | run _ _ _ _ h => exact absurd hn h
    | fail _ h => exact absurd hn h
  · exact C14_deterministic ⟨hd, hs, hb, hz, hn⟩ h1 h2

theorem codes_bound (E : EnvOk env) {box : env.F} {a : List (List env.F)} {n : Nat} {raw : List Nat}
    (h : rawCodes env box a n = .ok raw) : ∀ c ∈ raw, c < 2 ^ (cbits env.w env.d * env.d) := by
  intro c hc
  obtain ⟨i, hi, rfl⟩ := List.getElem_of_mem hc
  have := (rawCodes_spec.1 h).2 i hi
  cases hco : coordsAt env.d a i with
  | none => rw [hco] at this; simp [ofUB, bind, Except.bind] at this
  | some x => rw [hco] at this; exact E.codeBound _ _ _ this

/-- Two states whose ordered views hold the same particles up to order agree on codes, nodes and critical nodes. -/
theorem same_view (E : EnvOk env) {s t : TS env} (hs : TInv s) (ht : TInv t) {a b : List (List env.F)} (ha : Shows s a)
    (hb : Shows t b) {π : List Nat} (hπ : π.Perm (List.range s.n)) (hab : a.mapM (fun v => applyIsort v π) = some b)
    (hbox : s.box = t.box) (hm : s.maxLeaf = t.maxLeaf) (hnc : s.ncrit = t.ncrit) (hz : s.n * cbits env.w env.d < 2 ^ 64) :
    s.codes = t.codes ∧ s.tree = t.tree ∧ s.crit = t.crit := by
  obtain ⟨raw, h1, _, h3, _⟩ := shows_raw hs ha
  obtain ⟨raw', k1, _, k3, _⟩ := shows_raw ht hb
  have hrl := (rawCodes_spec.1 h1).1
  obtain ⟨raw2, hr2⟩ := applyIsort_exists (v := raw) hπ hrl
  have e := rawCodes_isort h1 hπ hab hr2
  have hp2 := applyIsort_perm_of hπ hrl hr2
  have hn : t.n = s.n := by
    have q := mapM_isort_spec hab
    have hne : 0 < b.length := by rw [hb.1, ht.arr]; omega
    have := hb.2.1 _ (List.getElem_mem hne)
    rw [← this, q.2.1 _ (List.getElem_mem hne), perm_length hπ]
  rw [hbox] at e
  rw [hn] at k1
  rw [k1, Except.ok.injEq] at e
  subst e
  have hc : s.codes = t.codes := by
    have hperm : s.codes.Perm t.codes := h3.trans (hp2.symm.trans k3.symm)
    exact List.Perm.eq_of_pairwise (fun a b _ _ h1 h2 => le_antisymm h1 h2) hs.sorted ht.sorted hperm
  obtain ⟨s1, b1⟩ := hs.built
  obtain ⟨s2, b2⟩ := ht.built
  have hcfg : s.cfg = t.cfg := by unfold TS.cfg; rw [hm, hnc]
  rw [← hcfg, ← hc] at b2
  have hcl : s.codes.length = s.n := (rawCodes_spec.1 hs.codes).1
  have := isBuild_det (g := s.cfg) E.dim hs.sorted (codes_bound E hs.codes) (by rw [hcl]; exact hz) b1 b2
  simp only [Except.ok.injEq, Prod.mk.injEq] at this
  exact ⟨hc, this.1, this.2⟩

theorem isort_range {α : Type} (v : List α) : applyIsort v (List.range v.length) = some v :=
  applyIsort_of (by simp) (fun i hi => by simp)

theorem mapM_isort_range {F : Type} {a : List (List F)} {n : Nat} (h : ∀ v ∈ a, v.length = n) :
    a.mapM (fun v => applyIsort v (List.range n)) = some a := by
  rw [mapM_some_iff]
  apply forall₂_of_getElem rfl
  intro i h1 h2
  have := isort_range a[i]
  rwa [h _ (List.getElem_mem h1)] at this

/-! ### The deduced box -/

theorem reach_box (E : EnvOk env) {s : TS env} (h : Reach env s) (hd : s.deduced = true) : env.deduce s.parts = .ok s.box := by
  have dflt : ∀ {t : TS env}, t = TS.default env → t.deduced = true → env.deduce t.parts = .ok t.box := by
    rintro t rfl h; simp [TS.default] at h
  induction h with
  | default => exact dflt rfl hd
  | construct inp s hl hc =>
    have hs := inv_construct hl hc
    obtain ⟨raw, ord, split, hck, hb, hw, hsrt, ho, ha, hp, hi, _, _, _, hde, _, _⟩ := construct_ok hc
    rw [hde, Option.isNone_iff_eq_none] at hd
    rw [hd] at hb
    have hrl := (rawCodes_spec.1 hw).1
    rw [hrl] at hsrt
    rw [E.deducePerm _ _ _ _ hsrt.1 hl (check_lengths hck) hp]
    exact hb
  | particles s s' o f hr hu ih =>
    have hs := reach_inv hr
    obtain ⟨parts, h1, h2⟩ := update_ok hu
    have hpre := preSync_of_run hs h1
    obtain ⟨raw, ord, split, hb, hw, hsrt, ho, ha, hp, hq, hi, _, _, hde, _, _⟩ := sync_ok h2
    have hrl := (rawCodes_spec.1 hw).1
    rw [hrl] at hsrt
    rw [E.deducePerm _ _ _ _ hsrt.1 hpre.arr hpre.len hp]
    rw [hde] at hd
    have hd' : s.deduced = true := hd
    rw [if_pos hd'] at hb
    exact hb
  | particlesFail s s' o f e hr hu ih => exact dflt (update_threw (reach_inv hr) hu) hd
  | masses s s' o f hr hu ih =>
    obtain ⟨m, h1, h2, h3⟩ := masses_ok hu
    have hs := reach_inv hr
    rw [h3] at hd ⊢
    rw [← ih hd]
    apply E.deduceMass
    rw [List.take_append_of_le_length (by simp [hs.arr]), List.take_take, Nat.min_self]
  | massesFail s s' o f e hr hu ih => exact dflt (masses_threw (reach_inv hr) hu) hd
  | copy s hr ih => exact ih hd
  | moveTo s junk hr hj ih => exact ih hd
  | moveFrom s junk hr hj ih => exact dflt (clear_eq_default _ hj) hd
  | copyAssign t o s same fail ht ho hc iht iho =>
    rcases copyAssign_cases hc with ⟨h, _⟩ | ⟨h, _⟩
    · subst h; exact iht hd
    · subst h; exact iho hd
  | copyAssignFail t o s same fail e ht ho hc iht iho =>
    exact dflt (copyAssign_threw (reach_inv ht).arr (reach_inv ho).arr hc) hd
  | moveAssignTo t o junk same ht ho hj iht iho =>
    unfold moveAssign at hd ⊢
    split at hd
    · rename_i h; rw [if_pos h]; exact iht hd
    · rename_i h; rw [if_neg h]; exact iho hd
  | moveAssignFrom t o junk same ht ho hj iht iho =>
    unfold moveAssign at hd ⊢
    split at hd
    · rename_i h; rw [if_pos h]; exact iht hd
    · rename_i h; rw [if_neg h]; exact dflt (clear_eq_default _ hj) hd
  | clear s hr ih => exact dflt (clear_eq_default _ (reach_inv hr).arr) hd

/-! ### No undefined behaviour -/

/-- The callback only touches elements `(j, k)` with `j < m` and `k < n`. -/
def Prog.InBounds {F : Type} (m n : Nat) : Prog F → Prop
  | .done => True
  | .throw => True
  | .read j k cont => j < m ∧ k < n ∧ ∀ v, (cont v).InBounds m n
  | .write j k _ cont => j < m ∧ k < n ∧ cont.InBounds m n

theorem run_noUB {F : Type} {tr : Nat → Option Nat} {m n : Nat} (htr : ∀ k < n, ∃ i < n, tr k = some i) (f : Prog F)
    (hf : f.InBounds m n) {a : List (List F)} (hm : a.length = m) (hn : ∀ v ∈ a, v.length = n) : f.run tr a ≠ .error .ub := by
  induction f generalizing a with
  | done => simp [Prog.run]
  | throw => simp [Prog.run]
  | read j k cont ih =>
    obtain ⟨hj, hk, hc⟩ := hf
    obtain ⟨i, hi, ht⟩ := htr k hk
    have hj' : j < a.length := by omega
    have hi' : i < (a[j]).length := by rw [hn _ (List.getElem_mem hj')]; exact hi
    simp only [Prog.run, List.getElem?_eq_getElem hj', ht, Option.bind_some, List.getElem?_eq_getElem hi', ofUB,
      bind, Except.bind]
    exact ih _ (hc _) hm hn
  | write j k v cont ih =>
    obtain ⟨hj, hk, hc⟩ := hf
    obtain ⟨i, hi, ht⟩ := htr k hk
    have hj' : j < a.length := by omega
    have hi' : i < (a[j]).length := by rw [hn _ (List.getElem_mem hj')]; exact hi
    simp only [Prog.run, List.getElem?_eq_getElem hj', ht, Option.bind_some, if_pos hi', ofUB,
      bind, Except.bind]
    refine ih hc (by simpa using hm) ?_
    intro u hu
    rcases List.mem_or_eq_of_mem_set hu with hu | hu
    · exact hn u hu
    · rw [hu, List.length_set]; exact hn _ (List.getElem_mem hj')

theorem mapM_error {α β : Type} {f : α → Except Err β} {l : List α} {e : Err} (h : l.mapM f = .error e) : ∃ x ∈ l, f x = .error e := by
  induction l with
  | nil => simp [pure, Except.pure] at h
  | cons x l ih =>
    rw [List.mapM_cons] at h
    cases hx : f x with
    | error e' => rw [hx] at h; simp [bind, Except.bind] at h; exact ⟨x, List.mem_cons_self, by rw [hx, h]⟩
    | ok y =>
      rw [hx] at h
      cases hl : l.mapM f with
      | error e' =>
        rw [hl] at h; simp [bind, Except.bind] at h
        obtain ⟨z, hz, hz'⟩ := ih (by rw [hl, h])
        exact ⟨z, List.mem_cons_of_mem _ hz, hz'⟩
      | ok z => rw [hl] at h; simp [bind, Except.bind, pure, Except.pure] at h

theorem coordsAt_some {F : Type} {a : List (List F)} {n : Nat} (hn : ∀ v ∈ a, v.length = n) (d i : Nat) (hi : i < n) :
    ∃ c, coordsAt d a i = some c ∧ c.length = (a.take d).length := by
  have : ∃ c, coordsAt d a i = some c := by
    apply mapM_some_of
    intro v hv
    have : i < v.length := by rw [hn v (List.mem_of_mem_take hv)]; exact hi
    exact ⟨v[i], List.getElem?_eq_getElem this⟩
  obtain ⟨c, hc⟩ := this
  exact ⟨c, hc, (mapM_some_iff.1 hc).length_eq.symm⟩

theorem rawCodes_noUB (E : EnvNoUB env) {box : env.F} {a : List (List env.F)} {n : Nat} (ha : a.length = env.d + 1)
    (hn : ∀ v ∈ a, v.length = n) : rawCodes env box a n ≠ .error .ub := by
  intro h
  obtain ⟨i, hi, he⟩ := mapM_error h
  obtain ⟨c, hc, hcl⟩ := coordsAt_some hn env.d i (List.mem_range.1 hi)
  rw [hc] at he
  refine E.code box c ?_ he
  rw [hcl, List.length_take, ha]; omega

theorem boxFor_noUB (E : EnvNoUB env) {b : Option env.F} {a : List (List env.F)} {n : Nat} (ha : a.length = env.d + 1)
    (hn : ∀ v ∈ a, v.length = n) : boxFor env b a ≠ .error .ub := by
  cases b with
  | none => exact E.deduce a n ha hn
  | some b => simp [boxFor]

/-- The outcome of building and computing properties is not undefined. -/
theorem built_noUB (E : EnvOk env) (U : EnvNoUB env) {g : Cfg} (hgd : g.d = env.d) (hgw : g.w = env.w) {codes : List Nat} {split : Nat}
    {r : Except Err (List Node × List CNode)} (hb : IsBuild g codes split r) (hso : codes.Pairwise (· ≤ ·))
    (hc : ∀ c ∈ codes, c < 2 ^ (cbits env.w env.d * env.d)) (hz : codes.length * cbits env.w env.d < 2 ^ 64) :
    ∃ tree crit, r = .ok (tree, crit) ∧ ∀ (box : env.F) (a : List (List env.F)), a.length = env.d + 1 →
      (∀ v ∈ a, v.length = codes.length) → ∀ nd ∈ tree, env.props box nd a ≠ .error .ub := by
  by_cases hn : codes = []
  · cases hb with
    | empty => exact ⟨[], [], rfl, by simp⟩
    | run _ _ _ _ h => exact absurd hn h
    | fail _ h => exact absurd hn h
  · have I : BuildInput g codes := ⟨by rw [hgd, hgw]; exact E.dim, hso, by rw [hgd, hgw]; exact hc, by rw [hgd, hgw]; exact hz, hn⟩
    obtain ⟨tree, crit, rfl, _⟩ := C44_no_overflow I hb
    refine ⟨tree, crit, rfl, fun box a ha hv nd hnd => ?_⟩
    obtain ⟨ps, hlen, _, _, hmem, hall⟩ := C11_depth_first I hb
    obtain ⟨i, hi, rfl⟩ := List.getElem_of_mem hnd
    obtain ⟨h1, h2, h3, h4, _⟩ := hall i hi
    have hnode := (hmem _).1 (List.getElem_mem (by omega : i < ps.length))
    have hok : Path.Ok g.d ps[i] := isNode_ok hnode
    refine U.props box _ a codes.length ha hv h3 h4 ⟨ps[i], ?_, ?_, ?_, h2⟩
    · rw [← hgd]; exact hok
    · rw [← hgd, ← hgw]; exact hnode.1
    · rw [← hgd]; exact h1

theorem sync_noUB (E : EnvOk env) (U : EnvNoUB env) {t : TS env} (ht : PreSync t) (hz : t.n * cbits env.w env.d < 2 ^ 64) :
    ¬ Sync t (.error .ub) := by
  intro h
  generalize hr : (Except.error Err.ub : Except Err (TS env)) = r at h
  have hbx := boxFor_noUB U (b := if t.deduced then none else some t.box) ht.arr ht.len
  cases h with
  | early e h =>
    rw [Except.error.injEq] at hr; subst hr
    unfold TS.syncPrepare at h
    cases hb : boxFor env (if t.deduced then none else some t.box) t.parts with
    | error e => rw [hb] at h; simp [bind, Except.bind] at h; rw [hb, h] at hbx; exact hbx rfl
    | ok b =>
      have := rawCodes_noUB U (box := b) ht.arr ht.len
      rw [hb] at h
      cases hw : rawCodes env b t.parts t.n with
      | error e => simp [bind, Except.bind, hw] at h; rw [hw, h] at this; exact this rfl
      | ok raw => simp [bind, Except.bind, hw, pure, Except.pure] at h
  | run box raw srt ord codes split r h1 h2 h3 h4 h5 =>
    have hw : rawCodes env box t.parts t.n = .ok raw := by
      unfold TS.syncPrepare at h1
      cases hb : boxFor env (if t.deduced then none else some t.box) t.parts with
      | error e => rw [hb] at h1; simp [bind, Except.bind] at h1
      | ok b =>
        rw [hb] at h1
        cases hw : rawCodes env b t.parts t.n with
        | error e => simp [bind, Except.bind, hw] at h1
        | ok raw => simp [bind, Except.bind, hw, pure, Except.pure] at h1; rw [← h1.1, ← h1.2]; exact hw
    have hrl := (rawCodes_spec.1 hw).1
    rw [hrl] at h2 h3
    obtain ⟨parts, hp⟩ := mapM_isort_exists h2.1 ht.len
    obtain ⟨perm, hq⟩ := applyIsort_exists (v := t.perm) h2.1 (perm_length ht.perm)
    obtain ⟨inv, hi, _⟩ := permToInv_spec (inv0 := t.invPerm) (applyIsort_perm h2.1 ht.perm hq) h3 ht.invLen
    have hcp := applyIsort_perm_of h2.1 hrl h4
    have hcl : codes.length = t.n := hcp.length_eq.trans hrl
    obtain ⟨tree, crit, rfl, hpr⟩ := built_noUB E U (g := t.cfg) rfl rfl h5 (codes_sorted (by rw [hrl]; exact h2) h4)
      (fun c hc => codes_bound E hw c (hcp.mem_iff.1 hc)) (by rw [hcl]; exact hz)
    obtain ⟨q1, q2, _⟩ := mapM_isort_spec hp
    have hprb := hpr box parts (by rw [← q1]; exact ht.arr)
      (fun v hv => by rw [q2 v hv, perm_length h2.1, hcl])
    unfold TS.syncFinish at hr
    simp only [h4, hp, hq, hi, ofUB, bind, Except.bind] at hr
    cases hm : tree.mapM (fun nd => env.props box nd parts) with
    | error e =>
      rw [hm] at hr
      simp only [Except.error.injEq] at hr
      subst hr
      obtain ⟨nd, hnd, he⟩ := mapM_error hm
      exact hprb nd hnd he
    | ok ps => rw [hm] at hr; simp [pure, Except.pure] at hr

theorem construct_noUB (E : EnvOk env) (U : EnvNoUB env) {inp : Input env} (hd : inp.parts.length = env.d + 1)
    (hz : (inp.parts.headD []).length * cbits env.w env.d < 2 ^ 64) : ¬ Construct inp (.error .ub) := by
  intro h
  generalize hr : (Except.error Err.ub : Except Err (TS env)) = r at h
  set n := (inp.parts.headD []).length with hn
  cases h with
  | early e h =>
    rw [Except.error.injEq] at hr; subst hr
    unfold Input.prepare at h
    cases hc : inp.check with
    | error e =>
      rw [hc] at h; simp [bind, Except.bind] at h
      subst h
      unfold Input.check at hc
      split at hc <;> [skip; (split at hc <;> [skip; (split at hc <;> [skip; split at hc])])] <;> simp at hc
    | ok u =>
      have hlen := check_lengths hc
      have hbx := boxFor_noUB U (b := inp.box) hd hlen
      rw [hc] at h
      cases hb : boxFor env inp.box inp.parts with
      | error e => simp [bind, Except.bind, hb] at h; rw [hb, h] at hbx; exact hbx rfl
      | ok b =>
        have := rawCodes_noUB U (box := b) hd hlen
        cases hw : rawCodes env b inp.parts (inp.parts.headD []).length with
        | error e => simp only [bind, Except.bind, hb, hw] at h; simp at h; rw [hw, h] at this; exact this rfl
        | ok raw => simp only [bind, Except.bind, hb, hw] at h; simp [pure, Except.pure] at h
  | run box raw srt ord codes split r h1 h2 h3 h4 h5 =>
    have hw : inp.check = .ok () ∧ rawCodes env box inp.parts n = .ok raw := by
      unfold Input.prepare at h1
      cases hc : inp.check with
      | error e => rw [hc] at h1; simp [bind, Except.bind] at h1
      | ok u =>
        rw [hc] at h1
        refine ⟨rfl, ?_⟩
        cases hb : boxFor env inp.box inp.parts with
        | error e => simp [bind, Except.bind, hb] at h1
        | ok b =>
          cases hw : rawCodes env b inp.parts (inp.parts.headD []).length with
          | error e => simp only [bind, Except.bind, hb, hw] at h1; simp at h1
          | ok raw =>
            simp only [bind, Except.bind, hb, hw, pure, Except.pure, Except.ok.injEq, Prod.mk.injEq] at h1
            rw [← h1.1, ← h1.2]; exact hw
    obtain ⟨hck, hw⟩ := hw
    have hrl := (rawCodes_spec.1 hw).1
    rw [hrl] at h2 h3
    obtain ⟨parts, hp⟩ := mapM_isort_exists h2.1 (check_lengths hck)
    obtain ⟨inv, hi, _⟩ := permToInv_spec (inv0 := List.replicate srt.length 0) h2.1 h3 (by simpa using perm_length h2.1)
    have hcp := applyIsort_perm_of h2.1 hrl h4
    have hcl : codes.length = n := hcp.length_eq.trans hrl
    obtain ⟨tree, crit, rfl, hpr⟩ := built_noUB E U (g := ⟨env.w, env.d, inp.maxLeaf, inp.ncrit⟩) rfl rfl h5
      (codes_sorted (by rw [hrl]; exact h2) h4)
      (fun c hc => codes_bound E hw c (hcp.mem_iff.1 hc)) (by rw [hcl]; exact hz)
    obtain ⟨q1, q2, _⟩ := mapM_isort_spec hp
    have hprb := hpr box parts (by rw [← q1]; exact hd)
      (fun v hv => by rw [q2 v hv, perm_length h2.1, hcl])
    unfold Input.finish at hr
    simp only [h4, hp, hi, ofUB, bind, Except.bind] at hr
    cases hm : tree.mapM (fun nd => env.props box nd parts) with
    | error e =>
      rw [hm] at hr
      simp only [Except.error.injEq] at hr
      subst hr
      obtain ⟨nd, hnd, he⟩ := mapM_error hm
      exact hprb nd hnd he
    | ok ps => rw [hm] at hr; simp [pure, Except.pure] at hr

/-! ### Existence of outcomes -/

theorem build_exists (E : EnvOk env) {g : Cfg} (hgd : g.d = env.d) (hgw : g.w = env.w) {codes : List Nat}
    (hso : codes.Pairwise (· ≤ ·)) (hc : ∀ c ∈ codes, c < 2 ^ (cbits env.w env.d * env.d))
    (hz : codes.length * cbits env.w env.d < 2 ^ 64) (split : Nat) : ∃ r, IsBuild g codes split r := by
  by_cases hn : codes = []
  · exact ⟨_, .empty hn⟩
  · exact C44_outcome_exists ⟨by rw [hgd, hgw]; exact E.dim, hso, by rw [hgd, hgw]; exact hc, by rw [hgd, hgw]; exact hz, hn⟩ split

theorem construct_exists (E : EnvOk env) {inp : Input env}
    (hz : (inp.parts.headD []).length * cbits env.w env.d < 2 ^ 64) : ∃ r, Construct inp r := by
  cases h : inp.prepare with
  | error e => exact ⟨_, .early e h⟩
  | ok br =>
    obtain ⟨box, raw⟩ := br
    have hw : rawCodes env box inp.parts (inp.parts.headD []).length = .ok raw := by
      unfold Input.prepare at h
      cases hc : inp.check with
      | error e => rw [hc] at h; simp [bind, Except.bind] at h
      | ok u =>
        rw [hc] at h
        cases hb : boxFor env inp.box inp.parts with
        | error e => simp [bind, Except.bind, hb] at h
        | ok b =>
          cases hw : rawCodes env b inp.parts (inp.parts.headD []).length with
          | error e => simp only [bind, Except.bind, hb, hw] at h; simp at h
          | ok raw =>
            simp only [bind, Except.bind, hb, hw, pure, Except.pure, Except.ok.injEq, Prod.mk.injEq] at h
            rw [← h.1, ← h.2]; exact hw
    have hrl := (rawCodes_spec.1 hw).1
    obtain ⟨srt, hs⟩ := sort_exists raw (List.range raw.length)
    obtain ⟨codes, hc⟩ := applyIsort_exists (v := raw) hs.1 rfl
    have hcp := applyIsort_perm_of hs.1 rfl hc
    obtain ⟨r, hr⟩ := build_exists E (g := ⟨env.w, env.d, inp.maxLeaf, inp.ncrit⟩) rfl rfl (codes_sorted hs hc)
      (fun c hc' => codes_bound E hw c (hcp.mem_iff.1 hc')) (by rw [hcp.length_eq, hrl]; exact hz) 40000
    exact ⟨_, .run box raw srt (List.range raw.length) codes 40000 r h hs (List.Perm.refl _) hc hr⟩

theorem sync_exists (E : EnvOk env) {t : TS env} (hz : t.n * cbits env.w env.d < 2 ^ 64) : ∃ r, Sync t r := by
  cases h : t.syncPrepare with
  | error e => exact ⟨_, .early e h⟩
  | ok br =>
    obtain ⟨box, raw⟩ := br
    have hw : rawCodes env box t.parts t.n = .ok raw := by
      unfold TS.syncPrepare at h
      cases hb : boxFor env (if t.deduced then none else some t.box) t.parts with
      | error e => rw [hb] at h; simp [bind, Except.bind] at h
      | ok b =>
        rw [hb] at h
        cases hw : rawCodes env b t.parts t.n with
        | error e => simp [bind, Except.bind, hw] at h
        | ok raw => simp [bind, Except.bind, hw, pure, Except.pure] at h; rw [← h.1, ← h.2]; exact hw
    have hrl := (rawCodes_spec.1 hw).1
    obtain ⟨srt, hs⟩ := sort_exists raw (List.range raw.length)
    obtain ⟨codes, hc⟩ := applyIsort_exists (v := raw) hs.1 rfl
    have hcp := applyIsort_perm_of hs.1 rfl hc
    obtain ⟨r, hr⟩ := build_exists E (g := t.cfg) rfl rfl (codes_sorted hs hc)
      (fun c hc' => codes_bound E hw c (hcp.mem_iff.1 hc')) (by rw [hcp.length_eq, hrl]; exact hz) 40000
    exact ⟨_, .run box raw srt (List.range raw.length) codes 40000 r h hs (List.Perm.refl _) hc hr⟩

end Rakau
