import Verif.Proof.Rebuild
import Verif.Proof.Exec

/-!
Property theorems on the state of a tree: C01-C05 (index arrays, views, identity of particles, codes), C15 (input
order), C36 (copies and moves), C37 (failed updates), C38 (mass updates), C39 (updates and rebuilds).
`Reach env s` says that `s` is the state of a tree after any history of operations, with any outcome of every
unspecified order (sorting of equal codes, scheduling of tasks).
-/
namespace Rakau
open Spec

variable {env : Env}

/-! ### Sample environment for the examples

Two-dimensional trees whose "floating-point" values are natural numbers. -/

/-- A small environment: positions are natural numbers below the box size, the code puts `x` above `y`, the node
property is the total mass. -/
@[reducible] def toyEnv : Env where
  F := Nat
  Props := Nat
  d := 2
  w := 32
  zero := 0
  boxOk := fun _ => true
  deduce := fun a => .ok ((a.take 2).flatten.foldl max 0 + 1)
  code := fun b c => match c with
    | [x, y] => if x < b ∧ y < b ∧ x < 2 ^ 15 ∧ y < 2 ^ 15 then .ok (2 ^ 15 * x + y) else .error .invalidArg
    | _ => .error .ub
  props := fun _ nd a => .ok (((a.getLastD []).drop nd.beg).take (nd.fin - nd.beg)).sum

theorem foldl_max_perm {l l' : List Nat} (h : l.Perm l') : l.foldl max 0 = l'.foldl max 0 :=
  h.foldl_eq 0

theorem toyOk : EnvOk toyEnv where
  dim := by decide
  codeBound := by
    intro b c v h
    simp only at h
    split at h
    · split at h
      · rename_i x y hc
        simp only [Except.ok.injEq] at h
        have : cbits 32 2 = 15 := by decide
        show v < 2 ^ (cbits 32 2 * 2)
        rw [this]
        omega
      · simp at h
    · simp at h
  deducePerm := by
    intro a b n srt hs hl hn h
    have hp : (b.take 2).flatten.Perm (a.take 2).flatten := by
      obtain ⟨q1, q2, q3⟩ := mapM_isort_spec h
      have hf := mapM_some_iff.1 h
      have hf2 : List.Forall₂ (fun v w => v.length = n → w.Perm v) a b :=
        hf.imp (fun v w hw hv => applyIsort_perm_of hs hv hw)
      have hl' : a.length = 3 := hl
      obtain ⟨a0, a1, a2, rfl⟩ : ∃ a0 a1 a2, a = [a0, a1, a2] := by
        match a, hl' with
        | [a0, a1, a2], _ => exact ⟨a0, a1, a2, rfl⟩
      cases hf2 with
      | cons h0 hf2 => cases hf2 with
        | cons h1 hf2 =>
          simpa using (h0 (hn _ (by simp))).append (h1 (hn _ (by simp)))
    simp only [toyEnv]
    rw [foldl_max_perm hp]
  deduceMass := by
    intro a b h
    have h' : a.take 2 = b.take 2 := h
    simp only [toyEnv, h']

theorem toyNoUB : EnvNoUB toyEnv where
  deduce := by intros; simp [toyEnv]
  code := by
    intro b c hc
    match c, hc with
    | [x, y], _ => simp only; split <;> simp
  props := by intros; simp [toyEnv]

/-- Five particles, two of them at the same place. -/
def toyInp : Input toyEnv := ⟨some (10 : Nat), 1, 2, ([[7, 1, 2, 7, 0], [3, 3, 9, 3, 0], [10, 20, 30, 40, 50]] : List (List Nat))⟩

/-- The state of the tree built from `toyInp` by one particular execution. -/
def toyS : TS toyEnv := okOr toyInp.exec (TS.default _)

theorem toy_construct : Construct toyInp (.ok toyS) := by
  have h : Construct toyInp toyInp.exec := construct_exec (by decide +kernel)
  rwa [eq_okOr (d := TS.default _) (show isOk toyInp.exec = true by decide +kernel)] at h

theorem toy_reach : Reach toyEnv toyS := .construct toyInp toyS rfl toy_construct

example : toyS.n = 5 ∧ toyS.perm = [4, 1, 2, 0, 3] ∧ toyS.tree.length = 20 := by decide +kernel

/-! ### C01: the two index arrays are inverse permutations -/

/-- C01: in every reachable state `perm()` and `inv_perm()` have one entry per particle, all entries are valid positions,
and they are inverse to each other. -/
theorem C01_inverse {s : TS env} (h : Reach env s) :
    s.perm.length = s.n ∧ s.invPerm.length = s.n ∧
    (∀ i < s.n, ∃ p < s.n, s.perm[i]? = some p ∧ s.invPerm[p]? = some i) ∧
    (∀ k < s.n, ∃ i < s.n, s.invPerm[k]? = some i ∧ s.perm[i]? = some k) := by
  have hs := reach_inv h
  have hl := perm_length hs.perm
  refine ⟨hl, hs.invLen, fun i hi => ?_, (inv_both hs.perm hs.invLen hs.inv).1⟩
  have hi' : i < s.perm.length := by omega
  exact ⟨s.perm[i], perm_lt hs.perm (List.getElem_mem hi'), List.getElem?_eq_getElem hi',
    hs.inv i _ (List.getElem?_eq_getElem hi')⟩

example : Reach toyEnv toyS ∧ toyS.n = 5 := ⟨toy_reach, by decide +kernel⟩

/-! ### C02: what a new tree shows -/

/-- C02: after construction from the arrays `inp.parts`, the ordered view holds exactly those arrays, and position `i` of
the unordered view holds input particle `perm()[i]`, for every coordinate and the masses. -/
theorem C02_views {inp : Input env} (hd : inp.parts.length = env.d + 1) {s : TS env} (h : Construct inp (.ok s)) :
    s.n = (inp.parts.headD []).length ∧ s.parts.length = env.d + 1 ∧
    (∀ j k, ordered s j k = (do (← inp.parts[j]?)[k]?)) ∧
    (∀ j i, unordered s j i = (do let p ← s.perm[i]?; (← inp.parts[j]?)[p]?)) := by
  have hs := inv_construct hd h
  have hsh := shows_construct hd h
  refine ⟨?_, hs.arr, hsh.2.2, fun j i => ?_⟩
  · symm
    apply headD_length hsh.2.1
    intro h0; rw [h0] at hd; simp at hd
  · unfold unordered
    by_cases hi : i < s.n
    · have hi' : i < s.perm.length := by rw [perm_length hs.perm]; exact hi
      have hp := List.getElem?_eq_getElem hi'
      have h1 := hsh.2.2 j s.perm[i]
      unfold ordered at h1
      rw [hs.inv i _ hp] at h1
      rw [hp]
      cases hj : s.parts[j]? with
      | none =>
        have : inp.parts[j]? = none := List.getElem?_eq_none (by
          have := List.getElem?_eq_none_iff.1 hj; have := hsh.1; omega)
        simp [this]
      | some v =>
        rw [hj] at h1
        simpa using h1
    · have e1 : s.perm[i]? = none := List.getElem?_eq_none (by rw [perm_length hs.perm]; omega)
      rw [e1]
      cases hj : s.parts[j]? with
      | none => rfl
      | some v =>
        have : v.length = s.n := hs.len v (List.mem_of_getElem? hj)
        simpa using (by omega : v.length ≤ i)

example : toyInp.parts.length = toyEnv.d + 1 ∧ Construct toyInp (.ok toyS) := ⟨rfl, toy_construct⟩

/-! ### C03: identity of the particles over any history -/

/-- C03, one particle update: whatever the callback does, the ordered view afterwards is the ordered view before, edited
by the same callback in user order. -/
theorem C03_particles {s s' : TS env} (h : Reach env s) {o : Bool} {f : Prog env.F} (hu : UpdateParticles s o f (.ok s'))
    {a : List (List env.F)} (ha : Shows s a) :
    ∃ a', f.run (if o then some else fun k => s.perm[k]?) a = .ok a' ∧ Shows s' a' :=
  shows_update (reach_inv h) hu ha

/-- C03: over any history of successful updates after construction, the ordered view is the input arrays with all the
edits applied in user order. -/
theorem C03_history {inp : Input env} (hd : inp.parts.length = env.d + 1) {s0 s : TS env} (h0 : Construct inp (.ok s0))
    {es : List (Edit env.F)} (h : History s0 es s) :
    ∃ a, applyEdits env.d es inp.parts = .ok a ∧ Shows s a := by
  have app : ∀ (es : List (Edit env.F)) (e : Edit env.F) (a b c : List (List env.F)), applyEdits env.d es a = .ok b →
      e.apply env.d b = .ok c → applyEdits env.d (es ++ [e]) a = .ok c := by
    intro es
    induction es with
    | nil => intro e a b c h1 h2; simp [applyEdits] at h1; subst h1; simp [applyEdits, h2, bind, Except.bind]
    | cons x es ih =>
      intro e a b c h1 h2
      simp only [applyEdits, List.cons_append] at h1 ⊢
      cases hx : x.apply env.d a with
      | error r => rw [hx] at h1; simp [bind, Except.bind] at h1
      | ok a1 => rw [hx] at h1; exact ih e a1 b c h1 h2
  have key : TInv s ∧ ∃ a, applyEdits env.d es inp.parts = .ok a ∧ Shows s a := by
    induction h with
    | nil => exact ⟨inv_construct hd h0, inp.parts, rfl, shows_construct hd h0⟩
    | particlesO t u es f h1 h2 ih =>
      obtain ⟨ht, a, ha, hsh⟩ := ih
      obtain ⟨a', e1, e2⟩ := shows_update ht h2 hsh
      exact ⟨(inv_update ht h2).1, a', app _ _ _ _ _ ha (by simpa [Edit.apply, userIdx] using e1), e2⟩
    | particlesU t u es f h1 h2 ih =>
      obtain ⟨ht, a, ha, hsh⟩ := ih
      obtain ⟨a', e1, e2⟩ := shows_update ht h2 hsh
      exact ⟨(inv_update ht h2).1, a', app _ _ _ _ _ ha (by simpa [Edit.apply, userIdx] using e1), e2⟩
    | massesO t u es f h1 h2 ih =>
      obtain ⟨ht, a, ha, hsh⟩ := ih
      obtain ⟨a', e1, e2⟩ := shows_masses ht h2 hsh
      simp only [userIdx, if_true] at e1
      exact ⟨(inv_masses ht h2).1, _, app _ _ _ _ _ ha (by simp [Edit.apply, e1, bind, Except.bind, pure, Except.pure]), e2⟩
    | massesU t u es f h1 h2 ih =>
      obtain ⟨ht, a, ha, hsh⟩ := ih
      obtain ⟨a', e1, e2⟩ := shows_masses ht h2 hsh
      simp only [userIdx, Bool.false_eq_true, if_false] at e1
      exact ⟨(inv_masses ht h2).1, _, app _ _ _ _ _ ha (by simp [Edit.apply, e1, bind, Except.bind, pure, Except.pure]), e2⟩
  exact key.2

/-- A callback that moves the first particle and swaps the masses of the first two (in the indexing it is given). -/
def toyProg : Prog Nat := .write 0 0 9 (.read 2 0 fun a => .read 2 1 fun b => .write 2 0 b (.write 2 1 a .done))

/-- The state after running it with unordered iterators, and then with ordered ones. -/
def toyS1 : TS toyEnv := (toyS.updExec false toyProg).state (TS.default _)
def toyS2 : TS toyEnv := (toyS1.updExec true toyProg).state (TS.default _)

theorem toy_update1 : UpdateParticles toyS false toyProg (.ok toyS1) := by
  have h := update_exec (s := toyS) (o := false) (f := toyProg) (by decide +kernel)
  rwa [Out.eq_ok (d := TS.default _) (show (toyS.updExec false toyProg).isOk = true by decide +kernel)] at h

theorem toy_update2 : UpdateParticles toyS1 true toyProg (.ok toyS2) := by
  have h := update_exec (s := toyS1) (o := true) (f := toyProg) (by decide +kernel)
  rwa [Out.eq_ok (d := TS.default _) (show (toyS1.updExec true toyProg).isOk = true by decide +kernel)] at h

example : Reach toyEnv toyS ∧ UpdateParticles toyS false toyProg (.ok toyS1) ∧ Shows toyS toyInp.parts :=
  ⟨toy_reach, toy_update1, shows_construct rfl toy_construct⟩

example : Construct toyInp (.ok toyS) ∧ ∃ es, es.length = 2 ∧ History toyS es toyS2 :=
  ⟨toy_construct, _, rfl, .particlesO _ _ _ _ _ (.particlesU _ _ _ _ _ (.nil _) toy_update1) toy_update2⟩

/-! ### C04: the permutation of the last operation -/

/-- C04: after construction `last_perm()` equals `perm()`. -/
theorem C04_construct {inp : Input env} {s : TS env} (h : Construct inp (.ok s)) : s.lastPerm = s.perm := by
  obtain ⟨_, _, _, _, _, _, _, _, _, _, _, _, _, h, _⟩ := construct_ok h
  exact h

/-- C04: after a particle update, `last_perm()` is a permutation of the positions which says where each particle was
in the unordered view: position `i` now holds what was at position `last_perm()[i]` after the callback's edits, and it is
the same particle of the original input. -/
theorem C04_update {s s' : TS env} (h : Reach env s) {o : Bool} {f : Prog env.F} (hu : UpdateParticles s o f (.ok s')) :
    s'.n = s.n ∧ s'.lastPerm.Perm (List.range s.n) ∧
    (∃ parts, f.run (s.tr o) s.parts = .ok parts ∧
      ∀ j i, unordered s' j i = (do let k ← s'.lastPerm[i]?; (← parts[j]?)[k]?)) ∧
    ∀ i : Nat, s'.perm[i]? = (do let k ← s'.lastPerm[i]?; s.perm[k]?) := by
  have hs := reach_inv h
  obtain ⟨hs', hn⟩ := inv_update hs hu
  obtain ⟨parts, h1, h2⟩ := update_ok hu
  obtain ⟨raw, ord, split, hb, hw, hsrt, ho, hc, hp, hq, hi, _⟩ := sync_ok h2
  obtain ⟨q1, q2, q3⟩ := mapM_isort_spec hp
  have q1' : parts.length = s'.parts.length := q1
  have hl : s'.lastPerm.length = s'.n := perm_length hs'.lastPerm
  refine ⟨hn, hn ▸ hs'.lastPerm, ⟨parts, h1, fun j i => ?_⟩, fun i => ?_⟩
  · unfold unordered
    by_cases hj : j < parts.length
    · have hj' : j < s'.parts.length := by omega
      rw [List.getElem?_eq_getElem hj, List.getElem?_eq_getElem hj']
      by_cases hil : i < s'.lastPerm.length
      · rw [List.getElem?_eq_getElem hil]
        simpa using q3 j hj hj' i hil
      · have e1 : s'.lastPerm[i]? = none := List.getElem?_eq_none (by omega)
        have e2 : (s'.parts[j])[i]? = none := List.getElem?_eq_none (by rw [hs'.len _ (List.getElem_mem hj')]; omega)
        simp [e1, e2]
    · have e1 : parts[j]? = none := List.getElem?_eq_none (by omega)
      have e2 : s'.parts[j]? = none := List.getElem?_eq_none (by omega)
      rw [e1, e2]
      cases s'.lastPerm[i]? <;> rfl
  · by_cases hil : i < s'.lastPerm.length
    · rw [List.getElem?_eq_getElem hil]
      simpa using (applyIsort_spec hq).2 i hil
    · have e1 : s'.lastPerm[i]? = none := List.getElem?_eq_none (by omega)
      have e2 : s'.perm[i]? = none := List.getElem?_eq_none (by rw [perm_length hs'.perm]; omega)
      rw [e1, e2]; rfl

/-- C04: mass updates do not change it. -/
theorem C04_masses {s s' : TS env} {o : Bool} {f : Prog env.F} (h : updateMasses s o f = .ok s') : s'.lastPerm = s.lastPerm := by
  obtain ⟨_, _, _, h3⟩ := masses_ok h
  rw [h3]

example : Reach toyEnv toyS1 ∧ UpdateParticles toyS1 true toyProg (.ok toyS2) ∧ toyS2.lastPerm = [0, 1, 3, 4, 2] ∧
    toyS2.perm ≠ toyS2.lastPerm := by
  refine ⟨.particles _ _ _ _ toy_reach toy_update1, toy_update2, ?_⟩
  decide +kernel

/-! ### C05: the codes -/

/-- C05: in every reachable state the stored codes are in non-decreasing order, there is one per particle, and the one
at position `i` is the code (with the current box size) of the coordinates at position `i` of the unordered view. -/
theorem C05_codes {s : TS env} (h : Reach env s) :
    s.codes.length = s.n ∧ s.codes.Pairwise (· ≤ ·) ∧
    ∀ i (hi : i < s.codes.length), ∃ c : List env.F, c.length = env.d ∧ (∀ j < env.d, c[j]? = unordered s j i) ∧
      env.code s.box c = .ok s.codes[i] := by
  have hs := reach_inv h
  obtain ⟨hl, hc⟩ := rawCodes_spec.1 hs.codes
  refine ⟨hl, hs.sorted, fun i hi => ?_⟩
  obtain ⟨c, h1, h2⟩ := coordsAt_some hs.len env.d i (by omega)
  have hcl : c.length = env.d := by rw [h2, List.length_take, hs.arr]; omega
  have := hc i hi
  rw [h1] at this
  refine ⟨c, hcl, fun j hj => ?_, this⟩
  have hf := forall₂_getElem (mapM_some_iff.1 h1)
  have hj1 : j < (s.parts.take env.d).length := by rw [List.length_take, hs.arr]; omega
  have hj2 : j < s.parts.length := by rw [hs.arr]; omega
  have := hf.2 j hj1 (by omega)
  rw [List.getElem_take] at this
  unfold unordered
  rw [List.getElem?_eq_getElem hj2, List.getElem?_eq_getElem (by omega)]
  exact this.symm

example : Reach toyEnv toyS2 ∧ toyS2.codes.length = 5 ∧ toyS2.codes ≠ toyS.codes := by
  refine ⟨.particles _ _ _ _ (.particles _ _ _ _ toy_reach toy_update1) toy_update2, ?_⟩
  decide +kernel

/-! ### C15: order of the input particles -/

/-- C15 for whole trees: constructing from the same particles in another order (any permutation `π`), with the same
parameters, gives the same box size, codes, nodes and critical nodes. -/
theorem C15_construct (E : EnvOk env) {i1 i2 : Input env} (hd : i1.parts.length = env.d + 1) {π : List Nat}
    (hπ : π.Perm (List.range (i1.parts.headD []).length)) (hp : i1.parts.mapM (fun v => applyIsort v π) = some i2.parts)
    (hb : i1.box = i2.box) (hm : i1.maxLeaf = i2.maxLeaf) (hn : i1.ncrit = i2.ncrit)
    (hz : (i1.parts.headD []).length * cbits env.w env.d < 2 ^ 64) {s1 s2 : TS env}
    (h1 : Construct i1 (.ok s1)) (h2 : Construct i2 (.ok s2)) :
    s1.box = s2.box ∧ s1.codes = s2.codes ∧ s1.tree = s2.tree ∧ s1.crit = s2.crit := by
  have hd2 : i2.parts.length = env.d + 1 := by rw [← (mapM_isort_spec hp).1]; exact hd
  have t1 := inv_construct hd h1
  have t2 := inv_construct hd2 h2
  have hsn : s1.n = (i1.parts.headD []).length := (C02_views hd h1).1
  obtain ⟨_, _, _, c1, b1, _, _, _, _, _, _, _, _, _, _, m1, n1⟩ := construct_ok h1
  obtain ⟨_, _, _, c2, b2, _, _, _, _, _, _, _, _, _, _, m2, n2⟩ := construct_ok h2
  have hbox : s1.box = s2.box := by
    have : boxFor env i2.box i2.parts = boxFor env i1.box i1.parts := by
      rw [← hb]
      cases i1.box with
      | some b => rfl
      | none => exact E.deducePerm _ _ _ _ hπ hd (check_lengths c1) hp
    rw [b1, b2] at this
    simpa using this.symm
  exact ⟨hbox, same_view E t1 t2 (shows_construct hd h1) (shows_construct hd2 h2) (by rw [hsn]; exact hπ) hp hbox
    (by rw [m1, m2, hm]) (by rw [n1, n2, hn]) (by rw [hsn]; exact hz)⟩

/-- The particles of `toyInp` in another order. -/
def toyInp' : Input toyEnv := ⟨some (10 : Nat), 1, 2, ([[7, 0, 7, 2, 1], [3, 0, 3, 9, 3], [40, 50, 10, 30, 20]] : List (List Nat))⟩

example : Construct toyInp (.ok toyS) ∧ (∃ s, Construct toyInp' (.ok s)) ∧ [3, 4, 0, 2, 1].Perm (List.range 5) ∧
    toyInp.parts.mapM (fun v => applyIsort v [3, 4, 0, 2, 1]) = some toyInp'.parts := by
  refine ⟨toy_construct, ⟨okOr toyInp'.exec (TS.default _), ?_⟩, by decide, by decide⟩
  have h : Construct toyInp' toyInp'.exec := construct_exec (by decide +kernel)
  rwa [eq_okOr (d := TS.default _) (show isOk toyInp'.exec = true by decide +kernel)] at h

/-! ### C36: copies and moves -/

/-- C36: a copy equals the original. -/
theorem C36_copy (s : TS env) : copyCtor s = s := rfl

/-- C36: a moved-to tree equals the source before the move; the moved-from tree is an empty tree like a default
constructed one, whatever the moves of the members left behind. -/
theorem C36_move (s junk : TS env) (hj : junk.parts.length = env.d + 1) :
    (moveCtor s junk).1 = s ∧ (moveCtor s junk).2 = TS.default env := ⟨rfl, clear_eq_default _ hj⟩

/-- C36: copy assignment makes the target equal to the source, also for self-assignment; if copying a member fails, the
target becomes an empty tree. There is no other outcome. -/
theorem C36_copy_assign {t o : TS env} (ht : Reach env t) (ho : Reach env o) (same : Bool) (hsame : same = true → t = o)
    (fail : Option Nat) :
    copyAssign t o same fail = .ok o ∨ ∃ e, copyAssign t o same fail = .threw e (TS.default env) ∧ same = false ∧ fail ≠ none := by
  cases hc : copyAssign t o same fail with
  | ok s =>
    left
    rcases copyAssign_cases hc with ⟨h1, h2⟩ | ⟨h1, _⟩
    · rw [h1, hsame h2]
    · rw [h1]
  | threw e s =>
    right
    refine ⟨e, by rw [copyAssign_threw (reach_inv ht).arr (reach_inv ho).arr hc], ?_, ?_⟩
    · cases same
      · rfl
      · simp [copyAssign] at hc
    · rintro rfl
      cases same <;> simp [copyAssign] at hc
  | ub =>
    exfalso
    unfold copyAssign at hc
    split at hc
    · simp at hc
    · split at hc
      · simp at hc
      · simp only at hc
        split at hc <;> simp at hc

/-- C36: move assignment moves the state and empties the source; self-move-assignment changes nothing. -/
theorem C36_move_assign (t o junk : TS env) (hj : junk.parts.length = env.d + 1) :
    moveAssign t o junk false = (o, TS.default env) ∧ moveAssign t t junk true = (t, t) :=
  ⟨by rw [← clear_eq_default junk hj]; rfl, rfl⟩

/-- C36: an empty tree (also one left by a move or a failure) has no particles, nodes or critical nodes, and default
parameters. -/
theorem C36_empty (env : Env) : (TS.default env).n = 0 ∧ (∀ v ∈ (TS.default env).parts, v = []) ∧ (TS.default env).tree = [] ∧
    (TS.default env).crit = [] ∧ (TS.default env).codes = [] ∧ (TS.default env).perm = [] ∧ (TS.default env).invPerm = [] ∧
    (TS.default env).lastPerm = [] ∧ (TS.default env).box = env.zero ∧ (TS.default env).deduced = false ∧
    (TS.default env).maxLeaf = 16 ∧ (TS.default env).ncrit = 128 := by
  simp [TS.default, TS.n, List.replicate_succ, defaultMaxLeaf, defaultNcrit]

example : Reach toyEnv toyS ∧ Reach toyEnv toyS2 ∧ copyAssign toyS toyS2 false (some 4) = .threw .user (TS.default toyEnv) :=
  ⟨toy_reach, .particles _ _ _ _ (.particles _ _ _ _ toy_reach toy_update1) toy_update2, by
    have hj : ∀ t : TS toyEnv, t.parts.length = 3 → t.clear = TS.default toyEnv := fun t h => clear_eq_default t h
    have hl : toyS.parts.length = 3 := by decide +kernel
    simp only [copyAssign, Bool.false_eq_true, if_false]
    rw [if_pos (by simp), hj _ (by simpa using hl)]⟩

/-! ### C37: failed updates -/

/-- C37: when a particle update throws, from the callback or from anything after it, the tree is an empty tree. -/
theorem C37_particles {s s' : TS env} (h : Reach env s) {o : Bool} {f : Prog env.F} {e : Err}
    (hu : UpdateParticles s o f (.threw e s')) : s' = TS.default env := update_threw (reach_inv h) hu

/-- C37: likewise for mass updates. -/
theorem C37_masses {s s' : TS env} (h : Reach env s) {o : Bool} {f : Prog env.F} {e : Err}
    (hu : updateMasses s o f = .threw e s') : s' = TS.default env := masses_threw (reach_inv h) hu

/-- C37: an update whose callback stays within the ranges it is given always ends, with success or an exception, and never
has undefined behaviour. -/
theorem C37_total (E : EnvOk env) (U : EnvNoUB env) {s : TS env} (h : Reach env s) {f : Prog env.F}
    (hf : f.InBounds (env.d + 1) s.n) (hz : s.n * cbits env.w env.d < 2 ^ 64) (o : Bool) :
    (∃ out, UpdateParticles s o f out) ∧ ¬ UpdateParticles s o f .ub := by
  have hs := reach_inv h
  obtain ⟨hk, _⟩ := inv_both hs.perm hs.invLen hs.inv
  have htr : ∀ k < s.n, ∃ i < s.n, s.tr o k = some i := by
    intro k hk'
    cases o with
    | true => obtain ⟨i, h1, h2, _⟩ := hk k hk'; exact ⟨i, h1, h2⟩
    | false => exact ⟨k, hk', rfl⟩
  have hnu := run_noUB htr f hf hs.arr hs.len
  have hsz : ∀ parts, f.run (s.tr o) s.parts = .ok parts →
      PreSync ({ s with parts := parts } : TS env) ∧ ({ s with parts := parts } : TS env).n * cbits env.w env.d < 2 ^ 64 := by
    intro parts hr
    have hpre := preSync_of_run hs hr
    refine ⟨hpre, ?_⟩
    have : ({ s with parts := parts } : TS env).n = s.n := by
      rw [← perm_length hpre.perm, ← perm_length hs.perm]
    rw [this]; exact hz
  constructor
  · cases hr : f.run (s.tr o) s.parts with
    | error e => exact ⟨_, .callback e hr⟩
    | ok parts =>
      obtain ⟨r, hr'⟩ := sync_exists E (hsz parts hr).2
      exact ⟨_, .sync parts r hr hr'⟩
  · intro hu
    generalize hx : (Out.ub : Out env) = x at hu
    cases hu with
    | callback e he => cases e <;> simp [guard] at hx; exact hnu he
    | sync parts r h1 h2 =>
      cases r with
      | ok t => simp [guard] at hx
      | error e =>
        cases e <;> simp [guard] at hx
        exact sync_noUB E U (hsz parts h1).1 (hsz parts h1).2 h2

/-- C37 for construction: it always ends, with a tree or an exception, and never has undefined behaviour. -/
theorem C37_construct_total (E : EnvOk env) (U : EnvNoUB env) {inp : Input env} (hd : inp.parts.length = env.d + 1)
    (hz : (inp.parts.headD []).length * cbits env.w env.d < 2 ^ 64) :
    (∃ r, Construct inp r) ∧ ¬ Construct inp (.error .ub) := ⟨construct_exists E hz, construct_noUB E U hd hz⟩

/-- A callback that moves one particle out of the box, so that the update throws. -/
def toyBad : Prog Nat := .write 0 1 11 .done

example : ∃ s', UpdateParticles toyS true toyBad (.threw .invalidArg s') ∧ Prog.InBounds 3 toyS.n toyBad := by
  have h := update_exec (s := toyS) (o := true) (f := toyBad) (by decide +kernel)
  have hn : toyS.n = 5 := by decide +kernel
  refine ⟨(toyS.updExec true toyBad).state toyS, ?_, by rw [hn]; simp [toyBad, Prog.InBounds]⟩
  · have key : ∀ x : Out toyEnv, (match x with | .threw .invalidArg _ => true | _ => false) = true →
        x = .threw .invalidArg (x.state toyS) := by
      intro x hx
      cases x with
      | ok s => simp at hx
      | threw e s => cases e <;> simp at hx; rfl
      | ub => simp at hx
    rwa [key (toyS.updExec true toyBad) (by decide +kernel)] at h

/-! ### C38: mass updates -/

/-- C38: a mass update changes only masses and node properties: coordinates, codes, index arrays, nodes, critical nodes and
parameters stay; the new masses are those written by the callback, and the properties of every node are those
computed from the new data. -/
theorem C38_masses {s s' : TS env} (h : Reach env s) {o : Bool} {f : Prog env.F} (hu : updateMasses s o f = .ok s') :
    (∀ j < env.d, s'.parts[j]? = s.parts[j]?) ∧ s'.parts.length = s.parts.length ∧
    f.run (s.tr o) (s.parts.drop env.d) = .ok (s'.parts.drop env.d) ∧
    s'.box = s.box ∧ s'.deduced = s.deduced ∧ s'.maxLeaf = s.maxLeaf ∧ s'.ncrit = s.ncrit ∧
    s'.codes = s.codes ∧ s'.perm = s.perm ∧ s'.invPerm = s.invPerm ∧ s'.lastPerm = s.lastPerm ∧
    s'.tree = s.tree ∧ s'.crit = s.crit ∧ s'.props.length = s'.tree.length ∧
    ∀ i (h1 : i < s'.tree.length) (h2 : i < s'.props.length), env.props s'.box s'.tree[i] s'.parts = .ok s'.props[i] := by
  have hs := reach_inv h
  obtain ⟨m, h1, h2, h3⟩ := masses_ok hu
  have hs' := (inv_masses hs hu).1
  have hp : s'.parts = s.parts.take env.d ++ m := by rw [h3]
  have htl : (s.parts.take env.d).length = env.d := by rw [List.length_take, hs.arr]; omega
  have hpr := forall₂_getElem (mapM_ok_iff.1 hs'.props)
  refine ⟨fun j hj => ?_, by rw [hs'.arr, hs.arr], ?_, by rw [h3], by rw [h3], by rw [h3], by rw [h3], by rw [h3], by rw [h3],
    by rw [h3], by rw [h3], by rw [h3], by rw [h3], hpr.1.symm, fun i hi1 hi2 => hpr.2 i hi1 hi2⟩
  · rw [hp, List.getElem?_append_left (by omega), List.getElem?_take_of_lt hj]
  · have : s'.parts.drop env.d = m := by
      rw [hp, List.drop_append_of_le_length (by omega), List.drop_of_length_le (by omega : (s.parts.take env.d).length ≤ env.d),
        List.nil_append]
    rw [this]
    exact h1

example : ∃ s', updateMasses toyS true (.write 0 2 (77 : Nat) .done : Prog toyEnv.F) = .ok s' ∧ s'.parts ≠ toyS.parts ∧
    s'.props ≠ toyS.props := by
  refine ⟨(updateMasses toyS true (.write 0 2 (77 : Nat) .done : Prog toyEnv.F)).state (TS.default _), Out.eq_ok ?_, ?_⟩
  · decide +kernel
  · decide +kernel

/-! ### C39: updating is the same as rebuilding -/

/-- C39: whatever the history of a tree (construction, particle and mass updates, copies, moves, failures), building a new
tree from its current particles in user order, with the same parameters, gives the same box size, codes, nodes and
critical nodes, and the same ordered view. -/
theorem C39_rebuild (E : EnvOk env) {s : TS env} (h : Reach env s) (hz : s.n * cbits env.w env.d < 2 ^ 64)
    {a : List (List env.F)} (ha : Shows s a) {t : TS env}
    (ht : Construct ⟨if s.deduced then none else some s.box, s.maxLeaf, s.ncrit, a⟩ (.ok t)) :
    t.box = s.box ∧ t.codes = s.codes ∧ t.tree = s.tree ∧ t.crit = s.crit ∧ Shows t a := by
  have hs := reach_inv h
  have hd : a.length = env.d + 1 := ha.1.trans hs.arr
  have htv := inv_construct (inp := ⟨if s.deduced then none else some s.box, s.maxLeaf, s.ncrit, a⟩) hd ht
  have hsh := shows_construct (inp := ⟨if s.deduced then none else some s.box, s.maxLeaf, s.ncrit, a⟩) hd ht
  obtain ⟨_, _, _, _, b2, _, _, _, _, _, _, _, _, _, _, m2, n2⟩ := construct_ok ht
  have hbox : s.box = t.box := by
    simp only at b2
    cases hde : s.deduced with
    | false => rw [hde] at b2; simpa [boxFor] using b2
    | true =>
      rw [hde] at b2
      simp only [if_true, boxFor] at b2
      have h1 := reach_box E h hde
      obtain ⟨a', e1, e2⟩ := shows_exists hs
      obtain rfl := shows_unique ha e1
      obtain ⟨_, hk2⟩ := inv_both hs.perm hs.invLen hs.inv
      have hip : s.invPerm.Perm (List.range s.n) := by
        obtain ⟨raw, _, _, _, hso⟩ := shows_raw hs ha
        apply (List.perm_ext_iff_of_nodup ?_ List.nodup_range).2
        · intro x
          rw [List.mem_range]
          constructor
          · intro hx
            obtain ⟨k, hk', rfl⟩ := List.getElem_of_mem hx
            have := getElem?_lt (hk2 k _ (List.getElem?_eq_getElem hk'))
            rwa [perm_length hs.perm] at this
          · intro hx
            have hx' : x < s.perm.length := by rw [perm_length hs.perm]; exact hx
            exact List.mem_of_getElem? (hs.inv x _ (List.getElem?_eq_getElem hx'))
        · rw [List.nodup_iff_getElem?_ne_getElem?]
          intro i j hij hj he
          rw [List.getElem?_eq_getElem hj] at he
          have := inv_inj hs i j _ he (List.getElem?_eq_getElem hj)
          omega
      rw [E.deducePerm _ _ _ _ hip hs.arr hs.len e2, h1] at b2
      simpa using b2
  obtain ⟨c1, c2, c3⟩ := same_view E hs htv ha hsh (List.Perm.refl _) (mapM_isort_range ha.2.1) hbox m2.symm n2.symm hz
  exact ⟨hbox.symm, c1.symm, c2.symm, c3.symm, hsh⟩

/-- C39: if in addition no two particles have the same code, the rebuilt tree is identical in every respect (except
`last_perm()`, which reports the last operation). -/
theorem C39_identical (E : EnvOk env) {s : TS env} (h : Reach env s) (hz : s.n * cbits env.w env.d < 2 ^ 64)
    (hdist : s.codes.Nodup) {a : List (List env.F)} (ha : Shows s a) {t : TS env}
    (ht : Construct ⟨if s.deduced then none else some s.box, s.maxLeaf, s.ncrit, a⟩ (.ok t)) :
    t = { s with lastPerm := t.lastPerm } := by
  obtain ⟨e1, e2, e3, e4, e5⟩ := C39_rebuild E h hz ha ht
  have hs := reach_inv h
  have hd : a.length = env.d + 1 := ha.1.trans hs.arr
  have htv := inv_construct (inp := ⟨if s.deduced then none else some s.box, s.maxLeaf, s.ncrit, a⟩) hd ht
  obtain ⟨_, _, _, _, _, _, _, _, _, _, _, _, _, _, d2, m2, n2⟩ := construct_ok ht
  have hn : t.n = s.n := by
    have h1 := (rawCodes_spec.1 hs.codes).1
    have h2 := (rawCodes_spec.1 htv.codes).1
    rw [← h1, ← h2, e2]
  obtain ⟨raw, r1, r2, r3, _⟩ := shows_raw hs ha
  obtain ⟨raw', r1', r2', _, _⟩ := shows_raw htv e5
  rw [e1, hn, r1, Except.ok.injEq] at r1'
  subst r1'
  have hraw : raw.Nodup := r3.nodup_iff.1 hdist
  have hperm : t.perm = s.perm := by
    obtain ⟨a1, a2⟩ := applyIsort_spec r2
    obtain ⟨b1, b2⟩ := applyIsort_spec r2'
    have l1 := perm_length hs.perm
    have l2 := perm_length htv.perm
    apply List.ext_getElem (by omega)
    intro i h1 h2
    have x1 := a2 i h2
    have x2 := b2 i h1
    rw [e2, x1] at x2
    have hrl := (rawCodes_spec.1 r1).1
    have y1 : s.perm[i] < raw.length := by rw [hrl]; exact perm_lt hs.perm (List.getElem_mem h2)
    have y2 : t.perm[i] < raw.length := by rw [hrl, ← hn]; exact perm_lt htv.perm (List.getElem_mem h1)
    rw [List.getElem?_eq_getElem y1, List.getElem?_eq_getElem y2, Option.some.injEq] at x2
    exact ((hraw.getElem_inj_iff).1 x2).symm
  have hinv : t.invPerm = s.invPerm := by
    apply List.ext_getElem?
    intro k
    by_cases hk : k < s.n
    · obtain ⟨i, _, h1, h2⟩ := (inv_both hs.perm hs.invLen hs.inv).1 k hk
      rw [h1]
      rw [← hperm] at h2
      exact htv.inv _ _ h2
    · rw [List.getElem?_eq_none (by rw [htv.invLen]; omega), List.getElem?_eq_none (by rw [hs.invLen]; omega)]
  have hparts : t.parts = s.parts := by
    have ha' := (rel_shows hs).1 ha
    have hb' := (rel_shows htv).1 e5
    apply List.ext_getElem (by rw [htv.arr, hs.arr])
    intro j h1 h2
    have hja : j < a.length := by rw [hd, ← hs.arr]; exact h2
    apply List.ext_getElem?
    intro i
    by_cases hi : i < s.n
    · have hip : i < s.perm.length := by rw [perm_length hs.perm]; exact hi
      have hsi := hs.inv i _ (List.getElem?_eq_getElem hip)
      rw [← ha'.2.2.2 j hja h2 _ i hsi]
      rw [← hinv] at hsi
      exact (hb'.2.2.2 j hja h1 _ i hsi).symm
    · rw [List.getElem?_eq_none (by rw [htv.len _ (List.getElem_mem h1)]; omega),
        List.getElem?_eq_none (by rw [hs.len _ (List.getElem_mem h2)]; omega)]
  have hprops : t.props = s.props := by
    have p1 := htv.props
    rw [e3, e1, hparts, hs.props] at p1
    simpa using p1.symm
  have hded : t.deduced = s.deduced := by rw [d2]; cases s.deduced <;> rfl
  cases t
  cases s
  simp_all

example : Reach toyEnv toyS2 ∧ (∃ a, Shows toyS2 a) ∧ toyS2.n = 5 :=
  have h : Reach toyEnv toyS2 := .particles _ _ _ _ (.particles _ _ _ _ toy_reach toy_update1) toy_update2
  ⟨h, (shows_exists (reach_inv h)).imp (fun _ h => h.1), by decide +kernel⟩

end Rakau
