import Verif.Props.Ctor
import Verif.Props.State
import Verif.Proof.Sample

/-! C77: which updates of the particles and of the masses are accepted. -/
set_option linter.unusedSectionVars false
namespace Rakau
open Spec

section
variable {env : Env}

/-- The parameters of every tree are acceptable to the constructor. -/
theorem reach_params (hz : env.boxOk env.zero = true) {s : TS env} (h : Reach env s) :
    s.maxLeaf ≠ 0 ∧ s.ncrit ≠ 0 ∧ (s.deduced = false → env.boxOk s.box = true) := by
  have dflt : ∀ {t : TS env}, t = TS.default env → t.maxLeaf ≠ 0 ∧ t.ncrit ≠ 0 ∧ (t.deduced = false → env.boxOk t.box = true) := by
    rintro t rfl
    exact ⟨by simp [TS.default, defaultMaxLeaf], by simp [TS.default, defaultNcrit], fun _ => hz⟩
  induction h with
  | default => exact dflt rfl
  | construct inp s hl hc =>
    obtain ⟨raw, ord, split, hck, hb, _, _, _, _, _, _, _, _, _, e1, e2, e3⟩ := construct_ok hc
    rcases check_cases inp with ⟨_, _, c2, c3, c4⟩ | ⟨hc', _⟩
    · refine ⟨by rw [e2]; exact c3, by rw [e3]; exact c4, fun hd => ?_⟩
      rw [e1] at hd
      cases hbx : inp.box with
      | none => rw [hbx] at hd; cases hd
      | some b =>
        rw [hbx] at hb c2
        rw [← Except.ok.inj (show Except.ok b = Except.ok (ε := Err) s.box from hb)]
        exact c2
    · rw [hck] at hc'; cases hc'
  | particles s s' o f hr hu ih =>
    obtain ⟨parts, h1, h2⟩ := update_ok hu
    obtain ⟨raw, ord, split, hb, _, _, _, _, _, _, _, _, _, e1, e2, e3⟩ := sync_ok h2
    refine ⟨by rw [e2]; exact ih.1, by rw [e3]; exact ih.2.1, fun hd => ?_⟩
    have hd' : s.deduced = false := by rw [e1] at hd; exact hd
    rw [if_neg (show ¬ ({ s with parts := parts } : TS _).deduced = true by simp [hd'])] at hb
    rw [← Except.ok.inj (show Except.ok s.box = Except.ok (ε := Err) s'.box from hb)]
    exact ih.2.2 hd'
  | particlesFail s s' o f e hr hu ih => exact dflt (update_threw (reach_inv hr) hu)
  | masses s s' o f hr hu ih =>
    obtain ⟨m, h1, h2, h3⟩ := masses_ok hu
    rw [h3]
    exact ih
  | massesFail s s' o f e hr hu ih => exact dflt (masses_threw (reach_inv hr) hu)
  | copy s hr ih => exact ih
  | moveTo s junk hr hj ih => exact ih
  | moveFrom s junk hr hj ih => exact dflt (clear_eq_default _ hj)
  | copyAssign t o s same fail ht ho hc iht iho =>
    rcases copyAssign_cases hc with ⟨h, _⟩ | ⟨h, _⟩
    · subst h; exact iht
    · subst h; exact iho
  | copyAssignFail t o s same fail e ht ho hc iht iho => exact dflt (copyAssign_threw (reach_inv ht).arr (reach_inv ho).arr hc)
  | moveAssignTo t o junk same ht ho hj iht iho =>
    unfold moveAssign
    split
    · exact iht
    · exact iho
  | moveAssignFrom t o junk same ht ho hj iht iho =>
    unfold moveAssign
    split
    · exact iht
    · exact dflt (clear_eq_default _ hj)
  | clear s hr ih => exact dflt (clear_eq_default _ (reach_inv hr).arr)

/-- The constructor's arguments that correspond to a tree with the given arrays. -/
abbrev TS.asInput (s : TS env) (parts : List (List env.F)) : Input env := ⟨if s.deduced then none else some s.box, s.maxLeaf, s.ncrit, parts⟩

/-- A tree was built, or the same exception was thrown. -/
def SameOutcome {α β : Type} : Except Err α → Except Err β → Prop
  | .ok _, .ok _ => True
  | .error e, .error e' => e = e'
  | _, _ => False

/-- Rebuilding after an update has the outcomes of a construction. -/
theorem sync_construct (hzero : env.boxOk env.zero = true) {t : TS env} (ht : PreSync t) (hp : t.maxLeaf ≠ 0 ∧ t.ncrit ≠ 0 ∧ (t.deduced = false → env.boxOk t.box = true)) :
    (∀ r, Sync t r → ∃ r', Construct (t.asInput t.parts) r' ∧ SameOutcome r r') ∧ (∀ r', Construct (t.asInput t.parts) r' → ∃ r, Sync t r ∧ SameOutcome r r') := by
  have hck : (t.asInput t.parts).check = .ok () := by
    rcases check_cases (t.asInput t.parts) with ⟨h, _⟩ | ⟨_, hbad⟩
    · exact h
    · refine absurd ⟨ht.len, ?_, hp.1, hp.2.1⟩ hbad
      show env.boxOk ((if t.deduced then none else some t.box : Option env.F).getD env.zero) = true
      cases hd : t.deduced with
      | true => exact hzero
      | false => exact hp.2.2 hd
  have hprep : (t.asInput t.parts).prepare = t.syncPrepare := by
    unfold Input.prepare TS.syncPrepare
    rw [hck]; rfl
  have key : ∀ {box : env.F} {raw srt ord : List Nat} {r : Except Err (List Node × List CNode)}, t.syncPrepare = .ok (box, raw) →
      IsSortOf (codeLt raw) (List.range raw.length) srt → ord.Perm (List.range raw.length) →
      SameOutcome (t.syncFinish box raw srt ord r) ((t.asInput t.parts).finish box raw srt ord r) := by
    intro box raw srt ord r h1 h2 h3
    have hw : rawCodes env box t.parts t.n = .ok raw := by
      unfold TS.syncPrepare at h1
      cases hb : boxFor env (if t.deduced then none else some t.box) t.parts with
      | error e => rw [hb] at h1; simp [bind, Except.bind] at h1
      | ok b =>
        rw [hb] at h1
        cases hw : rawCodes env b t.parts t.n with
        | error e => simp [bind, Except.bind, hw] at h1
        | ok raw => simp [bind, Except.bind, hw, pure, Except.pure] at h1; rw [← h1.1, ← h1.2]; exact hw
    have hrl := (rawCodes_spec.1 hw).1
    rw [hrl] at h2 h3
    obtain ⟨codes, hc⟩ := applyIsort_exists (v := raw) h2.1 hrl
    obtain ⟨parts, hp⟩ := mapM_isort_exists h2.1 ht.len
    obtain ⟨perm, hq⟩ := applyIsort_exists (v := t.perm) h2.1 (perm_length ht.perm)
    obtain ⟨inv, hi, _⟩ := permToInv_spec (inv0 := t.invPerm) (applyIsort_perm h2.1 ht.perm hq) h3 ht.invLen
    obtain ⟨inv', hi', _⟩ := permToInv_spec (inv0 := List.replicate srt.length 0) h2.1 h3 (by simpa using perm_length h2.1)
    unfold TS.syncFinish Input.finish
    simp only [hc, hp, hq, hi, hi', ofUB, bind, Except.bind]
    cases r with
    | error e => rfl
    | ok v =>
      simp only
      cases v.1.mapM (fun nd => env.props box nd parts) with
      | error e => rfl
      | ok p => trivial
  refine ⟨fun r h => ?_, fun r' h => ?_⟩
  · cases h with
    | early e h => exact ⟨_, .early e (hprep.trans h), rfl⟩
    | run box raw srt ord codes split r h1 h2 h3 h4 h5 => exact ⟨_, .run box raw srt ord codes split r (hprep.trans h1) h2 h3 h4 h5, key h1 h2 h3⟩
  · cases h with
    | early e h => exact ⟨_, .early e (hprep.symm.trans h), rfl⟩
    | run box raw srt ord codes split r h1 h2 h3 h4 h5 =>
      exact ⟨_, .run box raw srt ord codes split r (hprep.symm.trans h1) h2 h3 h4 h5, key (hprep.symm.trans h1) h2 h3⟩

/-- The outcome of a call in terms of the tree of the caller. -/
def OutcomeOf {env : Env} (out : Out env) (r : Except Err (TS env)) : Prop :=
  match r with
  | .ok _ => ∃ s', out = .ok s'
  | .error e => out = .threw e (TS.default env)

theorem update_construct (hzero : env.boxOk env.zero = true) (E : EnvOk env) (U : EnvNoUB env) {s : TS env} (h : Reach env s) (hz : s.n * cbits env.w env.d < 2 ^ 64)
    {o : Bool} {f : Prog env.F} {parts : List (List env.F)} (hf : f.run (s.tr o) s.parts = .ok parts) :
    (∀ out, UpdateParticles s o f out → ∃ r, Construct (s.asInput parts) r ∧ OutcomeOf out r) ∧
    ∀ r, Construct (s.asInput parts) r → ∃ out, UpdateParticles s o f out ∧ OutcomeOf out r := by
  have hI := reach_inv h
  have hpre : PreSync ({ s with parts := parts } : TS env) := preSync_of_run hI hf
  have hsh := lengths_of_shape (run_shape _ f hf)
  have hn : ({ s with parts := parts } : TS env).n = s.n := by
    have hne : parts ≠ [] := by
      intro h0; have h1 : s.parts.length = env.d + 1 := hI.arr; have h2 := hsh.1; rw [h0] at h2; simp at h2; omega
    unfold TS.n; exact headD_length (hsh.2 _ hI.len) hne
  have hpar := reach_params hzero h
  obtain ⟨k1, k2⟩ := sync_construct hzero hpre hpar
  have hub := sync_noUB E U hpre (by rw [hn]; exact hz)
  have conv : ∀ {r r' : Except Err (TS env)}, Sync ({ s with parts := parts } : TS env) r → SameOutcome r r' →
      OutcomeOf (guard r ({ s with parts := parts } : TS env)) r' := by
    intro r r' hr hsame
    cases r with
    | ok t => cases r' with
      | ok t' => exact ⟨t, rfl⟩
      | error e => exact absurd hsame (by simp [SameOutcome])
    | error e => cases r' with
      | ok t' => exact absurd hsame (by simp [SameOutcome])
      | error e' =>
        obtain rfl : e = e' := hsame
        have hne : e ≠ .ub := by rintro rfl; exact hub hr
        have hcl := clear_eq_default ({ s with parts := parts } : TS env) hpre.arr
        cases e <;> first | exact absurd rfl hne | (show Out.threw _ _ = _; rw [hcl])
  refine ⟨fun out hu => ?_, fun r hr => ?_⟩
  · cases hu with
    | callback e he => rw [hf] at he; cases he
    | sync parts' r hr1 hr2 =>
      rw [hf, Except.ok.injEq] at hr1
      subst hr1
      obtain ⟨r', c1, c2⟩ := k1 r hr2
      exact ⟨r', c1, conv hr2 c2⟩
  · obtain ⟨r', c1, c2⟩ := k2 r hr
    have hu : UpdateParticles s o f (guard r' ({ s with parts := parts } : TS env)) := UpdateParticles.sync parts r' hf c1
    exact ⟨guard r' ({ s with parts := parts } : TS env), hu, conv c1 c2⟩

/-- An update of the masses has the outcome of a construction, namely the one that leaves the particles in their order. -/
theorem masses_construct (hzero : env.boxOk env.zero = true) (E : EnvOk env) {s : TS env} (h : Reach env s)
    {o : Bool} {f : Prog env.F} {m : List (List env.F)} (hf : f.run (s.tr o) (s.parts.drop env.d) = .ok m)
    (hded : env.deduce (s.parts.take env.d ++ m) = env.deduce s.parts) :
    ∃ r, Construct (s.asInput (s.parts.take env.d ++ m)) r ∧ match r with
      | .ok _ => ∃ s', updateMasses s o f = .ok s'
      | .error e => e ≠ .ub → updateMasses s o f = .threw e (TS.default env) := by
  have hI := reach_inv h
  have hd := E.dim.1
  have hsh := lengths_of_shape (run_shape _ f hf)
  have hm1 : m.length = 1 := by rw [hsh.1, List.length_drop, hI.arr]; omega
  have hmlen : ∀ v ∈ m, v.length = s.n := hsh.2 _ (fun v hv => hI.len v (List.mem_of_mem_drop hv))
  have htl : (s.parts.take env.d).length = env.d := by rw [List.length_take, hI.arr]; omega
  have hlen : ∀ v ∈ s.parts.take env.d ++ m, v.length = s.n := by
    intro v hv
    rcases List.mem_append.1 hv with hv | hv
    · exact hI.len v (List.mem_of_mem_take hv)
    · exact hmlen v hv
  have hhd : ((s.parts.take env.d ++ m).headD []).length = s.n := headD_length hlen (by intro h0; have := congrArg List.length h0; simp [hm1] at this)
  have htake : (s.parts.take env.d ++ m).take env.d = s.parts.take env.d := by
    rw [List.take_append_of_le_length (le_of_eq htl.symm), List.take_of_length_le (le_of_eq htl)]
  obtain ⟨p1, p2, p3⟩ := reach_params hzero h
  have hck : (s.asInput (s.parts.take env.d ++ m)).check = .ok () := by
    rcases check_cases (s.asInput (s.parts.take env.d ++ m)) with ⟨h, _⟩ | ⟨_, hbad⟩
    · exact h
    · refine absurd ⟨fun v hv => (hlen v hv).trans hhd.symm, ?_, p1, p2⟩ hbad
      show env.boxOk ((if s.deduced then none else some s.box : Option env.F).getD env.zero) = true
      cases hd : s.deduced with
      | true => exact hzero
      | false => exact p3 hd
  have hbox : boxFor env (s.asInput (s.parts.take env.d ++ m)).box (s.parts.take env.d ++ m) = .ok s.box := by
    show boxFor env (if s.deduced then none else some s.box) _ = _
    cases hde : s.deduced with
    | true => show env.deduce _ = _; rw [hded]; exact reach_box E h hde
    | false => rfl
  have hcodes : rawCodes env s.box (s.parts.take env.d ++ m) s.n = .ok s.codes := by
    rw [← hI.codes]
    unfold rawCodes coordsAt
    rw [htake]
  have hcl := (rawCodes_spec.1 hI.codes).1
  have hprep : (s.asInput (s.parts.take env.d ++ m)).prepare = .ok (s.box, s.codes) := by
    unfold Input.prepare
    rw [hck]
    simp only [bind, Except.bind]
    rw [hbox]
    simp only
    rw [hhd, hcodes]
    rfl
  have hsort : IsSortOf (codeLt s.codes) (List.range s.codes.length) (List.range s.codes.length) := by
    refine ⟨List.Perm.refl _, ?_⟩
    rw [List.pairwise_iff_getElem]
    intro i j hi hj hij
    rw [List.length_range] at hi hj
    have := List.pairwise_iff_getElem.1 hI.sorted i j hi hj hij
    simp only [List.getElem_range, codeLt, decide_eq_false_iff_not, not_lt]
    unfold cAt
    simp only [List.getD_eq_getElem?_getD, List.getElem?_eq_getElem hi, List.getElem?_eq_getElem hj, Option.getD_some]
    exact this
  obtain ⟨split, hb⟩ := hI.built
  refine ⟨_, .run s.box s.codes (List.range s.codes.length) (List.range s.codes.length) s.codes split (.ok (s.tree, s.crit)) hprep hsort (List.Perm.refl _)
    (isort_range s.codes) hb, ?_⟩
  obtain ⟨inv, hi, _⟩ := permToInv_spec (inv0 := List.replicate (List.range s.codes.length).length 0) (List.Perm.refl (List.range s.codes.length)) (List.Perm.refl _) (by simp)
  have hparts : (s.parts.take env.d ++ m).mapM (fun v => applyIsort v (List.range s.codes.length)) = some (s.parts.take env.d ++ m) := by
    rw [hcl]; exact mapM_isort_range hlen
  unfold Input.finish
  simp only [isort_range s.codes, hparts, hi, ofUB, bind, Except.bind]
  unfold updateMasses
  rw [hf]
  simp only [bind, Except.bind]
  cases s.tree.mapM (fun nd => env.props s.box nd (s.parts.take env.d ++ m)) with
  | ok ps => exact ⟨_, rfl⟩
  | error e =>
    intro hne
    have hcl := clear_eq_default s hI.arr
    cases e <;> first | exact absurd rfl hne | (show Out.threw _ _ = _; rw [hcl])

end

section
variable {K : Type} [Field K] [LinearOrder K] [IsStrictOrderedRing K] [FloorRing K] {A : Arith K} {simd : Option (Simd K)} {mac : Mac} {w d : Nat}
  {s : TS (rakauEnv A simd mac w d)}

theorem zero_ok : (rakauEnv A simd mac w d).boxOk (rakauEnv A simd mac w d).zero = true := boxOk_iff.2 ⟨0, rfl, le_rfl⟩

/-- A callback throws its own exception only. -/
theorem run_error {F : Type} {tr : Nat → Option Nat} (f : Prog F) {a : List (List F)} {e : Err} (h : f.run tr a = .error e) : e = .user ∨ e = .ub := by
  induction f generalizing a with
  | done => cases h
  | throw => cases h; exact .inl rfl
  | read j k cont ih =>
    unfold Prog.run at h
    cases hx : (do let v ← a[j]?; v[(← tr k)]? : Option F) with
    | none => rw [hx] at h; simp [ofUB, bind, Except.bind] at h; exact .inr h.symm
    | some v => rw [hx] at h; exact ih v h
  | write j k v cont ih =>
    unfold Prog.run at h
    cases hx : (do
        let old ← a[j]?
        let i ← tr k
        if i < old.length then some (a.set j (old.set i v)) else none : Option (List (List F))) with
    | none => rw [hx] at h; simp [ofUB, bind, Except.bind] at h; exact .inr h.symm
    | some v => rw [hx] at h; exact ih h

/-- C77: an update of the particles, whatever the callback did, has the outcomes of constructing a tree from the edited arrays with the parameters of
the tree: whenever the one succeeds or throws, the other may do the same. -/
theorem C77_construct (hs : Supported w d) (h : Reach _ s) (hz : s.n * cbits w d < 2 ^ 64) {o : Bool} {f : Prog (Fl K)} {parts : List (List (Fl K))}
    (hf : f.run (s.tr o) s.parts = .ok parts) :
    (∀ out, UpdateParticles s o f out → ∃ r, Construct (env := rakauEnv A simd mac w d) ⟨if s.deduced then none else some s.box, s.maxLeaf, s.ncrit, parts⟩ r ∧ OutcomeOf out r) ∧
    ∀ r, Construct (env := rakauEnv A simd mac w d) ⟨if s.deduced then none else some s.box, s.maxLeaf, s.ncrit, parts⟩ r → ∃ out, UpdateParticles s o f out ∧ OutcomeOf out r := by
  exact update_construct zero_ok (rakauEnv_ok A simd mac hs) (rakauEnv_noUB A simd mac hs) h hz hf

/-- Callbacks that put a particle elsewhere in the box, and outside of it. -/
def upIn : Prog (Fl ℚ) := .write 0 2 (.fin 3) .done
def upOut : Prog (Fl ℚ) := .write 0 2 (.fin 5) .done

theorem rat_n : ratS.n = 6 := by decide +kernel

theorem rat_small : ratS.n * cbits 32 3 < 2 ^ 64 := by rw [rat_n]; decide

/-- The arrays after a callback. -/
def upParts (f : Prog (Fl ℚ)) : List (List (Fl ℚ)) := okOr (f.run (ratS.tr true) ratS.parts) []

theorem upIn_run : upIn.run (ratS.tr true) ratS.parts = .ok (upParts upIn) := eq_okOr (by decide +kernel)
theorem upOut_run : upOut.run (ratS.tr true) ratS.parts = .ok (upParts upOut) := eq_okOr (by decide +kernel)

example : Supported 32 3 ∧ Reach _ ratS ∧ ratS.n * cbits 32 3 < 2 ^ 64 ∧ upIn.run (ratS.tr true) ratS.parts = .ok (upParts upIn) ∧ upParts upIn ≠ ratS.parts :=
  ⟨g_supp, rat_reach, rat_small, upIn_run, by decide +kernel⟩

/-- C77: an update of the particles succeeds, or throws the exception of the callback, or throws `invalid_argument`; in the last two cases the tree is
empty. -/
theorem C77_outcome (hs : Supported w d) (h : Reach _ s) (hz : s.n * cbits w d < 2 ^ 64) {o : Bool} {f : Prog (Fl K)} (hf : f.InBounds (d + 1) s.n) :
    (∃ out, UpdateParticles s o f out) ∧ ∀ out, UpdateParticles s o f out → (∃ s', out = .ok s') ∨
      (f.run (s.tr o) s.parts = .error .user ∧ out = .threw .user (TS.default _)) ∨ (out = .threw .invalidArg (TS.default _)) := by
  obtain ⟨t1, t2⟩ := C37_total (rakauEnv_ok A simd mac hs) (rakauEnv_noUB A simd mac hs) h hf hz o
  refine ⟨t1, fun out hu => ?_⟩
  have hI := reach_inv h
  cases hr : f.run (s.tr o) s.parts with
  | error e =>
    cases hu with
    | callback e' he =>
      have hcl := clear_eq_default s hI.arr
      rw [hr, Except.error.injEq] at he
      subst he
      rcases run_error f hr with rfl | rfl
      · refine .inr (.inl ⟨rfl, ?_⟩)
        show Out.threw _ _ = _
        rw [hcl]
      · exact absurd (UpdateParticles.callback (s := s) (ordered := o) (f := f) .ub hr) t2
    | sync parts r h1 h2 => rw [hr] at h1; cases h1
  | ok parts =>
    obtain ⟨r, r1, r2⟩ := (C77_construct hs h hz hr).1 out hu
    have hsh := lengths_of_shape (run_shape _ f hr)
    have hhd : (parts.headD []).length = s.n := by
      have hne : parts ≠ [] := by
        intro h0; have h1 : s.parts.length = d + 1 := hI.arr; have h2 := hsh.1; rw [h0] at h2; simp at h2; omega
      exact headD_length (hsh.2 _ hI.len) hne
    rcases (C41_outcome A simd mac hs (inp := ⟨if s.deduced then none else some s.box, s.maxLeaf, s.ncrit, parts⟩) (hsh.1.trans hI.arr) (by show (parts.headD []).length * _ < _; rw [hhd]; exact hz)).2 r r1 with
      ⟨t, rfl⟩ | rfl
    · exact .inl r2
    · exact .inr (.inr r2)

example : upIn.InBounds (3 + 1) ratS.n ∧ (∃ out, UpdateParticles ratS true upIn out) :=
  have hb : upIn.InBounds (3 + 1) ratS.n := by rw [rat_n]; simp [upIn, Prog.InBounds]
  ⟨hb, (C77_outcome g_supp rat_reach rat_small hb).1⟩

/-- C77, in exact arithmetic: an update of the particles succeeds exactly if the edited data are acceptable: finite, and inside of the given box, or,
if the box is deduced, not all at the origin. Otherwise it throws `invalid_argument`, and the tree is empty. -/
theorem C77_exact (hA : A.Exact) (hq : ∀ q, 0 ≤ q → (A.sqrt q).isFinite = true) (hS : ∀ S, simd = some S → S.Ok) (hH : HaddNonfin simd)
    (hs : Supported w d) (h : Reach _ s) (hz : s.n * cbits w d < 2 ^ 64) {o : Bool} {f : Prog (Fl K)} {parts : List (List (Fl K))}
    (hf : f.run (s.tr o) s.parts = .ok parts) {out : Out (rakauEnv A simd mac w d)} (hu : UpdateParticles s o f out) :
    (ValidInput d (if s.deduced then none else some s.box) s.maxLeaf s.ncrit parts → ∃ s', out = .ok s') ∧
    (¬ ValidInput d (if s.deduced then none else some s.box) s.maxLeaf s.ncrit parts → out = .threw .invalidArg (TS.default _)) := by
  have hI := reach_inv h
  have hsh := lengths_of_shape (run_shape _ f hf)
  have hhd : (parts.headD []).length = s.n := by
    have hne : parts ≠ [] := by
      intro h0; have h1 : s.parts.length = d + 1 := hI.arr; have h2 := hsh.1; rw [h0] at h2; simp at h2; omega
    exact headD_length (hsh.2 _ hI.len) hne
  obtain ⟨r, r1, r2⟩ := (C77_construct hs h hz hf).1 out hu
  obtain ⟨e1, e2⟩ := C41_exact hA hq hS hH mac hs (inp := ⟨if s.deduced then none else some s.box, s.maxLeaf, s.ncrit, parts⟩) (hsh.1.trans hI.arr)
    (by show (parts.headD []).length * _ < _; rw [hhd]; exact hz) r1
  refine ⟨fun hv => ?_, fun hv => ?_⟩
  · obtain ⟨t, rfl⟩ := e1 hv; exact r2
  · obtain rfl := e2 hv; exact r2

theorem rat_box : ratS.deduced = false ∧ ratS.box = .fin 8 ∧ ratS.maxLeaf = 2 ∧ ratS.ncrit = 3 := ⟨by decide +kernel, by decide +kernel, by decide +kernel, by decide +kernel⟩

theorem upIn_valid : ValidInput 3 (if ratS.deduced then none else some ratS.box) ratS.maxLeaf ratS.ncrit (upParts upIn) := by
  obtain ⟨e1, e2, e3, e4⟩ := rat_box
  rw [e1, e2, e3, e4]
  refine ⟨by decide, by decide, by decide +kernel, by decide +kernel, 8, rfl, by norm_num, ?_⟩
  have : ∀ v ∈ (upParts upIn).take 3, ∀ x ∈ v, InBox 8 x.val := by decide +kernel
  intro v hv x hx y hy
  have := this v hv x hx
  rwa [hy] at this

theorem upOut_invalid : ¬ ValidInput 3 (if ratS.deduced then none else some ratS.box) ratS.maxLeaf ratS.ncrit (upParts upOut) := by
  obtain ⟨e1, e2, e3, e4⟩ := rat_box
  rw [e1, e2, e3, e4]
  rintro ⟨_, _, _, _, q, hq, _, h⟩
  cases hq
  have hm : ∃ v ∈ (upParts upOut).take 3, .fin 5 ∈ v := by decide +kernel
  obtain ⟨v, hv, hx⟩ := hm
  have := (h v hv (.fin 5) hx 5 rfl).2
  norm_num at this

/-- Of two callbacks, one is accepted and one is not. -/
example : (∀ out, UpdateParticles ratS true upIn out → ∃ s', out = .ok s') ∧
    ∀ out, UpdateParticles ratS true upOut out → out = .threw .invalidArg (TS.default _) :=
  ⟨fun _ hu => (C77_exact exactQ_exact (fun _ _ => rfl) rat_ok simd4_nonfin g_supp rat_reach rat_small upIn_run hu).1 upIn_valid,
    fun _ hu => (C77_exact exactQ_exact (fun _ _ => rfl) rat_ok simd4_nonfin g_supp rat_reach rat_small upOut_run hu).2 upOut_invalid⟩

theorem deduceBox_take {d : Nat} (hd : 0 < d) {a b : List (List (Fl K))} (h : a.take d = b.take d) : deduceBox A d a = deduceBox A d b := by
  have hh : a.headD [] = b.headD [] := by
    cases a with
    | nil => cases b with
      | nil => rfl
      | cons y b => cases d with
        | zero => omega
        | succ d => simp at h
    | cons x a => cases b with
      | nil => cases d with
        | zero => omega
        | succ d => simp at h
      | cons y b => cases d with
        | zero => omega
        | succ d => simp only [List.take_succ_cons, List.cons.injEq] at h; exact h.1
  unfold deduceBox maxBody coordsAt
  rw [h, hh]

/-- C77, in exact arithmetic: an update of the masses succeeds exactly if all masses are finite afterwards. Otherwise it throws `invalid_argument`,
and the tree is empty. -/
theorem C77_masses (hA : A.Exact) (hq : ∀ q, 0 ≤ q → (A.sqrt q).isFinite = true) (hS : ∀ S, simd = some S → S.Ok) (hH : HaddNonfin simd)
    (hs : Supported w d) (h : Reach _ s) (hz : s.n * cbits w d < 2 ^ 64) {o : Bool} {f : Prog (Fl K)} {m : List (List (Fl K))}
    (hf : f.run (s.tr o) (s.parts.drop d) = .ok m) :
    ((∀ v ∈ m, ∀ x ∈ v, x.isFinite = true) → ∃ s', updateMasses s o f = .ok s') ∧
    ((∃ v ∈ m, ∃ x ∈ v, x.isFinite = false) → updateMasses s o f = .threw .invalidArg (TS.default _)) := by
  have E := rakauEnv_ok A simd mac hs
  have hI := reach_inv h
  have ha : s.parts.length = d + 1 := hI.arr
  have hd := hs.dim.1
  have hhdS : ∀ {a : List (List (Fl K))}, a.length = d + 1 → (∀ v ∈ a, v.length = s.n) → (a.headD []).length * cbits w d < 2 ^ 64 := by
    intro a h1 h2
    rw [headD_length h2 (by intro h0; rw [h0] at h1; simp at h1)]
    exact hz
  -- the data of the tree are acceptable
  have hv0 : ValidInput d (if s.deduced then none else some s.box) s.maxLeaf s.ncrit s.parts := by
    obtain ⟨r, r1, r2⟩ := masses_construct (zero_ok (A := A) (simd := simd) (mac := mac) (w := w) (d := d)) E h (o := o) (f := .done) (m := s.parts.drop d) rfl
      (by rw [List.take_append_drop])
    rw [List.take_append_drop] at r1
    by_contra hv
    have := (C41_exact hA hq hS hH mac hs (inp := s.asInput s.parts) hI.arr (hhdS hI.arr hI.len) r1).2 hv
    rw [this] at r2
    have h2 := r2 (by decide)
    have h3 : updateMasses s o .done = .ok s := by
      unfold updateMasses
      simp only [Prog.run, bind, Except.bind, List.take_append_drop]
      rw [hI.props]
      rfl
    rw [h3] at h2; cases h2
  have hsh := lengths_of_shape (run_shape _ f hf)
  have hm1 : m.length = 1 := by rw [hsh.1, List.length_drop, ha]; omega
  have hmlen : ∀ v ∈ m, v.length = s.n := hsh.2 _ (fun v hv => hI.len v (List.mem_of_mem_drop hv))
  have htl : (s.parts.take d).length = d := by rw [List.length_take, ha]; omega
  have hal : (s.parts.take d ++ m).length = d + 1 := by simp [htl, hm1]
  have hlen : ∀ v ∈ s.parts.take d ++ m, v.length = s.n := by
    intro v hv
    rcases List.mem_append.1 hv with hv | hv
    · exact hI.len v (List.mem_of_mem_take hv)
    · exact hmlen v hv
  have htake : (s.parts.take d ++ m).take d = s.parts.take d := by
    rw [List.take_append_of_le_length (le_of_eq htl.symm), List.take_of_length_le (le_of_eq htl)]
  obtain ⟨r, r1, r2⟩ := masses_construct (zero_ok (A := A) (simd := simd) (mac := mac) (w := w) (d := d)) E h (o := o) (f := f) hf (deduceBox_take hd htake)
  obtain ⟨e1, e2⟩ := C41_exact hA hq hS hH mac hs (inp := s.asInput (s.parts.take d ++ m)) hal (hhdS hal hlen) r1
  refine ⟨fun hfin => ?_, fun ⟨v, hv, x, hx, hxf⟩ => ?_⟩
  · obtain ⟨t, rfl⟩ := e1 (by
      obtain ⟨v1, v2, v3, v4, v5⟩ := hv0
      refine ⟨v1, v2, fun v hv u hu => (hlen v hv).trans (hlen u hu).symm, fun v hv x hx => ?_, ?_⟩
      · rcases List.mem_append.1 hv with hv | hv
        · exact v4 v (List.mem_of_mem_take hv) x hx
        · exact hfin v hv x hx
      · show match (if s.deduced then none else some s.box : Option (Fl K)) with
          | some b => ∃ q, b = .fin q ∧ 0 ≤ q ∧ ∀ v ∈ (s.parts.take d ++ m).take d, ∀ x ∈ v, ∀ y, x = .fin y → InBox q y
          | none => (∀ v ∈ s.parts.take d ++ m, v = []) ∨ ∃ v ∈ (s.parts.take d ++ m).take d, ∃ x ∈ v, x ≠ .fin 0
        rw [htake]
        cases hde : s.deduced with
        | false => rw [hde] at v5; exact v5
        | true =>
          rw [hde] at v5
          rcases v5 with v5 | v5
          · left
            intro v hv
            rcases List.mem_append.1 hv with hv | hv
            · exact v5 v (List.mem_of_mem_take hv)
            · have h0 := v5 (s.parts[0]'(by omega)) (List.getElem_mem _)
              have h1 := hI.len (s.parts[0]'(by omega)) (List.getElem_mem _)
              rw [h0] at h1
              have := hmlen v hv
              rw [← h1] at this
              exact List.length_eq_zero_iff.1 this
          · exact .inr v5)
    exact r2
  · obtain rfl := e2 (fun hv' => by
      have := hv'.2.2.2.1 v (List.mem_append_right _ hv) x hx
      rw [hxf] at this; cases this)
    exact r2 (by decide)

/-- Negative and infinite masses. -/
example : (∃ s', updateMasses ratS true (.write 0 1 (.fin (-7)) .done : Prog (Fl ℚ)) = .ok s') ∧
    updateMasses ratS true (.write 0 1 (.inf false) .done : Prog (Fl ℚ)) = .threw .invalidArg (TS.default _) := by
  refine ⟨(C77_masses exactQ_exact (fun _ _ => rfl) rat_ok simd4_nonfin g_supp rat_reach rat_small
      (m := okOr ((.write 0 1 (.fin (-7)) .done : Prog (Fl ℚ)).run (ratS.tr true) (ratS.parts.drop 3)) []) (eq_okOr (by decide +kernel))).1 (by decide +kernel),
    (C77_masses exactQ_exact (fun _ _ => rfl) rat_ok simd4_nonfin g_supp rat_reach rat_small
      (m := okOr ((.write 0 1 (.inf false) .done : Prog (Fl ℚ)).run (ratS.tr true) (ratS.parts.drop 3)) []) (eq_okOr (by decide +kernel))).2 (by decide +kernel)⟩

end
end Rakau
