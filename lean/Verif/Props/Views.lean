import Verif.Model.Views
import Verif.Proof.Rebuild
import Verif.Proof.Sample

/-!
# C70: the views of a ROCm accelerator

Whatever the history of a tree, its views are bound to its own current buffers; no assertion on them fails. What a kernel reads through them is the current data of the tree, unless the masses were updated after
an earlier kernel had used the same views: `update_masses_*` does not renew the views, and the accelerator goes on with the old masses and node properties.
-/
namespace Rakau

section Any
variable {env : Env} {rt : Rt} {late : Bool}

/-- What holds of every tree between calls: there are views iff there is an accelerator, and they are bound to the buffers of the tree, with the right sizes, which an `int` can represent. -/
structure Spec.Bound (rt : Rt) (t : VTree env) : Prop where
  present : t.rocm.isSome = rt.acc
  bound : ∀ v, t.rocm = some v → v.buf = t.buf ∧ v.n = t.s.n ∧ v.nodes = t.s.tree.length ∧ t.s.n < 2 ^ 31 ∧ t.s.tree.length < 2 ^ 31

/-- The copies on the device, if any, are those of the current data. -/
def Spec.Current (t : VTree env) : Prop := ∀ v h, t.rocm = some v → v.copy = some h → h = t.s.host

open Spec

/-- The conclusions of this section for the outcome of a call. -/
def Fine (rt : Rt) (r : Life (VTree env)) : Prop :=
  match r with
  | .ok t => Reach env t.s ∧ Bound rt t ∧ (∀ v, t.rocm = some v → v.copy = none)
  | .assertion => False
  | .terminate => rt.acc = true

theorem init_fine (t : VTree env) (h : Reach env t.s) (hn : t.rocm = none) : Fine rt (t.init rt) := by
  unfold VTree.init
  rw [if_neg (by simp [hn])]
  split
  · rename_i ha
    split
    · exact ha
    · split
      · exact ha
      · rename_i h1 h2
        unfold maxInt at h1 h2
        refine ⟨h, ⟨by simp [ha], ?_⟩, ?_⟩
        · intro v hv
          simp only [Option.some.injEq] at hv
          subst hv
          exact ⟨rfl, rfl, rfl, by simp only; omega, by simp only; omega⟩
        · intro v hv
          simp only [Option.some.injEq] at hv
          subst hv
          rfl
  · rename_i ha
    exact ⟨h, ⟨by simpa [hn] using ha, by simp [hn]⟩, by simp [hn]⟩

theorem clear_fine (t : VTree env) (h : Reach env t.s.clear) : Fine rt (VTree.clear rt t) :=
  init_fine { t.reset with s := t.s.clear } h rfl

theorem junk_clear {junk : TS env} {s : TS env} (h : Reach env s) (hj : junk.parts.length = env.d + 1) : Reach env junk.clear := Reach.moveFrom s junk h hj

theorem move_fine (t : VTree env) (h : Reach env t.s) (junk : TS env) (hj : junk.parts.length = env.d + 1) (b : Nat) :
    Fine rt ((VTree.move rt t junk b).bind (fun p => .ok p.1)) ∧ Fine rt ((VTree.move rt t junk b).bind (fun p => .ok p.2)) := by
  have h1 : Fine rt (VTree.clear rt { t with s := junk, buf := b }) := clear_fine _ (junk_clear h hj)
  have h2 : Fine rt (VTree.init rt ⟨(moveCtor t.s junk).1, t.buf, none⟩) := init_fine _ (.moveTo _ _ h hj) rfl
  show Fine rt (((VTree.clear rt { t with s := junk, buf := b }).bind (fun o => (VTree.init rt ⟨(moveCtor t.s junk).1, t.buf, none⟩).bind (fun n => .ok (n, o)))).bind (fun p => .ok p.1)) ∧
    Fine rt (((VTree.clear rt { t with s := junk, buf := b }).bind (fun o => (VTree.init rt ⟨(moveCtor t.s junk).1, t.buf, none⟩).bind (fun n => .ok (n, o)))).bind (fun p => .ok p.2))
  generalize VTree.clear rt { t with s := junk, buf := b } = x at h1
  generalize VTree.init rt ⟨(moveCtor t.s junk).1, t.buf, none⟩ = y at h2
  cases x with
  | ok x =>
    cases y with
    | ok y => exact ⟨h2, h1⟩
    | assertion => exact ⟨h2, h2⟩
    | terminate => exact ⟨h2, h2⟩
  | assertion => exact ⟨h1, h1⟩
  | terminate => exact ⟨h1, h1⟩

theorem moveAssign_fine (t o : VTree env) (ht : Reach env t.s) (h : Reach env o.s) (junk : TS env) (hj : junk.parts.length = env.d + 1) (b : Nat) :
    Fine rt ((VTree.moveAssign rt t o junk false b).bind (fun p => .ok p.1)) ∧ Fine rt ((VTree.moveAssign rt t o junk false b).bind (fun p => .ok p.2)) := by
  have h1 : Fine rt (VTree.clear rt { o with s := junk, buf := b }) := clear_fine _ (junk_clear h hj)
  have h2 : Fine rt (VTree.init rt ⟨(Rakau.moveAssign t.s o.s junk false).1, o.buf, none⟩) := init_fine _ (.moveAssignTo _ _ _ false ht h hj) rfl
  show Fine rt (((VTree.clear rt { o with s := junk, buf := b }).bind (fun o' => (VTree.init rt ⟨(Rakau.moveAssign t.s o.s junk false).1, o.buf, none⟩).bind (fun n => .ok (n, o')))).bind (fun p => .ok p.1)) ∧
    Fine rt (((VTree.clear rt { o with s := junk, buf := b }).bind (fun o' => (VTree.init rt ⟨(Rakau.moveAssign t.s o.s junk false).1, o.buf, none⟩).bind (fun n => .ok (n, o')))).bind (fun p => .ok p.2))
  generalize VTree.clear rt { o with s := junk, buf := b } = x at h1
  generalize VTree.init rt ⟨(Rakau.moveAssign t.s o.s junk false).1, o.buf, none⟩ = y at h2
  cases x with
  | ok x =>
    cases y with
    | ok y => exact ⟨h2, h1⟩
    | assertion => exact ⟨h2, h2⟩
    | terminate => exact ⟨h2, h2⟩
  | assertion => exact ⟨h1, h1⟩
  | terminate => exact ⟨h1, h1⟩

/-- Updating the masses changes neither the number of particles nor the nodes. -/
theorem masses_sizes {s s' : TS env} (h : Reach env s) {ordered : Bool} {f : Prog env.F} (hu : updateMasses s ordered f = .ok s') : s'.n = s.n ∧ s'.tree = s.tree := by
  have I := reach_inv h
  have I' := reach_inv (.masses s s' ordered f h hu)
  have hc : s'.codes = s.codes ∧ s'.tree = s.tree := by
    unfold updateMasses guard at hu
    split at hu
    · rename_i x hx
      simp only [bind, Except.bind] at hx
      split at hx
      · cases hx
      · split at hx
        · cases hx
        · simp only [pure, Except.pure, Except.ok.injEq, Out.ok.injEq] at hx hu
          rw [← hu, ← hx]
          exact ⟨rfl, rfl⟩
    · cases hu
    · cases hu
  exact ⟨by rw [← (rawCodes_spec.1 I'.codes).1, ← (rawCodes_spec.1 I.codes).1, hc.1], hc.2⟩

/-- The statement proved by induction over calls. -/
def Good (rt : Rt) (late : Bool) (r : Life (VTree env)) : Prop :=
  match r with
  | .ok t => Reach env t.s ∧ Bound rt t ∧ (late = false → Current t)
  | .assertion => False
  | .terminate => rt.acc = true

theorem Fine.good {r : Life (VTree env)} (h : Fine rt r) : Good rt late r := by
  cases r with
  | ok t => exact ⟨h.1, h.2.1, fun _ v c hv hc => by rw [h.2.2 v hv] at hc; cases hc⟩
  | assertion => exact h
  | terminate => exact h

theorem call_good {r : Life (VTree env)} (h : Call rt late r) : Good rt late r := by
  induction h with
  | default b => exact (init_fine ⟨_, b, none⟩ .default rfl).good
  | construct inp s b hd hc => exact (init_fine ⟨s, b, none⟩ (.construct inp s hd hc) rfl).good
  | copy t b _ ih => exact (init_fine ⟨_, b, none⟩ (.copy _ ih.1) rfl).good
  | moveTo t junk b _ hj ih => exact (move_fine t ih.1 junk hj b).1.good
  | moveFrom t junk b _ hj ih => exact (move_fine t ih.1 junk hj b).2.good
  | assign t o same fail b _ _ ih1 ih2 =>
    unfold VTree.assign
    cases same with
    | true => exact ih1
    | false =>
      rw [if_neg (by simp)]
      simp only
      split
      · rename_i s hs
        exact (init_fine ⟨s, b, none⟩ (.copyAssign _ _ _ _ _ ih1.1 ih2.1 hs) rfl).good
      · rename_i e s hs
        exact (clear_fine ⟨s, b, none⟩ (.clear _ (.copyAssignFail _ _ _ _ _ _ ih1.1 ih2.1 hs))).good
      · rename_i hs
        unfold copyAssign at hs
        simp only [Bool.false_eq_true, if_false] at hs
        split at hs
        · cases hs
        · split at hs <;> cases hs
  | moveAssignTo t o junk same b _ _ hj ih1 ih2 =>
    cases same with
    | true => exact ih1
    | false => exact (moveAssign_fine t o ih1.1 ih2.1 junk hj b).1.good
  | moveAssignFrom t o junk same b _ _ hj ih1 ih2 =>
    cases same with
    | true => exact ih1
    | false => exact (moveAssign_fine t o ih1.1 ih2.1 junk hj b).2.good
  | clear t _ ih => exact (clear_fine t (.clear _ ih.1)).good
  | particles t ordered f r b _ hu hr ih =>
    cases r with
    | ok s => exact (init_fine ⟨s, b, none⟩ (.particles _ _ _ _ ih.1 hu) rfl).good
    | threw e s => exact (clear_fine ⟨s, b, t.rocm⟩ (.clear _ (.particlesFail _ _ _ _ _ ih.1 hu))).good
    | ub => exact absurd rfl hr
  | masses t ordered f _ hr hl ih =>
    cases hu : updateMasses t.s ordered f with
    | ok s =>
      obtain ⟨e1, e2⟩ := masses_sizes ih.1 hu
      refine ⟨.masses _ _ _ _ ih.1 hu, ⟨ih.2.1.present, ?_⟩, ?_⟩
      · intro v hv
        rw [e1, e2]
        exact ih.2.1.bound v hv
      · intro hf v c hv hc
        rcases hl with hl | hl
        · rw [hl] at hf; cases hf
        · rw [hl v hv] at hc; cases hc
    | threw e s => exact (clear_fine ⟨s, t.buf, t.rocm⟩ (.clear _ (.massesFail _ _ _ _ _ ih.1 hu))).good
    | ub => exact absurd hu hr
  | read t t' h _ hr ih =>
    unfold VTree.read at hr
    split at hr
    · cases hr
    · rename_i v hv
      split at hr
      · simp only [Except.ok.injEq, Prod.mk.injEq] at hr
        obtain ⟨rfl, rfl⟩ := hr
        refine ⟨ih.1, ⟨?_, ?_⟩, ?_⟩
        · have := ih.2.1.present
          rw [hv] at this
          exact this
        · intro v' hv'
          simp only [Option.some.injEq] at hv'
          subst hv'
          exact ih.2.1.bound v hv
        · intro hf v' c hv' hc
          simp only [Option.some.injEq] at hv'
          subst hv'
          simp only [Option.some.injEq] at hc
          subst hc
          have hcur := ih.2.2 hf v
          cases hvc : v.copy with
          | none => simp
          | some x => rw [hcur x hv hvc]; simp
      · cases hr

/-- C70: after any sequence of calls (constructions, updates, copies, moves, assignments, failures, clears, and uses of the accelerator) a tree has views iff there is an accelerator, and they are bound to the
current buffers of the tree itself, with its numbers of particles and nodes. -/
theorem C70_bound {t : VTree env} (h : Call rt late (.ok t)) : Reach env t.s ∧ Bound rt t := ⟨(call_good h).1, (call_good h).2.1⟩

/-- C70: the assertion of `rocm_init_state` never fails: no function creates views while others exist. -/
theorem C70_assert : ¬ Call (env := env) rt late .assertion := fun h => call_good h

/-- C70: without an accelerator the views never end the program. -/
theorem C70_terminate (ha : rt.acc = false) : ¬ Call (env := env) rt late .terminate := fun h => by
  have : rt.acc = true := call_good h
  rw [ha] at this
  cases this

/-- C70: a new tree or a copy ends the program iff there is an accelerator and an `int` cannot represent the number of particles or of nodes (`numeric_cast` in a function that is `noexcept`). -/
theorem C70_too_large (s : TS env) (b : Nat) : VTree.fresh rt s b = .terminate ↔ rt.acc = true ∧ (2 ^ 31 ≤ s.n ∨ 2 ^ 31 ≤ s.tree.length) := by
  unfold VTree.fresh VTree.init maxInt
  simp only [Option.isSome_none, Bool.false_eq_true, if_false]
  cases rt.acc with
  | false => simp
  | true =>
    simp only [if_true, true_and]
    split
    · simp only [true_iff]; left; omega
    · split
      · simp only [true_iff]; right; omega
      · simp only [reduceCtorEq, false_iff]; omega

/-- C70: a kernel can read the tree iff there is an accelerator. If the accelerator shares the memory of the host, or if masses are never updated after a kernel has used the current views, it reads the current
data of the tree. -/
theorem C70_read_partial {t : VTree env} (h : Call rt late (.ok t)) :
    (rt.acc = false → VTree.read rt t = .error .ub) ∧
    (rt.acc = true → ∃ x t', VTree.read rt t = .ok (x, t') ∧ (late = false ∨ rt.cache = false → x = t.s.host)) := by
  obtain ⟨_, hb, hc⟩ := call_good h
  have hp := hb.present
  unfold VTree.read
  cases hv : t.rocm with
  | none =>
    rw [hv] at hp
    refine ⟨fun _ => rfl, fun ha => ?_⟩
    rw [ha] at hp
    cases hp
  | some v =>
    rw [hv] at hp
    obtain ⟨b1, b2, b3, _⟩ := hb.bound v hv
    refine ⟨fun ha => (by rw [ha] at hp; cases hp), fun _ => ?_⟩
    simp only [if_pos (show v.buf = t.buf ∧ v.n = t.s.n ∧ v.nodes = t.s.tree.length from ⟨b1, b2, b3⟩)]
    refine ⟨_, _, rfl, ?_⟩
    rintro (hl | hcache)
    · split
      · cases hvc : v.copy with
        | none => rfl
        | some x => exact hc hl v x hv hvc
      · rfl
    · rw [if_neg (by simp [hcache])]

end Any

section Results
variable {K : Type} [Field K] [LinearOrder K] [FloorRing K] {A : Arith K} {simd : Option (Simd K)} {mac : Mac} {w d : Nat} {rt : Rt} {late : Bool}

/-- Without an accelerator nothing is given to one. -/
theorem absent_dev {m : Nat} {D : Arith K} {types : Bool} {crit : List CNode} {n : Nat} {split : List (Fl K)} {plan : Plan}
    (h : splitPlan (.rocm false m) D A types crit n split = .ok plan) : plan.dev.isEmpty = true := by
  unfold splitPlan at h
  simp only [bind, Except.bind] at h
  split at h
  · cases h
  · split at h
    · cases h
    · split at h
      · cases h
      · rename_i h2
        split at h
        · split at h
          · exact absurd rfl h2
          · cases h; rfl
        · split at h
          · cases h
          · cases h; rfl

theorem read_s {env : Env} {t t' : VTree env} {x : Host env} (h : VTree.read rt t = .ok (x, t')) : t'.s = t.s := by
  unfold VTree.read at h
  split at h
  · cases h
  · split at h
    · simp only [Except.ok.injEq, Prod.mk.injEq] at h
      rw [← h.2]
    · cases h

/-- C70: under the same condition the computation distributed over CPU and accelerator gives what it gives on the current data (`TS.accPotDev`, see C29 and C68): same results, same exceptions. -/
theorem C70_results_partial {t : VTree (rakauEnv A simd mac w d)} (h : Call rt late (.ok t)) (hl : late = false ∨ rt.cache = false) (minSize : Nat) (D Dv : Arith K) (types : Bool)
    (rsqrt : Option (Fl K → Fl K)) (over : Overshift) (Q : Quant) (ordered ptr : Bool) (theta G eps : Fl K) (split : List (Fl K)) (junk : Res K) (o : Plan → Sched) (out : List (Res K)) :
    (VTree.accPot rt t minSize D Dv types rsqrt over Q ordered ptr theta G eps split junk o out).map (·.1) =
      t.s.accPotDev (.rocm rt.acc minSize) D Dv types rsqrt over Q ordered ptr theta G eps split junk o out := by
  have hp := (call_good h).2.1.present
  obtain ⟨r1, r2⟩ := C70_read_partial h
  unfold VTree.accPot TS.accPotDev
  rw [hp]
  simp only [bind, Except.bind]
  cases checkParams A mac theta G eps with
  | error e => rfl
  | ok p =>
    simp only
    cases hpl : splitPlan (.rocm rt.acc minSize) D A types t.s.crit t.s.n split with
    | error e => rfl
    | ok plan =>
      simp only
      cases (t.s.force rsqrt over Q p.1 G p.2).cpuRun (fun i => if ordered = true then t.s.perm[i]? else some i) (o plan).before out with
      | error e => rfl
      | ok out1 =>
        simp only
        by_cases hd : plan.dev.isEmpty = true
        · simp only [hd, if_true]
          cases (t.s.force rsqrt over Q p.1 G p.2).cpuRun (fun i => if ordered = true then t.s.perm[i]? else some i) (o plan).after out1 <;> rfl
        · simp only [hd]
          cases ha : rt.acc with
          | false =>
            rw [ha] at hpl
            exact absurd hpl (by
              intro hpl
              apply hd
              exact absent_dev hpl)
          | true =>
            obtain ⟨x, t', hx, hcur⟩ := r2 ha
            have hxe := hcur hl
            subst hxe
            have hn : t'.s = t.s := read_s hx
            simp only [hx]
            rw [hn]
            rw [if_neg Bool.false_ne_true, if_neg Bool.false_ne_true]
            show Except.map _ (Except.bind (Gpu.task (t.s.gpu Dv Q p.1 G p.2) minSize t.s.n plan.dev (ptr && !ordered) junk (o plan).dev
              (fun i => if ordered = true then t.s.perm[i]? else some i) out1) _) = Except.bind (Gpu.task (t.s.gpu Dv Q p.1 G p.2) minSize t.s.n plan.dev (ptr && !ordered) junk (o plan).dev
              (fun i => if ordered = true then t.s.perm[i]? else some i) out1) _
            cases Gpu.task (t.s.gpu Dv Q p.1 G p.2) minSize t.s.n plan.dev (ptr && !ordered) junk (o plan).dev
              (fun i => if ordered = true then t.s.perm[i]? else some i) out1 with
            | error e => rfl
            | ok y =>
              simp only [Except.bind]
              cases (t.s.force rsqrt over Q p.1 G p.2).cpuRun (fun i => if ordered = true then t.s.perm[i]? else some i) (o plan).after y <;> rfl

/-- C70: computations are calls in the sense of `Call` too: whatever they leave, the theorems above apply to. -/
theorem C70_computed {t t' : VTree (rakauEnv A simd mac w d)} (h : Call rt late (.ok t)) {minSize : Nat} {D Dv : Arith K} {types : Bool}
    {rsqrt : Option (Fl K → Fl K)} {over : Overshift} {Q : Quant} {ordered ptr : Bool} {theta G eps : Fl K} {split : List (Fl K)} {junk : Res K} {o : Plan → Sched} {out out' : List (Res K)}
    (hr : VTree.accPot rt t minSize D Dv types rsqrt over Q ordered ptr theta G eps split junk o out = .ok (out', t')) : Call rt late (.ok t') ∧ t'.s = t.s ∧ t'.buf = t.buf := by
  unfold VTree.accPot at hr
  simp only [bind, Except.bind] at hr
  split at hr
  · cases hr
  · split at hr
    · cases hr
    · split at hr
      · cases hr
      · split at hr
        · split at hr
          · cases hr
          · cases hr
            exact ⟨h, rfl, rfl⟩
        · split at hr
          · cases hr
          · rename_i x hx
            split at hr
            · cases hr
            · split at hr
              · cases hr
              · cases hr
                refine ⟨.read t _ x.1 h hx, read_s hx, ?_⟩
                unfold VTree.read at hx
                split at hx
                · cases hx
                · split at hx
                  · cases hx; rfl
                  · cases hx

end Results

section Examples

/-- Views on memory of their own, with an accelerator. -/
def ownMem : Rt := ⟨true, true⟩

/-- The sample just after construction, after a computation, and after an update of the masses: the first particle of the input now has mass 100. -/
def vt0 : VTree (gEnv .bh) := ⟨gS .bh, 0, some ⟨0, 5, 7, none⟩⟩
def vt1 : VTree (gEnv .bh) := ⟨gS .bh, 0, some ⟨0, 5, 7, some (gS .bh).host⟩⟩
def heavy : Prog (gEnv .bh).F := .write 0 0 (.fin (100 : ℚ) : Fl ℚ) .done
def gS100 : TS (gEnv .bh) := (updateMasses (gS .bh) true heavy).state (TS.default _)
def vt2 : VTree (gEnv .bh) := ⟨gS100, 0, some ⟨0, 5, 7, some (gS .bh).host⟩⟩

theorem vt0_call (late : Bool) : Call ownMem late (.ok vt0) := by
  have h : Construct (gInp .bh) (gInp .bh).exec := construct_exec (by decide +kernel)
  rw [eq_okOr (d := TS.default _) (show isOk (gInp .bh).exec = true by decide +kernel)] at h
  have h2 : VTree.fresh ownMem (gS .bh) 0 = .ok vt0 := by
    have h5 : (gS .bh).n = 5 := g_n _
    have h7 : (gS .bh).tree.length = 7 := by decide +kernel
    unfold VTree.fresh VTree.init vt0 ownMem maxInt
    simp only [h5, h7]
    rfl
  exact h2 ▸ Call.construct (gInp .bh) (gS .bh) 0 rfl h

/-- The potentials of the sample: CPU (particles 0 and 1 in the order of the tree) and accelerator. -/
def vtPot (t : VTree (gEnv .bh)) : Except Err (List (Res ℚ) × VTree (gEnv .bh)) :=
  VTree.accPot ownMem t 2 sqQ sqQ true none (maskedShift 32) .pot true false (.fin (3 / 4)) (.fin 2) (.fin 0) [.fin 1, .fin 1] ⟨[], []⟩ (fun _ => ⟨[1], [0], [0]⟩) (List.replicate 5 ⟨[], [.nan]⟩)

/-- C70 fails in general: the tree is built, used by the accelerator, and its masses are updated. The accelerator has memory of its own. The next computation then gives what belongs to the old masses for the
particles of the accelerator (the first, third and fourth of the input), and what belongs to the new ones for those of the CPU; a new tree with these data gives the new values for all of them. -/
theorem C70_stale_fails : Call ownMem true (.ok vt2) ∧ vt2.s = gS100 ∧
    (vtPot vt2).map (·.1) = .ok ([-251 / 60, -716 / 15, -72 / 5, -182 / 15, -415 / 3].map (fun v => ⟨[], [.fin v]⟩)) ∧
    gS100.accPotDev (.rocm true 2) sqQ sqQ true none (maskedShift 32) .pot true false (.fin (3 / 4)) (.fin 2) (.fin 0) [.fin 1, .fin 1] ⟨[], []⟩ (fun _ => ⟨[1], [0], [0]⟩)
      (List.replicate 5 ⟨[], [.nan]⟩) = .ok ([-1255 / 3, -716 / 15, -666 / 5, -2162 / 15, -415 / 3].map (fun v => ⟨[], [.fin v]⟩)) := by
  have hu : updateMasses (gS .bh) true heavy = .ok gS100 := Out.eq_ok (by decide +kernel)
  have h7 : (gS .bh).tree.length = 7 := by decide +kernel
  have h1 : Call ownMem true (.ok vt1) := by
    refine .read vt0 vt1 (gS .bh).host (vt0_call true) ?_
    unfold VTree.read vt0 vt1 ownMem
    simp only [g_n, h7, and_self, if_true]
    rfl
  refine ⟨?_, rfl, by decide +kernel, by decide +kernel⟩
  have h2 := Call.masses vt1 true heavy h1 (by rw [show vt1.s = gS .bh from rfl, hu]; simp) (.inl rfl)
  rw [show vt1.s = gS .bh from rfl, hu] at h2
  exact h2

/-- The views of the sample after the update of the masses are still bound to its buffers. -/
example : Reach (gEnv .bh) gS100 ∧ Spec.Bound ownMem vt2 ∧ vt2.rocm.isSome = true := ⟨(C70_bound C70_stale_fails.1).1, (C70_bound C70_stale_fails.1).2, rfl⟩

/-- Creating views twice would violate the assertion; no call does. -/
example : VTree.init ownMem vt0 = .assertion ∧ ¬ Call (env := gEnv .bh) ownMem true .assertion := ⟨rfl, C70_assert⟩

example : ¬ Call (env := gEnv .bh) ⟨false, true⟩ true .terminate := C70_terminate rfl

/-- The sample is small enough for an accelerator. -/
example : VTree.fresh ownMem (gS .bh) 3 ≠ .terminate := fun h => by
  have h7 : (gS .bh).tree.length = 7 := by decide +kernel
  have := ((C70_too_large _ _).1 h).2
  rw [g_n, h7] at this
  revert this
  decide

/-- Before the first computation, masses may be updated: the accelerator then reads the new ones. -/
example : ∃ t, Call ownMem false (.ok t) ∧ t.s = gS100 ∧ ∃ x t', VTree.read ownMem t = .ok (x, t') ∧ x = gS100.host ∧
    (vtPot t).map (·.1) = .ok ([-1255 / 3, -716 / 15, -666 / 5, -2162 / 15, -415 / 3].map (fun v => ⟨[], [.fin v]⟩)) := by
  have hu : updateMasses (gS .bh) true heavy = .ok gS100 := Out.eq_ok (by decide +kernel)
  have h2 := Call.masses vt0 true heavy (vt0_call false) (by rw [show vt0.s = gS .bh from rfl, hu]; simp) (.inr (by rintro v h; cases h; rfl))
  rw [show vt0.s = gS .bh from rfl, hu] at h2
  obtain ⟨x, t', h3, h4⟩ := (C70_read_partial h2).2 rfl
  refine ⟨_, h2, rfl, x, t', h3, h4 (.inl rfl), ?_⟩
  unfold vtPot
  rw [C70_results_partial h2 (.inl rfl)]
  exact C70_stale_fails.2.2.2

/-- The tree that the first computation leaves. -/
example : ∃ out t, vtPot vt0 = .ok (out, t) ∧ Call ownMem false (.ok t) ∧ t.s = gS .bh := by
  have h : ((vtPot vt0).map (fun _ => ())) = .ok () := by decide +kernel
  cases hv : vtPot vt0 with
  | error e => rw [hv] at h; cases h
  | ok x =>
    obtain ⟨h1, h2, _⟩ := C70_computed (vt0_call false) (t' := x.2) hv
    exact ⟨x.1, x.2, rfl, h1, h2⟩

end Examples

end Rakau
