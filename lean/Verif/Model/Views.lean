import Verif.Model.Gpu

/-!
Model of the member `m_rocm` of `tree` (include/rakau/tree.hpp:1488-1519, 3882-3884; include/rakau/detail/rocm_fwd.hpp:28-50; src/rakau_rocm.cpp:52-100): the views through which a
ROCm accelerator reads the data of a tree, and of the points at which the functions of `tree` create and destroy them.

A view is bound to buffers of the host. Buffers are identified by a number (one for all the vectors of a tree); where the code allocates or may
allocate, the new number is arbitrary. Using a view bound to other buffers than those of the tree is undefined. `hc::array_view` keeps a copy on the device, made when a
kernel first uses the view, and does not notice modifications of the host data that bypass it (`refresh()` would be needed, and is never called); on devices that share the memory
of the host there is no copy. `Rt.cache` distinguishes the two cases.
-/
namespace Rakau

variable {env : Env}

/-- What the views cover (tree.hpp:1504-1505): particle data, codes, nodes with their properties. -/
structure Host (env : Env) where
  parts : List (List env.F)
  codes : List Nat
  tree : List Node
  props : List env.Props

/-- The data of a tree covered by the views. -/
def TS.host (s : TS env) : Host env := ⟨s.parts, s.codes, s.tree, s.props⟩

/-- `rocm_state_impl` (rakau_rocm.cpp:54-83): the buffers bound, the recorded numbers of particles and nodes, the copy on the device. -/
structure Views (env : Env) where
  buf : Nat
  n : Nat
  nodes : Nat
  copy : Option (Host env)

/-- A tree with `m_rocm`; `buf` identifies its buffers. -/
structure VTree (env : Env) where
  s : TS env
  buf : Nat
  rocm : Option (Views env)

/-- The runtime: is there an accelerator (`rocm_has_accelerator`, rakau_rocm.cpp:41-50), does it keep copies of the host data. -/
structure Rt where
  acc : Bool
  cache : Bool

/-- How a call may end, as far as the views are concerned. -/
inductive Life (α : Type)
  | ok (a : α)
  /-- an assertion fails (with assertions disabled: `m_rocm` is replaced) -/
  | assertion
  /-- `std::terminate`: an exception leaves a function declared `noexcept` -/
  | terminate

def Life.bind {α β : Type} (x : Life α) (f : α → Life β) : Life β :=
  match x with
  | .ok a => f a
  | .assertion => .assertion
  | .terminate => .terminate

instance : Monad Life where
  pure := .ok
  bind := Life.bind

/-- `rocm_init_state` (tree.hpp:1495-1508). -/
def VTree.init (rt : Rt) (t : VTree env) : Life (VTree env) :=
  if t.rocm.isSome then .assertion
  else if rt.acc then
    if maxInt < t.s.n then .terminate
    else if maxInt < t.s.tree.length then .terminate
    else .ok { t with rocm := some ⟨t.buf, t.s.n, t.s.tree.length, none⟩ }
  else .ok t

/-- `rocm_reset_state` (tree.hpp:1511-1519). -/
def VTree.reset (t : VTree env) : VTree env := { t with rocm := none }

/-- Default, generic and copy constructor (tree.hpp:1522-1526, 1572-1733, 1735-1743): `s` are the other members, `b` the new buffers. -/
def VTree.fresh (rt : Rt) (s : TS env) (b : Nat) : Life (VTree env) := VTree.init rt ⟨s, b, none⟩

/-- `clear` (tree.hpp:1883-1904): the vectors keep their memory. -/
def VTree.clear (rt : Rt) (t : VTree env) : Life (VTree env) :=
  let t := t.reset
  let t := { t with s := t.s.clear }
  t.init rt

/-- The move constructor (tree.hpp:1745-1766): the new tree and the source. The new tree takes over the buffers; the source is left with others (`b`) until it is cleared. -/
def VTree.move (rt : Rt) (o : VTree env) (junk : TS env) (b : Nat) : Life (VTree env × VTree env) := do
  let new : VTree env := ⟨(moveCtor o.s junk).1, o.buf, none⟩
  let o ← VTree.clear rt { o with s := junk, buf := b }
  let new ← new.init rt
  pure (new, o)

/-- Copy assignment (tree.hpp:1767-1800): assigning vectors may allocate (`b`). `fail` as in `copyAssign`. -/
def VTree.assign (rt : Rt) (t o : VTree env) (same : Bool) (fail : Option Nat) (b : Nat) : Life (VTree env) :=
  if same then .ok t else
  let t := t.reset
  match copyAssign t.s o.s false fail with
  | .ok s => VTree.init rt { t with s := s, buf := b }
  | .threw _ s => VTree.clear rt { t with s := s, buf := b }
  | .ub => .ok t

/-- Move assignment (tree.hpp:1801-1827): the target takes over the buffers of the source. -/
def VTree.moveAssign (rt : Rt) (t o : VTree env) (junk : TS env) (same : Bool) (b : Nat) : Life (VTree env × VTree env) :=
  if same then .ok (t, t) else do
  let t := t.reset
  let t := { t with s := (Rakau.moveAssign t.s o.s junk false).1, buf := o.buf }
  let o ← VTree.clear rt { o with s := junk, buf := b }
  let t ← t.init rt
  pure (t, o)

/-- `update_particles_dispatch` (tree.hpp:3746-3765) with a given outcome of the update of the other members. The callback writes through pointers to the host data. `sync` destroys the views,
allocates (`apply_isort`; `b`), and creates the views; on an exception the tree is cleared (`s` being what was left of it). -/
def VTree.particles (rt : Rt) (t : VTree env) (r : Out env) (b : Nat) : Life (VTree env) :=
  match r with
  | .ok s => VTree.init rt { t.reset with s := s, buf := b }
  | .threw _ s => VTree.clear rt { t with s := s, buf := b }
  | .ub => .ok t

/-- `update_masses_dispatch` (tree.hpp:3782-3805) with a given outcome of the update of the other members: masses and node properties are modified in place. -/
def VTree.masses (rt : Rt) (t : VTree env) (r : Out env) : Life (VTree env) :=
  match r with
  | .ok s => .ok { t with s := s }
  | .threw _ s => VTree.clear rt { t with s := s }
  | .ub => .ok t

/-- What a kernel reads through the views (rakau_rocm.cpp:116-122), and the views afterwards. Without views, or if they are bound to other buffers, or were made for other numbers of particles and
nodes: undefined. -/
def VTree.read (rt : Rt) (t : VTree env) : Except Err (Host env × VTree env) :=
  match t.rocm with
  | none => .error .ub
  | some v =>
    if v.buf = t.buf ∧ v.n = t.s.n ∧ v.nodes = t.s.tree.length then
      let h := if rt.cache then v.copy.getD t.s.host else t.s.host
      .ok (h, { t with rocm := some { v with copy := some h } })
    else .error .ub

/-- All outcomes of calls on trees obtained by earlier calls. `late` says whether masses may be updated after a kernel has used the current views. -/
inductive Call (rt : Rt) (late : Bool) : Life (VTree env) → Prop
  | default (b : Nat) : Call rt late (VTree.fresh rt (TS.default env) b)
  | construct (inp : Input env) (s : TS env) (b : Nat) : inp.parts.length = env.d + 1 → Construct inp (.ok s) → Call rt late (VTree.fresh rt s b)
  | copy (t : VTree env) (b : Nat) : Call rt late (.ok t) → Call rt late (VTree.fresh rt (copyCtor t.s) b)
  | moveTo (t : VTree env) (junk : TS env) (b : Nat) : Call rt late (.ok t) → junk.parts.length = env.d + 1 →
      Call rt late ((VTree.move rt t junk b).bind (fun p => .ok p.1))
  | moveFrom (t : VTree env) (junk : TS env) (b : Nat) : Call rt late (.ok t) → junk.parts.length = env.d + 1 →
      Call rt late ((VTree.move rt t junk b).bind (fun p => .ok p.2))
  | assign (t o : VTree env) (same : Bool) (fail : Option Nat) (b : Nat) : Call rt late (.ok t) → Call rt late (.ok o) →
      Call rt late (VTree.assign rt t o same fail b)
  | moveAssignTo (t o : VTree env) (junk : TS env) (same : Bool) (b : Nat) : Call rt late (.ok t) → Call rt late (.ok o) → junk.parts.length = env.d + 1 →
      Call rt late ((VTree.moveAssign rt t o junk same b).bind (fun p => .ok p.1))
  | moveAssignFrom (t o : VTree env) (junk : TS env) (same : Bool) (b : Nat) : Call rt late (.ok t) → Call rt late (.ok o) → junk.parts.length = env.d + 1 →
      Call rt late ((VTree.moveAssign rt t o junk same b).bind (fun p => .ok p.2))
  | clear (t : VTree env) : Call rt late (.ok t) → Call rt late (VTree.clear rt t)
  | particles (t : VTree env) (ordered : Bool) (f : Prog env.F) (r : Out env) (b : Nat) : Call rt late (.ok t) →
      UpdateParticles t.s ordered f r → r ≠ .ub → Call rt late (VTree.particles rt t r b)
  | masses (t : VTree env) (ordered : Bool) (f : Prog env.F) : Call rt late (.ok t) → updateMasses t.s ordered f ≠ .ub →
      (late = true ∨ ∀ v, t.rocm = some v → v.copy = none) → Call rt late (VTree.masses rt t (updateMasses t.s ordered f))
  | read (t t' : VTree env) (h : Host env) : Call rt late (.ok t) → VTree.read rt t = .ok (h, t') → Call rt late (.ok t')

variable {K : Type} [Field K] [LinearOrder K] [FloorRing K]

/-- `acc_pot_dispatch` (tree.hpp:3293-3333) with a ROCm accelerator, which reads the tree through the views: as `TS.accPotDev` otherwise. -/
def VTree.accPot {A : Arith K} {simd : Option (Simd K)} {mac : Mac} {w d : Nat} (rt : Rt) (t : VTree (rakauEnv A simd mac w d)) (minSize : Nat) (D Dv : Arith K) (types : Bool)
    (rsqrt : Option (Fl K → Fl K)) (over : Overshift) (Q : Quant) (ordered ptr : Bool) (theta G eps : Fl K) (split : List (Fl K)) (junk : Res K)
    (o : Plan → Sched) (out : List (Res K)) : Except Err (List (Res K) × VTree (rakauEnv A simd mac w d)) := do
  let (mv, eps2) ← checkParams A mac theta G eps
  let plan ← splitPlan (.rocm t.rocm.isSome minSize) D A types t.s.crit t.s.n split
  let ix := fun i => if ordered then t.s.perm[i]? else some i
  let c := t.s.force rsqrt over Q mv G eps2
  let out ← c.cpuRun ix (o plan).before out
  let (out, t) ← if plan.dev.isEmpty then .ok (out, t) else do
    let (h, t) ← VTree.read rt t
    let out ← Gpu.task ⟨Dv, mac, w, d, Q, h.parts, h.codes, h.tree, h.props, mv, G, eps2⟩ minSize t.s.n plan.dev (ptr && !ordered) junk (o plan).dev ix out
    .ok (out, t)
  let out ← c.cpuRun ix (o plan).after out
  .ok (out, t)

end Rakau
