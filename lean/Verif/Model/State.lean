import Verif.Model.Build

/-!
Model of the state of a tree object and of the operations that change it: construction, `sync`, particle and mass
updates, copies, moves and `clear` (include/rakau/tree.hpp:1248-1275, 1329-1487, 1523-1904, 3618-3884).

What depends on floating-point arithmetic is collected in `Env` and modelled elsewhere (`Verif/Model/Disc.lean`,
`Verif/Model/NodeProps.lean`); the state machine is proved correct for every such environment.
Sorting outcomes and task orders are arbitrary: operations are relations.
-/
namespace Rakau

/-- The floating-point dependent parts: values `F`, the check of the box size (tree.hpp:1352), the deduction of the box
size from the particle data and the number of particles (1278-1319), the code of a particle from the box size and its
coordinates (1240-1246, 1418, 1431-1432), and the node properties from the box size, the node and the particle data (1116-1237).
The particle data is a list of `d + 1` arrays, the masses last. -/
structure Env where
  F : Type
  Props : Type
  d : Nat
  w : Nat
  zero : F
  boxOk : F → Bool
  deduce : List (List F) → Except Err F
  code : F → List F → Except Err Nat
  props : F → Node → List (List F) → Except Err Props

/-- The members of a tree (tree.hpp:3839-3884); `tree` and `props` together are `m_tree`. -/
structure TS (env : Env) where
  box : env.F
  deduced : Bool
  maxLeaf : Nat
  ncrit : Nat
  parts : List (List env.F)
  codes : List Nat
  perm : List Nat
  lastPerm : List Nat
  invPerm : List Nat
  tree : List Node
  props : List env.Props
  crit : List CNode

variable {env : Env}

/-- `default_max_leaf_n` (tree.hpp:584-588). -/
def defaultMaxLeaf : Nat := 16
/-- `default_ncrit` (tree.hpp:590-598) without AVX512. -/
def defaultNcrit : Nat := 128

/-- The default constructor (tree.hpp:1522-1526): value-initialised empty containers. -/
def TS.default (env : Env) : TS env :=
  ⟨env.zero, false, defaultMaxLeaf, defaultNcrit, List.replicate (env.d + 1) [], [], [], [], [], [], [], []⟩

/-- `clear()` (tree.hpp:1883-1904), member by member. -/
def TS.clear (s : TS env) : TS env :=
  let s := { s with box := env.zero }
  let s := { s with deduced := false }
  let s := { s with maxLeaf := defaultMaxLeaf }
  let s := { s with ncrit := defaultNcrit }
  let s := { s with parts := s.parts.map (fun _ => []) }
  let s := { s with codes := [] }
  let s := { s with perm := [] }
  let s := { s with lastPerm := [] }
  let s := { s with invPerm := [] }
  let s := { s with tree := [], props := [] }
  { s with crit := [] }

/-- `nparts()` (tree.hpp:3834-3837): the size of the first coordinate array. -/
def TS.n (s : TS env) : Nat := (s.parts.headD []).length

def TS.cfg (s : TS env) : Cfg := ⟨env.w, env.d, s.maxLeaf, s.ncrit⟩

/-- `apply_isort` (tree.hpp:493-507): `values_new[i] = values[perm[i]]`, undefined if an index is out of range. -/
def applyIsort {α : Type} (values : List α) (perm : List Nat) : Option (List α) := perm.mapM (fun k => values[k]?)

/-- `perm_to_inv_perm` (tree.hpp:1248-1262): `m_inv_perm[m_perm[i]] = i`, for all `i` in the order `ord` in which the
tasks run. Undefined if an index is out of range. -/
def permToInv (ord perm inv : List Nat) : Option (List Nat) :=
  ord.foldlM (fun inv i => do
    let p ← perm[i]?
    if p < inv.length then some (inv.set p i) else none) inv

/-- The coordinates of particle `i` (the first `d` arrays). -/
def coordsAt (d : Nat) {F : Type} (parts : List (List F)) (i : Nat) : Option (List F) :=
  (parts.take d).mapM (fun v => v[i]?)

/-- The Morton codes of all particles in storage order (tree.hpp:1420-1434 and 3694-3702). -/
def rawCodes (env : Env) (box : env.F) (parts : List (List env.F)) (n : Nat) : Except Err (List Nat) :=
  (List.range n).mapM (fun i => do env.code box (← ofUB (coordsAt env.d parts i)))

/-- The order used by `indirect_code_sort` (tree.hpp:1266-1275). -/
def codeLt (raw : List Nat) (a b : Nat) : Bool := decide (cAt raw a < cAt raw b)

/-- Arguments of the generic constructor: `none` for a box size to be deduced. The data are `d + 1` sequences. -/
structure Input (env : Env) where
  box : Option env.F
  maxLeaf : Nat
  ncrit : Nat
  parts : List (List env.F)

/-- The checks made before any data is processed: the lengths of the ranges (tree.hpp:1654-1683), the box size, `max_leaf_n`
and `ncrit` (1352-1364). -/
def Input.check (inp : Input env) : Except Err Unit :=
  if inp.parts.any (fun v => v.length != (inp.parts.headD []).length) then .error .invalidArg
  else if !env.boxOk (inp.box.getD env.zero) then .error .invalidArg
  else if inp.maxLeaf = 0 then .error .invalidArg
  else if inp.ncrit = 0 then .error .invalidArg
  else .ok ()

/-- The box size in use: given or deduced (tree.hpp:1412-1415, 3686-3688). -/
def boxFor (env : Env) (given : Option env.F) (parts : List (List env.F)) : Except Err env.F :=
  match given with
  | some b => .ok b
  | none => env.deduce parts

/-- The part of construction before the sort: checks, box size, codes. -/
def Input.prepare (inp : Input env) : Except Err (env.F × List Nat) := do
  inp.check
  let box ← boxFor env inp.box inp.parts
  let raw ← rawCodes env box inp.parts (inp.parts.headD []).length
  pure (box, raw)

/-- `construct_impl` after the sort (tree.hpp:1436-1471): `srt` is the sorted `m_perm`, `r` the outcome of the tree
builder, `ord` the order of the tasks writing `m_inv_perm`. -/
def Input.finish (inp : Input env) (box : env.F) (raw srt ord : List Nat) (r : Except Err (List Node × List CNode)) :
    Except Err (TS env) := do
  let codes ← ofUB (applyIsort raw srt)
  let parts ← ofUB (inp.parts.mapM (fun v => applyIsort v srt))
  let inv ← ofUB (permToInv ord srt (List.replicate srt.length 0))
  let (tree, crit) ← r
  let props ← tree.mapM (fun nd => env.props box nd parts)
  pure ⟨box, inp.box.isNone, inp.maxLeaf, inp.ncrit, parts, codes, srt, srt, inv, tree, props, crit⟩

/-- Construction: the possible outcomes of the generic constructor (tree.hpp:1572-1733, 1329-1471). -/
inductive Construct (inp : Input env) : Except Err (TS env) → Prop
  | early (e : Err) : inp.prepare = .error e → Construct inp (.error e)
  | run (box : env.F) (raw srt ord codes : List Nat) (split : Nat) (r : Except Err (List Node × List CNode)) :
      inp.prepare = .ok (box, raw) → IsSortOf (codeLt raw) (List.range raw.length) srt → ord.Perm (List.range raw.length) →
      applyIsort raw srt = some codes → IsBuild ⟨env.w, env.d, inp.maxLeaf, inp.ncrit⟩ codes split r →
      Construct inp (inp.finish box raw srt ord r)

/-- `sync()` before the sort (tree.hpp:3683-3702), for particle data already edited. -/
def TS.syncPrepare (s : TS env) : Except Err (env.F × List Nat) := do
  let box ← boxFor env (if s.deduced then none else some s.box) s.parts
  let raw ← rawCodes env box s.parts s.n
  pure (box, raw)

/-- `sync()` after the sort (tree.hpp:3711-3740); `srt` is the sorted `m_last_perm`. -/
def TS.syncFinish (s : TS env) (box : env.F) (raw srt ord : List Nat) (r : Except Err (List Node × List CNode)) :
    Except Err (TS env) := do
  let codes ← ofUB (applyIsort raw srt)
  let parts ← ofUB (s.parts.mapM (fun v => applyIsort v srt))
  let perm ← ofUB (applyIsort s.perm srt)
  let inv ← ofUB (permToInv ord perm s.invPerm)
  let (tree, crit) ← r
  let props ← tree.mapM (fun nd => env.props box nd parts)
  pure ⟨box, s.deduced, s.maxLeaf, s.ncrit, parts, codes, perm, srt, inv, tree, props, crit⟩

/-- `sync()` (tree.hpp:3678-3743). -/
inductive Sync (s : TS env) : Except Err (TS env) → Prop
  | early (e : Err) : s.syncPrepare = .error e → Sync s (.error e)
  | run (box : env.F) (raw srt ord codes : List Nat) (split : Nat) (r : Except Err (List Node × List CNode)) :
      s.syncPrepare = .ok (box, raw) → IsSortOf (codeLt raw) (List.range raw.length) srt → ord.Perm (List.range raw.length) →
      applyIsort raw srt = some codes → IsBuild s.cfg codes split r → Sync s (s.syncFinish box raw srt ord r)

/-- A user callback that receives random access iterators: it reads and writes elements (array `j`, position `k`),
may depend on everything it read, and returns or throws. -/
inductive Prog (F : Type)
  | done
  | throw
  | read (j k : Nat) (cont : F → Prog F)
  | write (j k : Nat) (v : F) (cont : Prog F)

/-- Run a callback on arrays through an index translation `tr` (the identity for plain pointers, `inv_perm` for
permutation iterators). Going out of range is undefined. -/
def Prog.run {F : Type} (tr : Nat → Option Nat) : Prog F → List (List F) → Except Err (List (List F))
  | .done, a => .ok a
  | .throw, _ => .error .user
  | .read j k cont, a => do
      let v ← ofUB (do let v ← a[j]?; v[(← tr k)]?)
      Prog.run tr (cont v) a
  | .write j k v cont, a => do
      let a' ← ofUB (do
        let old ← a[j]?
        let i ← tr k
        if i < old.length then some (a.set j (old.set i v)) else none)
      Prog.run tr cont a'

/-- The index translation of the ordered (`ord_p_its_impl`, tree.hpp:3621-3631) and unordered (3632-3636) iterators. -/
def TS.tr (s : TS env) (ordered : Bool) : Nat → Option Nat := if ordered then fun k => s.invPerm[k]? else fun k => some k

/-- What a call leaves behind: the new state, or an exception and the state after it, or undefined behaviour. -/
inductive Out (env : Env)
  | ok (s : TS env)
  | threw (e : Err) (s : TS env)
  | ub

/-- The `catch (...) { clear(); throw; }` wrapper (tree.hpp:3760-3764, 3799-3803). -/
def guard (r : Except Err (TS env)) (s : TS env) : Out env :=
  match r with
  | .ok s' => .ok s'
  | .error .ub => .ub
  | .error e => .threw e s.clear

/-- `update_particles_dispatch` (tree.hpp:3746-3765). -/
inductive UpdateParticles (s : TS env) (ordered : Bool) (f : Prog env.F) : Out env → Prop
  | callback (e : Err) : f.run (s.tr ordered) s.parts = .error e → UpdateParticles s ordered f (guard (.error e) s)
  | sync (parts : List (List env.F)) (r : Except Err (TS env)) : f.run (s.tr ordered) s.parts = .ok parts →
      Sync { s with parts := parts } r → UpdateParticles s ordered f (guard r { s with parts := parts })

/-- `update_masses_dispatch` (tree.hpp:3782-3805): the callback gets the iterator over the masses only, then all node
properties are recomputed. -/
def updateMasses (s : TS env) (ordered : Bool) (f : Prog env.F) : Out env :=
  guard (do
    let m ← f.run (s.tr ordered) (s.parts.drop env.d)
    let parts := s.parts.take env.d ++ m
    let props ← s.tree.mapM (fun nd => env.props s.box nd parts)
    pure { s with parts := parts, props := props }) s

/-- Copy constructor (tree.hpp:1735-1743). -/
def copyCtor (o : TS env) : TS env :=
  ⟨o.box, o.deduced, o.maxLeaf, o.ncrit, o.parts, o.codes, o.perm, o.lastPerm, o.invPerm, o.tree, o.props, o.crit⟩

/-- Move constructor (tree.hpp:1745-1766): the new object, and the source after `other.clear()`. `junk` is whatever
moving left in the source (its number of particle arrays is fixed). -/
def moveCtor (o junk : TS env) : TS env × TS env :=
  (⟨o.box, o.deduced, o.maxLeaf, o.ncrit, o.parts, o.codes, o.perm, o.lastPerm, o.invPerm, o.tree, o.props, o.crit⟩, junk.clear)

/-- Copy assignment (tree.hpp:1767-1800): member by member; `fail = some k` means that the `k`-th member copy throws
(out of memory), in which case the object is cleared. `same` is `this == &other`. -/
def copyAssign (t o : TS env) (same : Bool) (fail : Option Nat) : Out env :=
  if same then .ok t else
  let steps : List (TS env → TS env) :=
    [fun t => { t with box := o.box }, fun t => { t with deduced := o.deduced }, fun t => { t with maxLeaf := o.maxLeaf },
     fun t => { t with ncrit := o.ncrit }, fun t => { t with parts := o.parts }, fun t => { t with codes := o.codes },
     fun t => { t with perm := o.perm }, fun t => { t with lastPerm := o.lastPerm }, fun t => { t with invPerm := o.invPerm },
     fun t => { t with tree := o.tree, props := o.props }, fun t => { t with crit := o.crit }]
  match fail with
  | none => .ok (steps.foldl (fun t f => f t) t)
  | some k => if k < steps.length then .threw .user ((steps.take k).foldl (fun t f => f t) t).clear
              else .ok (steps.foldl (fun t f => f t) t)

/-- Move assignment (tree.hpp:1801-1827): the target and the source afterwards. -/
def moveAssign (t o junk : TS env) (same : Bool) : TS env × TS env :=
  if same then (t, t) else
  let t := { t with box := o.box }
  let t := { t with deduced := o.deduced }
  let t := { t with maxLeaf := o.maxLeaf }
  let t := { t with ncrit := o.ncrit }
  let t := { t with parts := o.parts }
  let t := { t with codes := o.codes }
  let t := { t with perm := o.perm }
  let t := { t with lastPerm := o.lastPerm }
  let t := { t with invPerm := o.invPerm }
  let t := { t with tree := o.tree, props := o.props }
  let t := { t with crit := o.crit }
  (t, junk.clear)

/-- All states a tree can be in: histories of construction, updates (successful or failed), copies, moves, clears. -/
inductive Reach (env : Env) : TS env → Prop
  | default : Reach env (TS.default env)
  | construct (inp : Input env) (s : TS env) : inp.parts.length = env.d + 1 → Construct inp (.ok s) → Reach env s
  | particles (s s' : TS env) (ordered : Bool) (f : Prog env.F) : Reach env s → UpdateParticles s ordered f (.ok s') → Reach env s'
  | particlesFail (s s' : TS env) (ordered : Bool) (f : Prog env.F) (e : Err) : Reach env s →
      UpdateParticles s ordered f (.threw e s') → Reach env s'
  | masses (s s' : TS env) (ordered : Bool) (f : Prog env.F) : Reach env s → updateMasses s ordered f = .ok s' → Reach env s'
  | massesFail (s s' : TS env) (ordered : Bool) (f : Prog env.F) (e : Err) : Reach env s →
      updateMasses s ordered f = .threw e s' → Reach env s'
  | copy (s : TS env) : Reach env s → Reach env (copyCtor s)
  | moveTo (s junk : TS env) : Reach env s → junk.parts.length = env.d + 1 → Reach env (moveCtor s junk).1
  | moveFrom (s junk : TS env) : Reach env s → junk.parts.length = env.d + 1 → Reach env (moveCtor s junk).2
  | copyAssign (t o s : TS env) (same : Bool) (fail : Option Nat) : Reach env t → Reach env o →
      Rakau.copyAssign t o same fail = .ok s → Reach env s
  | copyAssignFail (t o s : TS env) (same : Bool) (fail : Option Nat) (e : Err) : Reach env t → Reach env o →
      Rakau.copyAssign t o same fail = .threw e s → Reach env s
  | moveAssignTo (t o junk : TS env) (same : Bool) : Reach env t → Reach env o → junk.parts.length = env.d + 1 →
      Reach env (moveAssign t o junk same).1
  | moveAssignFrom (t o junk : TS env) (same : Bool) : Reach env t → Reach env o → junk.parts.length = env.d + 1 →
      Reach env (moveAssign t o junk same).2
  | clear (s : TS env) : Reach env s → Reach env s.clear

end Rakau
