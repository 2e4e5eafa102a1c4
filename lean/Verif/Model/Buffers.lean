import Verif.Model.Overloads

/-!
The temporary vectors of the force computation (include/rakau/tree.hpp:1961-2005). They are `static thread_local`: each thread keeps them from one critical
node to the next, from one call to the next and from one tree to the next of the same type, with the contents and sizes of the last use, and also after an
exception. `Model/AccPot.lean` has fresh buffers instead; here the same computation uses the vectors of a thread, one per component, whatever they contain.

New elements of a vector have arbitrary values, as its allocator does not initialise them (detail/di_aligned_allocator.hpp:28-110, tree.hpp:631), and making a vector larger can fail with
`std::bad_alloc`. Loops that read and write results only (`tree_acc_pot_leaf`, `tree_self_interactions`, the multiplication by `G`) are those of
`Model/Loops.lean` on the rows of the vectors. Nothing in the body of the parallel loop runs other tasks, so that a thread does not start a node
before it has finished the last one.
-/
namespace Rakau

/-- Vectors by index. -/
abbrev Cols (K : Type) := Nat → List (Fl K)

/-- The vectors of one thread: `tgt_tmp_data()`, `acc_pot_tmp_res<Q>()` and `acc_pot_tmp_vecs<Q>()` (tree.hpp:1974-2004). -/
structure Bufs (K : Type) where
  tgt : Cols K
  res : Quant → Cols K
  tmp : Quant → Cols K

/-- The behaviour of the memory allocator, by number of request: the values found in new memory, and the requests that fail. -/
structure Heap (K : Type) where
  junk : Nat → Nat → Fl K
  fails : Nat → Bool

/-- The state of a thread; `count` is the number of requests so far. -/
structure Thr (K : Type) where
  bufs : Bufs K
  count : Nat

/-- Exceptions of the force computation with its allocations. -/
inductive Halt
  | err (e : Err) | badAlloc
  deriving DecidableEq, Repr

/-- Computations that use the vectors of a thread. The vectors stay as they are after an exception. -/
def BM (K α : Type) := Thr K → Except Halt α × Thr K

namespace BM
variable {K α β : Type}

def bind (x : BM K α) (f : α → BM K β) : BM K β := fun t =>
  match x t with
  | (.ok a, t) => f a t
  | (.error e, t) => (.error e, t)

instance : Monad (BM K) where
  pure a := fun t => (.ok a, t)
  bind := bind

/-- An operation that is undefined for `none`. -/
def ub : Option α → BM K α
  | some a => fun t => (.ok a, t)
  | none => fun t => (.error (.err .ub), t)

def throw (e : Err) : BM K α := fun t => (.error (.err e), t)

def bufs : BM K (Bufs K) := fun t => (.ok t.bufs, t)

def set (f : Bufs K → Bufs K) : BM K Unit := fun t => (.ok (), { t with bufs := f t.bufs })

/-- A loop over indices. -/
def each (f : Nat → BM K Unit) : List Nat → BM K Unit
  | [] => fun t => (.ok (), t)
  | j :: l => bind (f j) (fun _ => each f l)

end BM

variable {K : Type}

/-- `v.resize(n)` for the vectors with the default-initialising allocator: elements after the last one get arbitrary values. No request for memory
if the vector becomes shorter. A longer one makes a request also where its capacity is sufficient: in that case, a request that does not fail, with the
values that the memory has. -/
def resize (H : Heap K) (n : Nat) (v : List (Fl K)) : BM K (List (Fl K)) := fun t =>
  if n ≤ v.length then (.ok (v.take n), t)
  else if H.fails t.count then (.error .badAlloc, { t with count := t.count + 1 })
  else (.ok (v ++ (List.range (n - v.length)).map (H.junk t.count)), { t with count := t.count + 1 })

/-- Another vector at index `j`. -/
def setCol (cols : Cols K) (j : Nat) (v : List (Fl K)) : Cols K := fun x => if x = j then v else cols x

def setTgt (j : Nat) (v : List (Fl K)) : BM K Unit := BM.set (fun b => { b with tgt := setCol b.tgt j v })
def setRes (Q : Quant) (f : Cols K → Cols K) : BM K Unit := BM.set (fun b => { b with res := fun q => if q = Q then f (b.res q) else b.res q })
def setTmp (Q : Quant) (f : Cols K → Cols K) : BM K Unit := BM.set (fun b => { b with tmp := fun q => if q = Q then f (b.tmp q) else b.tmp q })

/-- `compute_nvecs_tmp` (tree.hpp:1967-1971). -/
def nvecsTmp : Quant → Nat → Nat
  | .acc, d => d + 1
  | .pot, _ => 1
  | .both, d => d + 2

/-- `pot_idx`: the index of the potential in the results (tree.hpp:2297, 2314, 2465, 2582). -/
def potIdx (Q : Quant) (d : Nat) : Nat := if Q = .pot then 0 else d

/-- `dist_idx`: the index of the distances in the temporary data (tree.hpp:2585, 2623, 2772). -/
def distIdx (Q : Quant) (d : Nat) : Nat := if Q = .pot then 0 else d + 1

/-- A store of `l` from index `k` on in vector `j`. -/
def storeCol (cols : Cols K) (j k : Nat) (l : List (Fl K)) : Option (Cols K) := (storeB (cols j) k l).map (setCol cols j)

variable [Field K] [LinearOrder K]

/-- Row `i` of the data of the target node (`p_ptrs[j][i]`). -/
def ptRow (d : Nat) (cols : Cols K) (i : Nat) : Option (Pt K) := do
  let pos ← (List.range d).mapM (fun j => (cols j)[i]?)
  let m ← (cols d)[i]?
  some ⟨pos, m⟩

/-- Row `i` of the results (`res_ptrs[j][i]`, `res_ptrs[pot_idx][i]`). -/
def resRow (Q : Quant) (d : Nat) (cols : Cols K) (i : Nat) : Option (Res K) := do
  let acc ← (if Q = .pot then some [] else (List.range d).mapM (fun j => (cols j)[i]?))
  let pot ← (if Q = .acc then some [] else (cols (potIdx Q d))[i]?.map (fun x => [x]))
  some ⟨acc, pot⟩

/-- Row `i` of the temporary data as `tree_acc_pot_src_com` reads it (tree.hpp:2491-2588): the distances that it has no use for are not there. -/
def tmpRow (Q : Quant) (d : Nat) (fast : Bool) (cols : Cols K) (i : Nat) : Option (List (Fl K) × Dist K) := do
  let df ← (if Q = .pot then some [] else (List.range d).mapM (fun j => (cols j)[i]?))
  let d3 ← (if Q = .pot then some .nan else (cols d)[i]?)
  let di ← (if Q = .acc then some .nan else (cols (distIdx Q d))[i]?)
  some (df, ⟨fast, di, d3⟩)

/-- The first `n` rows. -/
def rowsOf {α : Type} (n : Nat) (row : Nat → Option α) : Option (List α) := (List.range n).mapM row

/-- The results back in their vectors. -/
def putRes (Q : Quant) (d : Nat) (rows : List (Res K)) (cols : Cols K) : Cols K := fun j =>
  if Q ≠ .pot ∧ j < d then rows.map (fun r => r.acc.getD j .nan)
  else if Q ≠ .acc ∧ j = potIdx Q d then rows.map (fun r => r.pot.getD 0 .nan)
  else cols j

/-- The store of the coordinate differences for the particles from index `k` on, if accelerations are requested (tree.hpp:2666-2668, 2714-2716, 2736-2740). -/
def storeDiffs (Q : Quant) (d k : Nat) (us : List (List (Fl K) × Dist K)) (cols : Cols K) : Option (Cols K) :=
  if Q = .pot then some cols else
  (List.range d).foldlM (fun cols j => storeCol cols j k (us.map (fun u => u.1.getD j .nan))) cols

/-- The store of the distances (tree.hpp:2669-2673, 2693-2697, 2717-2725, 2752-2766). -/
def storeDists (Q : Quant) (d k : Nat) (us : List (List (Fl K) × Dist K)) (cols : Cols K) : Option (Cols K) := do
  let cols ← (if Q = .pot then some cols else storeCol cols d k (us.map (fun u => u.2.dist3)))
  if Q = .acc then some cols else storeCol cols (distIdx Q d) k (us.map (fun u => u.2.dist))

/-- One iteration of the loop of `tree_acc_pot_mac_check` (vector tree.hpp:2654-2727, scalar 2731-2768): the flag, and the temporary data. The scalar version
stores the differences before the check, the vector version after it. -/
def macStepB (fails : Pt K → Bool) (tmp : Pt K → List (Fl K) × Dist K) (vec : Bool) (Q : Quant) (d b : Nat) (tgt : List (Pt K)) (st : Bool × Cols K) (t : Nat) :
    Option (Bool × Cols K) :=
  if st.1 = false then some st else do
    let p ← loadB tgt (t * b) b
    let cols ← (if vec then some st.2 else storeDiffs Q d (t * b) (p.map tmp) st.2)
    if p.any fails then some (false, cols) else do
    let cols ← (if vec then storeDiffs Q d (t * b) (p.map tmp) cols else some cols)
    let cols ← storeDists Q d (t * b) (p.map tmp) cols
    some (true, cols)

/-- The loop of `tree_acc_pot_mac_check`, until the first batch with a particle that fails the check. -/
def macLoopB (fails : Pt K → Bool) (tmp : Pt K → List (Fl K) × Dist K) (vec : Bool) (Q : Quant) (d b size : Nat) (tgt : List (Pt K)) (cols : Cols K) :
    Option (Bool × Cols K) :=
  (List.range (steps size b)).foldlM (macStepB fails tmp vec Q d b tgt) (true, cols)

namespace Force
variable (c : Force K) (H : Heap K)

/-- An update of the results, all rows of which are in the first `n` elements of the vectors. -/
def updRes (n : Nat) (f : List (Pt K) → List (Res K) → Option (List (Res K))) : BM K Unit := do
  let b ← BM.bufs
  let tgt ← BM.ub (rowsOf n (ptRow c.d b.tgt))
  let res ← BM.ub (rowsOf n (resRow c.Q c.d (b.res c.Q)))
  let res ← BM.ub (f tgt res)
  setRes c.Q (putRes c.Q c.d res)

/-- `tree_acc_pot_mac_check` (tree.hpp:2597-2793): the next node. -/
def macCheckB (size i : Nat) (nd : Node) : BM K Nat := do
  let n := (← BM.bufs).tgt 0 |>.length
  BM.each (fun j => do
    let v ← resize H n ((← BM.bufs).tmp c.Q j)
    setTmp c.Q (setCol · j v)) (List.range (nvecsTmp c.Q c.d))
  let b ← BM.bufs
  let pr ← BM.ub c.props[i]?
  let tgt ← BM.ub (rowsOf n (ptRow c.d b.tgt))
  let st ← BM.ub (macLoopB (macFails c.M (macLh c.hw.A c.mac c.macVal pr) pr.com) (macTmp c.M c.eps2 pr.com) c.M.vec c.Q c.d (c.hw.batch c.d) size tgt (b.tmp c.Q))
  setTmp c.Q (fun _ => st.2)
  if st.1 then
    let us ← BM.ub (rowsOf n (tmpRow c.Q c.d c.M.fast.isSome st.2))
    c.updRes n (fun tgt res => comLoop (comUpd c.M pr.mass) (c.hw.batch c.d) size tgt us res)
    pure (i + nd.nChildren + 1)
  else if nd.nChildren = 0 then
    let src ← BM.ub (ptsAt c.d c.parts nd.beg nd.fin)
    c.updRes n (fun tgt res => leafLoop (leafUpd c.M c.Q c.eps2) (c.hw.batch c.d) size tgt src res)
    pure (i + 1)
  else pure (i + 1)

/-- One iteration of the loop over the source nodes (tree.hpp:2814-2843). -/
def stepB (size tgtCode i : Nat) (nd : Node) : BM K Nat := do
  let s ← BM.ub (shrO c.over c.w tgtCode (mulSz (subW c.w (treeLevel c.w c.d tgtCode) nd.level) c.d))
  if s = nd.code then pure (i + (1 + (if nd.code = tgtCode then nd.nChildren else 0)))
  else c.macCheckB H size i nd

/-- The loop over the source nodes (tree.hpp:2814-2843), at most `fuel` iterations; more are an error. -/
def loopB (size tgtCode : Nat) : Nat → Nat → BM K Unit
  | fuel, i =>
    match c.tree[i]? with
    | none => pure ()
    | some nd =>
      match fuel with
      | 0 => BM.throw .ub
      | fuel + 1 => do
        let j ← c.stepB H size tgtCode i nd
        loopB size tgtCode fuel j

/-- The vectors for the results: "Resize and fill with zeroes" (tree.hpp:2954-2959). -/
def prepRes (n : Nat) : BM K Unit :=
  BM.each (fun j => do
    let v ← resize H n ((← BM.bufs).res c.Q j)
    setRes c.Q (setCol · j v)
    let v ← BM.ub (storeB v 0 (List.replicate n (.fin 0)))
    setRes c.Q (setCol · j v)) (List.range (nvecsRes c.Q c.d))

/-- The vectors for the data of the target node: copy of the particles, then padding (tree.hpp:2960-2974). -/
def prepTgt (n : Nat) (cn : CNode) : BM K Unit :=
  BM.each (fun j => do
    let v ← resize H n ((← BM.bufs).tgt j)
    setTgt j v
    let src ← BM.ub (c.parts[j]?.bind (fun v => loadB v cn.beg (cn.fin - cn.beg)))
    let v ← BM.ub (storeB v 0 src)
    setTgt j v
    let v ← BM.ub (storeB v (cn.fin - cn.beg) (List.replicate (n - (cn.fin - cn.beg)) (if j < c.d then c.padCoord else .fin 0)))
    setTgt j v) (List.range (c.d + 1))

/-- The results for the particles of a critical node (tree.hpp:2929-3007). -/
def nodeB (cn : CNode) : BM K (List (Res K)) := do
  let size := cn.fin - cn.beg
  if 2 ^ 64 - 1 - size < c.hw.pad then BM.throw .overflow else
  let n := size + c.hw.pad
  c.prepRes H n
  c.prepTgt H n cn
  c.loopB H size cn.code c.tree.length 0
  c.updRes n (fun tgt res => selfLoop (selfOps c.M c.Q c.d c.eps2) (c.hw.batch c.d) size tgt res)
  if c.G.eq (.fin 1) then pure () else c.updRes n (fun _ res => scaleLoop (resScale c.hw.A c.G) c.hw.scaleBatch size res)
  let b ← BM.bufs
  BM.ub (rowsOf size (resRow c.Q c.d (b.res c.Q)))

end Force

/-- The vectors of all the threads, and the number of requests for memory so far. -/
structure Banks (K : Type) where
  bank : Nat → Bufs K
  count : Nat

/-- A computation on thread `th`. -/
def onThread {α : Type} (th : Nat) (x : BM K α) (m : Banks K) : Except Halt α × Banks K :=
  match x ⟨m.bank th, m.count⟩ with
  | (r, t) => (r, ⟨fun i => if i = th then t.bufs else m.bank i, t.count⟩)

/-- An exception of the other functions. -/
def Halt.lift {α : Type} : Except Err α → Except Halt α
  | .ok a => .ok a
  | .error e => .error (.err e)

/-- The body of the parallel loop (tree.hpp:2929-3007) for the given pairs of a thread and a critical node, in turn. -/
def Force.runB (c : Force K) (H : Heap K) (ix : Nat → Option Nat) : List (Nat × Nat) → List (Res K) → Banks K → Except Halt (List (Res K)) × Banks K
  | [], out, m => (.ok out, m)
  | (th, i) :: l, out, m =>
    match c.crit[i]? with
    | none => (.error (.err .ub), m)
    | some cn =>
      match onThread th (c.nodeB H cn) m with
      | (.error e, m) => (.error e, m)
      | (.ok res, m) =>
        match Force.write ix out cn.beg res with
        | none => (.error (.err .ub), m)
        | some out => c.runB H ix l out m

/-- `cpu_run` (tree.hpp:2871-3022): `sched` says which thread handles which critical nodes, and when. -/
def Force.cpuRunB (c : Force K) (H : Heap K) (ix : Nat → Option Nat) (sched : List (Nat × Nat)) (out : List (Res K)) (m : Banks K) :
    Except Halt (List (Res K)) × Banks K :=
  if !c.padCoord.isFinite then (.error (.err .invalidArg), m) else c.runB H ix sched out m

variable [FloorRing K]

/-- The arguments of a call, and which thread does what. -/
structure ForceCall (K : Type) [Field K] [LinearOrder K] [FloorRing K] (A : Arith K) (simd : Option (Simd K)) (mac : Mac) (w d : Nat) where
  s : TS (rakauEnv A simd mac w d)
  Q : Quant
  ordered : Bool
  theta : Fl K
  G : Fl K
  eps : Fl K
  split : List (Fl K)
  sched : List (Nat × Nat)
  out : List (Res K)

variable {A : Arith K} {simd : Option (Simd K)} {mac : Mac} {w d : Nat}

/-- `acc_pot_dispatch` (tree.hpp:3293-3333) with the vectors of the threads. -/
def ForceCall.run (k : ForceCall K A simd mac w d) (rsqrt : Option (Fl K → Fl K)) (over : Overshift) (H : Heap K) (m : Banks K) : Except Halt (List (Res K)) × Banks K :=
  match checkParams A mac k.theta k.G k.eps with
  | .error e => (.error (.err e), m)
  | .ok (mv, eps2) =>
    match checkSplit k.split with
    | .error e => (.error (.err e), m)
    | .ok () => (k.s.force rsqrt over k.Q mv k.G eps2).cpuRunB H (fun i => if k.ordered then k.s.perm[i]? else some i) k.sched k.out m

/-- The outcomes of several calls, one after the other, on trees of the same type. -/
def runCalls (rsqrt : Option (Fl K → Fl K)) (over : Overshift) (H : Heap K) : List (ForceCall K A simd mac w d) → Banks K → List (Except Halt (List (Res K)))
  | [], _ => []
  | k :: l, m => (k.run rsqrt over H m).1 :: runCalls rsqrt over H l (k.run rsqrt over H m).2

end Rakau
