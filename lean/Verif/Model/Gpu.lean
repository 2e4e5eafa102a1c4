import Verif.Model.Split

/-!
Model of the accelerator kernels (src/rakau_cuda.cu:137-335, src/rakau_rocm.cpp:116-313), of their launch and the transfer of the results
(src/rakau_cuda.cu:349-528, src/rakau_rocm.cpp:102-325), and of the computation distributed over CPU and accelerators (include/rakau/tree.hpp:3069-3113,
3200-3228).

The threads of a warp (wavefront) vote at every node (`__all_sync`, `hc::__all`) and thus go through the same nodes; a group of threads is the list of their
particle indices. Threads past the end of the range have returned and do not vote. The products followed by sums are written with `fma`: `A.fused` says whether the
device compiler contracts them. The conversions to `int` of particle and node indices are exact, as the launch checks that the numbers of particles and nodes
are below `2 ^ 31`. Transfers of input data, streams, memory advice and errors of the runtime are not modelled.
-/
namespace Rakau

variable {K : Type} [Field K] [LinearOrder K]

/-- What a kernel reads. -/
structure Gpu (K : Type) where
  A : Arith K
  mac : Mac
  w : Nat
  d : Nat
  Q : Quant
  parts : List (List (Fl K))
  codes : List Nat
  tree : List Node
  props : List (NProps K)
  macVal : Fl K
  G : Fl K
  eps2 : Fl K

/-- A sum of squares added to `init`. -/
def devD2 (A : Arith K) (init : Fl K) (df : List (Fl K)) : Fl K := df.foldl (fun acc t => A.fma t t acc) init

/-- Effect of a node on target particle `p` (rakau_cuda.cu:240-266, rakau_rocm.cpp:231-256); `dist2` is the squared distance without softening. -/
def devCom (A : Arith K) (eps2 : Fl K) (df : List (Fl K)) (dist2 m : Fl K) (p : Pt K) (r : Res K) : Res K :=
  let dist2 := A.add dist2 eps2
  let dist := A.fsqrt dist2
  let md3 := A.div m (A.mul dist dist2)
  ⟨List.zipWith (fun t a => A.fma t md3 a) df r.acc, r.pot.map (fun a => A.sub a (A.div (A.mul p.mass m) dist))⟩

/-- Effect of particle `q` of a leaf on target particle `p` (rakau_cuda.cu:272-307, rakau_rocm.cpp:262-297); `self`: it is the target particle. -/
def devPair (A : Arith K) (eps2 : Fl K) (self : Bool) (p q : Pt K) (r : Res K) : Res K :=
  let df := diffs A p.pos q.pos
  let dist2 := devD2 A (A.add eps2 (.fin (if self then 1 else 0))) df
  let dist := A.fsqrt dist2
  let md3 := A.div q.mass (A.mul dist dist2)
  ⟨List.zipWith (fun t a => A.fma t md3 a) df r.acc,
    r.pot.map (fun a => A.sub a (A.div (A.mul (A.mul (.fin (if self then 0 else 1)) p.mass) q.mass) dist))⟩

/-- `std::numeric_limits<int>::max()`. -/
def maxInt : Nat := 2147483647

/-- `std::numeric_limits<unsigned>::max()`. -/
def maxUnsigned : Nat := 4294967295

namespace Gpu

/-- `s_p_code` (rakau_cuda.cu:182, 206; rakau_rocm.cpp:160, 193): the code of particle `k` at the level of a node. -/
def nodal (c : Gpu K) (k level : Nat) : Option Nat := do
  let p ← c.codes[k]?
  let top ← shl c.w 1 (mulSz (cbits c.w c.d) c.d)
  shr c.w (p ||| top) (mulSz (subW c.w (cbits c.w c.d) level) c.d)

/-- The vote of the thread of particle `k` (rakau_cuda.cu:228-238, rakau_rocm.cpp:221-230). -/
def vote (c : Gpu K) (pr : NProps K) (nd : Node) (k : Nat) : Option Bool := do
  let s ← c.nodal k nd.level
  let p ← ptAt c.d c.parts k
  some (decide (s ≠ nd.code) && (macLh c.A c.mac c.macVal pr).lt (devD2 c.A (.fin 0) (diffs c.A p.pos pr.com)))

/-- One iteration of the loop over the source nodes (rakau_cuda.cu:185-325, rakau_rocm.cpp:163-302) for the threads of the particles `lanes`. -/
def step (c : Gpu K) (lanes : List Nat) (res : List (Res K)) (i : Nat) (nd : Node) : Option (Nat × List (Res K)) := do
  let pr ← c.props[i]?
  let votes ← lanes.mapM (c.vote pr nd)
  if votes.all id then
    let res ← (lanes.zip res).mapM (fun kr => do
      let p ← ptAt c.d c.parts kr.1
      let df := diffs c.A p.pos pr.com
      some (devCom c.A c.eps2 df (devD2 c.A (.fin 0) df) pr.mass p kr.2))
    some (i + nd.nChildren + 1, res)
  else if nd.nChildren = 0 then
    let src ← ptsAt c.d c.parts nd.beg nd.fin
    let res ← (lanes.zip res).mapM (fun kr => do
      let p ← ptAt c.d c.parts kr.1
      some (((List.range' nd.beg (nd.fin - nd.beg)).zip src).foldl (fun r lq => devPair c.A c.eps2 (decide (kr.1 = lq.1)) p lq.2 r) kr.2))
    some (i + 1, res)
  else some (i + 1, res)

/-- The loop over the source nodes, at most `fuel` iterations. `none` means that the loop has not finished, and `some none` is undefined behaviour. -/
def loop (c : Gpu K) (lanes : List Nat) : Nat → Nat → List (Res K) → Option (Option (List (Res K)))
  | fuel, i, res =>
    match c.tree[i]? with
    | none => some (some res)
    | some nd =>
      match fuel with
      | 0 => none
      | fuel + 1 =>
        match c.step lanes res i nd with
        | none => some none
        | some (j, res) => c.loop lanes fuel j res

/-- The results of a warp: the loop, and the multiplication by `G` (rakau_cuda.cu:163-334, rakau_rocm.cpp:141-312). -/
def warp (c : Gpu K) (lanes : List Nat) : Option (List (Res K)) := do
  let res ← (c.loop lanes c.tree.length 0 (lanes.map (fun _ => resZero c.Q c.d))).bind id
  some (res.map (resScale c.A c.G))

/-- The local indices of the threads of block `blk` that have a particle in `[b, e)` (rakau_cuda.cu:156-162, rakau_rocm.cpp:125-131). -/
def block (bs b e blk : Nat) : List Nat := ((List.range bs).map (fun t => blk * bs + t)).filter (fun l => !decide (e ≤ l + b))

/-- A kernel on the particles `[b, e)`: blocks of `bs` threads (rakau_cuda.cu:510-512: 32, rakau_rocm.cpp:116: `__HSA_WAVEFRONT_SIZE__`), each thread
writes its result to its local index of the buffer. -/
def launch (c : Gpu K) (bs b e : Nat) (buf : List (Res K)) : Option (List (Res K)) :=
  (List.range ((e - b + (bs - 1)) / bs)).foldlM (fun buf blk => do
    let ls := block bs b e blk
    let res ← c.warp (ls.map (· + b))
    (ls.zip res).foldlM (fun buf lr => if lr.1 < buf.length then some (buf.set lr.1 lr.2) else none) buf) buf

/-- The work of accelerator `i` (rakau_cuda.cu:403-404, 494-521; rakau_rocm.cpp:111-114): checks, kernel, transfer of the results to the output. -/
def device (c : Gpu K) (bs : Nat) (idx : List Nat) (offset : Bool) (junk : Res K) (i : Nat) (out : List (Res K)) : Except Err (List (Res K)) := do
  let k0 ← ofUB idx[0]?
  let b ← ofUB idx[i]?
  let e ← ofUB idx[i + 1]?
  let loc := subW 64 e b
  if maxUnsigned - 31 < loc then .error .overflow else
  if maxInt < b ∨ maxInt < e ∨ maxInt < c.tree.length then .error .overflow else
  let buf ← ofUB (c.launch bs b e (List.replicate loc junk))
  ofUB (Force.write some out (b - (if offset then 0 else k0)) buf)

/-- `cuda_acc_pot_impl` (rakau_cuda.cu:349-528), `rocm_state::acc_pot` (rakau_rocm.cpp:102-325): the results of the devices arrive in the order `order`. -/
def devices (c : Gpu K) (bs : Nat) (idx : List Nat) (offset : Bool) (junk : Res K) (order : List Nat) (out : List (Res K)) : Except Err (List (Res K)) :=
  order.foldlM (fun out i => c.device bs idx offset junk i out) out

/-- The asynchronous task for the accelerators (tree.hpp:3074-3106, 3200-3225): directly into the output if it is given by pointers, otherwise
through temporary arrays. -/
def task (c : Gpu K) (bs np : Nat) (idx : List Nat) (ptr : Bool) (junk : Res K) (order : List Nat) (ix : Nat → Option Nat) (out : List (Res K)) :
    Except Err (List (Res K)) := do
  if ptr then c.devices bs idx true junk order out else
  let k0 ← ofUB idx[0]?
  let tmp ← c.devices bs idx false junk order (List.replicate (subW 64 np k0) (resZero c.Q c.d))
  ofUB (Force.write ix out k0 tmp)

end Gpu

variable [FloorRing K]

/-- What a kernel reads from a tree. `Dv` is the arithmetic of the device. -/
def TS.gpu {A : Arith K} {simd : Option (Simd K)} {mac : Mac} {w d : Nat} (s : TS (rakauEnv A simd mac w d)) (Dv : Arith K) (Q : Quant)
    (macVal G eps2 : Fl K) : Gpu K :=
  ⟨Dv, mac, w, d, Q, s.parts, s.codes, s.tree, s.props, macVal, G, eps2⟩

/-- How the pieces of a distributed computation interleave: critical nodes processed by the CPU before and after the results of the accelerators arrive, and
the order of the accelerators. -/
structure Sched where
  before : List Nat
  after : List Nat
  dev : List Nat

/-- The threads of a block. -/
def Backend.blockSize : Backend → Nat
  | .cuda _ => 32
  | .rocm _ m => m
  | .none => 1

/-- `acc_pot_dispatch` (tree.hpp:3293-3333) with accelerators. `ptr`: the output is given by pointers (only possible for unordered output). The outputs
of CPU and accelerators go to different positions (`C29_partial`), so that every execution is equivalent to one of these orders. -/
def TS.accPotDev {A : Arith K} {simd : Option (Simd K)} {mac : Mac} {w d : Nat} (s : TS (rakauEnv A simd mac w d)) (B : Backend) (D Dv : Arith K) (types : Bool)
    (rsqrt : Option (Fl K → Fl K)) (over : Overshift) (Q : Quant) (ordered ptr : Bool) (theta G eps : Fl K) (split : List (Fl K)) (junk : Res K)
    (o : Plan → Sched) (out : List (Res K)) : Except Err (List (Res K)) := do
  let (mv, eps2) ← checkParams A mac theta G eps
  let plan ← splitPlan B D A types s.crit s.n split
  let ix := fun i => if ordered then s.perm[i]? else some i
  let c := s.force rsqrt over Q mv G eps2
  let out ← c.cpuRun ix (o plan).before out
  let out ← if plan.dev.isEmpty then .ok out
    else (s.gpu Dv Q mv G eps2).task B.blockSize s.n plan.dev (ptr && !ordered) junk (o plan).dev ix out
  c.cpuRun ix (o plan).after out

end Rakau
