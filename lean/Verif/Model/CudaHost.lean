import Verif.Model.Bits

/-!
Model of the host side of the CUDA computation (src/rakau_cuda.cu:42-133, 338-528): the calls to the CUDA runtime, in order, with the scopes of the
objects that own memory, streams and pinned areas.

The runtime is an arbitrary function that gives the result of the `k`-th call. What the host code does is the list of events. Handles (device pointers, streams) are
the number of the call that returned them. `cudaFree`, `cudaStreamSynchronize`, `cudaStreamDestroy` and `cudaHostUnregister` may report errors too; the code ignores them,
as it ignores those of kernel launches. Host memory areas (`Area`) are named by their role in the call.
-/
namespace Rakau.Cuda

/-- Result of a call: `cudaSuccess`, `cudaErrorInvalidDevice`, any other error. -/
inductive Rc
  | success
  | invalidDevice
  | failure
  deriving DecidableEq

/-- The host memory areas of a call (rakau_cuda.cu:349-352): result arrays, nodes, codes, coordinates and masses. -/
inductive Area
  | out (j : Nat)
  | tree
  | codes
  | part (j : Nat)
  deriving DecidableEq

/-- What the host code does; sizes are numbers of elements. -/
inductive Ev
  /-- `cudaHostRegister` of the first `len` elements. -/
  | pin (a : Area) (len : Nat) (rc : Rc)
  | unpin (a : Area)
  | setDevice (i : Nat) (rc : Rc)
  /-- `cudaMalloc` or `cudaMallocManaged`, and the handle if successful. -/
  | malloc (h : Nat) (managed : Bool) (len : Nat) (rc : Rc)
  | free (h : Nat)
  /-- `cudaMemcpy` of the first `len` elements of a host area to an array. -/
  | memcpy (h : Nat) (a : Area) (len : Nat) (rc : Rc)
  | advise (h : Nat) (i : Nat) (rc : Rc)
  | deviceSync (rc : Rc)
  | streamCreate (h : Nat) (rc : Rc)
  /-- A kernel on stream `s` for the particles `[b, e)`, which reads the arrays `ins` and writes the arrays `res`. -/
  | launch (s : Nat) (res ins : List Nat) (b e : Nat) (rc : Rc)
  /-- `cudaMemcpyAsync` of `len` elements of array `h` to the area `a`, from element `pos` on, on stream `s`. -/
  | copyOut (s : Nat) (a : Area) (pos : Nat) (h : Nat) (len : Nat) (rc : Rc)
  /-- `cudaStreamSynchronize`: waits, and reports errors of the operations of the stream. -/
  | streamSync (s : Nat) (rc : Rc)
  | streamDestroy (s : Nat)
  deriving DecidableEq

/-- The exceptions: `std::bad_alloc`, `std::runtime_error`, `std::overflow_error`, `boost::numeric::bad_numeric_cast`. -/
inductive CuExc
  | badAlloc
  | runtime
  | overflow
  | badCast
  deriving DecidableEq

/-- How a piece of code ends: normally, with an exception, or with a call of `std::terminate`. -/
inductive CuOut (α : Type)
  | ok (a : α)
  | throw (e : CuExc)
  | terminate
  deriving DecidableEq

structure CuRes (α : Type) where
  out : CuOut α
  k : Nat
  evs : List Ev
  deriving DecidableEq

/-- Host code: `rt` gives the results of the calls, `k` is the number of calls before. -/
def Cu (α : Type) := (rt : Nat → Rc) → (k : Nat) → CuRes α

namespace Cu
variable {α β : Type}

def pure (a : α) : Cu α := fun _ k => ⟨.ok a, k, []⟩

def bind (m : Cu α) (f : α → Cu β) : Cu β := fun rt k =>
  let x := m rt k
  match x.out with
  | .ok a => let y := f a rt x.k; ⟨y.out, y.k, x.evs ++ y.evs⟩
  | .throw e => ⟨.throw e, x.k, x.evs⟩
  | .terminate => ⟨.terminate, x.k, x.evs⟩

instance : Monad Cu where
  pure := pure
  bind := bind

def throw (e : CuExc) : Cu α := fun _ k => ⟨.throw e, k, []⟩

/-- One call of the runtime: the event may contain its number (the handle) and its result. -/
def call (e : Nat → Rc → Ev) : Cu (Nat × Rc) := fun rt k => ⟨.ok (k, rt k), k + 1, [e k (rt k)]⟩

/-- The code `cl` of a destructor runs after `m`, however `m` ends. Destructors are `noexcept`: an exception in `cl` calls `std::terminate`. -/
def within (cl : Cu Unit) (m : Cu α) : Cu α := fun rt k =>
  let x := m rt k
  match x.out with
  | .terminate => x
  | o =>
    let y := cl rt x.k
    match y.out with
    | .ok _ => ⟨o, y.k, x.evs ++ y.evs⟩
    | _ => ⟨.terminate, y.k, x.evs ++ y.evs⟩

/-- The destructor `cl` runs if `m` throws; otherwise the object lives on. -/
def onThrow (cl : Cu Unit) (m : Cu α) : Cu α := fun rt k =>
  let x := m rt k
  match x.out with
  | .throw e =>
    let y := cl rt x.k
    match y.out with
    | .ok _ => ⟨.throw e, y.k, x.evs ++ y.evs⟩
    | _ => ⟨.terminate, y.k, x.evs ++ y.evs⟩
  | _ => x

/-- Loop over a list. -/
def each {γ : Type} (f : γ → Cu Unit) : List γ → Cu Unit
  | [] => pure ()
  | a :: l => bind (f a) (fun _ => each f l)

end Cu

open Cu

/-- The arguments of `cuda_acc_pot_impl` (rakau_cuda.cu:349-352) that matter here: number of result arrays and dimensions, number of particles and nodes, the
split indices, whether `out` has room for all particles, and `sizeof` of nodes, floating-point numbers and codes. -/
structure CuCall where
  nres : Nat
  d : Nat
  n : Nat
  nodes : Nat
  split : List Nat
  offset : Bool
  szNode : Nat
  szF : Nat
  szU : Nat

namespace CuCall
variable (c : CuCall)

/-- `split_indices[i]`. -/
def idx (i : Nat) : Nat := c.split.getD i 0

/-- `ngpus` (rakau_cuda.cu:408). -/
def ngpus : Nat := c.split.length - 1

/-- The areas in the order of `pin_memory` (rakau_cuda.cu:360-379), with the number of elements that are registered. -/
def areas : List (Area × Nat) :=
  (List.range c.nres).map (fun j => (.out j, c.n)) ++ [(.tree, c.nodes), (.codes, c.n)] ++ (List.range (c.d + 1)).map (fun j => (.part j, c.n))

end CuCall

/-- `pin_memory` (rakau_cuda.cu:360-380): the areas for which the flag is set. -/
def pinAll : List (Area × Nat) → Cu (List Area)
  | [] => Cu.pure []
  | (a, len) :: l => Cu.bind (call (fun _ rc => .pin a len rc)) fun x => Cu.bind (pinAll l) fun r => Cu.pure (if x.2 = .success then a :: r else r)

/-- `unpin_memory` (rakau_cuda.cu:383-401). -/
def unpinAll (l : List Area) : Cu Unit := each (fun a => Cu.bind (call (fun _ _ => .unpin a)) fun _ => Cu.pure ()) l

/-- `cuda_set_device` (rakau_cuda.cu:100-105). -/
def setDevice (i : Nat) : Cu Unit :=
  Cu.bind (call (fun _ rc => .setDevice i rc)) fun x => if x.2 = .success then Cu.pure () else Cu.throw .runtime

/-- `make_scoped_cu_array` (rakau_cuda.cu:43-55): the handle of an array of `len` elements of size `sz`. -/
def makeArray (managed : Bool) (sz len : Nat) : Cu Nat :=
  if len > (2 ^ 64 - 1) / sz then Cu.throw .badAlloc
  else Cu.bind (call (fun h rc => .malloc h managed len rc)) fun x => if x.2 = .success then Cu.pure x.1 else Cu.throw .badAlloc

/-- The destructors of some arrays: `cudaFree` for each. -/
def freeAll (l : List Nat) : Cu Unit := each (fun h => Cu.bind (call (fun _ _ => .free h)) fun _ => Cu.pure ()) l

/-- `cuda_memcpy` (rakau_cuda.cu:77-82). -/
def copyIn (h : Nat) (a : Area) (len : Nat) : Cu Unit :=
  Cu.bind (call (fun _ rc => .memcpy h a len rc)) fun x => if x.2 = .success then Cu.pure () else Cu.throw .runtime

/-- `cuda_mem_advise` (rakau_cuda.cu:107-115) for all devices: `cudaErrorInvalidDevice` is not an error. -/
def adviseAll (h g : Nat) : Cu Unit :=
  each (fun i => Cu.bind (call (fun _ rc => .advise h i rc)) fun x => if x.2 = .failure then Cu.throw .runtime else Cu.pure ()) (List.range g)

/-- The arrays of one device for the results (rakau_cuda.cu:425-429): `acc` are those that exist already, in the local variable `tmp_arrs`. Its destructor frees them
if an exception is thrown, the last one first. -/
def tmpArrays (sz len : Nat) : Nat → List Nat → Cu (List Nat)
  | 0, acc => Cu.pure acc
  | m + 1, acc => Cu.bind (onThrow (freeAll acc.reverse) (makeArray false sz len)) fun h => tmpArrays sz len m (acc ++ [h])

/-- The loop that fills `res_arrs` (rakau_cuda.cu:420-432), and the rest of the function (`body`), during which the vector exists. -/
def withRes (c : CuCall) (body : List (List Nat) → Cu Unit) : List Nat → List (List Nat) → Cu Unit
  | [], acc => within (freeAll (acc.map List.reverse).flatten) (body acc)
  | i :: is, acc =>
    Cu.bind (onThrow (freeAll (acc.map List.reverse).flatten)
      (Cu.bind (setDevice i) fun _ => tmpArrays c.szF (subW 64 (c.idx (i + 1)) (c.idx i)) c.nres [])) fun hs => withRes c body is (acc ++ [hs])

/-- The arrays for coordinates and masses (rakau_cuda.cu:445-454). -/
def withParts (c : CuCall) (body : List Nat → Cu Unit) : List Nat → List Nat → Cu Unit
  | [], acc => within (freeAll acc.reverse) (body acc)
  | j :: js, acc =>
    Cu.bind (onThrow (freeAll acc.reverse) (makeArray true c.szF c.n)) fun h =>
    Cu.bind (onThrow (freeAll (acc ++ [h]).reverse) (Cu.bind (copyIn h (.part j) c.n) fun _ => adviseAll h c.ngpus)) fun _ => withParts c body js (acc ++ [h])

/-- `wait_destroy_streams` (rakau_cuda.cu:475-487); stream number `i` belongs to device `i`. `cuda_set_device` may throw. -/
def waitDestroy : Nat → List Nat → Cu Unit
  | _, [] => Cu.pure ()
  | i, s :: l =>
    Cu.bind (setDevice i) fun _ => Cu.bind (call (fun _ rc => .streamSync s rc)) fun _ => Cu.bind (call (fun _ _ => .streamDestroy s)) fun _ => waitDestroy (i + 1) l

/-- `cuda_stream_create` (rakau_cuda.cu:117-122). -/
def createStream : Cu Nat := Cu.bind (call (fun h rc => .streamCreate h rc)) fun x => if x.2 = .success then Cu.pure x.1 else Cu.throw .runtime

/-- The guard `sg_wait_destroy_streams`, the creation of the streams (rakau_cuda.cu:489-500), and the rest of the function. The vector has room for all streams:
`push_back` does not throw. -/
def withStreams (body : List Nat → Cu Unit) : List Nat → List Nat → Cu Unit
  | [], acc => within (waitDestroy 0 acc) (body acc)
  | i :: is, acc => Cu.bind (onThrow (waitDestroy 0 acc) (Cu.bind (setDevice i) fun _ => createStream)) fun s => withStreams body is (acc ++ [s])

/-- `boost::numeric_cast<int>` of an unsigned number. -/
def castInt (x : Nat) : Cu Unit := if x < 2 ^ 31 then Cu.pure () else Cu.throw .badCast

/-- The launch of the kernel of device `i` (rakau_cuda.cu:503-519). The result of the launch is not checked. -/
def launch (c : CuCall) (res : List (List Nat)) (ins streams : List Nat) (i : Nat) : Cu Unit :=
  Cu.bind (setDevice i) fun _ =>
  if subW 64 (c.idx (i + 1)) (c.idx i) > 2 ^ 32 - 1 - 31 then Cu.throw .overflow
  else
    Cu.bind (castInt (c.idx i)) fun _ => Cu.bind (castInt (c.idx (i + 1))) fun _ => Cu.bind (castInt c.nodes) fun _ =>
    Cu.bind (call (fun _ rc => .launch (streams.getD i 0) (res.getD i []) ins (c.idx i) (c.idx (i + 1)) rc)) fun _ => Cu.pure ()

/-- The transfer of the results of device `i`, array `j` (rakau_cuda.cu:523-527). -/
def copyOut (c : CuCall) (res : List (List Nat)) (streams : List Nat) (p : Nat × Nat) : Cu Unit :=
  Cu.bind (call (fun _ rc => .copyOut (streams.getD p.1 0) (.out p.2) (subW 64 (c.idx p.1) (if c.offset then 0 else c.idx 0)) ((res.getD p.1 []).getD p.2 0)
    (subW 64 (c.idx (p.1 + 1)) (c.idx p.1)) rc)) fun x => if x.2 = .success then Cu.pure () else Cu.throw .runtime

/-- The part of the function after the allocation of `res_arrs` (rakau_cuda.cu:434-528). -/
def cudaBody (c : CuCall) (res : List (List Nat)) : Cu Unit :=
  Cu.bind (makeArray true c.szNode c.nodes) fun t =>
  within (freeAll [t])
    (Cu.bind (copyIn t .tree c.nodes) fun _ => Cu.bind (adviseAll t c.ngpus) fun _ =>
    withParts c (fun ps =>
      Cu.bind (makeArray true c.szU c.n) fun co =>
      within (freeAll [co])
        (Cu.bind (copyIn co .codes c.n) fun _ => Cu.bind (adviseAll co c.ngpus) fun _ =>
        Cu.bind (each (fun i => Cu.bind (setDevice i) fun _ =>
          Cu.bind (call (fun _ rc => .deviceSync rc)) fun x => if x.2 = .success then Cu.pure () else Cu.throw .runtime) (List.range c.ngpus)) fun _ =>
        withStreams (fun streams =>
          Cu.bind (each (launch c res (t :: co :: ps) streams) (List.range c.ngpus)) fun _ =>
          each (copyOut c res streams) ((List.range c.ngpus).flatMap (fun i => (List.range c.nres).map (fun j => (i, j)))))
          (List.range c.ngpus) []))
      (List.range (c.d + 1)) [])

/-- `cuda_acc_pot_impl` (rakau_cuda.cu:348-528). -/
def cudaHost (c : CuCall) : Cu Unit :=
  Cu.bind (pinAll c.areas) fun pinned => within (unpinAll pinned) (withRes c (cudaBody c) (List.range c.ngpus) [])

end Rakau.Cuda
