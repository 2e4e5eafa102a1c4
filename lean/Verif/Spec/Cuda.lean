import Verif.Model.CudaHost
import Mathlib.Data.Set.Insert

/-!
Rules for the use of the CUDA runtime, independent of the library: which sequences of calls are legal, and which resources they leave behind.
-/
namespace Rakau.Spec
open Cuda

/-- A stream: its handle and device, and what its operations that have not been waited for use: arrays and host areas. -/
structure Stream where
  h : Nat
  dev : Nat
  arrs : List Nat
  areas : List Area
  deriving DecidableEq

/-- The resources in existence: the current device, pinned host areas, arrays (handle, device on which they are, `none` for managed memory, number of elements), streams. -/
structure Held where
  dev : Nat
  pinned : List Area
  arrs : List (Nat × Option Nat × Nat)
  streams : List Stream
  deriving DecidableEq

def Held.empty (dev : Nat) : Held := ⟨dev, [], [], []⟩

/-- Array `h` exists and has at least `len` elements. -/
def Held.has (r : Held) (h len : Nat) : Bool := r.arrs.any (fun a => a.1 == h && decide (len ≤ a.2.2))

/-- Array `h` exists, on device `dev` or in managed memory, and has at least `len` elements. -/
def Held.hasOn (r : Held) (dev h len : Nat) : Bool := r.arrs.any (fun a => a.1 == h && (a.2.1 == some dev || a.2.1 == none) && decide (len ≤ a.2.2))

def Held.on (r : Held) (s : Nat) (f : Stream → Stream) : Held := { r with streams := r.streams.map (fun x => if x.h = s then f x else x) }

/-- The resources after a call, `none` if the call is illegal: it uses what does not exist, frees or unpins memory that an operation in progress uses, allocates a
handle that is in use, destroys a stream that has not been waited for, starts a kernel on the stream of another device or with arrays of another device or too short,
sets the current device to one that is not below `g`. -/
def step (g : Nat) (r : Held) : Ev → Option Held
  | .pin a _ rc => if a ∈ r.pinned then (if rc = .success then none else some r) else some (if rc = .success then { r with pinned := a :: r.pinned } else r)
  | .unpin a => if a ∈ r.pinned ∧ ∀ s ∈ r.streams, a ∉ s.areas then some { r with pinned := r.pinned.erase a } else none
  | .setDevice i rc => if i < g then some (if rc = .success then { r with dev := i } else r) else none
  | .malloc h m len rc =>
    if rc = .success then (if r.arrs.any (fun a => a.1 == h) then none else some { r with arrs := (h, (if m then none else some r.dev), len) :: r.arrs }) else some r
  | .free h => if r.has h 0 = true ∧ ∀ s ∈ r.streams, h ∉ s.arrs then some { r with arrs := r.arrs.filter (fun a => a.1 != h) } else none
  | .memcpy h _ len _ => if r.has h len then some r else none
  | .advise h i _ => if r.has h 0 = true ∧ i < g then some r else none
  | .deviceSync _ => some r
  | .streamCreate h rc =>
    if rc = .success then (if r.streams.any (fun s => s.h == h) then none else some { r with streams := ⟨h, r.dev, [], []⟩ :: r.streams }) else some r
  | .launch s res ins b e _ =>
    if r.streams.any (fun x => x.h == s && x.dev == r.dev) = true ∧ res.all (fun h => r.hasOn r.dev h (e - b)) = true ∧ ins.all (fun h => r.hasOn r.dev h 0) = true then
      some (r.on s (fun x => { x with arrs := res ++ ins ++ x.arrs }))
    else none
  | .copyOut s a _ h len _ =>
    if r.streams.any (fun x => x.h == s) = true ∧ r.has h len = true then some (r.on s (fun x => { x with arrs := h :: x.arrs, areas := a :: x.areas })) else none
  | .streamSync s _ => if r.streams.any (fun x => x.h == s) then some (r.on s (fun x => { x with arrs := [], areas := [] })) else none
  | .streamDestroy s =>
    if r.streams.any (fun x => x.h == s && x.arrs == [] && x.areas == []) then some { r with streams := r.streams.filter (fun x => x.h != s) } else none

/-- The resources after a sequence of calls. -/
def run (g : Nat) : Held → List Ev → Option Held
  | r, [] => some r
  | r, e :: l => (step g r e).bind (fun r => run g r l)

/-- A call the failure of which the host code has to notice, and which failed. -/
def failed : Ev → Bool
  | .setDevice _ rc => rc != .success
  | .malloc _ _ _ rc => rc != .success
  | .memcpy _ _ _ rc => rc != .success
  | .advise _ _ rc => rc == .failure
  | .deviceSync rc => rc != .success
  | .streamCreate _ rc => rc != .success
  | .copyOut _ _ _ _ _ rc => rc != .success
  | .launch _ _ _ _ _ rc => rc != .success
  | .streamSync _ rc => rc != .success
  | _ => false

/-- Kernel launches, and the calls that report what went wrong in a stream. -/
def isAsync : Ev → Bool
  | .launch _ _ _ _ _ _ => true
  | .streamSync _ _ => true
  | _ => false

/-- Contents of arrays and of host areas. -/
structure Contents (V : Type) where
  dev : Nat → Nat → V
  host : Area → Nat → V

/-- The effect of a call on the contents. `kern j p` is the value that the kernel computes for particle `p` and result `j`; a call that fails has no effect. The operations
are executed one after the other here; those of one stream take place in this order, and those of different streams in any order, which makes no difference if none of them
writes what another one reads or writes. -/
def effect {V : Type} (kern : Nat → Nat → V) (m : Contents V) : Ev → Contents V
  | .launch _ res _ b e .success =>
    { m with dev := fun h t => if h ∈ res ∧ t < e - b then kern (res.idxOf h) (b + t) else m.dev h t }
  | .copyOut _ a pos h len .success =>
    { m with host := fun a' q => if a' = a ∧ pos ≤ q ∧ q < pos + len then m.dev h (q - pos) else m.host a' q }
  | _ => m

def effects {V : Type} (kern : Nat → Nat → V) : Contents V → List Ev → Contents V := List.foldl (effect kern)

/-- Memory: an array of a device, an element of a host area. -/
inductive Mem
  | arr (h : Nat)
  | host (a : Area) (q : Nat)

/-- The stream of an asynchronous operation. -/
def streamOf : Ev → Option Nat
  | .launch s _ _ _ _ _ => some s
  | .copyOut s _ _ _ _ _ => some s
  | _ => none

/-- What an asynchronous operation writes. -/
def writes : Ev → Set Mem
  | .launch _ res _ _ _ _ => {x | ∃ h ∈ res, x = .arr h}
  | .copyOut _ a pos _ len _ => {x | ∃ q, pos ≤ q ∧ q < pos + len ∧ x = .host a q}
  | _ => ∅

/-- What an asynchronous operation reads. -/
def reads : Ev → Set Mem
  | .launch _ _ ins _ _ _ => {x | ∃ h ∈ ins, x = .arr h}
  | .copyOut _ _ _ h _ _ => {.arr h}
  | _ => ∅

/-- The numbers of particles and nodes fit into the types of the kernel's arguments, and the sizes of arrays into `std::size_t`. -/
structure Fits (c : CuCall) : Prop where
  idx : ∀ i ≤ c.ngpus, c.idx i < 2 ^ 31
  mono : ∀ i < c.ngpus, c.idx i ≤ c.idx (i + 1)
  nodes : c.nodes < 2 ^ 31
  szNode : c.nodes ≤ (2 ^ 64 - 1) / c.szNode
  szF : c.n ≤ (2 ^ 64 - 1) / c.szF
  szU : c.n ≤ (2 ^ 64 - 1) / c.szU
  last : ∀ i ≤ c.ngpus, c.idx i ≤ c.n

/-- The particle whose results are the first elements of the result arrays: 0 if these have room for all particles, otherwise the first particle of the devices. -/
def _root_.Rakau.Cuda.CuCall.off (c : CuCall) : Nat := if c.offset then 0 else c.idx 0

/-- The number of elements that host area `a` has: the result arrays have room for the particles from `first` on. -/
def areaLen (n nodes first : Nat) : Area → Nat
  | .out _ => n - first
  | .tree => nodes
  | .codes => n
  | .part _ => n

/-- The elements of a host area that a call registers, reads or writes: the first one, and their number. -/
def hostUse : Ev → Option (Area × Nat × Nat)
  | .pin a len _ => some (a, 0, len)
  | .memcpy _ a len _ => some (a, 0, len)
  | .copyOut _ a pos _ len _ => some (a, pos, len)
  | _ => none

end Rakau.Spec
