import Verif.Model.AccPot

/-!
Model of the distribution of the work between CPU and accelerators (include/rakau/tree.hpp:2858-2868, 3023-3264).

Split values are of type `double`: their arithmetic is `D`, that of `F` is `A`. The products of a `double` and a `float` are computed
in `double` (the conversion is exact).
-/
namespace Rakau

/-- What rakau is configured with (`RAKAU_WITH_ROCM`, `RAKAU_WITH_CUDA`), and what is found when the program runs: an accelerator for ROCm (`m_rocm`) with
`rocm_min_size()` (src/rakau_rocm.cpp:33-36), the number of devices for CUDA (`cuda_device_count()`). -/
inductive Backend
  | none
  | rocm (present : Bool) (minSize : Nat)
  | cuda (devices : Nat)

/-- The distribution of the work: the CPU gets the first `cpu` critical nodes. `dev` is `split_indices`: accelerator `i` gets the particles
`[dev[i], dev[i + 1])`; empty if no accelerator is used. -/
structure Plan where
  cpu : Nat
  dev : List Nat
  deriving DecidableEq, Repr

/-- `cuda_min_size()` (src/rakau_cuda.cu:26-29). -/
def cudaMinSize : Nat := 1000

/-- `std::lower_bound` with the predicate `p`: the partition point. Undefined if the list is not partitioned. -/
def lowerBound {α : Type} (p : α → Bool) (l : List α) : Option Nat :=
  let k := (l.takeWhile p).length
  if (l.drop k).all (fun a => !p a) then some k else none

/-- The adjustment of a particle index to the start of a critical node (tree.hpp:3055-3067, 3168-3179): the number of critical nodes before,
and the index. -/
def boundary (crit : List CNode) (np idx : Nat) : Option (Nat × Nat) := do
  let c ← lowerBound (fun cn => decide (cn.beg < idx)) crit
  some (c, match crit[c]? with
    | some cn => cn.beg
    | none => np)

variable {K : Type} [Field K] [LinearOrder K]

/-- The validation of `split` common to all configurations (tree.hpp:2857-2868). -/
def splitCommon (split : List (Fl K)) : Except Err Unit :=
  if split.any (fun x => !x.isFinite) then .error .invalidArg else
  if split.any (fun x => x.lt (.fin 0)) then .error .invalidArg else
  if !split.isEmpty && split.all (fun x => x.eq (.fin 0)) then .error .invalidArg else .ok ()

variable [FloorRing K]

/-- `boost::numeric_cast<size_type>` of a `double`: the range checks throw (both exceptions derive from `bad_numeric_cast`), but they let a NaN
through, whose conversion is undefined. -/
def castSz : Fl K → Except Err Nat
  | .nan => .error .ub
  | .inf _ => .error .overflow
  | .fin q => if q ≤ -1 ∨ 2 ^ 64 ≤ q then .error .overflow else .ok ⌊q⌋.toNat

/-- The split with ROCm (tree.hpp:3044-3069, 3114-3117). -/
def rocmPlan (D : Arith K) (minSize : Nat) (crit : List CNode) (np : Nat) (s0 s1 : Fl K) : Except Err Plan := do
  let idx ← castSz (D.mul (D.div s0 (D.add s0 s1)) (D.rnd np))
  let (c, k) ← ofUB (boundary crit np idx)
  if minSize ≤ subW 64 np k then .ok ⟨c, [k, np]⟩ else .ok ⟨crit.length, []⟩

/-- The projection of the split values onto particle indices (tree.hpp:3155-3164): `tmp` is `tmp_acc`, followed by the remaining values. -/
def cudaIdx (D A : Arith K) (np : Nat) (acc : Fl K) : Fl K → List (Fl K) → Except Err (List Nat)
  | _, [] => .ok [np]
  | tmp, x :: rest => do
    let i ← castSz (D.mul (D.div tmp acc) (A.rnd np))
    let l ← cudaIdx D A np acc (D.add tmp x) rest
    .ok (i :: l)

/-- The split with CUDA (tree.hpp:3146-3199, 3229-3231), for a non-empty split. -/
def cudaPlan (D A : Arith K) (crit : List CNode) (np : Nat) (split : List (Fl K)) : Except Err Plan := do
  let acc := split.foldl D.add (.fin 0)
  let idx ← cudaIdx D A np acc (split.headD .nan) split.tail
  let (c, k) ← ofUB (boundary crit np (idx.headD 0))
  let dev := k :: idx.tail.map (fun i => if i < k then k else i)
  if (dev.zip dev.tail).all (fun p => !decide (subW 64 p.2 p.1 < cudaMinSize)) then .ok ⟨c, dev⟩ else .ok ⟨crit.length, []⟩

/-- The choice of the workers by `acc_pot_impl` (tree.hpp:2857-2868, 3023-3264). `types`: the dimension and the types are supported on
accelerators (3036-3040, 3142-3145). -/
def splitPlan (B : Backend) (D A : Arith K) (types : Bool) (crit : List CNode) (np : Nat) (split : List (Fl K)) : Except Err Plan := do
  splitCommon split
  match B with
  | .none => if 1 < split.length then .error .invalidArg else .ok ⟨crit.length, []⟩
  | .rocm present minSize =>
    if 2 < split.length then .error .invalidArg else
    if !present && split.length == 2 then .error .invalidArg else
    if types then
      match split with
      | [s0, s1] => rocmPlan D minSize crit np s0 s1
      | _ => .ok ⟨crit.length, []⟩
    else if split.length = 2 then .error .invalidArg else .ok ⟨crit.length, []⟩
  | .cuda devices =>
    if !split.isEmpty && decide (devices < split.length - 1) then .error .invalidArg else
    if types then
      if 1 < split.length then cudaPlan D A crit np split else .ok ⟨crit.length, []⟩
    else if 1 < split.length then .error .invalidArg else .ok ⟨crit.length, []⟩

end Rakau
