import Verif.Model.AccPot
import Verif.Model.Checked

/-!
The overloads of the force functions: output columns given by iterators, by vectors, or by initializer lists
(include/rakau/tree.hpp:3003-3007, 3293-3374). `Model/AccPot.lean` returns one result per particle; here every component goes to its own
column, and the difference type of the iterators is checked. Without accelerators.
-/
namespace Rakau

variable {K : Type} [Field K] [LinearOrder K]

/-- `compute_tree_nvecs_res` (tree_fwd.hpp:129-134). -/
def nvecsRes : Quant → Nat → Nat
  | .acc, d => d
  | .pot, _ => 1
  | .both, d => d + 1

/-- The temporary results of one particle in the order of `res_ptrs`: accelerations from index 0, then the potential (`pot_idx`, tree.hpp:2297
and 2972-2978). -/
def Res.comps (r : Res K) : List (Fl K) := r.acc ++ r.pot

/-- Exceptions of the overloads: `badCast` is `boost::bad_numeric_cast`. -/
inductive OutErr
  | err (e : Err) | badCast
  deriving DecidableEq, Repr

/-- An exception of the force computation. -/
def OutErr.lift {α : Type} : Except Err α → Except OutErr α
  | .ok a => .ok a
  | .error e => .error (.err e)

/-- The maximum of `std::ptrdiff_t`. -/
def ptrMax : Nat := 9223372036854775807

/-- `std::copy` of one component of the results of a critical node to a column, starting at `beg` (tree.hpp:3004-3007): element `k` goes to position
`ix (beg + k)`. Writing beyond the end of the column is undefined. -/
def copyCol {α : Type} (ix : Nat → Option Nat) (beg : Nat) (vals col : List α) : Option (List α) :=
  (List.range vals.length).foldlM (fun col k => do
    let v ← vals[k]?
    let i ← ix (beg + k)
    if i < col.length then some (col.set i v) else none) col

/-- The loop "Write out the result." (tree.hpp:3003-3007); `dmax` is the maximum of the difference type of the iterators. -/
def writeCols (dmax : Nat) (ix : Nat → Option Nat) (nv beg : Nat) (res : List (Res K)) (cols : List (List (Fl K))) :
    Except OutErr (List (List (Fl K))) :=
  (List.range nv).foldlM (fun cols j => do
    if beg > dmax then .error .badCast else
    let vals ← OutErr.lift (ofUB (res.mapM (fun r => r.comps[j]?)))
    let col ← OutErr.lift (ofUB cols[j]?)
    let col' ← OutErr.lift (ofUB (copyCol ix beg vals col))
    .ok (cols.set j col')) cols

/-- `cpu_run` (tree.hpp:2871-3022) on all the critical nodes, in the given order, with one column per component. -/
def Force.cpuRunCols (c : Force K) (dmax : Nat) (ix : Nat → Option Nat) (order : List Nat) (cols : List (List (Fl K))) :
    Except OutErr (List (List (Fl K))) :=
  if !c.padCoord.isFinite then .error (.err .invalidArg) else
  order.foldlM (fun cols i => do
    let cn ← OutErr.lift (ofUB c.crit[i]?)
    let res ← OutErr.lift (c.node cn)
    writeCols dmax ix (nvecsRes c.Q c.d) cn.beg res cols) cols

variable [FloorRing K]

/-- `acc_pot_dispatch` for an array of iterators (tree.hpp:3293-3333) into columns; `dmax` is the maximum of the difference type of the iterators. The
difference type of a permutation iterator is that of the iterators over the permutation, `std::ptrdiff_t`. -/
def TS.accPotIts {A : Arith K} {simd : Option (Simd K)} {mac : Mac} {w d : Nat} (s : TS (rakauEnv A simd mac w d)) (rsqrt : Option (Fl K → Fl K))
    (over : Overshift) (Q : Quant) (ordered : Bool) (dmax : Nat) (theta G eps : Fl K) (split : List (Fl K)) (order : List Nat)
    (cols : List (List (Fl K))) : Except OutErr (List (List (Fl K))) := do
  let (mv, eps2) ← OutErr.lift (checkParams A mac theta G eps)
  OutErr.lift (if ordered then itDiffCheck dmax s.n else .ok ())
  OutErr.lift (checkSplit split)
  (s.force rsqrt over Q mv G eps2).cpuRunCols (if ordered then ptrMax else dmax) (fun i => if ordered then s.perm[i]? else some i) order cols

/-- `acc_pot_ilist_to_array` (tree.hpp:3361-3374) and the overloads for initializer lists (tree.hpp:3405-3500). -/
def TS.accPotIlist {A : Arith K} {simd : Option (Simd K)} {mac : Mac} {w d : Nat} (s : TS (rakauEnv A simd mac w d)) (rsqrt : Option (Fl K → Fl K))
    (over : Overshift) (Q : Quant) (ordered : Bool) (dmax : Nat) (theta G eps : Fl K) (split : List (Fl K)) (order : List Nat)
    (cols : List (List (Fl K))) : Except OutErr (List (List (Fl K))) :=
  if cols.length ≠ nvecsRes Q d then .error (.err .invalidArg) else
  s.accPotIts rsqrt over Q ordered dmax theta G eps split order cols

/-- `std::vector::resize` to `n` elements; new elements are `F(0)`. -/
def resizeVec (n : Nat) (v : List (Fl K)) : List (Fl K) := v.take n ++ List.replicate (n - v.length) (.fin 0)

/-- `acc_pot_dispatch` for an array of vectors, or for one vector (tree.hpp:3336-3357): the outcome, and the vectors after the call. An exception of the
checks leaves the resized vectors (no result is written before the last check; the casts to `std::ptrdiff_t` are covered by `C67_vectors`). -/
def TS.accPotVecs {A : Arith K} {simd : Option (Simd K)} {mac : Mac} {w d : Nat} (s : TS (rakauEnv A simd mac w d)) (rsqrt : Option (Fl K → Fl K))
    (over : Overshift) (Q : Quant) (ordered : Bool) (theta G eps : Fl K) (split : List (Fl K)) (order : List Nat)
    (vecs : List (List (Fl K))) : Except OutErr Unit × List (List (Fl K)) :=
  let cols := vecs.map (resizeVec s.n)
  match s.accPotIts rsqrt over Q ordered ptrMax theta G eps split order cols with
  | .ok cols' => (.ok (), cols')
  | .error e => (.error e, cols)

end Rakau
