import Verif.Model.NodeProps

/-!
Loops of the force computation over the buffers of a target node (include/rakau/tree.hpp:2073-2590), for arbitrary lane operations.

A buffer is a list of particles or of results; the code has one array per component, all of the same size and
accessed at the same indices. Vector operations act on the lanes of a batch independently. The scalar loops are those of a batch of
size 1: same iterations, same order of operations. Loads and stores beyond the end of a buffer are undefined (`none`).
-/
namespace Rakau

variable {P R T : Type}

/-- The load of a batch of `b` elements at index `k` (`batch_type(ptr + k, ...)`). -/
def loadB (v : List P) (k b : Nat) : Option (List P) := if k + b ≤ v.length then some ((v.drop k).take b) else none

/-- The store of a batch at index `k` (`store_aligned`, `store_unaligned`). -/
def storeB (v : List P) (k : Nat) (l : List P) : Option (List P) :=
  if k + l.length ≤ v.length then some (v.take k ++ (l ++ v.drop (k + l.length))) else none

/-- The number of iterations of `for (i = 0; i < size; i += b)`. -/
def steps (size b : Nat) : Nat := (size + (b - 1)) / b

/-- Lane operations of an interaction: on the accumulator of the first particle, and on the result of the second one. -/
structure PairOps (P R : Type) where
  upd1 : P → P → R → R
  upd2 : P → P → R → R
  add : R → R → R
  zero : R

/-- One iteration of the inner loop of the self-interactions (tree.hpp:2096-2138, scalar 2264-2300): batch `p1` with the batch at `i2`.
The state holds the accumulators for `p1` and the result buffer. -/
def selfInner (O : PairOps P R) (b : Nat) (tgt p1 : List P) (st : List R × List R) (i2 : Nat) : Option (List R × List R) := do
  let p2 ← loadB tgt i2 b
  let r2 ← loadB st.2 i2 b
  let acc := List.zipWith (fun p a => O.upd1 p.1 p.2 a) (p1.zip p2) st.1
  let res ← storeB st.2 i2 (List.zipWith (fun p r => O.upd2 p.1 p.2 r) (p1.zip p2) r2)
  some (acc, res)

/-- One iteration of the outer loop (tree.hpp:2085-2143, scalar 2252-2316). -/
def selfOuter (O : PairOps P R) (b size : Nat) (tgt : List P) (res : List R) (i1 : Nat) : Option (List R) := do
  let p1 ← loadB tgt i1 b
  let (acc, res) ← (List.range' (i1 + 1) (size - (i1 + 1))).foldlM (selfInner O b tgt p1) (List.replicate b O.zero, res)
  let r1 ← loadB res i1 b
  storeB res i1 (List.zipWith O.add r1 acc)

/-- `tree_self_interactions` (tree.hpp:2073-2321): `size` target particles, batches of `b`. -/
def selfLoop (O : PairOps P R) (b size : Nat) (tgt : List P) (res : List R) : Option (List R) :=
  (List.range (steps size b)).foldlM (fun res t => selfOuter O b size tgt res (t * b)) res

/-- `tree_acc_pot_leaf` (tree.hpp:2327-2471): every target particle with every source particle. -/
def leafLoop (upd : P → P → R → R) (b size : Nat) (tgt src : List P) (res : List R) : Option (List R) :=
  (List.range (steps size b)).foldlM (fun res t => do
    let p1 ← loadB tgt (t * b) b
    let r ← loadB res (t * b) b
    storeB res (t * b) (src.foldl (fun r q => List.zipWith (fun p r => upd p q r) p1 r) r)) res

/-- The loop of `tree_acc_pot_mac_check` over the target particles (tree.hpp:2643-2768): `none` inside if some particle of a batch
fails the check, otherwise the temporary data stored for `tree_acc_pot_src_com`. -/
def macLoop (fails : P → Bool) (tmp : P → T) (b size : Nat) (tgt : List P) : Option (Option (List T)) :=
  (List.range (steps size b)).foldlM (fun acc t =>
    match acc with
    | none => some none
    | some l => do
      let p ← loadB tgt (t * b) b
      if p.any fails then some none else some (some (l ++ p.map tmp))) (some [])

/-- `tree_acc_pot_src_com` (tree.hpp:2477-2590): the temporary data with the target particles. -/
def comLoop (upd : T → P → R → R) (b size : Nat) (tgt : List P) (tmp : List T) (res : List R) : Option (List R) :=
  (List.range (steps size b)).foldlM (fun res t => do
    let p ← loadB tgt (t * b) b
    let u ← loadB tmp (t * b) b
    let r ← loadB res (t * b) b
    storeB res (t * b) (List.zipWith (fun x r => upd x.1 x.2 r) (u.zip p) r)) res

/-- The multiplication by `G` (tree.hpp:2986-3002). -/
def scaleLoop (f : R → R) (b size : Nat) (res : List R) : Option (List R) :=
  (List.range (steps size b)).foldlM (fun res t => do
    let r ← loadB res (t * b) b
    storeB res (t * b) (r.map f)) res

end Rakau
