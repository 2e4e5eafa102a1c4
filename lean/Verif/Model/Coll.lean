import Verif.Model.Trav
import Verif.Model.NodeProps

/-!
Model of the collision graph (include/rakau/detail/tree_coll.hpp).

The parallel loops push into concurrent vectors: the model allows every order of the elements within each vector. An exception (or
undefined behaviour) in any task is a possible outcome of the call. `it_diff_check` (C43) and the `numeric_cast`s of sizes are not
repeated here. The assertions are in Model/Asserts.lean.
-/
namespace Rakau

variable {K : Type} [Field K] [LinearOrder K] [FloorRing K]

/-- The loop of `tree_coll_size_to_level` (tree_coll.hpp:62-71): `fuel` iterations remain (`cbits - retval`), result relative to the
current level. `F(1)/F(2)` is exact. -/
def sizeLoop (A : Arith K) (s : Fl K) : Nat → Fl K → Nat
  | 0, _ => 0
  | fuel + 1, cur =>
    let next := A.mul cur (.fin (1 / 2))
    if next.le s then 0 else sizeLoop A s fuel next + 1

/-- `tree_coll_size_to_level` (tree_coll.hpp:46-74). -/
def sizeToLevel (A : Arith K) (cb : Nat) (s box : Fl K) : Nat := sizeLoop A s cb box

/-- The minimum and maximum coordinates of an AABB (tree_coll.hpp:101-120). -/
def aabbBounds (A : Arith K) (half : Fl K) (x : Fl K) : Except Err (Fl K × Fl K) :=
  let lo := A.sub x half
  let hi := A.add x half
  if !lo.isFinite || !hi.isFinite || lo.gt hi then .error .invalidArg else .ok (lo, hi)

/-- The code of vertex `i` of an AABB (tree_coll.hpp:143-150): bit `j` of `i` selects the minimum or maximum coordinate `j`. -/
def vertexCode (A : Arith K) (w cb : Nat) (top : K) (bs : List (Fl K × Fl K)) (inv : Fl K) (i : Nat) : Except Err Nat := do
  let ds ← bs.zipIdx.mapM (fun b => discClamp A w cb top (if (i >>> b.2) &&& 1 = 0 then b.1.1 else b.1.2) inv)
  ofUB (mortonEncode w ds)

/-- `tree_coll_get_aabb_codes` (tree_coll.hpp:79-153). -/
def aabbCodes (A : Arith K) (w d : Nat) (top : K) (pos : List (Fl K)) (size inv : Fl K) : Except Err (List Nat) := do
  let bs ← pos.mapM (aabbBounds A (A.mul size (.fin (1 / 2))))
  (List.range (2 ^ d)).mapM (vertexCode A w (cbits w d) top bs inv)

/-- `tree_coll_node_range` (tree_coll.hpp:159-175). `w - shift` is computed in `std::size_t`; the shift amount is at most `w`. -/
def nodeRange (over : Overshift) (w d code level : Nat) : Option (Nat × Nat) := do
  let shift := mulSz (subW w (cbits w d) level) d
  let mn ← shl w code shift
  let ones ← shrO over w (2 ^ w - 1) (w - shift)
  some (mn, (mn + ones) % 2 ^ w)

/-- `coll_leaves_permutation` (tree_coll.hpp:182-208), composed with the tree: the leaves, in order. -/
def leaves (tree : List Node) : List Node := tree.filter (fun nd => nd.nChildren == 0)

/-- The particle's AABB size (tree_coll.hpp:292, 510, 531): `sz` are the values behind the iterator, reading beyond them is undefined. -/
def aabbSize (perm : List Nat) (ordered : Bool) (sz : List (Fl K)) (pidx : Nat) : Option (Fl K) :=
  if ordered then do sz[(← perm[pidx]?)]? else sz[pidx]?

/-- `straddles` (tree_coll.hpp:322-333). -/
def straddles (w d llevel pcode : Nat) (vs : List Nat) : Option Bool := do
  let shift := mulSz (subW w (cbits w d) llevel) d
  let pre ← shr w pcode shift
  let ps ← vs.mapM (fun v => shr w v shift)
  some (ps.any (· != pre))

/-- `std::lower_bound`/`std::upper_bound`: the partition point of `l` with respect to `p`. Undefined (`none`) if `l` is not
partitioned or if the comparison is undefined for some element (the standard does not say which elements are compared). -/
def partitionPoint (p : Node → Option Bool) (l : List Node) : Option Nat := do
  let bs ← l.mapM p
  let k := (bs.takeWhile id).length
  if (bs.drop k).all (!·) then some k else none

/-- The two searches (tree_coll.hpp:401-416): the range of leaves overlapping the codes `[rng.1, rng.2]`. -/
def searchLeaves (over : Overshift) (w d : Nat) (lvs : List Node) (rng : Nat × Nat) : Option (Nat × Nat) := do
  let b ← partitionPoint (fun n => (nodeRange over w d n.code n.level).map (fun r => decide (r.2 < rng.1))) lvs
  let k ← partitionPoint (fun n => (nodeRange over w d n.code n.level).map (fun r => !decide (rng.2 < r.1))) (lvs.drop b)
  some (b, b + k)

/-- The code of the node at level `al` containing the vertex `v` (tree_coll.hpp:384-385). -/
def enclosing (w d v al : Nat) : Option Nat := do
  let a ← shr w v (mulSz (subW w (cbits w d) al) d)
  let b ← shl w 1 (mulSz al d)
  some ((a + b) % 2 ^ w)

/-- `al_copy >= llevel && s_code >> ((al_copy - llevel) * NDim) == lcode` (tree_coll.hpp:387). -/
def fitsLeaf (w d scode al : Nat) (lf : Node) : Option Bool :=
  if al ≥ lf.level then do
    let a ← shr w scode (mulSz (subW w al lf.level) d)
    some (a == lf.code)
  else some false

/-- One iteration at level `al` of the loop for vertex `v` (tree_coll.hpp:381-428): `none` to continue, `some none` if the node fits
in the leaf `lf` of the particle, otherwise the (non-empty) range of leaves found. -/
def coverStep (over : Overshift) (w d : Nat) (lvs : List Node) (lf : Node) (v al : Nat) : Option (Option (Option (Nat × Nat))) := do
  let sc ← enclosing w d v al
  let f ← fitsLeaf w d sc al lf
  if f then some (some none) else
  let rng ← nodeRange over w d sc al
  let be ← searchLeaves over w d lvs rng
  some (if be.1 ≠ be.2 then some (some be) else none)

/-- The loop over the levels (tree_coll.hpp:381-428). After the iteration at level zero the level would wrap around and the next
iteration would shift by too much: undefined. -/
def coverLoop (over : Overshift) (w d : Nat) (lvs : List Node) (lf : Node) (v : Nat) : Nat → Option (Option (Nat × Nat))
  | 0 => (coverStep over w d lvs lf v 0).bind id
  | al + 1 => (coverStep over w d lvs lf v (al + 1)).bind (fun r =>
      match r with
      | some x => some x
      | none => coverLoop over w d lvs lf v al)

/-- The leaves (positions in `lvs`) to which a vertex adds the particle (tree_coll.hpp:430-447). -/
def coverAdds (lvs : List Node) (lf : Node) : Option (Nat × Nat) → List Nat
  | none => []
  | some (b, e) => (List.range' b (e - b)).filter (fun i => (lvs[i]?).any (fun n => n.code != lf.code))

variable {A : Arith K} {simd : Option (Simd K)} {mac : Mac} {w d : Nat}

/-- The treatment of particle `pidx` of leaf `lf` in the first phase (tree_coll.hpp:287-449): the positions of the leaves to which
the particle is added, in order (with repetitions). -/
def collParticle (s : TS (rakauEnv A simd mac w d)) (over : Overshift) (top : K) (ordered : Bool) (sz : List (Fl K)) (lf : Node)
    (pidx : Nat) : Except Err (List Nat) := do
  let a ← ofUB (aabbSize s.perm ordered sz pidx)
  if !a.isFinite || a.lt (.fin 0) then .error .invalidArg else
  if a.eq (.fin 0) then .ok [] else
  let pos ← ofUB (coordsAt d s.parts pidx)
  let vs ← aabbCodes A w d top pos a (invBox A s.box)
  let pcode ← ofUB s.codes[pidx]?
  let st ← ofUB (straddles w d lf.level pcode vs)
  if !st then .ok [] else
  let cs ← ofUB (vs.mapM (fun v => coverLoop over w d (leaves s.tree) lf v (sizeToLevel A (cbits w d) a s.box)))
  .ok (cs.flatMap (coverAdds (leaves s.tree) lf))

/-- The particles visited by the first phase with their leaves (tree_coll.hpp:274-287). -/
def collTasks (tree : List Node) : List (Node × Nat) :=
  (leaves tree).flatMap (fun lf => (List.range' lf.beg (lf.fin - lf.beg)).map (fun p => (lf, p)))

/-- Concurrent `push_back`s: `ps` lists the pairs (index of the vector, value). Every vector ends up with its old elements and the
pushed ones, in any order. -/
def Pushed (ps : List (Nat × Nat)) (old new : List (List Nat)) : Prop :=
  new.length = old.length ∧ ∀ i (h : i < old.length) (h' : i < new.length),
    new[i].Perm (old[i] ++ (ps.filter (fun p => p.1 == i)).map (·.2))

/-- `std::unique` followed by erasing the tail. -/
def uniq : List Nat → List Nat
  | a :: b :: l => if a = b then uniq (b :: l) else a :: uniq (b :: l)
  | l => l

/-- All pairs of elements at positions `i < j` (tree_coll.hpp:503, 524). -/
def pairs : List Nat → List (Nat × Nat)
  | [] => []
  | a :: l => l.map (fun b => (a, b)) ++ pairs l

/-- Bounds of an AABB in one dimension (tree_coll.hpp:520-521, 542-543). -/
def segment (A : Arith K) (size x : Fl K) : Fl K × Fl K :=
  (A.fma size (A.div (.fin (-1)) (.fin 2)) x, A.fma size (A.div (.fin 1) (.fin 2)) x)

/-- The overlap test (tree_coll.hpp:540-553): all dimensions must overlap. -/
def overlap (A : Arith K) (sa sb : Fl K) (pa pb : List (Fl K)) : Bool :=
  (pa.zip pb).all (fun x =>
    let u := segment A sa x.1
    let v := segment A sb x.2
    u.2.ge v.1 && u.1.le v.2)

/-- The index written to the graph (tree_coll.hpp:557-563): undefined if beyond the `n` vectors of the graph. -/
def graphIdx (perm : List Nat) (n : Nat) (ordered : Bool) (i : Nat) : Option Nat :=
  (if ordered then perm[i]? else some i).bind (fun j => if j < n then some j else none)

/-- The pairs recorded for two particles of a leaf (tree_coll.hpp:505-564). -/
def testPair (s : TS (rakauEnv A simd mac w d)) (ordered : Bool) (sz : List (Fl K)) (p : Nat × Nat) : Option (List (Nat × Nat)) := do
  let sa ← aabbSize s.perm ordered sz p.1
  if sa.eq (.fin 0) then some [] else
  let sb ← aabbSize s.perm ordered sz p.2
  if sb.eq (.fin 0) then some [] else
  let pa ← coordsAt d s.parts p.1
  let pb ← coordsAt d s.parts p.2
  if overlap A sa sb pa pb then do
    let i ← graphIdx s.perm s.n ordered p.1
    let j ← graphIdx s.perm s.n ordered p.2
    some [(i, j), (j, i)]
  else some []

/-- The treatment of leaf `lf` in the second phase (tree_coll.hpp:486-566): `va` are the additional particles after sorting. -/
def collLeaf (s : TS (rakauEnv A simd mac w d)) (ordered : Bool) (sz : List (Fl K)) (lf : Node) (va : List Nat) :
    Option (List (Nat × Nat)) := do
  let ps ← (pairs (List.range' lf.beg (lf.fin - lf.beg) ++ uniq va)).mapM (testPair s ordered sz)
  some ps.flatten

/-- The preparation of the output (tree_coll.hpp:232-250): resize, then clear unless it was empty before. -/
def cgPrepare (old : List (List Nat)) (n : Nat) : List (List Nat) :=
  let r := old.take n ++ List.replicate (n - old.length) []
  if old.isEmpty then r else r.map (fun _ => [])

/-- `a < b` on indices, the order used by `std::sort`. -/
def idxLt (a b : Nat) : Bool := decide (a < b)

/-- The possible outcomes of `compute_cgraph_impl` (tree_coll.hpp:210-601). -/
inductive Cgraph (s : TS (rakauEnv A simd mac w d)) (over : Overshift) (top : K) (ordered : Bool) (sz : List (Fl K))
    (old : List (List Nat)) : Except Err (List (List Nat)) → Prop
  /-- an error in the first phase -/
  | fail (lf : Node) (p : Nat) (e : Err) : (lf, p) ∈ collTasks s.tree → collParticle s over top ordered sz lf p = .error e →
      Cgraph s over top ordered sz old (.error e)
  /-- undefined behaviour in the second phase -/
  | ub (adds : List (List Nat)) (vadd : List (List Nat)) (lf : Node) (va sva : List Nat) :
      List.Forall₂ (fun t a => collParticle s over top ordered sz t.1 t.2 = .ok a) (collTasks s.tree) adds →
      Pushed (((collTasks s.tree).zip adds).flatMap (fun t => t.2.map (fun l => (l, t.1.2))))
        (List.replicate (leaves s.tree).length []) vadd →
      (lf, va) ∈ (leaves s.tree).zip vadd → IsSortOf idxLt va sva → collLeaf s ordered sz lf sva = none →
      Cgraph s over top ordered sz old (.error .ub)
  /-- normal termination: `adds` for each particle the leaves to which it is added, `vadd` for each leaf the additional particles,
  `svadd` after sorting, `recs` the pairs recorded for each leaf, `graph` before sorting -/
  | ok (adds vadd svadd : List (List Nat)) (recs : List (List (Nat × Nat))) (graph sgraph : List (List Nat)) :
      List.Forall₂ (fun t a => collParticle s over top ordered sz t.1 t.2 = .ok a) (collTasks s.tree) adds →
      Pushed (((collTasks s.tree).zip adds).flatMap (fun t => t.2.map (fun l => (l, t.1.2))))
        (List.replicate (leaves s.tree).length []) vadd →
      List.Forall₂ (IsSortOf idxLt) vadd svadd →
      List.Forall₂ (fun t r => collLeaf s ordered sz t.1 t.2 = some r) ((leaves s.tree).zip svadd) recs →
      Pushed recs.flatten (cgPrepare old s.n) graph →
      List.Forall₂ (IsSortOf idxLt) graph sgraph →
      Cgraph s over top ordered sz old (.ok (sgraph.map uniq))

end Rakau
