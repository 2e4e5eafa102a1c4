import Verif.Model.Disc

/-!
Model of the node properties (include/rakau/tree.hpp:1116-1237): mass, centre of mass, and the size data used by the
multipole acceptance criteria.
-/
namespace Rakau

/-- The multipole acceptance criteria (include/rakau/detail/tree_fwd.hpp:46). -/
inductive Mac
  | bh
  | bhGeom
  deriving DecidableEq

/-- The floating-point members of a node (tree_fwd.hpp:92-116): the centre of mass and the mass (`props`), then `dim2` for
`bh`, or `dim` and `delta` for `bh_geom` (`delta` is 0 for `bh`, where it does not exist). -/
structure NProps (K : Type) where
  com : List (Fl K)
  mass : Fl K
  dim : Fl K
  delta : Fl K
  deriving DecidableEq

/-- A SIMD instruction set: the batch size for the type in use, whether `xsimd_fma` is fused, and the horizontal sum
`xsimd::hadd`, which adds the lanes of a batch in an order that depends on the instruction set. -/
structure Simd (K : Type) where
  batch : Nat
  fused : Bool
  hadd : List (Fl K) → Fl K

variable {K : Type} [Field K] [LinearOrder K]

/-- An unaligned load of `b` values at index `k`: undefined beyond the end of the array. -/
def load (v : List (Fl K)) (k b : Nat) : Option (List (Fl K)) := if k + b ≤ v.length then some ((v.drop k).take b) else none

/-- The vector loop for the total mass (tree.hpp:1142-1149): `cnt` batches from index `beg`. -/
def massVec (A : Arith K) (S : Simd K) (m : List (Fl K)) (beg cnt : Nat) : Option (List (Fl K)) :=
  (List.range cnt).foldlM (fun acc t => do
    let mv ← load m (beg + t * S.batch) S.batch
    some (List.zipWith A.add acc mv)) (List.replicate S.batch (.fin 0))

/-- The vector loop for one coordinate of the centre of mass (tree.hpp:1142-1152). -/
def comVec (A : Arith K) (S : Simd K) (m c : List (Fl K)) (beg cnt : Nat) : Option (List (Fl K)) :=
  (List.range cnt).foldlM (fun acc t => do
    let mv ← load m (beg + t * S.batch) S.batch
    let cv ← load c (beg + t * S.batch) S.batch
    some (List.zipWith (fun p a => ({ A with fused := S.fused } : Arith K).fma p.1 p.2 a) (mv.zip cv) acc))
    (List.replicate S.batch (.fin 0))

/-- The scalar loop for the total mass (tree.hpp:1161-1163): indices `[i, j)` from `beg`. -/
def massScalar (A : Arith K) (m : List (Fl K)) (beg i j : Nat) (acc : Fl K) : Option (Fl K) :=
  (List.range' i (j - i)).foldlM (fun acc i => do some (A.add acc (← m[beg + i]?))) acc

/-- The scalar loop for one coordinate of the centre of mass (tree.hpp:1161-1167). -/
def comScalar (A : Arith K) (m c : List (Fl K)) (beg i j : Nat) (acc : Fl K) : Option (Fl K) :=
  (List.range' i (j - i)).foldlM (fun acc i => do some (A.fma (← m[beg + i]?) (← c[beg + i]?) acc)) acc

/-- `vec_size` (tree.hpp:1136): the number of particles handled by the vector loop, 0 if there is none. `simd = none` is
`simd_enabled == false`. -/
def vecSize (simd : Option (Simd K)) (d size : Nat) : Nat :=
  match simd with
  | some S => if d = 3 then size - size % S.batch else 0
  | none => 0

/-- The scalar accumulator after the vector part (tree.hpp:1133-1160): `xsimd::hadd` of the vector accumulator `f S` in 3D with SIMD
enabled, otherwise its initial value 0. -/
def vecStart (simd : Option (Simd K)) (d : Nat) (f : Simd K → Option (List (Fl K))) : Option (Fl K) :=
  match simd with
  | some S => if d = 3 then (f S).map S.hadd else some (.fin 0)
  | none => some (.fin 0)

/-- The accumulated mass and mass-weighted positions (tree.hpp:1119-1168). The accumulators are independent of one another, so
their loops are written separately. -/
def nodeSums (A : Arith K) (simd : Option (Simd K)) (d : Nat) (nd : Node) (parts : List (List (Fl K))) :
    Option (List (Fl K) × Fl K) := do
  let m ← parts[d]?
  let size := nd.fin - nd.beg
  let v := vecSize simd d size
  let mass0 ← vecStart simd d (fun S => massVec A S m nd.beg (v / S.batch))
  let mass ← massScalar A m nd.beg v size mass0
  let com ← (parts.take d).mapM (fun c => do
    let com0 ← vecStart simd d (fun S => comVec A S m c nd.beg (v / S.batch))
    comScalar A m c nd.beg v size com0)
  some (com, mass)

/-- The squared distance of two points (tree.hpp:1224-1227). -/
def dist2 (A : Arith K) (a b : List (Fl K)) : Option (Fl K) :=
  match a.zip b with
  | [] => none
  | p :: l => some (l.foldl (fun acc q => A.fma (A.sub q.1 q.2) (A.sub q.1 q.2) acc) (A.mul (A.sub p.1 p.2) (A.sub p.1 p.2)))

/-- `compute_node_properties` (tree.hpp:1116-1237). -/
def nodeProps (A : Arith K) (simd : Option (Simd K)) (mac : Mac) (w d : Nat) (box : Fl K) (nd : Node) (parts : List (List (Fl K))) :
    Except Err (NProps K) := do
  let (com0, mass) ← ofUB (nodeSums A simd d nd parts)
  let geo ← match mac with
    | .bh => .ok []
    | .bhGeom => nodeCentre A w d nd.code box
  let com ← if mass.eq (.fin 0) then
      match mac with
      | .bh => nodeCentre A w d nd.code box
      | .bhGeom => .ok geo
    else .ok (com0.map (fun c => A.mul c (A.div (.fin 1) mass)))
  if com.any (fun c => !c.isFinite) then .error .invalidArg else
  if !mass.isFinite then .error .invalidArg else
  let dim ← nodeDim A w nd.level box
  match mac with
  | .bh =>
    let dim2 := A.mul dim dim
    if !dim2.isFinite then .error .invalidArg else .ok ⟨com, mass, dim2, .fin 0⟩
  | .bhGeom =>
    if !dim.isFinite then .error .invalidArg else do
    let delta := A.fsqrt (← ofUB (dist2 A com geo))
    if !delta.isFinite then .error .invalidArg else .ok ⟨com, mass, dim, delta⟩

/-- The environment of a tree with the given arithmetic, SIMD instruction set, acceptance criterion, code width and dimension. -/
@[reducible] def rakauEnv [FloorRing K] (A : Arith K) (simd : Option (Simd K)) (mac : Mac) (w d : Nat) : Env where
  F := Fl K
  Props := NProps K
  d := d
  w := w
  zero := .fin 0
  boxOk := boxOkFl
  deduce := deduceBox A d
  code := codeOf A w d
  props := nodeProps A simd mac w d

end Rakau
