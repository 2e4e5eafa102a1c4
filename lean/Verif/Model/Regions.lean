import Verif.Model.Par
import Verif.Model.AccPot

/-!
# The parallel regions of the library

Each is a program (`Par.P`) on the arrays of a tree. `bl` gives the blocks into which TBB splits the ranges. An array that a vector is replaced with (`values_new` of `apply_isort`)
has a name of its own; the move at the end of `apply_isort` renames it. Local variables of tasks are not part of the shared memory, and neither are the `thread_local`
buffers (tree.hpp:1979-2002).
-/
namespace Rakau
open Par

/-- The arrays: the input data, the members of a tree (tree.hpp:3839-3884), their replacements, the partial trees (951), the output. -/
inductive Name
  | input (j : Nat) | parts (j : Nat) | newParts (j : Nat) | codes | newCodes | perm | newPerm | lastPerm | invPerm
  | tree | props | crit | piece (i : Nat) | critPiece (i : Nat) | out
  deriving DecidableEq

/-- What an array element may hold. -/
inductive Cell (env : Env) (R : Type)
  | void
  | num (n : Nat)
  | val (x : env.F)
  | node (n : Node)
  | props (p : env.Props)
  | crit (c : CNode)
  | res (r : R)

abbrev Loc := Name × Nat

variable {env : Env} {R : Type}

/-- An index read from memory. -/
def Cell.idx : Cell env R → Nat
  | .num n => n
  | _ => 0

/-- A coordinate read from memory. -/
def Cell.coord : Cell env R → env.F
  | .val x => x
  | _ => env.zero

def Cell.val? : Cell env R → Option env.F
  | .val x => some x
  | _ => none

def Cell.node? : Cell env R → Option Node
  | .node nd => some nd
  | _ => none

def Cell.props? : Cell env R → Option env.Props
  | .props p => some p
  | _ => none

abbrev Reg (env : Env) (R : Type) := P Loc (Cell env R)

/-- Reads of several locations. -/
def gatherP : List Loc → (List (Cell env R) → Reg env R) → Reg env R
  | [], k => k []
  | l :: ls, k => .read l fun v => gatherP ls fun vs => k (v :: vs)

/-- Parallel copies (tree.hpp:1410-1417, 1474-1480). -/
def copyP (src dst : Name) (bl : List (List Nat)) : Reg env R := .pfor bl fun i => .read (src, i) fun v => .write (dst, i) v

/-- The input data into `m_parts`, one array after the other (tree.hpp:1409-1418). -/
def inputP (env : Env) (bl : Nat → List (List Nat)) : Reg env R := .loop (fun j => copyP (.input j) (.parts j) (bl j)) (List.range (env.d + 1))

/-- Initialisation of a permutation (tree.hpp:1421-1426, 3704-3709). -/
def iotaP (dst : Name) (bl : List (List Nat)) : Reg env R := .pfor bl fun i => .write (dst, i) (.num i)

/-- The Morton codes of all particles (tree.hpp:1441-1449, 3694-3701); invalid coordinates throw. The code reads a coordinate after having discretised the one before. -/
def encodeP (env : Env) (box : env.F) (bl : List (List Nat)) : Reg env R :=
  .pfor bl fun i => gatherP ((List.range env.d).map fun j => (.parts j, i)) fun vs =>
    match env.code box (vs.map Cell.coord) with
    | .ok c => .write (.codes, i) (.num c)
    | .error _ => .throw

/-- `apply_isort` (tree.hpp:493-507). -/
def isortP (src new p : Name) (bl : List (List Nat)) : Reg env R := .pfor bl fun i => .read (p, i) fun k => .read (src, k.idx) fun v => .write (new, i) v

/-- `perm_to_inv_perm` (tree.hpp:1248-1262). -/
def invP (p : Name) (bl : List (List Nat)) : Reg env R := .pfor bl fun i => .read (p, i) fun k => .write (.invPerm, k.idx) (.num i)

/-- The tasks of `construct_impl` after the sort (tree.hpp:1461-1482). -/
def permuteP (env : Env) (bl : Nat → List (List Nat)) : Reg env R :=
  .all ([isortP .codes .newCodes .perm (bl 0), invP .perm (bl 1), copyP .perm .lastPerm (bl 2)] ++
    (List.range (env.d + 1)).map fun j => isortP (.parts j) (.newParts j) .perm (bl (3 + j)))

/-- The tasks of `sync` after the sort (tree.hpp:3714-3735). The last one inverts the permutation that it has computed. -/
def syncP (env : Env) (bl : Nat → List (List Nat)) : Reg env R :=
  .all ([isortP .codes .newCodes .lastPerm (bl 0), .seq (isortP .perm .newPerm .lastPerm (bl 1)) (invP .newPerm (bl 2))] ++
    (List.range (env.d + 1)).map fun j => isortP (.parts j) (.newParts j) .lastPerm (bl (3 + j)))

/-- The locations of all particle data. -/
def partLocs (d n : Nat) : List Loc := ((List.range (d + 1)).map fun j => (List.range n).map fun i => (Name.parts j, i)).flatten

/-- The particle data in what has been read: `d + 1` arrays of `n` values, one after the other. -/
def partsOf (d n : Nat) (vs : List (Cell env R)) : List (List env.F) :=
  let xs := vs.filterMap Cell.val?
  (List.range (d + 1)).map fun j => (xs.drop (j * n)).take n

/-- The nodes in what has been read. -/
def nodesOf (vs : List (Cell env R)) : List Node := vs.filterMap Cell.node?

/-- The node properties in what has been read. -/
def npropsOf (vs : List (Cell env R)) : List env.Props := vs.filterMap Cell.props?

/-- The node properties after an update of the masses (tree.hpp:3795-3799): each task reads particles and a node, and writes the properties into the node. The properties are members of the
node other than those that are read. The tasks of the library read the particles of the node only (1116-1237); here they read all of them. -/
def propsP (env : Env) (box : env.F) (n : Nat) (bl : List (List Nat)) : Reg env R :=
  .pfor bl fun i => .read (.tree, i) fun c => gatherP (partLocs env.d n) fun vs =>
    match c with
    | .node nd => match env.props box nd (partsOf env.d n vs) with
      | .ok p => .write (.props, i) (.props p)
      | .error _ => .throw
    | _ => .throw

/-- The copy of partial trees, or lists of critical nodes, into one array (tree.hpp:1004-1017, 1045-1058): piece `i` goes to the positions from `start` plus the lengths of those before. The loop over
the pieces (blocks `ob`) contains parallel loops over the elements (blocks `bl i`). -/
def mergeP (piece : Nat → Name) (dst : Name) (start : Nat) (lens : List Nat) (ob : List (List Nat)) (bl : Nat → List (List Nat)) : Reg env R :=
  .pfor ob fun i => .pfor (bl i) fun k => .read (piece i, k) fun v => .write (dst, start + (lens.take i).sum + k) v

/-- The end of the construction of the tree (tree.hpp:984-1060): the trees are copied behind the root, while the critical nodes are copied too. -/
def mergesP (tl cl : List Nat) (ob ob' : List (List Nat)) (bl bl' : Nat → List (List Nat)) : Reg env R :=
  .par (mergeP .piece .tree 1 tl ob bl) (mergeP .critPiece .crit 0 cl ob' bl')

/-- The results of one critical node to the output (tree.hpp:3004-3007): in the order of the tree, or through the permutation. -/
def outP (ordered : Bool) (beg : Nat) (rs : List R) : Reg env R :=
  .loop (fun k => match rs[k]? with
    | none => .throw
    | some r => if ordered then .read (.perm, beg + k) fun i => .write (.out, i.idx) (.res r) else .write (.out, beg + k) (.res r)) (List.range rs.length)

/-- Tasks that read a critical node and other data, compute results, and write them. -/
def tasksP (srcs : List Loc) (fn : List (Cell env R) → CNode → Option (List R)) (ordered : Bool) (bl : List (List Nat)) : Reg env R :=
  .pfor bl fun t => .read (.crit, t) fun c => gatherP srcs fun vs =>
    match c with
    | .crit cn => match fn vs cn with
      | some rs => outP ordered cn.beg rs
      | none => .throw
    | _ => .throw

/-- What the tasks of the force computation read apart from the critical node: particles, nodes, properties. -/
def forceLocs (d n nodes : Nat) : List Loc := partLocs d n ++ (List.range nodes).map (Name.tree, ·) ++ (List.range nodes).map (Name.props, ·)

/-- The computation with particles, nodes and properties as read. -/
def Force.reading {K : Type} [Field K] [LinearOrder K] [FloorRing K] {A : Arith K} {simd : Option (Simd K)} {mac : Mac} {w d : Nat} (c : Force K) (n : Nat) (vs : List (Cell (rakauEnv A simd mac w d) R)) : Force K :=
  { c with parts := partsOf d n vs, tree := nodesOf vs, props := npropsOf vs }

/-- `cpu_run` (tree.hpp:2923-3008): the critical nodes are handled in parallel. `c` has the parameters of the computation; everything else is read from memory. The tasks of the library read a part of the
particles and nodes (2798-2849); here they read all of them. -/
def forceP {K : Type} [Field K] [LinearOrder K] [FloorRing K] {A : Arith K} {simd : Option (Simd K)} {mac : Mac} {w d : Nat} (c : Force K) (n nodes : Nat) (ordered : Bool)
    (bl : List (List Nat)) : Reg (rakauEnv A simd mac w d) (Res K) :=
  tasksP (forceLocs d n nodes) (fun vs cn => ((c.reading n vs).node cn).toOption) ordered bl

end Rakau
