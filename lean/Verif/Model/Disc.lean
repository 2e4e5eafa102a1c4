import Verif.Model.Fl
import Verif.Model.Morton
import Verif.Model.State

/-!
Model of the discretisation of coordinates, of the box size deduction and of the node geometry
(include/rakau/tree.hpp:374-429, 443-482, 1240-1246, 1278-1319).
-/
namespace Rakau

variable {K : Type} [Field K] [LinearOrder K] [FloorRing K]

/-- `static_cast<UInt>(tmp)` of a floating-point value: truncation, undefined unless the truncated value fits in `w` bits. -/
def castUInt (w : Nat) : Fl K → Except Err Nat
  | .fin q => if -1 < q ∧ q < 2 ^ w then .ok ⌊q⌋.toNat else .error .ub
  | _ => .error .ub

/-- `disc_single_coord` up to the check for finite values (tree.hpp:384-404): the scaled coordinate. `cb` is `cbits_v`.
`F(1)/F(2)` and `F(factor)` are exact in every binary format. -/
def discScaled (A : Arith K) (cb : Nat) (x inv : Fl K) : Fl K :=
  A.mul (A.fma x inv (.fin (1 / 2))) (.fin (2 ^ cb))

/-- `disc_single_coord<NDim, UInt, false>` (tree.hpp:380-429). -/
def discSingle (A : Arith K) (w cb : Nat) (x inv : Fl K) : Except Err Nat := do
  let tmp := discScaled A cb x inv
  if !tmp.isFinite then .error .invalidArg else
  if tmp.lt (.fin 0) || tmp.ge (.fin (2 ^ cb)) then .error .invalidArg else
  let r ← castUInt w tmp
  if r ≥ 2 ^ cb then .error .invalidArg else .ok r

/-- `disc_single_coord<NDim, UInt, true>`: the coordinate is clamped into `[0, factor)` (tree.hpp:406-408). `top` is
`std::nextafter(F(factor), F(-1))`, the largest representable value below `factor`. -/
def discClamp (A : Arith K) (w cb : Nat) (top : K) (x inv : Fl K) : Except Err Nat := do
  let tmp := discScaled A cb x inv
  if !tmp.isFinite then .error .invalidArg else
  let r ← castUInt w (tmp.clamp (.fin 0) (.fin top))
  if r ≥ 2 ^ cb then .error .invalidArg else .ok r

/-- `F(1) / m_box_size` (tree.hpp:1418, 3692). -/
def invBox (A : Arith K) (box : Fl K) : Fl K := A.div (.fin 1) box

/-- `disc_coords` followed by the encoder (tree.hpp:1240-1246, 1428-1433): the code of a particle. The array of coordinates
has `NDim` elements by its type. -/
def codeOf (A : Arith K) (w d : Nat) (box : Fl K) (c : List (Fl K)) : Except Err Nat := do
  if c.length ≠ d then .error .ub else
  let xs ← c.mapM (fun x => discSingle A w (cbits w d) x (invBox A box))
  ofUB (mortonEncode w xs)

/-- One step of the loop body of the reduction (tree.hpp:1291-1301): update of the maxima with particle `i`. -/
def maxStep (cur : List (Fl K)) (c : List (Fl K)) : Except Err (List (Fl K)) :=
  (cur.zip c).mapM (fun p => if !p.2.abs.isFinite then .error .invalidArg else .ok (p.1.max p.2.abs))

/-- The loop body over the particles `[b, e)` (tree.hpp:1289-1303). -/
def maxBody (d : Nat) (parts : List (List (Fl K))) (b e : Nat) (cur : List (Fl K)) : Except Err (List (Fl K)) :=
  (List.range' b (e - b)).foldlM (fun cur i => do maxStep cur (← ofUB (coordsAt d parts i))) cur

/-- The join of two partial results (tree.hpp:1304-1310). -/
def maxJoin (a b : List (Fl K)) : List (Fl K) := (a.zip b).map (fun p => p.1.max p.2)

/-- The possible outcomes of `tbb::parallel_reduce` over `[b, e)` (tree.hpp:1287-1311): the range is split in any way;
a task starts from the identity, or continues from the result of the range before. An exception in any task is the outcome. -/
inductive MaxReduce (d : Nat) (parts : List (List (Fl K))) : Nat → Nat → Except Err (List (Fl K)) → Prop
  | leaf (b e : Nat) : b ≤ e → MaxReduce d parts b e (maxBody d parts b e (List.replicate d (.fin 0)))
  | cont (b m e : Nat) (v : List (Fl K)) : m ≤ e → MaxReduce d parts b m (.ok v) → MaxReduce d parts b e (maxBody d parts m e v)
  | join (b m e : Nat) (v u : List (Fl K)) : MaxReduce d parts b m (.ok v) → MaxReduce d parts m e (.ok u) →
      MaxReduce d parts b e (.ok (maxJoin v u))
  | throwL (b m e : Nat) (er : Err) : m ≤ e → MaxReduce d parts b m (.error er) → MaxReduce d parts b e (.error er)
  | throwR (b m e : Nat) (er : Err) : b ≤ m → MaxReduce d parts m e (.error er) → MaxReduce d parts b e (.error er)

/-- `std::max_element` (tree.hpp:1313): the first largest element. -/
def maxElement : List (Fl K) → Option (Fl K)
  | [] => none
  | a :: l => some (l.foldl (fun m x => if m.lt x then x else m) a)

/-- The end of `determine_box_size` (tree.hpp:1312-1318). `F(1)/F(20)` is rounded. -/
def boxFromMax (A : Arith K) (mc : List (Fl K)) : Except Err (Fl K) := do
  let m ← ofUB (maxElement mc)
  let r := A.mul m (.fin 2)
  let r := A.fma r (A.div (.fin 1) (.fin 20)) r
  if !r.isFinite then .error .invalidArg else .ok r

/-- `determine_box_size` (tree.hpp:1278-1319), for the schedule with one task (`MaxReduce` gives the others). -/
def deduceBox (A : Arith K) (d : Nat) (parts : List (List (Fl K))) : Except Err (Fl K) := do
  let mc ← maxBody d parts 0 (parts.headD []).length (List.replicate d (.fin 0))
  boxFromMax A mc

/-- The check of the box size (tree.hpp:1352-1355): `!std::isfinite(box_size) || box_size < F(0)` throws. -/
def boxOkFl (b : Fl K) : Bool := !(!b.isFinite || b.lt (.fin 0))

/-- `get_node_dim` (tree.hpp:444-448). -/
def nodeDim (A : Arith K) (w level : Nat) (box : Fl K) : Except Err (Fl K) := do
  let p ← ofUB (shl w 1 level)
  pure (A.div box (A.rnd (p : K)))

/-- `get_node_centre` (tree.hpp:450-482). -/
def nodeCentre (A : Arith K) (w d : Nat) (code : Nat) (box : Fl K) : Except Err (List (Fl K)) := do
  let level := treeLevel w d code
  let top ← ofUB (shl w 1 (mulSz level d))
  let c ← ofUB (shl w (subW w code top) (mulSz (cbits w d - level) d))
  let dim ← nodeDim A w level box
  let dim2 := A.mul dim (.fin (1 / 2))
  let ncells ← ofUB (shl w 1 (cbits w d))
  let cell := A.mul box (A.div (.fin 1) (A.rnd (ncells : K)))
  let dc ← ofUB (mortonDecode w d c)
  pure (dc.map (fun x : Nat => A.fma (A.rnd (x : K)) cell (A.sub dim2 (A.mul box (.fin (1 / 2))))))

end Rakau
