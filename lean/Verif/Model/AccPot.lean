import Verif.Model.Kernel

/-!
Model of the computation of accelerations and potentials (include/rakau/tree.hpp:2597-3022, 3258-3357) on the CPU, and of the exact
computation for one particle (3531-3569).
-/
namespace Rakau

variable {K : Type} [Field K] [LinearOrder K]

/-- Particle `i` of the tree. -/
def ptAt (d : Nat) (parts : List (List (Fl K))) (i : Nat) : Option (Pt K) := do
  let pos ← (parts.take d).mapM (fun v => v[i]?)
  let m ← (← parts[d]?)[i]?
  some ⟨pos, m⟩

/-- The particles `[b, e)` of the tree. -/
def ptsAt (d : Nat) (parts : List (List (Fl K))) (b e : Nat) : Option (List (Pt K)) := (List.range' b (e - b)).mapM (ptAt d parts)

/-- What the force computation reads: the tree, and the parameters. -/
structure Force (K : Type) where
  hw : Hw K
  over : Overshift
  mac : Mac
  w : Nat
  d : Nat
  Q : Quant
  box : Fl K
  parts : List (List (Fl K))
  tree : List Node
  props : List (NProps K)
  crit : List CNode
  macVal : Fl K
  G : Fl K
  eps2 : Fl K

namespace Force

abbrev M (c : Force K) : Mode K := c.hw.mode c.d

/-- `tree_acc_pot_mac_check` (tree.hpp:2597-2793): the next node, and the results. -/
def macCheck (c : Force K) (size : Nat) (tgt : List (Pt K)) (res : List (Res K)) (i : Nat) (nd : Node) : Option (Nat × List (Res K)) := do
  let pr ← c.props[i]?
  let lh := macLh c.hw.A c.mac c.macVal pr
  match ← macLoop (macFails c.M lh pr.com) (macTmp c.M c.eps2 pr.com) (c.hw.batch c.d) size tgt with
  | some tmp =>
    let res ← comLoop (comUpd c.M pr.mass) (c.hw.batch c.d) size tgt tmp res
    some (i + nd.nChildren + 1, res)
  | none =>
    if nd.nChildren = 0 then
      let src ← ptsAt c.d c.parts nd.beg nd.fin
      let res ← leafLoop (leafUpd c.M c.Q c.eps2) (c.hw.batch c.d) size tgt src res
      some (i + 1, res)
    else some (i + 1, res)

/-- One iteration of the loop over the source nodes (tree.hpp:2814-2843). -/
def step (c : Force K) (size tgtCode : Nat) (tgt : List (Pt K)) (res : List (Res K)) (i : Nat) (nd : Node) :
    Option (Nat × List (Res K)) := do
  let s ← shrO c.over c.w tgtCode (mulSz (subW c.w (treeLevel c.w c.d tgtCode) nd.level) c.d)
  if s = nd.code then some (i + (1 + (if nd.code = tgtCode then nd.nChildren else 0)), res)
  else c.macCheck size tgt res i nd

/-- The loop over the source nodes (tree.hpp:2814-2843), at most `fuel` iterations. `none` means that the loop has not finished, and
`some none` is undefined behaviour. -/
def loop (c : Force K) (size tgtCode : Nat) (tgt : List (Pt K)) : Nat → Nat → List (Res K) → Option (Option (List (Res K)))
  | fuel, i, res =>
    match c.tree[i]? with
    | none => some (some res)
    | some nd =>
      match fuel with
      | 0 => none
      | fuel + 1 =>
        match c.step size tgtCode tgt res i nd with
        | none => some none
        | some (j, res) => c.loop size tgtCode tgt fuel j res

/-- `tree_acc_pot` (tree.hpp:2798-2849). The loop needs at most as many iterations as there are nodes (`C52_traversal`). -/
def treeAccPot (c : Force K) (size tgtCode : Nat) (tgt : List (Pt K)) (res : List (Res K)) : Option (List (Res K)) := do
  let res ← (c.loop size tgtCode tgt c.tree.length 0 res).bind id
  selfLoop (selfOps c.M c.Q c.d c.eps2) (c.hw.batch c.d) size tgt res

/-- `pad_coord` (tree.hpp:2901-2922). -/
def padCoord (c : Force K) : Fl K :=
  let A := c.hw.A
  let M := match c.mac with
    | .bh => A.add (A.div c.box (A.mul (A.fsqrt (A.div (.fin 1) c.macVal)) (A.fsqrt (.fin c.d)))) (A.mul c.box (A.div (.fin 1) (.fin 2)))
    | .bhGeom => A.add (A.div c.box (A.mul (A.div (.fin 1) c.macVal) (A.fsqrt (.fin c.d)))) c.box
  A.mul M (.fin 2)

/-- The buffer with the data of a target node (tree.hpp:2960-2974). -/
def tgtBuf (c : Force K) (cn : CNode) : Option (List (Pt K)) := do
  let l ← ptsAt c.d c.parts cn.beg cn.fin
  some (l ++ List.replicate c.hw.pad ⟨List.replicate c.d c.padCoord, .fin 0⟩)

/-- The multiplication by `G`, if needed (tree.hpp:2986-3002). -/
def scale (c : Force K) (size : Nat) (res : List (Res K)) : Option (List (Res K)) :=
  if c.G.eq (.fin 1) then some res else scaleLoop (resScale c.hw.A c.G) c.hw.scaleBatch size res

/-- The results for the particles of a critical node (tree.hpp:2929-3007). -/
def node (c : Force K) (cn : CNode) : Except Err (List (Res K)) := do
  let size := cn.fin - cn.beg
  if 2 ^ 64 - 1 - size < c.hw.pad then .error .overflow else
  let tgt ← ofUB (c.tgtBuf cn)
  let res ← ofUB (c.treeAccPot size cn.code tgt (List.replicate (size + c.hw.pad) (resZero c.Q c.d)))
  let res ← ofUB (c.scale size res)
  .ok (res.take size)

/-- The copy of results into the output (tree.hpp:3004-3007). `ix` is the position of the `i`-th element of the output range: `i` for
iterators to the output, `m_perm[i]` for permutation iterators. Positions outside the output are undefined. -/
def write (ix : Nat → Option Nat) (out : List (Res K)) (beg : Nat) (res : List (Res K)) : Option (List (Res K)) :=
  (List.range res.length).foldlM (fun out k => do
    let r ← res[k]?
    let i ← ix (beg + k)
    if i < out.length then some (out.set i r) else none) out

/-- `cpu_run` (tree.hpp:2871-3022) on all the critical nodes, in the given order. Tasks that run at the same time write to different
positions of the output (`C53_writes`), so that any execution is equivalent to one of these orders. -/
def cpuRun (c : Force K) (ix : Nat → Option Nat) (order : List Nat) (out : List (Res K)) : Except Err (List (Res K)) :=
  if !c.padCoord.isFinite then .error .invalidArg else
  order.foldlM (fun out i => do
    let cn ← ofUB c.crit[i]?
    let res ← c.node cn
    ofUB (write ix out cn.beg res)) out

end Force

/-- `compute_eps2` (tree.hpp:3268-3281). -/
def computeEps2 (A : Arith K) (eps : Fl K) : Except Err (Fl K) :=
  if !eps.isFinite || eps.lt (.fin 0) then .error .domain else
  let eps2 := A.mul eps eps
  if !eps2.isFinite || eps2.lt (.fin 0) then .error .domain else .ok eps2

/-- `check_G_const` (tree.hpp:3283-3290). -/
def checkG (G : Fl K) : Except Err Unit := if !G.isFinite then .error .domain else .ok ()

/-- `mac_value` (tree.hpp:3303-3312). -/
def macValue (A : Arith K) (mac : Mac) (theta : Fl K) : Fl K :=
  match mac with
  | .bh => A.div (.fin 1) (A.mul theta theta)
  | .bhGeom => A.div (.fin 1) theta

/-- The checks of `acc_pot_dispatch` (tree.hpp:3297-3319): the transformed acceptance value and the square of the softening length. -/
def checkParams (A : Arith K) (mac : Mac) (theta G eps : Fl K) : Except Err (Fl K × Fl K) := do
  if !theta.isFinite || theta.le (.fin 0) then .error .domain else
  let mv := macValue A mac theta
  if !mv.isFinite || mv.le (.fin 0) then .error .domain else
  let eps2 ← computeEps2 A eps
  checkG G
  .ok (mv, eps2)

/-- The validation of `split` (tree.hpp:2857-2868, 3259-3262) without accelerators. -/
def checkSplit (split : List (Fl K)) : Except Err Unit :=
  if split.any (fun x => !x.isFinite) then .error .invalidArg else
  if split.any (fun x => x.lt (.fin 0)) then .error .invalidArg else
  if !split.isEmpty && split.all (fun x => x.eq (.fin 0)) then .error .invalidArg else
  if 1 < split.length then .error .invalidArg else .ok ()

variable [FloorRing K]

/-- What the force computation reads from a tree. -/
def TS.force {A : Arith K} {simd : Option (Simd K)} {mac : Mac} {w d : Nat} (s : TS (rakauEnv A simd mac w d)) (rsqrt : Option (Fl K → Fl K))
    (over : Overshift) (Q : Quant) (macVal G eps2 : Fl K) : Force K :=
  ⟨⟨A, simd, rsqrt⟩, over, mac, w, d, Q, s.box, s.parts, s.tree, s.props, s.crit, macVal, G, eps2⟩

/-- `acc_pot_dispatch` (tree.hpp:3293-3333), without accelerators. `ordered` selects the `_o` functions; `out` is the output
before the call; the critical nodes are processed in the given order. -/
def TS.accPot {A : Arith K} {simd : Option (Simd K)} {mac : Mac} {w d : Nat} (s : TS (rakauEnv A simd mac w d)) (rsqrt : Option (Fl K → Fl K))
    (over : Overshift) (Q : Quant) (ordered : Bool) (theta G eps : Fl K) (split : List (Fl K)) (order : List Nat) (out : List (Res K)) :
    Except Err (List (Res K)) := do
  let (mv, eps2) ← checkParams A mac theta G eps
  checkSplit split
  (s.force rsqrt over Q mv G eps2).cpuRun (fun i => if ordered then s.perm[i]? else some i) order out

/-- One iteration of the loop of `exact_acc_pot_impl` (tree.hpp:3545-3565). -/
def exactUpd (A : Arith K) (G eps2 : Fl K) (p q : Pt K) (r : Res K) : Res K :=
  let df := diffs A p.pos q.pos
  let dist2 := df.foldl (fun acc t => A.fma t t acc) eps2
  let inv := A.div (.fin 1) (A.fsqrt dist2)
  let gm := A.mul (A.mul G q.mass) inv
  ⟨List.zipWith (fun t a => A.fma t (A.mul (A.mul inv inv) gm) a) df r.acc, r.pot.map (fun a => A.fma gm.neg p.mass a)⟩

/-- `exact_acc_pot_impl` (tree.hpp:3531-3569) as called by the six public functions (3571-3616). Reading particle `idx` beyond the end is undefined. -/
def TS.exact {A : Arith K} {simd : Option (Simd K)} {mac : Mac} {w d : Nat} (s : TS (rakauEnv A simd mac w d)) (Q : Quant) (ordered : Bool)
    (G eps : Fl K) (origIdx : Nat) : Except Err (Res K) := do
  let eps2 ← computeEps2 A eps
  checkG G
  let idx ← ofUB (if ordered then s.invPerm[origIdx]? else some origIdx)
  (List.range s.n).foldlM (fun r i =>
    if i = idx then .ok r else do
      let p ← ofUB (ptAt d s.parts idx)
      let q ← ofUB (ptAt d s.parts i)
      .ok (exactUpd A G eps2 p q r)) (resZero Q d)

end Rakau
