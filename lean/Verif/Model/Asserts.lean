import Verif.Model.Coll
import Verif.Model.Split

/-!
Model of the assertions (`assert`) that run in builds without `NDEBUG`: the functions of the other files again, with the assertions
at their places. A failed assertion ends the program.
-/
namespace Rakau

/-- The place of an assertion: include/rakau/tree.hpp, detail/tree_coll.hpp, detail/tree_fwd.hpp, src/rakau_cuda.cu, src/rakau_rocm.cpp, with its line. -/
inductive Place
  | tree (line : Nat)
  | coll (line : Nat)
  | fwd (line : Nat)
  | cuda (line : Nat)
  | rocm (line : Nat)
  deriving DecidableEq, Repr

/-- How a computation of a debug build ends if it does not return: at a failed assertion, or as in other builds. -/
inductive Stop
  | failed (p : Place)
  | err (e : Err)
  deriving DecidableEq, Repr

/-- A computation in a debug build. -/
abbrev Dbg (α : Type) := Except Stop α

/-- `assert(b)`. -/
def chk (p : Place) (b : Bool) : Dbg Unit := if b then .ok () else .error (.failed p)

/-- A computation without assertions, in a debug build. -/
def dbg {α : Type} : Except Err α → Dbg α
  | .ok a => .ok a
  | .error e => .error (.err e)

/-! ### Codes -/

/-- `_pdep_u32`/`_pdep_u64` on `n` bits: the low bits of `src` go to the places of the one bits of `mask`. -/
def pdep : Nat → Nat → Nat → Nat
  | 0, _, _ => 0
  | n + 1, src, mask => if mask % 2 = 1 then src % 2 + 2 * pdep n (src / 2) (mask / 2) else 2 * pdep n src (mask / 2)

/-- `m2D_e_BMI`, `m3D_e_BMI` (libmorton/morton_BMI.h:27-60) with an `mw`-bit code type, whose masks are truncated to it. -/
def encBMI (mw : Nat) : List Nat → Nat
  | [x, y] => pdep mw x (0x5555555555555555 % 2 ^ mw) ||| pdep mw y (0xAAAAAAAAAAAAAAAA % 2 ^ mw)
  | [x, y, z] => pdep mw x (0x9249249249249249 % 2 ^ mw) ||| pdep mw y (0x2492492492492492 % 2 ^ mw) ||| pdep mw z (0x4924924924924924 % 2 ^ mw)
  | _ => 0

/-- The shifts of the loop of `m2D_e_sLUT` and `m3D_e_sLUT` for a coordinate type of `cw` bits (morton2D.h:40-41, morton3D.h:41-42). -/
def lutShifts (cw : Nat) : List Nat := ((List.range (cw / 8)).map (· * 8)).reverse

/-- `m2D_e_sLUT`, `m3D_e_sLUT` (morton2D.h:36-47, morton3D.h:37-49) with `mw`-bit codes and `cw`-bit coordinates. -/
def encLUT (mw cw : Nat) : List Nat → Nat
  | [x, y] => (lutShifts cw).foldl (enc2Step mw x y) 0
  | [x, y, z] => (lutShifts cw).foldl (enc3Step mw x y z) 0
  | _ => 0

/-- `morton2D_32_encode`, `morton2D_64_encode`, `morton3D_32_encode`, `morton3D_64_encode` (libmorton/morton.h:18-46): with BMI2 instructions or with
tables. The types are `uint_fast16_t`, `uint_fast32_t`, `uint_fast64_t`, whose widths depend on the platform: `cw` for the coordinates, `mw` for the code. -/
def fastEncode (bmi : Bool) (mw cw : Nat) (xs : List Nat) : Nat :=
  let xs := xs.map (· % 2 ^ cw)
  if bmi then encBMI mw xs else encLUT mw cw xs

/-- What the assertions of the encoder depend on: the instruction set and the widths of the `uint_fast` types. -/
structure Fast where
  bmi : Bool
  mw : Nat
  cw : Nat

/-- The widths that the standard allows for codes of `w` bits: the code type has at least `w` bits, that of the coordinates at least `w / 2`. -/
def Fast.Ok (f : Fast) (w : Nat) : Prop := (f.mw = 32 ∨ f.mw = 64) ∧ w ≤ f.mw ∧ (f.cw = 16 ∨ f.cw = 32 ∨ f.cw = 64) ∧ w / 2 ≤ f.cw

/-- `morton_encoder::operator()` with its assertions (tree.hpp:230-241, 253-264, 275-280, 292-297; the lines of the 64-bit encoder in 3 dimensions are given). -/
def encodeD (f : Fast) (w : Nat) (xs : List Nat) : Dbg Nat := do
  chk (.tree 230) (xs.all (fun x => decide (x < 2 ^ cbits w xs.length)))
  let m ← dbg (ofUB (mortonEncode w xs))
  chk (.tree 233) (m >>> (w - 1) == 0)
  chk (.tree 236) (fastEncode f.bmi f.mw f.cw xs == m)
  .ok m

/-- `morton_decoder::operator()` with its assertions (tree.hpp:312-317, 330-335, 348-352, 364-368). -/
def decodeD (w d m : Nat) : Dbg (List Nat) := do
  let one ← dbg (ofUB (shl w 1 (cbits w d * d)))
  chk (.tree 312) (decide (m < one))
  let xs ← dbg (ofUB (mortonDecode w d m))
  chk (.tree 315) (xs.all (fun x => decide (x < 2 ^ cbits w d)))
  .ok xs

/-- `tree_level` with its assertions (detail/tree_fwd.hpp:160, 222-226); `clz` has the same first assertion. -/
def treeLevelD (w d n : Nat) : Dbg Nat := do
  chk (.fwd 222) (n != 0)
  chk (.fwd 223) ((w - 1 - clz w n) % d == 0)
  let l := treeLevel w d n
  chk (.fwd 225) (decide (l ≤ cbits w d))
  chk (.fwd 226) (decide (mulSz (subW w (cbits w d) l) d < w))
  .ok l

/-- `node_compare` (tree.hpp:433-441) with the assertions of `tree_level`. -/
def nodeCompareD (w d n1 n2 : Nat) : Dbg Bool := do
  let _ ← treeLevelD w d n1
  let _ ← treeLevelD w d n2
  dbg (ofUB (nodeCompare w d n1 n2))

section
variable {K : Type} [Field K] [LinearOrder K] [FloorRing K]

/-- `disc_coords` and the encoder (tree.hpp:1240-1246, 1441-1450) with the assertions of the encoder. -/
def codeOfD (f : Fast) (A : Arith K) (w d : Nat) (box : Fl K) (c : List (Fl K)) : Dbg Nat := do
  if c.length ≠ d then .error (.err .ub) else
  let xs ← dbg (c.mapM (fun x => discSingle A w (cbits w d) x (invBox A box)))
  encodeD f w xs

/-- `get_node_centre` (tree.hpp:450-482) with the assertions of `tree_level` and of the decoder. -/
def nodeCentreD (A : Arith K) (w d : Nat) (code : Nat) (box : Fl K) : Dbg (List (Fl K)) := do
  let level ← treeLevelD w d code
  let top ← dbg (ofUB (shl w 1 (mulSz level d)))
  let c ← dbg (ofUB (shl w (subW w code top) (mulSz (cbits w d - level) d)))
  let _ ← decodeD w d c
  dbg (nodeCentre A w d code box)

end

/-! ### Permutations -/

/-- `apply_isort` (tree.hpp:493-507) with its assertions. -/
def applyIsortD {α : Type} (values : List α) (perm : List Nat) : Dbg (List α) := do
  chk (.tree 496) (values.length == perm.length)
  chk (.tree 502) (perm.all (fun k => decide (k < values.length)))
  dbg (ofUB (applyIsort values perm))

/-- `perm_to_inv_perm` (tree.hpp:1248-1262) with its assertions. -/
def permToInvD (ord perm inv : List Nat) : Dbg (List Nat) := do
  chk (.tree 1253) (perm.length == inv.length)
  chk (.tree 1257) (ord.all (fun i => decide (i < perm.length)))
  chk (.tree 1258) (ord.all (fun i => (perm[i]?).all (fun p => decide (p < inv.length))))
  dbg (ofUB (permToInv ord perm inv))

/-- `std::is_sorted` with the comparison `lt`. -/
def isSorted {α : Type} (lt : α → α → Bool) : List α → Bool
  | a :: b :: l => !lt b a && isSorted lt (b :: l)
  | _ => true

/-! ### The builder -/

/-- `build_tree_ser_impl` with its assertions (tree.hpp:723-833): those at the start (728-732), that of `code_shifter` (707), and the number of particles of a
child (768). -/
def buildSerD (g : Cfg) (codes : List Nat) : Nat → Nat → Nat → Nat → Bool → BS → Dbg (BS × Nat)
  | 0, _, _, _, _, st => .ok (st, 0)
  | k + 1, pc, b, e, critAnc, st => do
    let pl := g.cb - (k + 1)
    let l ← treeLevelD g.w g.d pc
    chk (.tree 728) (l == pl)
    chk (.tree 729) ((st.tree.getLast?).any (fun n => n.code == pc))
    chk (.tree 732) (b != e)
    let one ← dbg (ofUB (shl g.w 1 (mulSz pl g.d)))
    let nodePrefix := subW g.w pc one
    let sh := mulSz (g.cb - pl - 1) g.d
    chk (.tree 707) (decide (sh < g.w))
    (List.range (2 ^ g.d)).foldlM (fun (acc : BS × Nat) i => do
      let (st, ret) := acc
      let pre ← dbg (ofUB (shl g.w nodePrefix g.d))
      let (s, t) := equalRange codes sh ((pre + i) % 2 ^ g.w) b e
      chk (.tree 768) (decide (s ≤ t))
      let npart := t - s
      if npart ≠ 0 then do
        let up ← dbg (ofUB (shl g.w pc g.d))
        let cur := (up + i) % 2 ^ g.w
        let tree := st.tree ++ [⟨s, t, 0, cur, pl + 1⟩]
        let sz := tree.length
        let crit := isCrit g critAnc npart (pl + 1)
        let cl := if crit then st.crit ++ [⟨cur, s, t⟩] else st.crit
        let st' ← (if npart > g.maxLeaf then do
            let (st'', cc) ← buildSerD g codes k cur s t (crit || critAnc) ⟨tree, cl⟩
            pure (⟨st''.tree.modify (sz - 1) (fun n => { n with nChildren := cc }), st''.crit⟩ : BS)
          else pure ⟨tree, cl⟩)
        let nc ← dbg (ofUB ((st'.tree[sz - 1]?).map (·.nChildren)))
        let ret ← dbg (checkedUInc szMax ret nc)
        let ret ← dbg (checkedUInc szMax ret 1)
        pure (st', ret)
      else pure (st, ret)) (st, 0)

/-- `build_tree_par_impl` with its assertions (tree.hpp:841-931). -/
def buildParD (g : Cfg) (codes : List Nat) (split : Nat) : Nat → Nat → Nat → Nat → Bool → Dbg (PS × Nat)
  | 0, _, _, _, _ => .ok (⟨[], []⟩, 0)
  | k + 1, pc, b, e, critAnc => do
    let pl := g.cb - (k + 1)
    let l ← treeLevelD g.w g.d pc
    chk (.tree 847) (l == pl)
    chk (.tree 852) (b != e)
    let one ← dbg (ofUB (shl g.w 1 (mulSz pl g.d)))
    let nodePrefix := subW g.w pc one
    let sh := mulSz (g.cb - pl - 1) g.d
    chk (.tree 707) (decide (sh < g.w))
    (List.range (2 ^ g.d)).foldlM (fun (acc : PS × Nat) i => do
      let (ps, ret) := acc
      let pre ← dbg (ofUB (shl g.w nodePrefix g.d))
      let (s, t) := equalRange codes sh ((pre + i) % 2 ^ g.w) b e
      chk (.tree 864) (decide (s ≤ t))
      let npart := t - s
      if npart ≠ 0 then do
        let up ← dbg (ofUB (shl g.w pc g.d))
        let cur := (up + i) % 2 ^ g.w
        let node : Node := ⟨s, t, 0, cur, pl + 1⟩
        let crit := isCrit g critAnc npart (pl + 1)
        let cl : List CNode := if crit then [⟨cur, s, t⟩] else []
        let (newTree, newCrit, deeper, nc) ← (if npart > g.maxLeaf then
            if npart < split then do
              let (st, cc) ← buildSerD g codes k cur s t (crit || critAnc) ⟨[node], cl⟩
              pure (st.tree.modify 0 (fun n => { n with nChildren := cc }), st.crit, (⟨[], []⟩ : PS), cc)
            else do
              let (ps', cc) ← buildParD g codes split k cur s t (crit || critAnc)
              pure ([{ node with nChildren := cc }], cl, ps', cc)
          else pure ([node], cl, (⟨[], []⟩ : PS), 0))
        let ret ← dbg (checkedUInc szMax ret nc)
        let ret ← dbg (checkedUInc szMax ret 1)
        pure ((⟨ps.trees ++ newTree :: deeper.trees, ps.crits ++ newCrit :: deeper.crits⟩ : PS), ret)
      else pure (ps, ret)) (⟨[], []⟩, 0)

/-- The children of the root (tree.hpp:976-979). -/
def rootChildrenD (g : Cfg) (codes : List Nat) (split : Nat) : Dbg (PS × Nat) :=
  if codes.length > g.maxLeaf then buildParD g codes split g.cb 1 0 codes.length (rootCrit g codes)
  else .ok (⟨[], []⟩, 0)

/-- The assertions of the comparison of two subtrees (tree.hpp:989-992). -/
def treeLtD (g : Cfg) (t1 t2 : List Node) : Dbg Unit := do
  chk (.tree 990) (!t1.isEmpty && !t2.isEmpty)
  let a ← dbg (ofUB t1.head?)
  let b ← dbg (ofUB t2.head?)
  let _ ← nodeCompareD g.w g.d a.code b.code

/-- `std::is_sorted` with `node_compare` on codes (tree.hpp:1064-1066, 1085-1087), including the assertions of the comparisons. -/
def codesSortedD (w d : Nat) : List Nat → Dbg Bool
  | a :: b :: l => do
    let c ← nodeCompareD w d b a
    if c then .ok false else codesSortedD w d (b :: l)
  | _ => .ok true

/-- The loop over the critical nodes (tree.hpp:1076-1082). -/
def critLoopD : List CNode → Dbg Unit
  | a :: b :: l => do
    chk (.tree 1077) (decide (a.beg < a.fin))
    chk (.tree 1081) (a.fin == b.beg)
    critLoopD (b :: l)
  | _ => .ok ()

/-- The checks after the build, apart from those of the dimensions of the nodes (tree.hpp:1064-1089). -/
def builtD (g : Cfg) (codes : List Nat) (tree : List Node) (crit : List CNode) : Dbg Unit := do
  let s ← codesSortedD g.w g.d (tree.map (·.code))
  chk (.tree 1064) s
  chk (.tree 1067) (tree.all (fun n => decide (n.fin > n.beg)))
  chk (.tree 1069) (!crit.isEmpty)
  chk (.tree 1071) ((crit.head?).all (fun c => c.beg == 0))
  chk (.tree 1072) ((crit.getLast?).all (fun c => c.fin == codes.length))
  critLoopD crit
  let s ← codesSortedD g.w g.d (crit.map (·.code))
  chk (.tree 1085) s
  tree.forM (fun n => do
    let l ← treeLevelD g.w g.d n.code
    chk (.tree 1088) (n.level == l))

/-- `build_tree` in a debug build (tree.hpp:932-1089): the possible outcomes. The comparisons made by `std::sort` are some of those of pairs of subtrees. -/
inductive IsBuildD (g : Cfg) (codes : List Nat) (split : Nat) : Dbg (List Node × List CNode) → Prop
  | empty : codes = [] → IsBuildD g codes split (.ok ([], []))
  | run (ps : PS) (cc : Nat) (trees : List (List Node)) (crits : List (List CNode)) :
      codes ≠ [] → rootChildrenD g codes split = .ok (ps, cc) →
      IsSortOf (treeLt g) ps.trees trees →
      IsSortOf critLt ((if rootCrit g codes then [[⟨1, 0, codes.length⟩]] else []) ++ ps.crits) crits →
      IsBuildD g codes split (do
        builtD g codes (⟨0, codes.length, cc, 1, 0⟩ :: trees.flatten) crits.flatten
        pure (⟨0, codes.length, cc, 1, 0⟩ :: trees.flatten, crits.flatten))
  | compare (ps : PS) (cc : Nat) (t1 t2 : List Node) (e : Stop) :
      codes ≠ [] → rootChildrenD g codes split = .ok (ps, cc) → t1 ∈ ps.trees → t2 ∈ ps.trees →
      treeLtD g t1 t2 = .error e → IsBuildD g codes split (.error e)
  | fail (e : Stop) : codes ≠ [] → rootChildrenD g codes split = .error e → IsBuildD g codes split (.error e)

section
variable {K : Type} [Field K] [LinearOrder K] [FloorRing K] (A : Arith K) (simd : Option (Simd K)) (mac : Mac) (w d : Nat)

/-- `compute_node_properties` (tree.hpp:1116-1237) with its assertion, and those of `get_node_centre` where it is called (1172, 1187). -/
def nodePropsD (box : Fl K) (nd : Node) (parts : List (List (Fl K))) : Dbg (NProps K) := do
  chk (.tree 1118) (decide (nd.fin > nd.beg))
  let (_, mass) ← dbg (ofUB (nodeSums A simd d nd parts))
  if mac = .bhGeom ∨ mass.eq (.fin 0) then do
    let _ ← nodeCentreD A w d nd.code box
    dbg (nodeProps A simd mac w d box nd parts)
  else dbg (nodeProps A simd mac w d box nd parts)

/-- The dimension a node of this size has to store (tree.hpp:1094-1098). -/
def dimVal (dim : Fl K) : Fl K :=
  match mac with
  | .bh => A.mul dim dim
  | .bhGeom => dim

/-- The last check after the build (tree.hpp:1091-1099): the dimensions stored in the nodes. -/
def dimsD (box : Fl K) (tree : List Node) (props : List (NProps K)) : Dbg Unit :=
  (tree.zip props).forM (fun x => do
    let dim ← dbg (nodeDim A w x.1.level box)
    chk (.tree 1091) (x.2.dim.eq (dimVal A mac dim)))

end

/-! ### Construction and updates -/

section
variable {K : Type} [Field K] [LinearOrder K] [FloorRing K] {A : Arith K} {simd : Option (Simd K)} {mac : Mac} {w d : Nat}

/-- The codes (tree.hpp:1441-1450, 3694-3702). -/
def rawCodesD (f : Fast) (A : Arith K) (w d : Nat) (box : Fl K) (parts : List (List (Fl K))) (n : Nat) : Dbg (List Nat) :=
  (List.range n).mapM (fun i => do codeOfD f A w d box (← dbg (ofUB (coordsAt d parts i))))

/-- `construct_impl` before the sort (tree.hpp:1329-1451), with its assertions. `moved`: the particle data are moved, and the parameter `N` is zero
(1684-1688), otherwise it is the number of particles. -/
def prepareD (f : Fast) (moved : Bool) (inp : Input (rakauEnv A simd mac w d)) : Dbg (Fl K × List Nat) := do
  if inp.parts.any (fun v => v.length != (inp.parts.headD []).length) then .error (.err .invalidArg) else
  let box0 : Fl K := inp.box.getD (.fin 0)
  let nArg := if moved then 0 else (inp.parts.headD []).length
  chk (.tree 1345) (!inp.box.isNone || box0.eq (.fin 0))
  chk (.tree 1347) (!moved || nArg == 0)
  dbg inp.check
  chk (.tree 1371) (!moved || inp.parts.all (fun v => v.length == (inp.parts.headD []).length))
  let box ← dbg (boxFor (rakauEnv A simd mac w d) inp.box inp.parts)
  let raw ← rawCodesD f A w d box inp.parts (inp.parts.headD []).length
  pure (box, raw)

/-- The properties of all nodes and the check of their dimensions. -/
def propsD (A : Arith K) (simd : Option (Simd K)) (mac : Mac) (w d : Nat) (box : Fl K) (tree : List Node) (parts : List (List (Fl K))) :
    Dbg (List (NProps K)) := do
  let props ← tree.mapM (fun nd => nodePropsD A simd mac w d box nd parts)
  dimsD A mac w box tree props
  pure props

/-- `construct_impl` after the sort (tree.hpp:1455-1486), with its assertions. -/
def finishD (inp : Input (rakauEnv A simd mac w d)) (box : Fl K) (raw srt ord : List Nat) (r : Dbg (List Node × List CNode)) :
    Dbg (TS (rakauEnv A simd mac w d)) := do
  let codes ← applyIsortD raw srt
  chk (.tree 1465) (isSorted idxLt codes)
  let parts ← inp.parts.mapM (fun v => applyIsortD v srt)
  let inv ← permToInvD ord srt (List.replicate srt.length 0)
  let (tree, crit) ← r
  let props ← propsD A simd mac w d box tree parts
  pure ⟨box, inp.box.isNone, inp.maxLeaf, inp.ncrit, parts, codes, srt, srt, inv, tree, props, crit⟩

/-- Construction in a debug build. -/
inductive ConstructD (f : Fast) (moved : Bool) (inp : Input (rakauEnv A simd mac w d)) : Dbg (TS (rakauEnv A simd mac w d)) → Prop
  | early (e : Stop) : prepareD f moved inp = .error e → ConstructD f moved inp (.error e)
  | run (box : Fl K) (raw srt ord codes : List Nat) (split : Nat) (r : Dbg (List Node × List CNode)) :
      prepareD f moved inp = .ok (box, raw) → IsSortOf (codeLt raw) (List.range raw.length) srt → ord.Perm (List.range raw.length) →
      applyIsort raw srt = some codes → IsBuildD ⟨w, d, inp.maxLeaf, inp.ncrit⟩ codes split r →
      ConstructD f moved inp (finishD inp box raw srt ord r)

/-- `sync()` before the sort (tree.hpp:3683-3702). -/
def syncPrepareD (f : Fast) (s : TS (rakauEnv A simd mac w d)) : Dbg (Fl K × List Nat) := do
  let box ← dbg (boxFor (rakauEnv A simd mac w d) (if s.deduced then none else some s.box) s.parts)
  let raw ← rawCodesD f A w d box s.parts s.n
  pure (box, raw)

/-- `sync()` after the sort (tree.hpp:3711-3740). -/
def syncFinishD (s : TS (rakauEnv A simd mac w d)) (box : Fl K) (raw srt ord : List Nat) (r : Dbg (List Node × List CNode)) :
    Dbg (TS (rakauEnv A simd mac w d)) := do
  let codes ← applyIsortD raw srt
  chk (.tree 3720) (isSorted idxLt codes)
  let parts ← s.parts.mapM (fun v => applyIsortD v srt)
  let perm ← applyIsortD s.perm srt
  let inv ← permToInvD ord perm s.invPerm
  let (tree, crit) ← r
  let props ← propsD A simd mac w d box tree parts
  pure ⟨box, s.deduced, s.maxLeaf, s.ncrit, parts, codes, perm, srt, inv, tree, props, crit⟩

/-- `sync()` in a debug build (tree.hpp:3678-3743). -/
inductive SyncD (f : Fast) (s : TS (rakauEnv A simd mac w d)) : Dbg (TS (rakauEnv A simd mac w d)) → Prop
  | early (e : Stop) : syncPrepareD f s = .error e → SyncD f s (.error e)
  | run (box : Fl K) (raw srt ord codes : List Nat) (split : Nat) (r : Dbg (List Node × List CNode)) :
      syncPrepareD f s = .ok (box, raw) → IsSortOf (codeLt raw) (List.range raw.length) srt → ord.Perm (List.range raw.length) →
      applyIsort raw srt = some codes → IsBuildD s.cfg codes split r → SyncD f s (syncFinishD s box raw srt ord r)

/-- How a call of a debug build on a tree ends: at a failed assertion, or as in other builds. -/
inductive DOut (env : Env)
  | stop (p : Place)
  | out (o : Out env)

/-- The `catch (...) { clear(); throw; }` wrapper (tree.hpp:3760-3764, 3799-3803): a failed assertion is not an exception. -/
def guardD {env : Env} (r : Dbg (TS env)) (s : TS env) : DOut env :=
  match r with
  | .ok s' => .out (.ok s')
  | .error (.failed p) => .stop p
  | .error (.err e) => .out (guard (.error e) s)

/-- `update_particles_dispatch` in a debug build (tree.hpp:3746-3765). -/
inductive UpdateD (f : Fast) (s : TS (rakauEnv A simd mac w d)) (ordered : Bool) (g : Prog (Fl K)) : DOut (rakauEnv A simd mac w d) → Prop
  | callback (e : Err) : g.run (s.tr ordered) s.parts = .error e → UpdateD f s ordered g (guardD (.error (.err e)) s)
  | sync (parts : List (List (Fl K))) (r : Dbg (TS (rakauEnv A simd mac w d))) : g.run (s.tr ordered) s.parts = .ok parts →
      SyncD f { s with parts := parts } r → UpdateD f s ordered g (guardD r { s with parts := parts })

/-- `update_masses_dispatch` (tree.hpp:3782-3805) inside the `try` block: the assertions are those of `compute_node_properties`. -/
def massesD (s : TS (rakauEnv A simd mac w d)) (ordered : Bool) (f : Prog (Fl K)) : Dbg (TS (rakauEnv A simd mac w d)) := do
  let m ← dbg (f.run (s.tr ordered) (s.parts.drop d))
  let parts := s.parts.take d ++ m
  let props ← s.tree.mapM (fun nd => nodePropsD A simd mac w d s.box nd parts)
  pure { s with parts := parts, props := props }

/-- `update_masses_dispatch` in a debug build. -/
def updateMassesD (s : TS (rakauEnv A simd mac w d)) (ordered : Bool) (f : Prog (Fl K)) : DOut (rakauEnv A simd mac w d) :=
  guardD (massesD s ordered f) s

/-! ### The destructor -/

/-- `std::unique(..) == end()` on a sorted vector: no two neighbours are equal. -/
def noRepeat : List Nat → Bool
  | a :: b :: l => a != b && noRepeat (b :: l)
  | _ => true

/-- The bounds of the coordinates of particle `i` (tree.hpp:1857-1860). -/
def boundsD (A : Arith K) (box : Fl K) (c : List (Fl K)) : Dbg Unit :=
  c.forM (fun x => do
    chk (.tree 1858) (x.lt (A.div box (.fin 2)))
    chk (.tree 1859) (x.ge (A.div box.neg (.fin 2))))

/-- The code of particle `i` (tree.hpp:1861-1862). An exception ends the program. -/
def recodeD (f : Fast) (A : Arith K) (w d : Nat) (box : Fl K) (c : List (Fl K)) (code : Nat) : Dbg Unit := do
  let v ← codeOfD f A w d box c
  chk (.tree 1862) (code == v)

/-- The destructor (tree.hpp:1828-1881). -/
def dtorD (f : Fast) (s : TS (rakauEnv A simd mac w d)) : Dbg Unit := do
  chk (.tree 1840) (s.parts.all (fun v => v.length == s.n))
  chk (.tree 1843) (s.n == s.codes.length)
  chk (.tree 1845) (isSorted idxLt s.codes)
  chk (.tree 1847) (s.n == s.perm.length)
  chk (.tree 1848) (s.n == s.lastPerm.length)
  chk (.tree 1849) (s.n == s.invPerm.length)
  (List.range s.n).forM (fun i => do
    let c ← dbg (ofUB (coordsAt d s.parts i))
    let v ← dbg (ofUB s.codes[i]?)
    boundsD A s.box c
    recodeD f A w d s.box c v)
  (List.range s.perm.length).forM (fun i => do
    let p ← dbg (ofUB s.perm[i]?)
    chk (.tree 1866) (decide (p < s.invPerm.length))
    chk (.tree 1867) (s.invPerm[p]? == some i))
  chk (.tree 1871) (noRepeat (s.perm.mergeSort (· ≤ ·)))
  let last := s.lastPerm.mergeSort (· ≤ ·)
  chk (.tree 1874) (noRepeat last)
  if s.n ≠ 0 then do
    chk (.tree 1877) (last.head? == some 0)
    chk (.tree 1878) (last.getLast? == some (s.n - 1))
  else .ok ()

end

/-! ### Accelerations and potentials -/

/-- `cpu_run(0, c)` (tree.hpp:2871-2873), and `tree_acc_pot` for each of these critical nodes (2803, 2809). -/
def cpuRunD (w d : Nat) (tree : List Node) (crit : List CNode) (c : Nat) : Dbg Unit := do
  chk (.tree 2872) (decide (0 ≤ c))
  chk (.tree 2873) (decide (c ≤ crit.length))
  (crit.take c).forM (fun cn => do
    chk (.tree 2803) (!tree.isEmpty)
    let _ ← treeLevelD w d cn.code
    .ok ())

section
variable {K : Type} [Field K] [LinearOrder K] [FloorRing K]

/-- All the work on the CPU. -/
def onCpuD (w d : Nat) (tree : List Node) (crit : List CNode) : Dbg Plan := do
  cpuRunD w d tree crit crit.length
  .ok ⟨crit.length, []⟩

/-- The split with ROCm (tree.hpp:3044-3069, 3114-3117) with the assertions of `rocm_state::acc_pot` (src/rakau_rocm.cpp:106, 111); conversions to `int` that succeed do
not change the values. -/
def rocmPlanD (D : Arith K) (w d minSize : Nat) (tree : List Node) (crit : List CNode) (np : Nat) (s0 s1 : Fl K) : Dbg Plan := do
  let idx ← dbg (castSz (D.mul (D.div s0 (D.add s0 s1)) (D.rnd np)))
  let b ← dbg (ofUB (boundary crit np idx))
  if minSize ≤ subW 64 np b.2 then do
    cpuRunD w d tree crit b.1
    chk (.rocm 106) (decide (b.2 ≤ np))
    chk (.rocm 111) (decide (np ≤ np))
    .ok ⟨b.1, [b.2, np]⟩
  else onCpuD w d tree crit

/-- The split with CUDA (tree.hpp:3146-3231) with its assertions (3165, 3187) and that of `cuda_acc_pot_impl` (src/rakau_cuda.cu:354). -/
def cudaPlanD (D A : Arith K) (w d devices : Nat) (tree : List Node) (crit : List CNode) (np : Nat) (split : List (Fl K)) : Dbg Plan := do
  let acc := split.foldl D.add (.fin 0)
  let idx ← dbg (cudaIdx D A np acc (split.headD .nan) split.tail)
  chk (.tree 3165) (isSorted idxLt idx)
  let b ← dbg (ofUB (boundary crit np (idx.headD 0)))
  let dev := b.2 :: idx.tail.map (fun i => if i < b.2 then b.2 else i)
  chk (.tree 3187) (isSorted idxLt dev)
  if (dev.zip dev.tail).all (fun p => !decide (subW 64 p.2 p.1 < cudaMinSize)) then do
    cpuRunD w d tree crit b.1
    chk (.cuda 354) (!dev.isEmpty && decide (dev.length - 1 ≤ devices))
    .ok ⟨b.1, dev⟩
  else onCpuD w d tree crit

/-- The choice of the workers by `acc_pot_impl` (tree.hpp:2857-2868, 3023-3264) in a debug build, and the assertions of the work on the CPU and of the calls of the
accelerators. -/
def splitPlanD (B : Backend) (D A : Arith K) (types : Bool) (w d : Nat) (tree : List Node) (crit : List CNode) (np : Nat) (split : List (Fl K)) : Dbg Plan := do
  dbg (splitCommon split)
  match B with
  | .none => if 1 < split.length then .error (.err .invalidArg) else onCpuD w d tree crit
  | .rocm present minSize =>
    if 2 < split.length then .error (.err .invalidArg) else
    if !present && split.length == 2 then .error (.err .invalidArg) else
    if types then
      match split with
      | [s0, s1] => rocmPlanD D w d minSize tree crit np s0 s1
      | _ => onCpuD w d tree crit
    else if split.length = 2 then .error (.err .invalidArg) else onCpuD w d tree crit
  | .cuda devices =>
    if !split.isEmpty && decide (devices < split.length - 1) then .error (.err .invalidArg) else
    if types then
      if 1 < split.length then cudaPlanD D A w d devices tree crit np split else onCpuD w d tree crit
    else if 1 < split.length then .error (.err .invalidArg) else onCpuD w d tree crit

end

/-! ### Collisions -/

section
variable {K : Type} [Field K] [LinearOrder K] [FloorRing K]

/-- The assertions of `tree_coll_node_range` (tree_coll.hpp:164-165). -/
def rangeChk (w d code level : Nat) : Dbg Unit := do
  let l ← treeLevelD w d code
  chk (.coll 164) (l == level)
  chk (.coll 165) (decide (level ≤ cbits w d))

/-- `coll_leaves_permutation` (tree_coll.hpp:182-208): the check of the result (197-205). -/
def leavesD (tree : List Node) (n : Nat) : Dbg Unit := do
  chk (.coll 201) ((leaves tree).all (fun nd => nd.nChildren == 0))
  chk (.coll 204) ((leaves tree).foldl (fun a nd => (a + (nd.fin - nd.beg)) % 2 ^ 64) 0 == n)

/-- `tree_coll_size_to_level` (tree_coll.hpp:46-74) with its assertions (49-53). -/
def sizeToLevelD (A : Arith K) (cb : Nat) (s box : Fl K) : Dbg Nat := do
  chk (.coll 49) s.isFinite
  chk (.coll 52) (s.gt (.fin 0))
  chk (.coll 53) box.isFinite
  .ok (sizeToLevel A cb s box)

/-- The code of a vertex (tree_coll.hpp:143-150) with the assertions of the encoder. -/
def vertexCodeD (f : Fast) (A : Arith K) (w cb : Nat) (top : K) (bs : List (Fl K × Fl K)) (inv : Fl K) (i : Nat) : Dbg Nat := do
  let ds ← dbg (bs.zipIdx.mapM (fun b => discClamp A w cb top (if (i >>> b.2) &&& 1 = 0 then b.1.1 else b.1.2) inv))
  encodeD f w ds

/-- `tree_coll_get_aabb_codes` (tree_coll.hpp:79-153) with its assertions (90-93). -/
def aabbCodesD (f : Fast) (A : Arith K) (w d : Nat) (top : K) (pos : List (Fl K)) (size inv : Fl K) : Dbg (List Nat) := do
  chk (.coll 90) (pos.all (·.isFinite))
  chk (.coll 93) (size.isFinite && size.ge (.fin 0))
  let bs ← dbg (pos.mapM (aabbBounds A (A.mul size (.fin (1 / 2)))))
  (List.range (2 ^ d)).mapM (vertexCodeD f A w (cbits w d) top bs inv)

/-- The two searches (tree_coll.hpp:401-416): which leaves are compared is not specified, so the assertions are checked for all. -/
def searchLeavesD (over : Overshift) (w d : Nat) (lvs : List Node) (rng : Nat × Nat) : Dbg (Nat × Nat) := do
  lvs.forM (fun n => rangeChk w d n.code n.level)
  dbg (ofUB (searchLeaves over w d lvs rng))

/-- One iteration of the loop over the levels (tree_coll.hpp:381-428) with its assertion (427). -/
def coverStepD (over : Overshift) (w d : Nat) (lvs : List Node) (lf : Node) (v al : Nat) : Dbg (Option (Option (Nat × Nat))) := do
  let sc ← dbg (ofUB (enclosing w d v al))
  let f ← dbg (ofUB (fitsLeaf w d sc al lf))
  if f then .ok (some none) else
  rangeChk w d sc al
  let rng ← dbg (ofUB (nodeRange over w d sc al))
  let be ← searchLeavesD over w d lvs rng
  if be.1 ≠ be.2 then .ok (some (some be)) else do
    chk (.coll 427) (decide (al > 0))
    .ok none

/-- The result of one iteration: stop with a result, or go on. -/
def orElseD {α : Type} (r : Option α) (next : Dbg α) : Dbg α :=
  match r with
  | some x => .ok x
  | none => next

/-- The loop over the levels (tree_coll.hpp:381-428). -/
def coverLoopD (over : Overshift) (w d : Nat) (lvs : List Node) (lf : Node) (v : Nat) : Nat → Dbg (Option (Nat × Nat))
  | 0 => do orElseD (← coverStepD over w d lvs lf v 0) (.error (.err .ub))
  | al + 1 => do orElseD (← coverStepD over w d lvs lf v (al + 1)) (coverLoopD over w d lvs lf v al)

/-- `std::lower_bound` on a sorted vector. -/
def graphLower (l : List Nat) (x : Nat) : Nat := (l.takeWhile (fun y => decide (y < x))).length

/-- The check of the graph (tree_coll.hpp:586-599). -/
def graphChk (g : List (List Nat)) : Dbg Unit :=
  g.zipIdx.forM (fun v => v.1.forM (fun idx => do
    chk (.coll 590) (decide (idx < g.length))
    let u ← dbg (ofUB g[idx]?)
    chk (.coll 591) (isSorted idxLt u)
    chk (.coll 593) ((uniq u).length == u.length)
    chk (.coll 595) (decide (graphLower u v.2 < u.length))
    chk (.coll 596) (u[graphLower u v.2]? == some v.2)))

variable {A : Arith K} {simd : Option (Simd K)} {mac : Mac} {w d : Nat}

/-- The first phase for one particle (tree_coll.hpp:287-449) with its assertions. -/
def collParticleD (f : Fast) (s : TS (rakauEnv A simd mac w d)) (over : Overshift) (top : K) (ordered : Bool) (sz : List (Fl K)) (lf : Node)
    (pidx : Nat) : Dbg (List Nat) := do
  let a ← dbg (ofUB (aabbSize s.perm ordered sz pidx))
  if !a.isFinite || a.lt (.fin 0) then .error (.err .invalidArg) else
  if a.eq (.fin 0) then .ok [] else
  let pos ← dbg (ofUB (coordsAt d s.parts pidx))
  let vs ← aabbCodesD f A w d top pos a (invBox A s.box)
  let pcode ← dbg (ofUB s.codes[pidx]?)
  let st ← dbg (ofUB (straddles w d lf.level pcode vs))
  if !st then .ok [] else
  let al ← sizeToLevelD A (cbits w d) a s.box
  let cs ← vs.mapM (fun v => coverLoopD over w d (leaves s.tree) lf v al)
  .ok (cs.flatMap (coverAdds (leaves s.tree) lf))

/-- Two particles of a leaf (tree_coll.hpp:503-564) with the assertion that they differ (528). -/
def testPairD (s : TS (rakauEnv A simd mac w d)) (ordered : Bool) (sz : List (Fl K)) (p : Nat × Nat) : Dbg (List (Nat × Nat)) := do
  let sa ← dbg (ofUB (aabbSize s.perm ordered sz p.1))
  if sa.eq (.fin 0) then .ok [] else
  chk (.coll 528) (p.1 != p.2)
  dbg (ofUB (testPair s ordered sz p))

/-- The second phase for one leaf (tree_coll.hpp:486-566). -/
def collLeafD (s : TS (rakauEnv A simd mac w d)) (ordered : Bool) (sz : List (Fl K)) (lf : Node) (va : List Nat) : Dbg (List (Nat × Nat)) := do
  let ps ← (pairs (List.range' lf.beg (lf.fin - lf.beg) ++ uniq va)).mapM (testPairD s ordered sz)
  .ok ps.flatten

/-- `compute_cgraph_impl` in a debug build (tree_coll.hpp:210-601): the possible outcomes. -/
inductive CgraphD (f : Fast) (s : TS (rakauEnv A simd mac w d)) (over : Overshift) (top : K) (ordered : Bool) (sz : List (Fl K))
    (old : List (List Nat)) : Dbg (List (List Nat)) → Prop
  /-- the check of the list of leaves -/
  | leaves (e : Stop) : leavesD s.tree s.n = .error e → CgraphD f s over top ordered sz old (.error e)
  /-- a failure in the first phase -/
  | fail (lf : Node) (p : Nat) (e : Stop) : (lf, p) ∈ collTasks s.tree → collParticleD f s over top ordered sz lf p = .error e →
      CgraphD f s over top ordered sz old (.error e)
  /-- an additional particle that belongs to the leaf anyway (452-466) -/
  | own (adds : List (List Nat)) (vadd : List (List Nat)) (lf : Node) (va : List Nat) (x : Nat) :
      List.Forall₂ (fun t a => collParticleD f s over top ordered sz t.1 t.2 = .ok a) (collTasks s.tree) adds →
      Pushed (((collTasks s.tree).zip adds).flatMap (fun t => t.2.map (fun l => (l, t.1.2))))
        (List.replicate (leaves s.tree).length []) vadd →
      (lf, va) ∈ (leaves s.tree).zip vadd → x ∈ va → ¬ (x < lf.beg ∨ x ≥ lf.fin) →
      CgraphD f s over top ordered sz old (.error (.failed (.coll 462)))
  /-- a failure in the second phase -/
  | second (adds : List (List Nat)) (vadd : List (List Nat)) (lf : Node) (va sva : List Nat) (e : Stop) :
      List.Forall₂ (fun t a => collParticleD f s over top ordered sz t.1 t.2 = .ok a) (collTasks s.tree) adds →
      Pushed (((collTasks s.tree).zip adds).flatMap (fun t => t.2.map (fun l => (l, t.1.2))))
        (List.replicate (leaves s.tree).length []) vadd →
      (lf, va) ∈ (leaves s.tree).zip vadd → IsSortOf idxLt va sva → collLeafD s ordered sz lf sva = .error e →
      CgraphD f s over top ordered sz old (.error e)
  /-- the graph, and its check -/
  | ok (adds vadd svadd : List (List Nat)) (recs : List (List (Nat × Nat))) (graph sgraph : List (List Nat)) :
      List.Forall₂ (fun t a => collParticleD f s over top ordered sz t.1 t.2 = .ok a) (collTasks s.tree) adds →
      Pushed (((collTasks s.tree).zip adds).flatMap (fun t => t.2.map (fun l => (l, t.1.2))))
        (List.replicate (leaves s.tree).length []) vadd →
      List.Forall₂ (IsSortOf idxLt) vadd svadd →
      List.Forall₂ (fun t r => collLeafD s ordered sz t.1 t.2 = .ok r) ((leaves s.tree).zip svadd) recs →
      Pushed recs.flatten (cgPrepare old s.n) graph →
      List.Forall₂ (IsSortOf idxLt) graph sgraph →
      CgraphD f s over top ordered sz old (do
        graphChk (sgraph.map uniq)
        .ok (sgraph.map uniq))

end

end Rakau
