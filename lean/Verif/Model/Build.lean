import Verif.Model.Bits

/-!
Model of the tree builder (include/rakau/tree.hpp:704-1111). The particle codes `m_codes` are a list `codes`.
Node properties (mass, centre of mass, ...) do not influence the build and are modelled in `Verif/Model/NodeProps.lean`;
here a node is the `base_tree_node_t` part.
-/
namespace Rakau

/-- Outcomes other than normal return: C++ exceptions (`user`: thrown by a user callback), and undefined behaviour. -/
inductive Err
  | ub | overflow | invalidArg | domain | user
  deriving DecidableEq, Repr

/-- An undefined operation is an error outcome. -/
def ofUB {α : Type} : Option α → Except Err α
  | some a => .ok a
  | none => .error .ub

/-- `checked_uinc(T &out, T add)` (tree.hpp:510-518) for an unsigned type with `max() = mx`. -/
def checkedUInc (mx out add : Nat) : Except Err Nat :=
  if out > mx - add then .error .overflow else .ok (out + add)

/-- Maximum of `size_type` (64 bits). -/
def szMax : Nat := 2 ^ 64 - 1

/-- Tree parameters: code width, dimensions, `m_max_leaf_n`, `m_ncrit` (tree.hpp:3859-3862) . -/
structure Cfg where
  w : Nat
  d : Nat
  maxLeaf : Nat
  ncrit : Nat

/-- The static member `cbits` (tree.hpp:620). -/
def Cfg.cb (g : Cfg) : Nat := cbits g.w g.d

/-- `base_tree_node_t` (detail/tree_fwd.hpp:76-82). -/
structure Node where
  beg : Nat
  fin : Nat
  nChildren : Nat
  code : Nat
  level : Nat
  deriving DecidableEq, Repr

/-- `tree_cnode_t` (detail/tree_fwd.hpp:118-125). -/
structure CNode where
  code : Nat
  beg : Nat
  fin : Nat
  deriving DecidableEq, Repr

/-- `m_codes[k]`; every use is at an index in range. -/
def cAt (codes : List Nat) (k : Nat) : Nat := codes.getD k 0

/-- First index of `[b, b+len)` at which `p` fails (`b+len` if there is none): the partition point returned by the
standard binary searches on a range partitioned with respect to `p`. -/
def partPoint (p : Nat → Bool) : Nat → Nat → Nat
  | b, 0 => b
  | b, len + 1 => if p b then partPoint p (b + 1) len else b

/-- `std::equal_range` over the codes in `[b, e)` seen through `code_shifter(sh)` (tree.hpp:704-714, 751-764). -/
def equalRange (codes : List Nat) (sh v b e : Nat) : Nat × Nat :=
  (partPoint (fun k => decide (cAt codes k >>> sh < v)) b (e - b),
   partPoint (fun k => decide (cAt codes k >>> sh ≤ v)) b (e - b))

/-- The containers the serial builder appends to. -/
structure BS where
  tree : List Node
  crit : List CNode

/-- The test for a critical node (tree.hpp:801-803 and 887-889). -/
def isCrit (g : Cfg) (critAnc : Bool) (npart level : Nat) : Bool :=
  !critAnc && (decide (npart ≤ g.ncrit) || decide (npart ≤ g.maxLeaf) || decide (level = g.cb))

/-- `build_tree_ser_impl<ParentLevel>` (tree.hpp:723-833). `k = cbits - ParentLevel` is the number of levels left, so
`if constexpr (ParentLevel < cbits)` is the split on `k`. Returns the updated containers and the children count. -/
def buildSer (g : Cfg) (codes : List Nat) : Nat → Nat → Nat → Nat → Bool → BS → Except Err (BS × Nat)
  | 0, _, _, _, _, st => .ok (st, 0)
  | k + 1, pc, b, e, critAnc, st => do
    let pl := g.cb - (k + 1)
    let one ← ofUB (shl g.w 1 (mulSz pl g.d))
    let nodePrefix := subW g.w pc one
    let sh := mulSz (g.cb - pl - 1) g.d
    if g.w ≤ sh then .error .ub else
    (List.range (2 ^ g.d)).foldlM (fun (acc : BS × Nat) i => do
      let (st, ret) := acc
      let pre ← ofUB (shl g.w nodePrefix g.d)
      let (s, t) := equalRange codes sh ((pre + i) % 2 ^ g.w) b e
      let npart := t - s
      if npart ≠ 0 then do
        let up ← ofUB (shl g.w pc g.d)
        let cur := (up + i) % 2 ^ g.w
        let tree := st.tree ++ [⟨s, t, 0, cur, pl + 1⟩]
        let sz := tree.length
        let crit := isCrit g critAnc npart (pl + 1)
        let cl := if crit then st.crit ++ [⟨cur, s, t⟩] else st.crit
        let st' ← (if npart > g.maxLeaf then do
            let (st'', cc) ← buildSer g codes k cur s t (crit || critAnc) ⟨tree, cl⟩
            pure (⟨st''.tree.modify (sz - 1) (fun n => { n with nChildren := cc }), st''.crit⟩ : BS)
          else pure ⟨tree, cl⟩)
        let nc ← ofUB ((st'.tree[sz - 1]?).map (·.nChildren))
        let ret ← checkedUInc szMax ret nc
        let ret ← checkedUInc szMax ret 1
        pure (st', ret)
      else pure (st, ret)) (st, 0)

/-- What the tasks of `build_tree_par_impl` push: subtrees and lists of critical nodes. -/
structure PS where
  trees : List (List Node)
  crits : List (List CNode)

/-- `build_tree_par_impl<ParentLevel>` (tree.hpp:841-931). The children are handled by concurrent tasks: the pushes
into the concurrent containers are collected here in child order, and `IsBuild` below allows any order. The children
count is an atomic sum; the overflow check is on the running total. `split` is `split_nparts` (tree.hpp:903). -/
def buildPar (g : Cfg) (codes : List Nat) (split : Nat) : Nat → Nat → Nat → Nat → Bool → Except Err (PS × Nat)
  | 0, _, _, _, _ => .ok (⟨[], []⟩, 0)
  | k + 1, pc, b, e, critAnc => do
    let pl := g.cb - (k + 1)
    let one ← ofUB (shl g.w 1 (mulSz pl g.d))
    let nodePrefix := subW g.w pc one
    let sh := mulSz (g.cb - pl - 1) g.d
    if g.w ≤ sh then .error .ub else
    (List.range (2 ^ g.d)).foldlM (fun (acc : PS × Nat) i => do
      let (ps, ret) := acc
      let pre ← ofUB (shl g.w nodePrefix g.d)
      let (s, t) := equalRange codes sh ((pre + i) % 2 ^ g.w) b e
      let npart := t - s
      if npart ≠ 0 then do
        let up ← ofUB (shl g.w pc g.d)
        let cur := (up + i) % 2 ^ g.w
        let node : Node := ⟨s, t, 0, cur, pl + 1⟩
        let crit := isCrit g critAnc npart (pl + 1)
        let cl : List CNode := if crit then [⟨cur, s, t⟩] else []
        -- the new subtree with its list of critical nodes, what deeper parallel tasks push, the children count
        let (newTree, newCrit, deeper, nc) ← (if npart > g.maxLeaf then
            if npart < split then do
              let (st, cc) ← buildSer g codes k cur s t (crit || critAnc) ⟨[node], cl⟩
              pure (st.tree.modify 0 (fun n => { n with nChildren := cc }), st.crit, (⟨[], []⟩ : PS), cc)
            else do
              let (ps', cc) ← buildPar g codes split k cur s t (crit || critAnc)
              pure ([{ node with nChildren := cc }], cl, ps', cc)
          else pure ([node], cl, (⟨[], []⟩ : PS), 0))
        let ret ← checkedUInc szMax ret nc
        let ret ← checkedUInc szMax ret 1
        pure ((⟨ps.trees ++ newTree :: deeper.trees, ps.crits ++ newCrit :: deeper.crits⟩ : PS), ret)
      else pure (ps, ret)) (⟨[], []⟩, 0)

/-- The comparator for subtrees (tree.hpp:989-992): `node_compare` of the codes of the first nodes. -/
def treeLt (g : Cfg) (t1 t2 : List Node) : Bool :=
  match t1.head?, t2.head? with
  | some a, some b => (nodeCompare g.w g.d a.code b.code).getD false
  | _, _ => false

/-- The comparator for lists of critical nodes (tree.hpp:1023-1035). -/
def critLt (v1 v2 : List CNode) : Bool :=
  match v1, v2 with
  | [], [] => false
  | [], _ :: _ => true
  | _ :: _, [] => false
  | a :: _, b :: _ => decide (a.beg < b.beg)

/-- The contract of `std::sort`: some permutation of the input without inversions. -/
def IsSortOf {α : Type} (lt : α → α → Bool) (l l' : List α) : Prop :=
  l'.Perm l ∧ l'.Pairwise (fun a b => lt b a = false)

/-- Is the root a critical node (tree.hpp:970). -/
def rootCrit (g : Cfg) (codes : List Nat) : Bool :=
  decide (codes.length ≤ g.ncrit) || decide (codes.length ≤ g.maxLeaf)

/-- The children of the root (tree.hpp:976-979). -/
def rootChildren (g : Cfg) (codes : List Nat) (split : Nat) : Except Err (PS × Nat) :=
  if codes.length > g.maxLeaf then buildPar g codes split g.cb 1 0 codes.length (rootCrit g codes)
  else .ok (⟨[], []⟩, 0)

/-- `build_tree` (tree.hpp:932-1111): a relation, as concurrent pushes and sorting may produce any order.
The result is `m_tree` and `m_crit_nodes` on return, or the error. The sizes accumulated with `checked_uinc` for the
merge (993-1003, 1037-1044) are sums of sizes of vectors that exist in memory; they are not modelled as failing. -/
inductive IsBuild (g : Cfg) (codes : List Nat) (split : Nat) : Except Err (List Node × List CNode) → Prop
  /-- No particles: nothing to do (939-941). -/
  | empty : codes = [] → IsBuild g codes split (.ok ([], []))
  /-- General case: merge of the sorted subtrees (984-1018) and of the sorted lists of critical nodes (1020-1059). -/
  | run (ps : PS) (cc : Nat) (trees : List (List Node)) (crits : List (List CNode)) :
      codes ≠ [] → rootChildren g codes split = .ok (ps, cc) →
      IsSortOf (treeLt g) ps.trees trees →
      IsSortOf critLt ((if rootCrit g codes then [[⟨1, 0, codes.length⟩]] else []) ++ ps.crits) crits →
      IsBuild g codes split (.ok (⟨0, codes.length, cc, 1, 0⟩ :: trees.flatten, crits.flatten))
  /-- A failure while building the children. -/
  | fail (er : Err) : codes ≠ [] → rootChildren g codes split = .error er → IsBuild g codes split (.error er)

end Rakau
