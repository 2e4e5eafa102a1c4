import Verif.Model.Build

/-!
The tasks of the parallel tree builder (include/rakau/tree.hpp:841-931) as programs of single operations on shared objects: `push_back` on the concurrent vectors
`trees` and `crit_nodes`, accesses to the elements of these vectors through the references that `push_back` returns, and operations on the atomic counters
(`std::atomic<size_type> retval`). Here the tasks are interleaved operation by operation, while `buildPar` of `Model/Build.lean` goes through the children in turn.

The codes and the particles do not change while the tree is built. The properties of nodes are computed for a local object (`compute_node_properties(new_node)`)
from the particles; they are not part of `Node`. A call of the serial builder (lines 904-913) works on two elements to which its task holds references: it is one read and one
write of each. That these elements stay untouched by others meanwhile is part of what is proved.
-/
namespace Rakau
namespace Builder

/-- The shared objects: `m_tree[0]`, elements of `trees`, elements of `crit_nodes` (lines 948-961). -/
inductive Obj
  | root (n : Node)
  | tree (t : List Node)
  | crit (c : List CNode)
  deriving DecidableEq, Repr

/-- Objects in the order of their creation, and atomic counters. References stay valid when a concurrent vector grows, so a reference is the number of an object. -/
structure Heap where
  objs : List Obj
  ctrs : List Nat

/-- The contents of `trees`, in the order of the pushes. -/
def Heap.trees (h : Heap) : List (List Node) := h.objs.filterMap (fun | .tree t => some t | _ => none)

/-- The contents of `crit_nodes`, in the order of the pushes. -/
def Heap.crits (h : Heap) : List (List CNode) := h.objs.filterMap (fun | .crit c => some c | _ => none)

/-- Fork-join programs. `push` goes on with the reference to the new element; `add` is `fetch_add` and goes on with the previous value; `par` runs both programs and waits for both. -/
inductive B
  | skip
  | throw (e : Err)
  | push (o : Obj) (k : Nat → B)
  | get (r : Nat) (k : Obj → B)
  | set (r : Nat) (o : Obj) (p : B)
  | newCtr (k : Nat → B)
  | add (r x : Nat) (k : Nat → B)
  | load (r : Nat) (k : Nat → B)
  | seq (p q : B)
  | par (p q : B)

/-- Nothing is left to do. -/
def B.fin : B → Bool
  | .skip => true
  | .seq p q => p.fin && q.fin
  | .par p q => p.fin && q.fin
  | _ => false

/-- The operations that can come next, one per active task, with what they lead to. The first component is the access to an object: its number, and whether it is written to. Pushes
and operations on atomic objects are not accesses that can race. Accesses to objects that do not exist are undefined. Atomic counters are of 64 bits and wrap around. -/
def B.steps : B → Heap → List (Option (Nat × Bool) × Heap × B)
  | .skip, _ => []
  | .throw _, _ => []
  | .push o k, h => [(none, { h with objs := h.objs ++ [o] }, k h.objs.length)]
  | .get r k, h => [(some (r, false), h, match h.objs[r]? with | some o => k o | none => .throw .ub)]
  | .set r o p, h => [(some (r, true), { h with objs := h.objs.set r o }, if r < h.objs.length then p else .throw .ub)]
  | .newCtr k, h => [(none, { h with ctrs := h.ctrs ++ [0] }, k h.ctrs.length)]
  | .add r x k, h => [(none, { h with ctrs := h.ctrs.modify r (fun v => (v + x) % 2 ^ 64) }, match h.ctrs[r]? with | some v => k v | none => .throw .ub)]
  | .load r k, h => [(none, h, match h.ctrs[r]? with | some v => k v | none => .throw .ub)]
  | .seq p q, h => if p.fin then (q.steps h).map (fun s => (s.1, s.2.1, .seq p s.2.2)) else (p.steps h).map (fun s => (s.1, s.2.1, .seq s.2.2 q))
  | .par p q, h => (p.steps h).map (fun s => (s.1, s.2.1, .par s.2.2 q)) ++ (q.steps h).map (fun s => (s.1, s.2.1, .par p s.2.2))

/-- Executions with any interleaving, with the number of operations so far. -/
inductive Exec : Nat → B → Heap → B → Heap → Prop
  | refl (p : B) (h : Heap) : Exec 0 p h p h
  | step {n : Nat} {p q : B} {h h' : Heap} {s : Option (Nat × Bool) × Heap × B} : s ∈ p.steps h → Exec n s.2.2 s.2.1 q h' → Exec (n + 1) p h q h'

/-- A loop over the given indices. -/
def B.loop (body : Nat → B) : List Nat → B
  | [] => .skip
  | i :: l => .seq (body i) (B.loop body l)

/-- Several tasks. -/
def B.all : List B → B
  | [] => .skip
  | p :: l => .par p (B.all l)

/-- `tbb::parallel_for` over a `blocked_range`. -/
def B.pfor (blocks : List (List Nat)) (body : Nat → B) : B := B.all (blocks.map (B.loop body))

/-- Read an element of `trees`. -/
def getT (r : Nat) (k : List Node → B) : B := .get r (fun | .tree t => k t | _ => .throw .ub)

/-- Read an element of `crit_nodes`. -/
def getC (r : Nat) (k : List CNode → B) : B := .get r (fun | .crit c => k c | _ => .throw .ub)

/-- Undefined operations. -/
def orUB {α : Type} (o : Option α) (k : α → B) : B :=
  match o with
  | some a => k a
  | none => .throw .ub

/-- `checked_uinc(std::atomic<T> &, T)` (tree.hpp:520-528). -/
def incP (c x : Nat) (p : B) : B := .add c x (fun prev => if prev > szMax - x then .throw .overflow else p)

/-- `new_tree[0].n_children = cc` (lines 914, 918). -/
def setCount (r cc : Nat) (p : B) : B := getT r (fun t => .set r (.tree (t.modify 0 (fun n => { n with nChildren := cc }))) p)

/-- The two additions to the counter of the parent (lines 923-924). -/
def countP (c r : Nat) : B := getT r (fun t => orUB t[0]? (fun n => incP c n.nChildren (incP c 1 .skip)))

/-- `build_tree_par_impl<ParentLevel>` (lines 841-931), followed by `cont` with the returned number of children. `blocks` are the blocks of the parallel loop in the call for the given parent;
the loop runs over the children, lines 859-926. Other arguments as for `buildPar`. -/
def buildP (g : Cfg) (codes : List Nat) (split : Nat) (blocks : Nat → List (List Nat)) : Nat → Nat → Nat → Nat → Bool → (Nat → B) → B
  | 0, _, _, _, _, cont => cont 0
  | k + 1, pc, b, e, critAnc, cont =>
    let pl := g.cb - (k + 1)
    orUB (shl g.w 1 (mulSz pl g.d)) fun one =>
    let nodePrefix := subW g.w pc one
    let sh := mulSz (g.cb - pl - 1) g.d
    if g.w ≤ sh then .throw .ub else
    .newCtr fun c => .seq (B.pfor (blocks pc) fun i =>
      orUB (shl g.w nodePrefix g.d) fun pre =>
      let (s, t) := equalRange codes sh ((pre + i) % 2 ^ g.w) b e
      let npart := t - s
      if npart ≠ 0 then
        orUB (shl g.w pc g.d) fun up =>
        let cur := (up + i) % 2 ^ g.w
        -- `trees.push_back(tree_type{})`, `new_tree.push_back(new_node)` (871-878)
        .push (.tree []) fun r => getT r fun t0 => .set r (.tree (t0 ++ [⟨s, t, 0, cur, pl + 1⟩])) <|
        let crit := isCrit g critAnc npart (pl + 1)
        -- the entry of `crit_nodes` (893-896)
        getT r fun t1 => orUB t1[0]? fun n0 => .push (.crit (if crit then [⟨n0.code, n0.beg, n0.fin⟩] else [])) fun q =>
        if npart > g.maxLeaf then
          if npart < split then
            -- the serial builder on the new elements (904-914)
            getT r fun t2 => getC q fun c2 =>
            match buildSer g codes k cur s t (crit || critAnc) ⟨t2, c2⟩ with
            | .error er => .throw er
            | .ok (st, cc) => .set r (.tree st.tree) <| .set q (.crit st.crit) <| setCount r cc <| countP c r
          else buildP g codes split blocks k cur s t (crit || critAnc) (fun cc => setCount r cc (countP c r))
        else countP c r
      else .skip) (.load c cont)

/-- `m_tree[0].n_children = ...` (line 977). -/
def setRoot (cc : Nat) : B := .get 0 (fun | .root n => .set 0 (.root { n with nChildren := cc }) .skip | _ => .throw .ub)

/-- The children of the root (lines 976-979). -/
def rootP (g : Cfg) (codes : List Nat) (split : Nat) (blocks : Nat → List (List Nat)) : B :=
  if codes.length > g.maxLeaf then buildP g codes split blocks g.cb 1 0 codes.length (rootCrit g codes) setRoot else .skip

/-- The objects before the children are built (lines 948-974): the root, and the entry for the root in `crit_nodes` if it is critical. -/
def start (g : Cfg) (codes : List Nat) : Heap :=
  ⟨.root ⟨0, codes.length, 0, 1, 0⟩ :: (if rootCrit g codes then [.crit [⟨1, 0, codes.length⟩]] else []), []⟩

end Builder
end Rakau
