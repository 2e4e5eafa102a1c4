import Verif.Model.Build

/-!
Model of the tree traversal for a target node (include/rakau/tree.hpp:2798-2849), with the control flow of the acceptance check
(2597-2793). The traversal is a list of visits; each visit may add the interaction of the target with the centre of mass
of the node, or with the particles of a leaf.
-/
namespace Rakau

/-- What a visited source node contributes. -/
inductive Ev
  /-- `tree_acc_pot_src_com(i)` (tree.hpp:2780): the node acts through its centre of mass. -/
  | com (i : Nat)
  /-- `tree_acc_pot_leaf(i)` (tree.hpp:2788): all the particles of the leaf act. -/
  | leaf (i : Nat)
  deriving DecidableEq, Repr

/-- A visited node: its index and its contribution. -/
structure Visit where
  idx : Nat
  ev : Option Ev
  deriving DecidableEq, Repr

/-- The outcome of a right shift by at least the width of the type. In C++ it is undefined (`fun _ _ => none`); compilers for x86
produce a shift by the amount modulo the width (`fun x s => some (x >>> (s % w))`). -/
abbrev Overshift := Nat → Nat → Option Nat

/-- Over-wide shifts as undefined behaviour. -/
def strictShift : Overshift := fun _ _ => none

/-- Over-wide shifts as x86 instructions compute them. -/
def maskedShift (w : Nat) : Overshift := fun x s => some (x >>> (s % w))

/-- `x >> s`. -/
def shrO (over : Overshift) (w x s : Nat) : Option Nat := if s < w then some (x >>> s) else over x s

/-- `tree_acc_pot_mac_check` (tree.hpp:2597-2793) without the arithmetic: `acc i` is the final value of `mac_flag` for node `i`.
Returns the next node and the contribution. -/
def macStep (acc : Nat → Bool) (i : Nat) (nd : Node) : Nat × Option Ev :=
  if acc i then (i + nd.nChildren + 1, some (.com i))
  else (i + 1, if nd.nChildren = 0 then some (.leaf i) else none)

/-- One iteration of the loop over the source nodes (tree.hpp:2814-2843). Returns the next node and the contribution. -/
def travStep (over : Overshift) (w d tgtCode : Nat) (acc : Nat → Bool) (i : Nat) (nd : Node) : Except Err (Nat × Option Ev) := do
  let s ← ofUB (shrO over w tgtCode (mulSz (subW w (treeLevel w d tgtCode) nd.level) d))
  if s = nd.code then .ok (i + (1 + (if nd.code = tgtCode then nd.nChildren else 0)), none)
  else .ok (macStep acc i nd)

/-- At most `fuel` iterations of the loop from index `i`; `none` if it has not finished by then. The indices are 64-bit; they never
exceed the number of nodes (`C52_traversal`), so the additions do not wrap around. -/
def travGo (over : Overshift) (w d : Nat) (tree : List Node) (tgtCode : Nat) (acc : Nat → Bool) :
    Nat → Nat → Option (Except Err (List Visit))
  | fuel, i =>
    match tree[i]? with
    | none => some (.ok [])
    | some nd =>
      match fuel with
      | 0 => none
      | fuel + 1 =>
        match travStep over w d tgtCode acc i nd with
        | .error e => some (.error e)
        | .ok (j, ev) => (travGo over w d tree tgtCode acc fuel j).map (fun r => r.map (⟨i, ev⟩ :: ·))

end Rakau
