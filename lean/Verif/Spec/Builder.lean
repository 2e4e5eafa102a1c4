import Verif.Model.Builder

/-! What is required of the concurrent tree builder. -/
namespace Rakau
namespace Spec
open Builder

/-- Nothing is left to do. -/
inductive Finished : B → Prop
  | skip : Finished .skip
  | seq {p q : B} : Finished p → Finished q → Finished (.seq p q)
  | par {p q : B} : Finished p → Finished q → Finished (.par p q)

/-- An active task is at a `throw` of the error. -/
inductive Throws (e : Err) : B → Prop
  | throw : Throws e (.throw e)
  | first {p q : B} : Throws e p → Throws e (.seq p q)
  | second {p q : B} : Finished p → Throws e q → Throws e (.seq p q)
  | left {p q : B} : Throws e p → Throws e (.par p q)
  | right {p q : B} : Throws e q → Throws e (.par p q)

/-- Two tasks are about to access the same object, and one of them writes. -/
def Conflict (p : B) (h : Heap) : Prop :=
  ∃ (i j : Nat) (a b : Option (Nat × Bool) × Heap × B) (r : Nat) (u v : Bool), i < j ∧ (p.steps h)[i]? = some a ∧ (p.steps h)[j]? = some b ∧
    a.1 = some (r, u) ∧ b.1 = some (r, v) ∧ (u = true ∨ v = true)

/-- The complete runs of `build_tree`: tasks in any interleaving, then the sorting and merging of what they have left (tree.hpp:984-1059). -/
inductive Runs (g : Cfg) (codes : List Nat) (split : Nat) (blocks : Nat → List (List Nat)) : Except Err (List Node × List CNode) → Prop
  | ok {n : Nat} {p : B} {h : Heap} {nd : Node} {trees : List (List Node)} {crits : List (List CNode)} :
      Exec n (rootP g codes split blocks) (start g codes) p h → Finished p → .root nd ∈ h.objs → IsSortOf (treeLt g) h.trees trees → IsSortOf critLt h.crits crits →
      Runs g codes split blocks (.ok (nd :: trees.flatten, crits.flatten))
  | error {n : Nat} {p : B} {h : Heap} {e : Err} : Exec n (rootP g codes split blocks) (start g codes) p h → Throws e p → Runs g codes split blocks (.error e)

end Spec
end Rakau
