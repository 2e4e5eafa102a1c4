import Verif.Model.Par
import Mathlib.Data.Set.Basic

/-! What it means for a parallel program to be correct however its tasks are scheduled. -/
namespace Rakau
namespace Spec
open Par

variable {L V : Type} [DecidableEq L]

/-- Two accesses that can both come next conflict: the same location, and at least one of them writes. A program has a data race if an execution leads to this situation. -/
def Race (p : P L V) (m : L → V) : Prop :=
  ∃ (i j : Nat) (a b : Access L × (L → V) × P L V), i < j ∧ (p.steps m)[i]? = some a ∧ (p.steps m)[j]? = some b ∧ a.1.1 = b.1.1 ∧ (a.1.2 = true ∨ b.1.2 = true)

/-- Nothing is left to do: everything that was to be done has become `skip`. -/
inductive Done : P L V → Prop
  | skip : Done .skip
  | seq {p q : P L V} : Done p → Done q → Done (.seq p q)
  | par {p q : P L V} : Done p → Done q → Done (.par p q)

/-- An active task is at a `throw`. -/
inductive Thrown : P L V → Prop
  | throw : Thrown .throw
  | first {p q : P L V} : Thrown p → Thrown (.seq p q)
  | second {p q : P L V} : Done p → Thrown q → Thrown (.seq p q)
  | left {p q : P L V} : Thrown p → Thrown (.par p q)
  | right {p q : P L V} : Thrown q → Thrown (.par p q)

/-- What is required of all the executions that start with memory `m`, up to any point: no data race; accesses within `B`; writes within `W`; an end, with nothing left to do and memory `r`
for the outcome `some r`, with an exception for the outcome `none`; no exception at any time for the outcome `some r`. -/
structure Schedules (p : P L V) (m : L → V) (B W : Set L) (o : Option (L → V)) : Prop where
  race : ∀ {k p' m'}, Exec k p m p' m' → ¬ Race p' m'
  bounds : ∀ {k p' m'}, Exec k p m p' m' → ∀ s ∈ p'.steps m', s.1.1 ∈ B ∧ (s.1.2 = true → s.1.1 ∈ W)
  frame : ∀ {k p' m'}, Exec k p m p' m' → ∀ l, l ∉ W → m' l = m l
  ends : ∃ n, ∀ {k p' m'}, Exec k p m p' m' → k ≤ n
  outcome : ∀ {k p' m'}, Exec k p m p' m' → p'.steps m' = [] → match o with
    | some r => Done p' ∧ m' = r
    | none => Thrown p'
  quiet : ∀ {k p' m'}, Exec k p m p' m' → o.isSome → ¬ Thrown p'

end Spec
end Rakau
