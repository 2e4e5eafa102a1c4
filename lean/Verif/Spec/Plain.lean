import Verif.Model.State

/-!
Specification side for particle data: a plain table in user order, and what the user sees of a tree.
-/
namespace Rakau.Spec

/-- Element `k` of array `j` of the unordered view `p_its_u()` (tree.hpp:3632-3641). -/
def unordered {env : Env} (s : TS env) (j k : Nat) : Option env.F := do (← s.parts[j]?)[k]?

/-- Element `k` of array `j` of the ordered view `p_its_o()` (tree.hpp:3621-3645): a permutation iterator. -/
def ordered {env : Env} (s : TS env) (j k : Nat) : Option env.F := do
  let v ← s.parts[j]?
  let i ← s.invPerm[k]?
  v[i]?

/-- The ordered view shows exactly the table `a`. -/
def Shows {env : Env} (s : TS env) (a : List (List env.F)) : Prop :=
  a.length = s.parts.length ∧ (∀ v ∈ a, v.length = s.n) ∧ ∀ j k, ordered s j k = (do (← a[j]?)[k]?)

/-- An edit of a plain table in user order: a callback, the index translation it uses, and whether it only sees the masses. -/
structure Edit (F : Type) where
  prog : Prog F
  idx : Nat → Option Nat
  massesOnly : Bool

/-- Apply an edit to a plain table with `d` coordinate arrays. -/
def Edit.apply {F : Type} (d : Nat) (e : Edit F) (a : List (List F)) : Except Err (List (List F)) :=
  if e.massesOnly then do let m ← e.prog.run e.idx (a.drop d); pure (a.take d ++ m)
  else e.prog.run e.idx a

/-- Apply a sequence of edits. -/
def applyEdits {F : Type} (d : Nat) : List (Edit F) → List (List F) → Except Err (List (List F))
  | [], a => .ok a
  | e :: es, a => do applyEdits d es (← e.apply d a)

/-- A history of successful updates from `s`, with the edits it amounts to in user order: ordered callbacks use user
indices directly, unordered ones address particle `perm()[k]` by `k`. -/
inductive History {env : Env} : TS env → List (Edit env.F) → TS env → Prop
  | nil (s : TS env) : History s [] s
  | particlesO (s t u : TS env) (es : List (Edit env.F)) (f : Prog env.F) : History s es t → UpdateParticles t true f (.ok u) →
      History s (es ++ [⟨f, some, false⟩]) u
  | particlesU (s t u : TS env) (es : List (Edit env.F)) (f : Prog env.F) : History s es t → UpdateParticles t false f (.ok u) →
      History s (es ++ [⟨f, fun k => t.perm[k]?, false⟩]) u
  | massesO (s t u : TS env) (es : List (Edit env.F)) (f : Prog env.F) : History s es t → updateMasses t true f = .ok u →
      History s (es ++ [⟨f, some, true⟩]) u
  | massesU (s t u : TS env) (es : List (Edit env.F)) (f : Prog env.F) : History s es t → updateMasses t false f = .ok u →
      History s (es ++ [⟨f, fun k => t.perm[k]?, true⟩]) u

end Rakau.Spec
