/-
Specification side: a tree node is the path of child indices that leads to it from the root.
Nothing here refers to the model of the C++ code.
-/
namespace Rakau.Spec

/-- A node, as the list of child indices followed from the root (root = `[]`). -/
abbrev Path := List Nat

/-- All child indices of a path are below `2^d`. -/
def Path.Ok (d : Nat) (p : Path) : Prop := ∀ i ∈ p, i < 2 ^ d

instance (d : Nat) (p : Path) : Decidable (Path.Ok d p) := inferInstanceAs (Decidable (∀ i ∈ p, i < 2 ^ d))

/-- The nodal code of a path: a leading 1 followed by the child indices as base-`2^d` digits. -/
def Path.code (d : Nat) (p : Path) : Nat := p.foldl (fun c i => c * 2 ^ d + i) 1

/-- Depth-first preorder on paths: ancestors first, then by the first differing child index. -/
abbrev Path.Before (p q : Path) : Prop := List.Lex (· < ·) p q

/-- `k` is the number of leading zero bits of the `w`-bit number `n`. -/
def IsLeadingZeros (w n k : Nat) : Prop :=
  k < w ∧ n.testBit (w - 1 - k) = true ∧ ∀ j, w - 1 - k < j → n.testBit j = false

end Rakau.Spec
