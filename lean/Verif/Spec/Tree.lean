import Verif.Spec.Path

/-!
Specification of the tree for a given list of particle codes, independent of how it is built.
A particle code of `cb*d` bits is read as a path of `cb` child indices; a particle is in a node when the node's path
is a prefix of the particle's path.
-/
namespace Rakau.Spec

/-- The path of a particle code: its `cb` base-`2^d` digits, most significant first. -/
def digits (d : Nat) : Nat → Nat → Path
  | 0, _ => []
  | cb + 1, c => digits d cb (c / 2 ^ d) ++ [c % 2 ^ d]

/-- The particle with code `c` is in node `p`. -/
def InNode (d cb : Nat) (p : Path) (c : Nat) : Prop := p <+: digits d cb c

instance (d cb : Nat) (p : Path) (c : Nat) : Decidable (InNode d cb p c) :=
  inferInstanceAs (Decidable (p <+: _))

/-- Number of particles in node `p`. -/
def count (d cb : Nat) (codes : List Nat) (p : Path) : Nat := codes.countP (fun c => decide (InNode d cb p c))

/-- The nodes of the tree: the root, and the non-empty children (down to level `cb`) of nodes with more than `maxLeaf`
particles. -/
def IsNode (d cb maxLeaf : Nat) (codes : List Nat) (p : Path) : Prop :=
  p.length ≤ cb ∧ 0 < count d cb codes p ∧ (p ≠ [] → maxLeaf < count d cb codes p.dropLast)

instance (d cb maxLeaf : Nat) (codes : List Nat) (p : Path) : Decidable (IsNode d cb maxLeaf codes p) :=
  inferInstanceAs (Decidable (_ ∧ _ ∧ (_ → _)))

/-- A node small enough to be used as a group of targets. -/
def CritSize (d cb maxLeaf ncrit : Nat) (codes : List Nat) (p : Path) : Prop :=
  count d cb codes p ≤ ncrit ∨ count d cb codes p ≤ maxLeaf ∨ p.length = cb

instance (d cb maxLeaf ncrit : Nat) (codes : List Nat) (p : Path) : Decidable (CritSize d cb maxLeaf ncrit codes p) :=
  inferInstanceAs (Decidable (_ ∨ _ ∨ _))

/-- Critical nodes: the topmost nodes of critical size. -/
def IsCritNode (d cb maxLeaf ncrit : Nat) (codes : List Nat) (p : Path) : Prop :=
  IsNode d cb maxLeaf codes p ∧ CritSize d cb maxLeaf ncrit codes p ∧
  ∀ q, q <+: p → q ≠ p → ¬ CritSize d cb maxLeaf ncrit codes q

end Rakau.Spec
