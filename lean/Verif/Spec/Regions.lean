import Verif.Model.Regions
import Verif.Spec.Races

/-! Memory contents and sets of locations, for the statements about parallel regions. -/
namespace Rakau
namespace Spec

variable {env : Env} {R : Type}

/-- What an array in memory begins with. -/
def Has (m : Loc → Cell env R) (a : Name) (xs : List (Cell env R)) : Prop := ∀ i (h : i < xs.length), m (a, i) = xs[i]

/-- The particle data in memory. -/
def HasParts (m : Loc → Cell env R) (parts : List (List env.F)) : Prop := ∀ j (h : j < parts.length), Has m (.parts j) (parts[j].map .val)

/-- The first `n` elements of some arrays. -/
def cells (n : Nat) (names : List Name) : Set Loc := {l | l.1 ∈ names ∧ l.2 < n}

/-- The first `d` arrays of a family. -/
def family (f : Nat → Name) (d : Nat) : List Name := (List.range d).map f

/-- All that the tasks of a construction read, and write. -/
def permuteIn (d : Nat) : List Name := [.codes, .perm] ++ family .parts (d + 1)
def permuteOut (d : Nat) : List Name := [.newCodes, .invPerm, .lastPerm] ++ family .newParts (d + 1)

/-- All that the tasks of `sync` read, and write. -/
def syncIn (d : Nat) : List Name := [.codes, .perm, .lastPerm] ++ family .parts (d + 1)
def syncOut (d : Nat) : List Name := [.newCodes, .newPerm, .invPerm] ++ family .newParts (d + 1)

/-- The elements of pieces of the given lengths. -/
def pieceLocs (piece : Nat → Name) (lens : List Nat) : Set Loc := {l | ∃ i, ∃ h : i < lens.length, l.1 = piece i ∧ l.2 < lens[i]}

/-- The elements of an array from `start` on, as many as there are in all the pieces. -/
def destLocs (dst : Name) (start : Nat) (lens : List Nat) : Set Loc := {l | l.1 = dst ∧ start ≤ l.2 ∧ l.2 < start + lens.sum}

/-- A way to split the range of a parallel loop into blocks. -/
def Split (n : Nat) (bl : List (List Nat)) : Prop := bl.flatten.Perm (List.range n)

end Spec
end Rakau
