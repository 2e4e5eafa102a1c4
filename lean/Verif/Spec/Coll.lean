import Mathlib.Algebra.Order.Field.Basic
import Mathlib.Algebra.Order.Group.Abs

/-! Specification of the collision graph. -/
namespace Rakau.Spec

variable {K : Type} [Field K] [LinearOrder K]

/-- The closed cubes of size `s` around `x` and of size `t` around `y` have a point in common. -/
def CubesMeet (d : Nat) (x : Nat → K) (s : K) (y : Nat → K) (t : K) : Prop :=
  ∃ z : Nat → K, ∀ j < d, |z j - x j| ≤ s / 2 ∧ |z j - y j| ≤ t / 2

/-- `i` is the index by which the caller knows the particle stored at position `a`: the original index if the `_o` functions are
used, otherwise the position. -/
def UserIdx (perm : List Nat) (ordered : Bool) (a i : Nat) : Prop :=
  if ordered then perm[a]? = some i else a = i

/-- The graph without edges between empty AABBs, and with an edge between any two different particles with overlapping AABBs.
`x j a` is coordinate `j` of the particle stored at position `a`, `size i` the size given by the caller for index `i`. -/
def IsOverlapGraph (d n : Nat) (perm : List Nat) (ordered : Bool) (x : Nat → Nat → K) (size : Nat → K) (g : List (List Nat)) : Prop :=
  g.length = n ∧ ∀ i (hi : i < g.length) j, j ∈ g[i] ↔
    ∃ a b, a < n ∧ b < n ∧ a ≠ b ∧ UserIdx perm ordered a i ∧ UserIdx perm ordered b j ∧ size i ≠ 0 ∧ size j ≠ 0 ∧
      CubesMeet d (fun k => x k a) (size i) (fun k => x k b) (size j)

end Rakau.Spec
