import Mathlib.Algebra.BigOperators.Pi
import Mathlib.Algebra.Field.Basic

/-! Specification: softened Newtonian gravity. Independent of the model of the C++ code. -/
namespace Rakau.Spec

variable {K : Type} [Field K]

/-- An acceleration (by component) and a potential energy. -/
abbrev Val (K : Type) := (Nat → K) × K

/-- The squared distance of two points in `d` dimensions, plus the square `e` of the softening length. -/
def D2 (d : Nat) (e : K) (y z : Nat → K) : K := ∑ j ∈ Finset.range d, (z j - y j) ^ 2 + e

/-- The acceleration and potential energy (for `G = 1`) of a body at `y` with mass `m` due to one at `z` with mass `m'`, given the inverse
softened distance `i1` and the inverse cube `i3`, as functions of the squared softened distance. -/
def grav (i1 i3 : K → K) (d : Nat) (e : K) (y : Nat → K) (m : K) (z : Nat → K) (m' : K) : Val K :=
  (fun j => m' * i3 (D2 d e y z) * (z j - y j), -(m * m' * i1 (D2 d e y z)))

/-- Multiplication by a constant. -/
def Val.smul (g : K) (v : Val K) : Val K := (fun j => g * v.1 j, g * v.2)

theorem D2_comm (d : Nat) (e : K) (y z : Nat → K) : D2 d e y z = D2 d e z y := by
  unfold D2
  congr 1
  apply Finset.sum_congr rfl
  intro j _
  rw [← neg_sub (z j) (y j), neg_sq]

end Rakau.Spec
