import Mathlib.Algebra.Order.Floor.Ring
import Mathlib.Algebra.Order.Field.Basic

/-! Specification: geometry of the domain. Independent of the model of the C++ code. -/
namespace Rakau.Spec

variable {K : Type} [Field K] [LinearOrder K]

/-- `x` lies in a domain of size `b` centred on the origin: `[-b/2, b/2)`. -/
def InBox (b x : K) : Prop := -(b / 2) ≤ x ∧ x < b / 2

instance (b x : K) : Decidable (InBox b x) := inferInstanceAs (Decidable (_ ∧ _))

/-- `c` is the index of the cell that contains `x`, of the `2 ^ k` half-open cells of equal size that the domain is
divided into. -/
def IsCell (b : K) (k : Nat) (x : K) (c : Nat) : Prop :=
  -(b / 2) + c * (b / 2 ^ k) ≤ x ∧ x < -(b / 2) + (c + 1) * (b / 2 ^ k)

/-- `x` lies in the half-open cube of centre `c` and size `s`. -/
def InCube (c : List K) (s : K) (x : Nat → K) : Prop := ∀ j (h : j < c.length), c[j] - s / 2 ≤ x j ∧ x j < c[j] + s / 2

end Rakau.Spec
