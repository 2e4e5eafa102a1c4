import Verif.Spec.Morton

/-! Specification for the methods of the bundled libmorton. Bit interleaving is `Spec.Interleaves`. Independent of the model of the C++ code. -/
namespace Rakau.Spec

/-- The combinations of types: 32-bit or 64-bit codes, coordinates of 16, 32 or 64 bits with at least half the bits of the code, 2 or 3 dimensions. -/
def LibTypes (mw cw d : Nat) : Prop := (mw = 32 ∨ mw = 64) ∧ (cw = 16 ∨ cw = 32 ∨ cw = 64) ∧ mw ≤ 2 * cw ∧ (d = 2 ∨ d = 3)

/-- The highest one bit of `x` is bit number `k` when the lowest has number 1. -/
def HighestBit (x k : Nat) : Prop := 0 < k ∧ 2 ^ (k - 1) ≤ x ∧ x < 2 ^ k

end Rakau.Spec
