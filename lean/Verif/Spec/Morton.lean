/-! Specification: bit interleaving. Independent of the model of the C++ code. -/
namespace Rakau.Spec

/-- `m` interleaves the low `b` bits of the coordinates `xs`: bit `d*i + j` of `m` is bit `i` of coordinate `j`
(`d` = number of coordinates), and `m` has no further bits. -/
def Interleaves (b : Nat) (xs : List Nat) (m : Nat) : Prop :=
  m < 2 ^ (b * xs.length) ∧
  ∀ i < b, ∀ j, ∀ h : j < xs.length, m.testBit (xs.length * i + j) = (xs[j]).testBit i

end Rakau.Spec
