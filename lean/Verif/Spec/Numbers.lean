import Verif.Model.Numbers

/-! Binary floating-point numbers and rounding to nearest, without reference to how they are computed. -/
namespace Rakau.Spec

/-- `v` is a finite value of the format: an integer of at most `prec` bits times a power of two in the range. -/
def Value (f : Format) (v : ℚ) : Prop := ∃ m e : ℤ, |m| < 2 ^ f.prec ∧ f.emin ≤ e ∧ |v| < 2 ^ f.emax ∧ v = m * 2 ^ e

/-- `v` is a value of the format nearest to `q`; if another one is as near then `v` is an even multiple of their distance. -/
def Nearest (f : Format) (q v : ℚ) : Prop :=
  Value f v ∧ (∀ u, Value f u → |q - v| ≤ |q - u|) ∧ ∀ u, Value f u → u ≠ v → |q - u| = |q - v| → ∃ m : ℤ, v = 2 * m * |u - v|

/-- `q` is greater than all the finite values of the format, or less than all of them. -/
def Outside (f : Format) (q : ℚ) : Prop := (∀ v, Value f v → v < q) ∨ ∀ v, Value f v → q < v

/-- The value of a number, if it is finite. -/
def val : Num → Option ℚ
  | .int v => some v
  | .flt _ (.fin q) => some q
  | .flt _ _ => none

/-- A number as it can occur: integers of up to 64 bits, floating-point numbers with values of their types. -/
def Occurs : Num → Prop
  | .int v => -2 ^ 63 ≤ v ∧ v < 2 ^ 64
  | .flt g (.fin q) => Value g q
  | .flt _ _ => True

/-- The type of a number has more digits than the format. -/
def Wider (f : Format) : Num → Prop
  | .int _ => False
  | .flt g _ => f.prec < g.prec

/-- An infinity. -/
def IsInf : Num → Prop
  | .flt _ (.inf _) => True
  | _ => False

/-- The format `f` has all the values of the format `g`. -/
def Contains (f g : Format) : Prop := g.prec ≤ f.prec ∧ f.emin ≤ g.emin ∧ g.emax ≤ f.emax

/-- The type of a number has more digits than the format, or values of the format only. -/
def Comparable (f : Format) : Num → Prop
  | .int _ => True
  | .flt g _ => f.prec < g.prec ∨ Contains f g

/-- What arrives of `n` as a parameter of the format: the nearest value; NaNs and infinities as they are. -/
def Arrives (f : Format) (n : Num) (x : Fl ℚ) : Prop :=
  (∃ q v, val n = some q ∧ x = .fin v ∧ Nearest f q v) ∨ ∃ g, n = .flt g x ∧ x.isFinite = false

/-- `n` is too large for the format: its type has more digits, and it is infinite or outside the range. -/
def TooLarge (f : Format) (n : Num) : Prop := Wider f n ∧ (IsInf n ∨ ∃ q, val n = some q ∧ Outside f q)

/-- The integer part of `n` is `k`. -/
def WholePart (n : Num) (k : Nat) : Prop := ∃ q, val n = some q ∧ q < 2 ^ 64 ∧ ((k : ℚ) ≤ q ∧ q < k + 1 ∨ k = 0 ∧ -1 < q ∧ q < 0)

/-- The integer part of `n` is not a `std::size_t`. -/
def NoSize (n : Num) : Prop := IsInf n ∨ ∃ q, val n = some q ∧ (q ≤ -1 ∨ 2 ^ 64 ≤ q)

/-- A NaN. -/
def IsNan (n : Num) : Prop := ∃ g, n = .flt g .nan

end Rakau.Spec
