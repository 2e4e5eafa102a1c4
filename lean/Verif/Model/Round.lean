import Verif.Model.Fl
import Mathlib.Data.Rat.Floor

/-!
IEEE 754 binary formats: rounding to nearest, ties to even, with subnormals and overflow to infinity. This is the
arithmetic of the types `float`, `double` and (x87) `long double`, which the code is instantiated with; rounding modes
other than the default one are not modelled.
-/
namespace Rakau

/-- A binary format: `prec` bits of precision, spacing `2 ^ emin` of the subnormal numbers, finite values below `2 ^ emax`. -/
structure Format where
  prec : Nat
  emin : Int
  emax : Nat

/-- `float`. -/
def binary32 : Format := ⟨24, -149, 128⟩
/-- `double`. -/
def binary64 : Format := ⟨53, -1074, 1024⟩
/-- x87 extended precision `long double`. -/
def x87 : Format := ⟨64, -16445, 16384⟩

/-- The integer nearest to `x`, the even one of the two if there are two. -/
def roundEven (x : ℚ) : ℤ :=
  let n := ⌊x⌋
  let f := x - n
  if f < 1 / 2 then n else if 1 / 2 < f then n + 1 else if n % 2 = 0 then n else n + 1

/-- The exponent `k` with `2 ^ k ≤ |q| < 2 ^ (k + 1)`, for `q ≠ 0`. -/
def ilog (q : ℚ) : ℤ :=
  let k : ℤ := (q.num.natAbs.log2 : ℤ) - (q.den.log2 : ℤ)
  if (2 : ℚ) ^ k ≤ |q| then k else k - 1

/-- The exponent of the spacing of the format around `q`. -/
def Format.expo (f : Format) (q : ℚ) : ℤ := Max.max (ilog q - ((f.prec : ℤ) - 1)) f.emin

/-- Rounding as if the exponent range were unbounded above. -/
def Format.near (f : Format) (q : ℚ) : ℚ :=
  if q = 0 then 0 else (roundEven (q / 2 ^ f.expo q) : ℚ) * 2 ^ f.expo q

/-- Rounding of an exact result to the format. -/
def Format.rnd (f : Format) (q : ℚ) : Fl ℚ :=
  if 2 ^ f.emax ≤ |f.near q| then .inf (decide (q < 0)) else .fin (f.near q)

/-- The arithmetic of a format. `fused`: `FP_FAST_FMA` and the like are defined (tree.hpp:182-207). -/
def Format.arith (f : Format) (fused : Bool) (sqrt : ℚ → Fl ℚ) : Arith ℚ := ⟨f.rnd, sqrt, fused⟩

/-- Integer square root, bit by bit. -/
def isqrtAux (n : Nat) : Nat → Nat → Nat
  | 0, r => r
  | k + 1, r => isqrtAux n k (if (r + 2 ^ k) * (r + 2 ^ k) ≤ n then r + 2 ^ k else r)

/-- The square root of a format, rounded to nearest, as IEEE 754 requires of `std::sqrt` and of the square root instructions: with `2 ^ e` the
spacing around the root, the integer nearest to `√q / 2 ^ e`, times `2 ^ e`. -/
def Format.sqrt (f : Format) (q : ℚ) : Fl ℚ :=
  if q ≤ 0 then .fin 0
  else
    let e : ℤ := Max.max (ilog q / 2 - ((f.prec : ℤ) - 1)) f.emin
    let x : ℚ := q / 4 ^ e
    let n := isqrtAux ⌊x⌋.toNat (f.prec + 1) 0
    let h : ℚ := n + 1 / 2
    .fin ((if x < h * h then n else if h * h < x then n + 1 else if n % 2 = 0 then n else n + 1 : ℕ) * 2 ^ e)

/-- The IEEE arithmetic of a format. -/
def Format.ieee (f : Format) (fused : Bool) : Arith ℚ := f.arith fused f.sqrt

end Rakau
