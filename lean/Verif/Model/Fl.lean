import Mathlib.Algebra.Order.Field.Basic
import Mathlib.Algebra.Order.Floor.Ring

/-!
Floating-point values and operations, over an ordered field `K` of exact values: `K = ℚ` for IEEE formats,
`K = ℝ` for exact arithmetic with square roots.

Simplifications: there is one zero (no sign of zero: no operation in the code observes it except `1 / 0`, whose
result is non-finite for both signs), one NaN, and no floating-point exceptions or flags.
-/
namespace Rakau

/-- A floating-point value. -/
inductive Fl (K : Type)
  | nan
  | inf (neg : Bool)
  | fin (q : K)
  deriving DecidableEq

namespace Fl

variable {K : Type}

/-- `std::isfinite`. -/
def isFinite : Fl K → Bool
  | .fin _ => true
  | _ => false

variable [Field K] [LinearOrder K]

/-- `a < b`: false if any operand is NaN. -/
def lt : Fl K → Fl K → Bool
  | .nan, _ => false
  | _, .nan => false
  | .inf a, .inf b => a && !b
  | .inf a, .fin _ => a
  | .fin _, .inf b => !b
  | .fin a, .fin b => decide (a < b)

/-- `a >= b`: false if any operand is NaN. -/
def ge : Fl K → Fl K → Bool
  | .nan, _ => false
  | _, .nan => false
  | a, b => !lt a b

/-- `a <= b`. -/
def le (a b : Fl K) : Bool := ge b a

/-- `a > b`. -/
def gt (a b : Fl K) : Bool := lt b a

/-- `a == b`. -/
def eq : Fl K → Fl K → Bool
  | .inf a, .inf b => a == b
  | .fin a, .fin b => decide (a = b)
  | _, _ => false

/-- `std::abs`. -/
def abs : Fl K → Fl K
  | .nan => .nan
  | .inf _ => .inf false
  | .fin q => .fin (if q < 0 then -q else q)

/-- `-a`. -/
def neg : Fl K → Fl K
  | .nan => .nan
  | .inf s => .inf (!s)
  | .fin q => .fin (-q)

/-- `std::max(a, b)`, i.e. `(a < b) ? b : a`. -/
def max (a b : Fl K) : Fl K := if lt a b then b else a

/-- `std::clamp(v, lo, hi)`, i.e. `(v < lo) ? lo : (hi < v) ? hi : v`. -/
def clamp (v lo hi : Fl K) : Fl K := if lt v lo then lo else if lt hi v then hi else v

end Fl

/-- An arithmetic: rounding of exact results, square root, and whether `fma_wrap` is fused (tree.hpp:182-207).
`rnd := .fin` is exact arithmetic. -/
structure Arith (K : Type) where
  rnd : K → Fl K
  sqrt : K → Fl K
  fused : Bool

namespace Arith

variable {K : Type} [Field K] [LinearOrder K] (A : Arith K)

/-- Sign of a non-zero finite or infinite value: `true` if negative. -/
def sgn : Fl K → Bool
  | .nan => false
  | .inf s => s
  | .fin q => decide (q < 0)

/-- The exact product, before rounding. -/
inductive Pre (K : Type)
  | nan
  | inf (neg : Bool)
  | fin (q : K)

def mulPre : Fl K → Fl K → Pre K
  | .nan, _ => .nan
  | _, .nan => .nan
  | .fin a, .fin b => .fin (a * b)
  | .fin a, .inf s => if a = 0 then .nan else .inf (xor (decide (a < 0)) s)
  | .inf s, .fin b => if b = 0 then .nan else .inf (xor s (decide (b < 0)))
  | .inf s, .inf t => .inf (xor s t)

/-- `a * b`. -/
def mul (a b : Fl K) : Fl K :=
  match mulPre a b with
  | .nan => .nan
  | .inf s => .inf s
  | .fin q => A.rnd q

/-- `a + b`. -/
def add : Fl K → Fl K → Fl K
  | .nan, _ => .nan
  | _, .nan => .nan
  | .fin a, .fin b => A.rnd (a + b)
  | .inf s, .inf t => if s = t then .inf s else .nan
  | .inf s, .fin _ => .inf s
  | .fin _, .inf s => .inf s

/-- `a - b`. -/
def sub (a b : Fl K) : Fl K := A.add a b.neg

/-- `a / b`. -/
def div : Fl K → Fl K → Fl K
  | .nan, _ => .nan
  | _, .nan => .nan
  | .fin a, .fin b => if b = 0 then (if a = 0 then .nan else .inf (decide (a < 0))) else A.rnd (a / b)
  | .fin _, .inf _ => .fin 0
  | .inf s, .fin b => .inf (xor s (decide (b < 0)))
  | .inf _, .inf _ => .nan

/-- `fma_wrap(a, b, c)` (tree.hpp:182-207): fused, or a product followed by a sum. -/
def fma (a b c : Fl K) : Fl K :=
  if A.fused then
    match mulPre a b, c with
    | .nan, _ => .nan
    | _, .nan => .nan
    | .inf s, .inf t => if s = t then .inf s else .nan
    | .inf s, .fin _ => .inf s
    | .fin _, .inf t => .inf t
    | .fin q, .fin c => A.rnd (q + c)
  else A.add (A.mul a b) c

/-- `std::sqrt`. -/
def fsqrt : Fl K → Fl K
  | .nan => .nan
  | .inf s => if s then .nan else .inf false
  | .fin q => if q < 0 then .nan else A.sqrt q

/-- Laws of rounding used in the theorems. They hold for exact arithmetic and for round-to-nearest-even in every binary
format (`Verif/Proof/Round.lean`). -/
structure Laws [IsStrictOrderedRing K] (A : Arith K) : Prop where
  notNan : ∀ q, A.rnd q ≠ .nan
  mono : ∀ a b, a ≤ b → Fl.le (A.rnd a) (A.rnd b) = true
  zero : A.rnd 0 = .fin 0
  half : A.rnd (1 / 2) = .fin (1 / 2)
  pow : ∀ k ≤ 64, A.rnd (2 ^ k) = .fin (2 ^ k)
  idem : ∀ q r, A.rnd q = .fin r → A.rnd r = .fin r

end Arith

end Rakau
