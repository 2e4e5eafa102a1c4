/-
Model of the integer helpers of rakau: code width, leading-zero count, node levels, node comparison.
Unsigned `w`-bit integers are natural numbers below `2^w`; wrap-around is an explicit `% 2^w`, and a shift by
`w` or more bits is undefined behaviour, modelled as `none`.
-/
namespace Rakau

/-- `compute_cbits_v` (include/rakau/detail/tree_fwd.hpp:141-147): `nbits / NDim - !(nbits % NDim)`. -/
def cbits (w d : Nat) : Nat := w / d - (if w % d = 0 then 1 else 0)

/-- `x << k` on a `w`-bit unsigned type: undefined (`none`) for `k ≥ w`. C++17 [expr.shift]. -/
def shl (w x k : Nat) : Option Nat := if k < w then some ((x <<< k) % 2 ^ w) else none

/-- `x >> k` on a `w`-bit unsigned type: undefined (`none`) for `k ≥ w`. C++17 [expr.shift]. -/
def shr (w x k : Nat) : Option Nat := if k < w then some (x >>> k) else none

/-- `a - b` on a `w`-bit unsigned type (`a, b < 2^w`): modular. -/
def subW (w a b : Nat) : Nat := (a + 2 ^ w - b) % 2 ^ w

/-- Product of an unsigned integer with the `std::size_t` value `NDim`: 64-bit modular. -/
def mulSz (a d : Nat) : Nat := (a * d) % 2 ^ 64

/-- `__builtin_clz`/`__builtin_clzl`/`__builtin_clzll` on a `w`-bit argument: number of zero bits above the
highest set bit (used at tree_fwd.hpp:163-168). -/
def builtinClz : Nat → Nat → Nat
  | 0, _ => 0
  | w + 1, n => if n.testBit w then 0 else builtinClz w n + 1

/-- `_BitScanReverse` on a `w`-bit argument: index of the highest set bit (tree_fwd.hpp:186-203); `none` if
the argument is zero (the index is then unspecified). -/
def bitScanReverse : Nat → Nat → Option Nat
  | 0, _ => none
  | w + 1, n => if n.testBit w then some w else bitScanReverse w n

/-- `clz`, wide types on GCC/clang (tree_fwd.hpp:163-168). -/
def clz (w n : Nat) : Nat := builtinClz w n

/-- `clz`, types narrower than the 32-bit `unsigned` on GCC/clang (tree_fwd.hpp:169-178). -/
def clzNarrow (w n : Nat) : Nat := builtinClz 32 n - (32 - w)

/-- `clz` for 64-bit integers on 32-bit MSVC: two halves (tree_fwd.hpp:188-200). -/
def clzMsvcSplit (n : Nat) : Option Nat :=
  if n >>> 32 ≠ 0 then (bitScanReverse 32 ((n >>> 32) % 2 ^ 32)).map (31 - ·)
  else (bitScanReverse 32 (n % 2 ^ 32)).map (63 - ·)

/-- `clz` on MSVC for types of at most 32 bits, and 64-bit types on 64-bit builds (tree_fwd.hpp:184-187, 203-204). -/
def clzMsvc (w n : Nat) : Option Nat := (bitScanReverse w n).map (w - 1 - ·)

/-- `tree_level` (tree_fwd.hpp:213-228): `(ndigits - 1 - clz(n)) / NDim`. -/
def treeLevel (w d n : Nat) : Nat := (w - 1 - clz w n) / d

/-- `node_compare` (include/rakau/tree.hpp:433-441). `none` if one of the shifts is undefined. -/
def nodeCompare (w d n1 n2 : Nat) : Option Bool := do
  let tl1 := treeLevel w d n1
  let tl2 := treeLevel w d n2
  let s1 ← shl w n1 (mulSz (subW w (cbits w d) tl1) d)
  let s2 ← shl w n2 (mulSz (subW w (cbits w d) tl2) d)
  return decide (s1 < s2) || (s1 == s2 && decide (tl1 < tl2))

end Rakau
