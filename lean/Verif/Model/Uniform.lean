import Verif.Model.AccBench

/-!
The initial data of the tests: `get_uniform_particles` of test/test_utils.hpp:39-59, used by most of them. The generator of random numbers is arbitrary: the values of `std::generate_canonical`, numbers in `[0, 1)`, are given.
-/
namespace Rakau
variable {K : Type} [Field K] [LinearOrder K]

/-- The value of `std::uniform_real_distribution<F>(lo, hi)` for the value `u` of `std::generate_canonical`: `u * (hi - lo) + lo` in the GNU library, two roundings (the standard gives the range only). -/
def uniformReal (A : Arith K) (lo hi u : Fl K) : Fl K := A.add (A.mul u (A.sub hi lo)) lo

/-- `get_uniform_particles` (test/test_utils.hpp:42-59) in `d` dimensions: first the masses, in `[0, 1)`, then all the coordinates. The size of the vector is a 64-bit number. `boost::numeric_cast` to the signed type
throws `positive_overflow`. The vector is too short for the masses if its size wraps around: undefined. -/
def uniformParts (A : Arith K) (d n : Nat) (size : Fl K) (u : Nat → Fl K) : Except Err (List (Fl K)) :=
  let len := n * (d + 1) % 2 ^ 64
  if 2 ^ 63 ≤ n then .error .overflow
  else if len < n then .error .ub
  else
    .ok ((List.range n).map (fun i => uniformReal A (.fin 0) (.fin 1) (u i)) ++
      (List.range (len - n)).map (fun i => uniformReal A (A.div size.neg (.fin 2)) (A.div size (.fin 2)) (u (n + i))))

/-- The arguments of the constructor in the tests, for example in test/zero_masses.cpp:49-51: the data and the same size as box size. -/
def testInp [FloorRing K] (A : Arith K) (simd : Option (Simd K)) (mac : Mac) (w d n maxLeaf ncrit : Nat) (size : Fl K) (v : List (Fl K)) : Input (rakauEnv A simd mac w d) where
  box := some size
  maxLeaf := maxLeaf
  ncrit := ncrit
  parts := benchParts d n v

end Rakau
