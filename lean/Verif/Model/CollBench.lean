import Verif.Model.Coll

/-!
The program of benchmark/benchmark_coll.cpp, a client of the library: it computes the collision graph of particles with AABBs of one size and prints the number of collisions. The options, the random initial
data, the timers and the printing of the tree are left out: the tree is arbitrary. (The option `bsize` only limits the positions: the box of the tree is deduced from them, lines 44-49.)
-/
namespace Rakau
variable {K : Type} [Field K] [LinearOrder K] [FloorRing K] {A : Arith K} {simd : Option (Simd K)} {mac : Mac} {w d : Nat}

/-- `std::accumulate(cgraph.begin(), cgraph.end(), 0ull, ...)` (benchmark_coll.cpp:60-61): the sum of the lengths of the lists, in a 64-bit `unsigned long long`. -/
def sumSizes (g : List (List Nat)) : Nat := g.foldl (fun cur c => (cur + c.length) % 2 ^ 64) 0

/-- The printed number, `acc / 2u` (benchmark_coll.cpp:63). -/
def reported (g : List (List Nat)) : Nat := sumSizes g / 2

/-- The possible outcomes of the computation (benchmark_coll.cpp:42, 53-63): `aabb_sizes` has `nparts` elements with value `psize`, converted to the type of the particles; the graph starts empty; `ordered`
selects the function. -/
inductive CollBench (s : TS (rakauEnv A simd mac w d)) (over : Overshift) (top : K) (ordered : Bool) (psize : Fl K) : Except Err Nat → Prop
  | mk (r : Except Err (List (List Nat))) : Cgraph s over top ordered (List.replicate s.n psize) [] r → CollBench s over top ordered psize (r.map reported)

end Rakau
