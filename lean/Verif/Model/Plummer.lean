import Verif.Model.AccBench

/-!
The initial data of the benchmarks: `get_plummer_sphere` of benchmark/common.hpp:36-121, used by all of them. Random numbers are any values that the two distributions may return, mathematical functions are arbitrary.
Candidates with a radius that is not finite are drawn again; they leave no trace, so only the candidates with finite radius are modelled. A run that rejects candidates for ever has no outcome.
-/
namespace Rakau
variable {K : Type} [Field K] [LinearOrder K]

/-- The functions of `<cmath>` used, on numbers of the type of the particles: `pow u` is `std::pow(u, F(-2) / F(3))`; `twoPi` is `F(2) * pi<F>()`. `unif` are the values of `udist`, `mass` those of `mdist`. -/
structure Sphere (K : Type) where
  pow : Fl K → Fl K
  sin : Fl K → Fl K
  cos : Fl K → Fl K
  acos : Fl K → Fl K
  twoPi : Fl K
  unif : Fl K → Prop
  mass : Fl K → Prop

/-- The radius (common.hpp:71, 101). -/
def Sphere.radius (S : Sphere K) (A : Arith K) (a u : Fl K) : Fl K := A.div a (A.fsqrt (A.sub (S.pow u) (.fin 1)))

/-- Longitude and colatitude (common.hpp:76-79, 106-109). -/
def Sphere.lon (S : Sphere K) (A : Arith K) (u : Fl K) : Fl K := (A.mul S.twoPi u).clamp (.fin 0) S.twoPi
def Sphere.colat (S : Sphere K) (A : Arith K) (v : Fl K) : Fl K := S.acos ((A.sub (A.mul (.fin 2) v) (.fin 1)).clamp (.fin (-1)) (.fin 1))

/-- The coordinates (common.hpp:81-82, 111-112). -/
def Sphere.point (S : Sphere K) (A : Arith K) (r u v : Fl K) : Fl K × Fl K × Fl K :=
  (A.mul (A.mul r (S.cos (S.lon A u))) (S.sin (S.colat A v)), A.mul (A.mul r (S.sin (S.lon A u))) (S.sin (S.colat A v)), A.mul r (S.cos (S.colat A v)))

/-- `size_limit` (common.hpp:51). -/
def sizeLimit (A : Arith K) (size : Fl K) : Fl K := if size.gt (.fin 0) then A.sub (A.div size (.fin 2)) (A.div size (.fin 100)) else .inf false

/-- `check_bounds` (common.hpp:53-56). -/
def inLimit (lim : Fl K) (p : Fl K × Fl K × Fl K) : Bool :=
  p.1.ge lim.neg && p.1.lt lim && p.2.1.ge lim.neg && p.2.1.lt lim && p.2.2.ge lim.neg && p.2.2.lt lim

/-- A candidate: a point with a finite radius, drawn at random (common.hpp:69-82, 99-112). -/
inductive Sphere.Cand (S : Sphere K) (A : Arith K) (a : Fl K) : Fl K × Fl K × Fl K → Prop
  | mk (u0 u v : Fl K) : S.unif u0 → (S.radius A a u0).isFinite = true → S.unif u → S.unif v → Cand S A a (S.point A (S.radius A a u0) u v)

/-- The writes to the coordinates of particle `i` (common.hpp:84-86, 114-116): masses are at the start of the vector. -/
def putPoint (n i : Nat) (p : Fl K × Fl K × Fl K) : List (Nat × Fl K) := [(n + i, p.1), (2 * n + i, p.2.1), (3 * n + i, p.2.2)]

/-- The loop over the particles `i`, …, `i + k - 1` of the sequential version (common.hpp:97-119), with its writes. A rejected candidate is drawn again for the same particle. -/
inductive Sphere.Serial (S : Sphere K) (A : Arith K) (a lim : Fl K) (n : Nat) : Nat → Nat → List (Nat × Fl K) → Prop
  | done (i : Nat) : Serial S A a lim n i 0 []
  | keep (i k : Nat) (p : Fl K × Fl K × Fl K) (ws : List (Nat × Fl K)) : S.Cand A a p → inLimit lim p = true → Serial S A a lim n (i + 1) k ws →
      Serial S A a lim n i (k + 1) (putPoint n i p ++ ws)
  | drop (i k : Nat) (p : Fl K × Fl K × Fl K) (ws : List (Nat × Fl K)) : S.Cand A a p → inLimit lim p = false → Serial S A a lim n i (k + 1) ws → Serial S A a lim n i (k + 1) ws

/-- The same in a block of the parallel version (common.hpp:66-89), which draws the mass again with every candidate. -/
inductive Sphere.Block (S : Sphere K) (A : Arith K) (a lim : Fl K) (n : Nat) : Nat → Nat → List (Nat × Fl K) → Prop
  | done (i : Nat) : Block S A a lim n i 0 []
  | keep (i k : Nat) (m : Fl K) (p : Fl K × Fl K × Fl K) (ws : List (Nat × Fl K)) : S.mass m → S.Cand A a p → inLimit lim p = true → Block S A a lim n (i + 1) k ws →
      Block S A a lim n i (k + 1) ((i, m) :: putPoint n i p ++ ws)
  | drop (i k : Nat) (m : Fl K) (p : Fl K × Fl K × Fl K) (ws : List (Nat × Fl K)) : S.mass m → S.Cand A a p → inLimit lim p = false → Block S A a lim n i (k + 1) ws →
      Block S A a lim n i (k + 1) ((i, m) :: ws)

/-- The blocks `(begin, size)` into which `tbb::parallel_for` divides the particles from `i`, and the writes of all of them, block after block. -/
inductive Sphere.Blocks (S : Sphere K) (A : Arith K) (a lim : Fl K) (n : Nat) : Nat → List (Nat × Fl K) → Prop
  | done : Blocks S A a lim n n []
  | block (i k : Nat) (ws ws' : List (Nat × Fl K)) : i + k ≤ n → S.Block A a lim n i k ws → Blocks S A a lim n (i + k) ws' → Blocks S A a lim n i (ws ++ ws')

/-- Writes to a vector; beyond its end they are undefined. -/
def putAll : List (Nat × Fl K) → List (Fl K) → Except Err (List (Fl K))
  | [], v => .ok v
  | (i, x) :: ws, v => if i < v.length then putAll ws (v.set i x) else .error .ub

/-- `get_plummer_sphere` (common.hpp:36-121): the possible outcomes. The size `n * 4u` of the vector wraps around (common.hpp:49); a failure of its allocation is not modelled. In the parallel version the writes of the blocks are interleaved: any order is allowed here (also of the writes of one block). -/
inductive Plummer (S : Sphere K) (A : Arith K) (n : Nat) (a size : Fl K) : Bool → Except Err (List (Fl K)) → Prop
  | badA (par : Bool) : a.isFinite = false ∨ a.le (.fin 0) = true → Plummer S A n a size par (.error .invalidArg)
  | badSize (par : Bool) : ¬ (a.isFinite = false ∨ a.le (.fin 0) = true) → size.isFinite = false ∨ size.lt (.fin 0) = true → Plummer S A n a size par (.error .invalidArg)
  | serial (ms : List (Fl K)) (ws : List (Nat × Fl K)) : ¬ (a.isFinite = false ∨ a.le (.fin 0) = true) → ¬ (size.isFinite = false ∨ size.lt (.fin 0) = true) →
      ms.length = n → (∀ m ∈ ms, S.mass m) → S.Serial A a (sizeLimit A size) n 0 n ws →
      Plummer S A n a size false (putAll (((List.range n).zip ms) ++ ws) (List.replicate (n * 4 % 2 ^ 64) (.fin 0)))
  | parallel (ws ws' : List (Nat × Fl K)) : ¬ (a.isFinite = false ∨ a.le (.fin 0) = true) → ¬ (size.isFinite = false ∨ size.lt (.fin 0) = true) →
      S.Blocks A a (sizeLimit A size) n 0 ws → ws'.Perm ws → Plummer S A n a size true (putAll ws' (List.replicate (n * 4 % 2 ^ 64) (.fin 0)))

end Rakau
