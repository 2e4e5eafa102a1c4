import Verif.Model.Loops
import Verif.Model.Trav

/-!
Model of the floating-point kernels of the force computation (include/rakau/tree.hpp:2004-2793, include/rakau/detail/simd.hpp:50-130):
what happens to one target particle (one lane of a batch).

Simplifications: operations are not contracted by the compiler (no fused operation other than those written as such); the factors of
some products are swapped in the scalar and vector versions, which makes no difference. SIMD operation counters are not modelled.
-/
namespace Rakau

/-- The quantities to compute, `Q` in the code (tree_fwd.hpp:129-137). -/
inductive Quant
  | acc
  | pot
  | both
  deriving DecidableEq

/-- A particle in a buffer: coordinates and mass. -/
structure Pt (K : Type) where
  pos : List (Fl K)
  mass : Fl K
  deriving DecidableEq

/-- The results for a particle: the components of the acceleration (none for `Q == 1`), the potential (none for `Q == 0`). -/
structure Res (K : Type) where
  acc : List (Fl K)
  pot : List (Fl K)
  deriving DecidableEq

/-- Properties of the target machine fixed at compile time: scalar arithmetic, SIMD instruction set (`simd_enabled`), and the estimate of
the inverse square root used if `use_fast_inv_sqrt` (tree.hpp:571-580, simd.hpp:86-160). -/
structure Hw (K : Type) where
  A : Arith K
  simd : Option (Simd K)
  rsqrt : Option (Fl K → Fl K)

/-- How the kernels compute: in batches or not, the arithmetic (`fused` refers to `xsimd_fma` in batches, to `fma_wrap` otherwise), and the
estimate of the inverse square root. -/
structure Mode (K : Type) where
  vec : Bool
  A : Arith K
  fast : Option (Fl K → Fl K)

namespace Hw
variable {K : Type}

/-- The instruction set of the vector kernels: `simd_enabled && NDim == 3u`. -/
def vec (hw : Hw K) (d : Nat) : Option (Simd K) :=
  match hw.simd with
  | some S => if d = 3 then some S else none
  | none => none

def mode (hw : Hw K) (d : Nat) : Mode K :=
  match hw.vec d with
  | some S => ⟨true, { hw.A with fused := S.fused }, hw.rsqrt⟩
  | none => ⟨false, hw.A, none⟩

/-- The batch size of the kernels, 1 for the scalar versions. -/
def batch (hw : Hw K) (d : Nat) : Nat := ((hw.vec d).map Simd.batch).getD 1

/-- The batch size for the multiplication by `G` (tree.hpp:2989-3001). -/
def scaleBatch (hw : Hw K) : Nat := (hw.simd.map Simd.batch).getD 1

/-- The number of padding elements (tree.hpp:2936-2953). -/
def pad (hw : Hw K) : Nat := (hw.simd.map (fun S => S.batch - 1)).getD 0

end Hw

variable {K : Type} [Field K] [LinearOrder K]

/-- `inv_sqrt_newton_iter` (simd.hpp:74-84) from the estimate `e x` of `1 / sqrt(x)`. -/
def invSqrt (A : Arith K) (e : Fl K → Fl K) (x : Fl K) : Fl K :=
  let y0 := e x
  let xy0 := A.mul x y0
  let halfY0 := A.mul y0 (A.div (.fin 1) (.fin 2))
  let threeMinus := A.fma xy0.neg y0 (.fin 3)
  A.mul halfY0 threeMinus

/-- A distance: `sqrt(dist2)` and `sqrt(dist2) * dist2`, or, with the fast inverse square root, their inverses. -/
structure Dist (K : Type) where
  fast : Bool
  dist : Fl K
  dist3 : Fl K

/-- tree.hpp:2114-2126 and the same in the other kernels. -/
def mkDist (M : Mode K) (d2 : Fl K) : Dist K :=
  match M.fast with
  | some e => ⟨true, invSqrt M.A e d2, M.A.mul (M.A.mul (invSqrt M.A e d2) (invSqrt M.A e d2)) (invSqrt M.A e d2)⟩
  | none => ⟨false, M.A.fsqrt d2, M.A.mul (M.A.fsqrt d2) d2⟩

/-- `m / dist`. -/
def Dist.over (A : Arith K) (D : Dist K) (m : Fl K) : Fl K := if D.fast then A.mul m D.dist else A.div m D.dist

/-- `m / dist**3`. -/
def Dist.over3 (A : Arith K) (D : Dist K) (m : Fl K) : Fl K := if D.fast then A.mul m D.dist3 else A.div m D.dist3

/-- The position of `q` relative to `p`. -/
def diffs (A : Arith K) (p q : List (Fl K)) : List (Fl K) := List.zipWith A.sub q p

/-- `dist2` with the softening, in the particle-particle kernels: vector (tree.hpp:2110-2111), scalar (2266-2270). -/
def softD2 (M : Mode K) (eps2 : Fl K) (df : List (Fl K)) : Fl K :=
  if M.vec then
    match df with
    | [x, y, z] => M.A.add (M.A.add (M.A.mul x x) (M.A.mul y y)) (M.A.fma z z eps2)
    | _ => .nan
  else df.foldl (fun acc t => M.A.fma t t acc) eps2

/-- `dist2` without softening, in the acceptance check: vector (tree.hpp:2658), scalar (2733-2742). -/
def plainD2 (M : Mode K) (df : List (Fl K)) : Fl K :=
  if M.vec then
    match df with
    | [x, y, z] => M.A.add (M.A.add (M.A.mul x x) (M.A.mul y y)) (M.A.mul z z)
    | _ => .nan
  else df.foldl (fun acc t => M.A.fma t t acc) (.fin 0)

/-- The negated mutual potential of two particles: tree.hpp:2178, 2226, 2290. -/
def mutPot (M : Mode K) (D : Dist K) (m1 m2 : Fl K) : Fl K := M.A.mul (D.over M.A m1) m2

/-- Self-interactions, effect of particle `q` on the accumulator of particle `p`: tree.hpp:2127-2130, 2180, 2229-2232, 2281, 2292. -/
def selfUpd1 (M : Mode K) (eps2 : Fl K) (p q : Pt K) (r : Res K) : Res K :=
  let df := diffs M.A p.pos q.pos
  let D := mkDist M (softD2 M eps2 df)
  ⟨List.zipWith (fun t a => M.A.fma t (D.over3 M.A q.mass) a) df r.acc, r.pot.map (fun a => M.A.sub a (mutPot M D p.mass q.mass))⟩

/-- Self-interactions, effect of particle `p` on the result of particle `q`: tree.hpp:2131-2137, 2182, 2235-2241, 2283, 2293. -/
def selfUpd2 (M : Mode K) (eps2 : Fl K) (p q : Pt K) (r : Res K) : Res K :=
  let df := diffs M.A p.pos q.pos
  let D := mkDist M (softD2 M eps2 df)
  ⟨List.zipWith (fun t a => M.A.fma t.neg (D.over3 M.A p.mass) a) df r.acc, r.pot.map (fun a => M.A.sub a (mutPot M D p.mass q.mass))⟩

/-- The sum of the accumulator to the result: tree.hpp:2140-2142, 2188, 2244-2248, 2304-2315. -/
def resAdd (A : Arith K) (r a : Res K) : Res K := ⟨List.zipWith A.add r.acc a.acc, List.zipWith A.add r.pot a.pot⟩

/-- The zero result for the requested quantities: tree.hpp:2093, 2157, 2203, 2262, and 2955-2959. -/
def resZero (Q : Quant) (d : Nat) : Res K :=
  ⟨if Q = .pot then [] else List.replicate d (.fin 0), if Q = .acc then [] else [.fin 0]⟩

def selfOps (M : Mode K) (Q : Quant) (d : Nat) (eps2 : Fl K) : PairOps (Pt K) (Res K) :=
  ⟨selfUpd1 M eps2, selfUpd2 M eps2, resAdd M.A, resZero Q d⟩

/-- Effect of particle `q` of a leaf on target particle `p`: `batch_batch_3d_accs` (tree.hpp:2009-2028), `batch_batch_3d_pots` (2033-2045,
2393), `batch_batch_3d_accs_pots` (2048-2068), scalar (2446-2466). -/
def leafUpd (M : Mode K) (Q : Quant) (eps2 : Fl K) (p q : Pt K) (r : Res K) : Res K :=
  let df := diffs M.A p.pos q.pos
  let D := mkDist M (softD2 M eps2 df)
  ⟨List.zipWith (fun t a => M.A.fma t (D.over3 M.A q.mass) a) df r.acc,
    r.pot.map (fun a => if M.vec ∧ Q = .pot then M.A.sub a (mutPot M D p.mass q.mass) else M.A.fma p.mass.neg (D.over M.A q.mass) a)⟩

/-- The left-hand side of the acceptance check (tree.hpp:2627-2639). -/
def macLh (A : Arith K) (mac : Mac) (macVal : Fl K) (pr : NProps K) : Fl K :=
  match mac with
  | .bh => A.mul pr.dim macVal
  | .bhGeom => A.mul (A.fma pr.dim macVal pr.delta) (A.fma pr.dim macVal pr.delta)

/-- The acceptance check fails for target particle `p` (tree.hpp:2659, 2743). -/
def macFails (M : Mode K) (lh : Fl K) (com : List (Fl K)) (p : Pt K) : Bool := lh.ge (plainD2 M (diffs M.A p.pos com))

/-- The temporary data of the acceptance check: tree.hpp:2665-2675, 2691-2697, 2713-2727, 2749-2766. -/
def macTmp (M : Mode K) (eps2 : Fl K) (com : List (Fl K)) (p : Pt K) : List (Fl K) × Dist K :=
  (diffs M.A p.pos com, mkDist M (M.A.add (plainD2 M (diffs M.A p.pos com)) eps2))

/-- Effect of a node of mass `m` on target particle `p`: tree.hpp:2498-2514, 2523-2530, 2542-2564, 2574-2587. -/
def comUpd (M : Mode K) (m : Fl K) (u : List (Fl K) × Dist K) (p : Pt K) (r : Res K) : Res K :=
  ⟨List.zipWith (fun t a => M.A.fma t (u.2.over3 M.A m) a) u.1 r.acc, r.pot.map (fun a => M.A.fma p.mass.neg (u.2.over M.A m) a)⟩

/-- The multiplication by `G` (tree.hpp:2986-3002). -/
def resScale (A : Arith K) (G : Fl K) (r : Res K) : Res K := ⟨r.acc.map (A.mul · G), r.pot.map (A.mul · G)⟩

end Rakau
