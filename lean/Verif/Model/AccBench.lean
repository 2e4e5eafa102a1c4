import Verif.Model.AccPot

/-!
The programs of benchmark/benchmark_acc.cpp, benchmark_pot.cpp and benchmark_acc_pot.cpp, clients of the library: each computes the forces on all particles with the tree and prints the result for one particle, then that
of the direct sum. With the option `ordered` they use the functions in the order of the input, otherwise those in the order of the tree, and `inv_perm()`. Timers and the printing of the tree are left out, the random initial
data are arbitrary here (see `Model/Plummer.lean`). The benchmarks have `d = 3`; here it is arbitrary. The results of type `Res` have one list element per vector.
-/
namespace Rakau
variable {K : Type} [Field K] [LinearOrder K] [FloorRing K] {A : Arith K} {simd : Option (Simd K)} {mac : Mac} {w d : Nat}

/-- The pointers given to the constructor (benchmark_acc.cpp:46-50, benchmark_pot.cpp:45-49, benchmark_acc_pot.cpp:46-50): one vector `v` holds the masses, then the coordinates, one dimension after the other. -/
def benchParts {F : Type} (d n : Nat) (v : List F) : List (List F) := (List.range d).map (fun j => (v.drop ((j + 1) * n)).take n) ++ [v.take n]

/-- The arguments of the constructor (benchmark_acc.cpp:46-52): the box is deduced; the option `bsize` only limits the initial data. -/
def benchInp (A : Arith K) (simd : Option (Simd K)) (mac : Mac) (w d n maxLeaf ncrit : Nat) (v : List (Fl K)) : Input (rakauEnv A simd mac w d) where
  box := none
  maxLeaf := maxLeaf
  ncrit := ncrit
  parts := benchParts d n v

/-- What is printed of the results of the tree: the accelerations or the potential; benchmark_acc_pot.cpp:55-56 leaves out the potential. -/
def Quant.shown : Quant → Quant
  | .acc => .acc
  | .pot => .pot
  | .both => .acc

def Res.shown (Q : Quant) (r : Res K) : Res K := ⟨if Q = .pot then [] else r.acc, if Q = .pot then r.pot else []⟩

/-- The two lines (benchmark_acc.cpp:55-66, benchmark_pot.cpp:54-64, benchmark_acc_pot.cpp:53-65). The vectors of results, resized to the number of particles, are `buf`. -/
def TS.accLines (s : TS (rakauEnv A simd mac w d)) (rsqrt : Option (Fl K → Fl K)) (over : Overshift) (Q : Quant) (ordered : Bool) (theta : Fl K) (split : List (Fl K)) (idx : Nat) (order : List Nat)
    (buf : List (Res K)) : Except Err (Res K × Res K) :=
  if ordered then do
    let acc ← s.accPot rsqrt over Q true theta (.fin 1) (.fin 0) split order buf
    let r ← ofUB acc[idx]?
    let e ← s.exact Q.shown true (.fin 1) (.fin 0) idx
    pure (r.shown Q, e)
  else do
    let acc ← s.accPot rsqrt over Q false theta (.fin 1) (.fin 0) split order buf
    let p ← ofUB s.invPerm[idx]?
    let r ← ofUB acc[p]?
    let p' ← ofUB s.invPerm[idx]?
    let e ← s.exact Q.shown false (.fin 1) (.fin 0) p'
    pure (r.shown Q, e)

/-- The possible outcomes of the programs: the checks of the options `nparts` and `idx` (common.hpp:185-193), the constructor, the two lines. -/
inductive AccBench (v : List (Fl K)) (n maxLeaf ncrit : Nat) (A : Arith K) (simd : Option (Simd K)) (mac : Mac) (w d : Nat) (rsqrt : Option (Fl K → Fl K)) (over : Overshift) (Q : Quant) (ordered : Bool)
    (theta : Fl K) (split : List (Fl K)) (idx : Nat) (buf : List (Res K)) : Except Err (Res K × Res K) → Prop
  | parts : n = 0 → AccBench v n maxLeaf ncrit A simd mac w d rsqrt over Q ordered theta split idx buf (.error .invalidArg)
  | index : n ≠ 0 → n ≤ idx → AccBench v n maxLeaf ncrit A simd mac w d rsqrt over Q ordered theta split idx buf (.error .invalidArg)
  | ctor (e : Err) : n ≠ 0 → idx < n → Construct (benchInp A simd mac w d n maxLeaf ncrit v) (.error e) →
      AccBench v n maxLeaf ncrit A simd mac w d rsqrt over Q ordered theta split idx buf (.error e)
  | lines (t : TS (rakauEnv A simd mac w d)) (order : List Nat) : n ≠ 0 → idx < n → Construct (benchInp A simd mac w d n maxLeaf ncrit v) (.ok t) → order.Perm (List.range t.crit.length) →
      AccBench v n maxLeaf ncrit A simd mac w d rsqrt over Q ordered theta split idx buf (t.accLines rsqrt over Q ordered theta split idx order buf)

end Rakau
