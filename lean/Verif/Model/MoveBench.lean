import Verif.Model.AccPot

/-!
The program of benchmark/benchmark_move.cpp, a client of the library: it prints the acceleration of one particle, computed by the tree and by the direct sum, moves all particles by the same amount and prints both
again. The options, the random initial data, the timers and the printing of the tree are left out: positions and masses are arbitrary. The benchmark has `d = 3`; here it is arbitrary. (The option `bsize` limits the
positions and gives the displacement, `bsize / 1000`; the box of the tree is deduced, lines 47-53.)
-/
namespace Rakau
variable {K : Type} [Field K] [LinearOrder K] [FloorRing K] {A : Arith K} {simd : Option (Simd K)} {mac : Mac} {w d : Nat}

/-- The order of the loop in the callback of `update_particles_u` (benchmark_move.cpp:64-68): all coordinates of the first particle, then of the second, and so on. -/
def moveElems (d n : Nat) : List (Nat × Nat) := (List.range n).flatMap (fun i => (List.range d).map (fun j => (j, i)))

/-- The callback (benchmark_move.cpp:62-69): `shift` is `+= bs / fp_type(1000)`, in `double` and converted for `float` particles. -/
def moveProg {F : Type} (shift : F → F) : List (Nat × Nat) → Prog F
  | [] => .done
  | (j, i) :: l => .read j i (fun x => .write j i (shift x) (moveProg shift l))

/-- Two printed lines (benchmark_move.cpp:55-60 and 71-75): the acceleration of the user's particle `idx` computed by the tree, then by the direct sum. The vectors of accelerations, resized to the number of
particles, are `buf`. -/
def TS.moveLines (s : TS (rakauEnv A simd mac w d)) (rsqrt : Option (Fl K → Fl K)) (over : Overshift) (theta : Fl K) (split : List (Fl K)) (idx : Nat) (order : List Nat)
    (buf : List (Res K)) : Except Err (List (Res K) × Res K × Res K) := do
  let acc ← s.accPot rsqrt over .acc false theta (.fin 1) (.fin 0) split order buf
  let p ← ofUB s.invPerm[idx]?
  let r ← ofUB acc[p]?
  let e ← s.exact .acc false (.fin 1) (.fin 0) p
  pure (acc, r, e)

/-- The possible outcomes of the program (benchmark_move.cpp:47-75): the four lines, or an exception. -/
inductive MoveBench (inp : Input (rakauEnv A simd mac w d)) (rsqrt : Option (Fl K → Fl K)) (over : Overshift) (shift : Fl K → Fl K) (theta : Fl K) (split : List (Fl K)) (idx : Nat)
    (buf : List (Res K)) : Except Err ((Res K × Res K) × Res K × Res K) → Prop
  | ctor (e : Err) : Construct inp (.error e) → MoveBench inp rsqrt over shift theta split idx buf (.error e)
  | before (t : TS (rakauEnv A simd mac w d)) (order : List Nat) (e : Err) : Construct inp (.ok t) → order.Perm (List.range t.crit.length) →
      t.moveLines rsqrt over theta split idx order buf = .error e → MoveBench inp rsqrt over shift theta split idx buf (.error e)
  | ub (t : TS (rakauEnv A simd mac w d)) : Construct inp (.ok t) → UpdateParticles t false (moveProg shift (moveElems d t.n)) .ub →
      MoveBench inp rsqrt over shift theta split idx buf (.error .ub)
  | moved (t : TS (rakauEnv A simd mac w d)) (e : Err) (u : TS (rakauEnv A simd mac w d)) : Construct inp (.ok t) → UpdateParticles t false (moveProg shift (moveElems d t.n)) (.threw e u) →
      MoveBench inp rsqrt over shift theta split idx buf (.error e)
  | after (t u : TS (rakauEnv A simd mac w d)) (order order' : List Nat) (acc : List (Res K)) (v : Res K × Res K) : Construct inp (.ok t) → order.Perm (List.range t.crit.length) →
      t.moveLines rsqrt over theta split idx order buf = .ok (acc, v) → UpdateParticles t false (moveProg shift (moveElems d t.n)) (.ok u) →
      order'.Perm (List.range u.crit.length) →
      MoveBench inp rsqrt over shift theta split idx buf ((u.moveLines rsqrt over theta split idx order' acc).map (fun r => (v, r.2)))

end Rakau
