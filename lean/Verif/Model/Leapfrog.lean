import Verif.Model.AccPot

/-!
The leapfrog integrator of benchmark/benchmark_leapfrog.cpp, a client of the library: it keeps velocities outside of the tree, in the internal order of the
tree, and follows the reordering of the particles by means of `last_perm()`. The benchmark has `d = 3` and 64-bit codes; here they are arbitrary.

The random initial data, the printing and the options are left out: positions, masses and velocities are arbitrary. The program runs until an exception; a run
is any number of its steps. Parallel loops over elements have one result for all schedules; the loop inside the callback, which reads and writes elements of the
tree, is run in an arbitrary order.
-/
namespace Rakau
variable {K : Type} [Field K] [LinearOrder K] [FloorRing K] {A : Arith K} {simd : Option (Simd K)} {mac : Mac} {w d : Nat}

/-- The parameters of the integration. `kick a v` is `std::fma(a, half_timestep, v)` (lines 352-354, 379-381), `drift v x` is `std::fma(v, timestep, x)` (364-366),
where `timestep` is a `double` and for `float` particles the result is converted. `Q` is `both` if the integrals of motion are tracked, otherwise `acc` (277-284). -/
structure LeapPar (K : Type) where
  kick : Fl K → Fl K → Fl K
  drift : Fl K → Fl K → Fl K
  Q : Quant
  theta : Fl K
  eps : Fl K
  split : List (Fl K)

/-- The data of the program: the tree, the velocities (one vector per component), and the buffers of accelerations and potentials. -/
structure Leap (A : Arith K) (simd : Option (Simd K)) (mac : Mac) (w d : Nat) where
  t : TS (rakauEnv A simd mac w d)
  vel : List (List (Fl K))
  acc : List (Res K)

/-- Element `i` of vector `j`. -/
def at2 {F : Type} (a : List (List F)) (j i : Nat) : Option F := do (← a[j]?)[i]?

/-- Component `j` of the acceleration at position `i` (`acc_its[j][i]`). -/
def accAt (acc : List (Res K)) (j i : Nat) : Option (Fl K) := do (← acc[i]?).acc[j]?

/-- `d` vectors of `n` elements. -/
def table {F : Type} (d n : Nat) (f : Nat → Nat → Option F) : Option (List (List F)) := (List.range d).mapM (fun j => (List.range n).mapM (f j))

/-- "Compute the kicked velocities" (lines 349-356). -/
def Leap.kicked (P : LeapPar K) (σ : Leap A simd mac w d) : Option (List (List (Fl K))) :=
  table d σ.t.n (fun j i => do some (P.kick (← accAt σ.acc j i) (← at2 σ.vel j i)))

/-- The loop in the callback of `update_particles_u` (lines 359-369), for the given list of components, positions and kicked velocities. -/
def driftProg {F : Type} (drift : F → F → F) : List (Nat × Nat × F) → Prog F
  | [] => .done
  | (j, i, v) :: l => .read j i (fun x => .write j i (drift v x) (driftProg drift l))

/-- The kicked velocities that the callback uses, for elements in the order `ord`. -/
def driftArgs {F : Type} (kv : List (List F)) (ord : List (Nat × Nat)) : Option (List (Nat × Nat × F)) :=
  ord.mapM (fun p => (at2 kv p.1 p.2).map (fun v => (p.1, p.2, v)))

/-- All elements of the coordinates: the order of the loop is any permutation of them. -/
def allElems (d n : Nat) : List (Nat × Nat) := (List.range d).flatMap (fun j => (List.range n).map (fun i => (j, i)))

/-- "Update the velocities" (lines 374-383): the kicked velocities are accessed through `last_perm()`. -/
def newVel (P : LeapPar K) (d n : Nat) (lp : List Nat) (kv : List (List (Fl K))) (acc : List (Res K)) : Option (List (List (Fl K))) :=
  table d n (fun j i => do some (P.kick (← accAt acc j i) (← at2 kv j (← lp[i]?))))

/-- After the update of the particles: "Compute the accelerations/potentials in the new positions" (line 372), into the same buffers, and the velocities. `order` is
the order of the critical nodes. -/
def Leap.after (P : LeapPar K) (rsqrt : Option (Fl K → Fl K)) (over : Overshift) (acc : List (Res K)) (kv : List (List (Fl K))) (order : List Nat) :
    Out (rakauEnv A simd mac w d) → Except Err (Leap A simd mac w d)
  | .ub => .error .ub
  | .threw e _ => .error e
  | .ok t => do
    let acc ← t.accPot rsqrt over P.Q false P.theta (.fin 1) P.eps P.split order acc
    let vel ← ofUB (newVel P d t.n t.lastPerm kv acc)
    pure ⟨t, vel, acc⟩

/-- One iteration of the loop of the program (lines 349-383): its possible outcomes. -/
inductive Leap.Step (P : LeapPar K) (rsqrt : Option (Fl K → Fl K)) (over : Overshift) (σ : Leap A simd mac w d) : Except Err (Leap A simd mac w d) → Prop
  | kick : σ.kicked P = none → Step P rsqrt over σ (.error .ub)
  | args (kv : List (List (Fl K))) (ord : List (Nat × Nat)) : σ.kicked P = some kv → ord.Perm (allElems d σ.t.n) → driftArgs kv ord = none →
      Step P rsqrt over σ (.error .ub)
  | run (kv : List (List (Fl K))) (ord : List (Nat × Nat)) (ms : List (Nat × Nat × Fl K)) (o : Out (rakauEnv A simd mac w d)) (order : List Nat) :
      σ.kicked P = some kv → ord.Perm (allElems d σ.t.n) → driftArgs kv ord = some ms → UpdateParticles σ.t false (driftProg P.drift ms) o →
      (∀ t, o = .ok t → order.Perm (List.range t.crit.length)) → Step P rsqrt over σ (Leap.after P rsqrt over σ.acc kv order o)

/-- After the construction of the tree (lines 235-287): buffers of accelerations with initial contents `buf`, the velocities in the order of the tree
(`reorder`, lines 257-275), and the first accelerations. -/
def Leap.init (P : LeapPar K) (rsqrt : Option (Fl K → Fl K)) (over : Overshift) (vel : List (List (Fl K))) (buf : List (Res K)) (order : List Nat)
    (t : TS (rakauEnv A simd mac w d)) : Except Err (Leap A simd mac w d) := do
  let vel ← ofUB (vel.mapM (fun v => applyIsort v t.lastPerm))
  let acc ← t.accPot rsqrt over P.Q false P.theta (.fin 1) P.eps P.split order buf
  pure ⟨t, vel, acc⟩

/-- The start of the program (lines 225-287) with positions and masses `inp.parts` and velocities `vel`. -/
inductive Leap.Start (P : LeapPar K) (rsqrt : Option (Fl K → Fl K)) (over : Overshift) (inp : Input (rakauEnv A simd mac w d)) (vel : List (List (Fl K)))
    (buf : List (Res K)) : Except Err (Leap A simd mac w d) → Prop
  | ctor (e : Err) : Construct inp (.error e) → Start P rsqrt over inp vel buf (.error e)
  | run (t : TS (rakauEnv A simd mac w d)) (order : List Nat) : Construct inp (.ok t) → order.Perm (List.range t.crit.length) →
      Start P rsqrt over inp vel buf (Leap.init P rsqrt over vel buf order t)

/-- "Total energy" (lines 334-346) for particles of mass `m` each, in exact arithmetic: the sum of the kinetic energies and of the potentials that the tree
returned, in an order that depends on the splitting of the range. -/
def leapEnergy (m : K) (n : Nat) (v : Nat → Nat → K) (pot : Nat → K) (d : Nat) : K :=
  ((List.range n).map (fun i => 1 / 2 * m * ((List.range d).map (fun j => v j i * v j i)).sum + pot i)).sum

end Rakau
