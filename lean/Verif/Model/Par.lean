/-!
# Parallel programs on shared memory

The parallel parts of the library are fork-join programs: `tbb::parallel_for`, `tbb::task_group` and `tbb::parallel_invoke` start tasks that read and write
plain (not atomic) objects, and wait for all of them. This file has such programs and their interleavings, independently of the library.
-/
namespace Rakau
namespace Par

/-- Fork-join programs over locations `L` with contents `V`. `read` goes on with the value found; `par` runs both programs and waits for both. -/
inductive P (L V : Type)
  | skip
  | throw
  | read (l : L) (k : V → P L V)
  | write (l : L) (v : V)
  | seq (p q : P L V)
  | par (p q : P L V)

variable {L V : Type}

/-- Nothing is left to do. -/
def P.fin : P L V → Bool
  | .skip => true
  | .seq p q => p.fin && q.fin
  | .par p q => p.fin && q.fin
  | _ => false

/-- Some task has thrown an exception. The others may go on or be cancelled. -/
def P.threw : P L V → Bool
  | .throw => true
  | .seq p q => p.threw || (p.fin && q.threw)
  | .par p q => p.threw || q.threw
  | _ => false

/-- An access: location, and whether it is written to. -/
abbrev Access (L : Type) := L × Bool

def update [DecidableEq L] (m : L → V) (l : L) (v : V) : L → V := fun x => if x = l then v else m x

/-- The accesses that can come next, one per task that is active, with what they lead to. -/
def P.steps [DecidableEq L] : P L V → (L → V) → List (Access L × (L → V) × P L V)
  | .skip, _ => []
  | .throw, _ => []
  | .read l k, m => [((l, false), m, k (m l))]
  | .write l v, m => [((l, true), update m l v, .skip)]
  | .seq p q, m => if p.fin then q.steps m else (p.steps m).map (fun s => (s.1, s.2.1, .seq s.2.2 q))
  | .par p q, m => (p.steps m).map (fun s => (s.1, s.2.1, .par s.2.2 q)) ++ (q.steps m).map (fun s => (s.1, s.2.1, .par p s.2.2))

/-- Executions with any interleaving, with the number of accesses so far. -/
inductive Exec [DecidableEq L] : Nat → P L V → (L → V) → P L V → (L → V) → Prop
  | refl (p : P L V) (m : L → V) : Exec 0 p m p m
  | step {n : Nat} {p p' q : P L V} {m m' n' : L → V} {a : Access L} : (a, m', p') ∈ p.steps m → Exec n p' m' q n' → Exec (n + 1) p m q n'

/-- A loop that runs a body for the given indices in turn. -/
def P.loop (body : Nat → P L V) : List Nat → P L V
  | [] => .skip
  | i :: l => .seq (body i) (P.loop body l)

/-- Several tasks: `tbb::task_group` with one `run` per program, or the blocks of a parallel loop. -/
def P.all : List (P L V) → P L V
  | [] => .skip
  | p :: l => .par p (P.all l)

/-- `tbb::parallel_for` over a `blocked_range`: the range is split into blocks in some way, the indices of each block are handled in turn. -/
def P.pfor (blocks : List (List Nat)) (body : Nat → P L V) : P L V := P.all (blocks.map (P.loop body))

end Par
end Rakau
