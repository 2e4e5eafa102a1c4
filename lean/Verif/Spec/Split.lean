import Mathlib.Data.List.Basic

/-! Specification: distribution of particles over workers. Independent of the model of the C++ code. -/
namespace Rakau.Spec

/-- The indices in the ranges `[b, e)`, in order. -/
def indices (ranges : List (Nat × Nat)) : List Nat := ranges.flatMap (fun r => List.range' r.1 (r.2 - r.1))

/-- The ranges between consecutive cuts. -/
def between (cuts : List Nat) : List (Nat × Nat) := cuts.zip cuts.tail

/-- A CPU with the particles of the given ranges, and accelerators with the ranges between the given cuts, share the particles `0, …, n - 1`: every particle
has exactly one worker (the lists of all workers, taken together, contain every index exactly once), no range is reversed or leaves the particles, the
accelerators start where the CPU ends, and end at `n`. Without cuts no accelerator is used. -/
structure Shares (n : Nat) (cpu : List (Nat × Nat)) (cuts : List Nat) : Prop where
  once : (indices cpu ++ indices (between cuts)).Perm (List.range n)
  sorted : cuts.Pairwise (· ≤ ·)
  last : ∀ k ∈ cuts.getLast?, k = n
  cpuPart : ∀ k, k ∈ indices cpu ↔ k < cuts.headD n

end Rakau.Spec
