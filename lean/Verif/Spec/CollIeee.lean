import Verif.Spec.Coll

/-! Specification of the collision graph in rounded arithmetic. -/
namespace Rakau.Spec

variable {K : Type} [Field K] [LinearOrder K]

/-- The graph has an edge between any two different particles with overlapping non-empty AABBs, and edges only between different particles with non-empty AABBs that would overlap if moved towards
each other by `ε` in every dimension. -/
def IsOverlapGraphUpTo (ε : K) (d n : Nat) (perm : List Nat) (ordered : Bool) (x : Nat → Nat → K) (size : Nat → K) (g : List (List Nat)) : Prop :=
  g.length = n ∧
  (∀ a b i j, a < n → b < n → a ≠ b → UserIdx perm ordered a i → UserIdx perm ordered b j → size i ≠ 0 → size j ≠ 0 →
    CubesMeet d (fun k => x k a) (size i) (fun k => x k b) (size j) → ∃ hi : i < g.length, j ∈ g[i]) ∧
  ∀ i (hi : i < g.length) j, j ∈ g[i] → ∃ a b, a < n ∧ b < n ∧ a ≠ b ∧ UserIdx perm ordered a i ∧ UserIdx perm ordered b j ∧ size i ≠ 0 ∧ size j ≠ 0 ∧
    ∀ k < d, |x k a - x k b| ≤ (size i + size j) / 2 + ε

/-- The size `σ` is not just below a size of cells: at the level where the cells are larger than `σ` and those of the next level are not, the difference is at least `ε`. -/
def Roomy (cb : Nat) (b ε σ : K) : Prop := ∀ l < cb, 1 ≤ l → b / 2 ^ (l + 1) ≤ σ → σ < b / 2 ^ l → σ + ε ≤ b / 2 ^ l

end Rakau.Spec
