import Mathlib.Data.Finset.Prod
import Mathlib.Data.Finset.Card

/-! The number of pairs of different indices with a property. -/
namespace Rakau.Spec

open Classical in
/-- The number of pairs `i < j < n` for which `P i j` holds. -/
noncomputable def numPairs (n : Nat) (P : Nat → Nat → Prop) : Nat := ((Finset.range n ×ˢ Finset.range n).filter (fun p => p.1 < p.2 ∧ P p.1 p.2)).card

end Rakau.Spec
