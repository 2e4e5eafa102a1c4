import Verif.Model.CollBench
import Verif.Spec.Pairs
import Mathlib.Algebra.BigOperators.Group.Finset.Basic
import Mathlib.Algebra.BigOperators.Group.Finset.Sigma
import Mathlib.Algebra.Order.BigOperators.Group.Finset
import Mathlib.Algebra.BigOperators.Ring.Finset
import Mathlib.Tactic.Ring

/-! Counting the edges of a graph given by lists of neighbours. -/
namespace Rakau
open Spec Finset

theorem foldl_sizes (L : List (List Nat)) : ∀ c, c < 2 ^ 64 → L.foldl (fun cur c => (cur + c.length) % 2 ^ 64) c = (c + (L.map List.length).sum) % 2 ^ 64 := by
  induction L with
  | nil => intro c hc; exact (Nat.mod_eq_of_lt hc).symm
  | cons a L ih =>
    intro c hc
    rw [List.foldl_cons, ih _ (Nat.mod_lt _ (by norm_num)), List.map_cons, List.sum_cons, Nat.mod_add_mod, Nat.add_assoc]

theorem sumSizes_eq (g : List (List Nat)) : sumSizes g = (g.map List.length).sum % 2 ^ 64 := by
  unfold sumSizes
  rw [foldl_sizes g 0 (by norm_num), Nat.zero_add]

theorem sum_lengths (g : List (List Nat)) : (g.map List.length).sum = ∑ i ∈ range g.length, (g.getD i []).length := by
  induction g with
  | nil => simp
  | cons a g ih =>
    rw [List.map_cons, List.sum_cons, ih, List.length_cons, sum_range_succ']
    simp [Nat.add_comm]

open Classical in
/-- The sum of the lengths is the number of ordered pairs. -/
theorem sum_card {g : List (List Nat)} {R : Nat → Nat → Prop} (hg : ∀ i (hi : i < g.length), (g[i].Nodup) ∧ ∀ j, j ∈ g[i] ↔ j < g.length ∧ R i j) :
    (g.map List.length).sum = ((range g.length ×ˢ range g.length).filter (fun p => R p.1 p.2)).card := by
  rw [sum_lengths, card_filter, sum_product]
  refine sum_congr rfl fun i hi => ?_
  have hi' := mem_range.1 hi
  obtain ⟨h1, h2⟩ := hg i hi'
  rw [← card_filter, List.getD_eq_getElem?_getD, List.getElem?_eq_getElem hi', Option.getD_some, ← List.toFinset_card_of_nodup h1]
  congr 1
  ext j
  simp [h2]

open Classical in
/-- For a symmetric relation without loops the ordered pairs are twice the pairs. -/
theorem card_twice {n : Nat} {R : Nat → Nat → Prop} (hs : ∀ i j, R i j → R j i) (hi : ∀ i, ¬ R i i) :
    ((range n ×ˢ range n).filter (fun p => R p.1 p.2)).card = 2 * numPairs n R := by
  have h1 : (range n ×ˢ range n).filter (fun p => R p.1 p.2) =
      (range n ×ˢ range n).filter (fun p => p.1 < p.2 ∧ R p.1 p.2) ∪ (range n ×ˢ range n).filter (fun p => p.2 < p.1 ∧ R p.1 p.2) := by
    ext ⟨i, j⟩
    simp only [mem_union, mem_filter, mem_product, mem_range]
    constructor
    · rintro ⟨h, hr⟩
      rcases lt_trichotomy i j with h' | h' | h'
      · exact .inl ⟨h, h', hr⟩
      · exact absurd (h' ▸ hr) (hi j)
      · exact .inr ⟨h, h', hr⟩
    · rintro (⟨h, _, hr⟩ | ⟨h, _, hr⟩) <;> exact ⟨h, hr⟩
  have h2 : ((range n ×ˢ range n).filter (fun p => p.2 < p.1 ∧ R p.1 p.2)).card = numPairs n R := by
    unfold numPairs
    refine card_bij (fun p _ => (p.2, p.1)) ?_ ?_ ?_
    · rintro ⟨i, j⟩ h
      simp only [mem_filter, mem_product, mem_range] at h ⊢
      exact ⟨⟨h.1.2, h.1.1⟩, h.2.1, hs _ _ h.2.2⟩
    · rintro ⟨i, j⟩ _ ⟨i', j'⟩ _ h
      simp only [Prod.mk.injEq] at h ⊢
      exact ⟨h.2, h.1⟩
    · rintro ⟨i, j⟩ h
      simp only [mem_filter, mem_product, mem_range] at h
      exact ⟨(j, i), by simp only [mem_filter, mem_product, mem_range]; exact ⟨⟨h.1.2, h.1.1⟩, h.2.1, hs _ _ h.2.2⟩, rfl⟩
  rw [h1, card_union_of_disjoint, h2, two_mul]
  · rfl
  · rw [disjoint_left]
    rintro ⟨i, j⟩ h h'
    simp only [mem_filter] at h h'
    omega

theorem numPairs_le {n : Nat} {R : Nat → Nat → Prop} (hs : ∀ i j, R i j → R j i) (hi : ∀ i, ¬ R i i) : 2 * numPairs n R ≤ n * (n - 1) := by
  classical
  rw [← card_twice hs hi]
  calc _ ≤ ((range n).offDiag).card := by
        refine card_le_card fun p hp => ?_
        obtain ⟨i, j⟩ := p
        simp only [mem_filter, mem_product, mem_range, mem_offDiag] at hp ⊢
        exact ⟨hp.1.1, hp.1.2, fun h => hi j (h ▸ hp.2)⟩
    _ = _ := by rw [offDiag_card, card_range, Nat.mul_sub, Nat.mul_one]

theorem numPairs_mono {n : Nat} {R R' : Nat → Nat → Prop} (h : ∀ i j, i < n → j < n → i < j → R i j → R' i j) : numPairs n R ≤ numPairs n R' := by
  classical
  refine card_le_card fun p hp => ?_
  simp only [mem_filter, mem_product, mem_range] at hp ⊢
  exact ⟨hp.1, hp.2.1, h _ _ hp.1.1 hp.1.2 hp.2.1 hp.2.2⟩

/-- The number of pairs does not depend on the numbering. -/
theorem numPairs_map {n : Nat} {R R' : Nat → Nat → Prop} (hs : ∀ i j, R i j → R j i) (hi : ∀ i, ¬ R i i) (hs' : ∀ i j, R' i j → R' j i) (hi' : ∀ i, ¬ R' i i)
    {π : Nat → Nat} (hlt : ∀ i < n, π i < n) (hinj : ∀ i j, i < n → j < n → π i = π j → i = j) (hsur : ∀ i < n, ∃ k < n, π k = i)
    (h : ∀ i j, i < n → j < n → (R i j ↔ R' (π i) (π j))) : numPairs n R = numPairs n R' := by
  classical
  have := card_twice (n := n) hs hi
  have h2 := card_twice (n := n) hs' hi'
  have h3 : ((range n ×ˢ range n).filter (fun p => R p.1 p.2)).card = ((range n ×ˢ range n).filter (fun p => R' p.1 p.2)).card := by
    refine card_bij (fun p _ => (π p.1, π p.2)) ?_ ?_ ?_
    · rintro ⟨i, j⟩ hp
      simp only [mem_filter, mem_product, mem_range] at hp ⊢
      exact ⟨⟨hlt _ hp.1.1, hlt _ hp.1.2⟩, (h _ _ hp.1.1 hp.1.2).1 hp.2⟩
    · rintro ⟨i, j⟩ hp ⟨i', j'⟩ hp' e
      simp only [mem_filter, mem_product, mem_range, Prod.mk.injEq] at hp hp' e ⊢
      exact ⟨hinj _ _ hp.1.1 hp'.1.1 e.1, hinj _ _ hp.1.2 hp'.1.2 e.2⟩
    · rintro ⟨i, j⟩ hp
      simp only [mem_filter, mem_product, mem_range] at hp
      obtain ⟨k, k1, rfl⟩ := hsur i hp.1.1
      obtain ⟨l, l1, rfl⟩ := hsur j hp.1.2
      exact ⟨(k, l), by simp only [mem_filter, mem_product, mem_range]; exact ⟨⟨k1, l1⟩, (h _ _ k1 l1).2 hp.2⟩, rfl⟩
  omega

/-- The reported number is the number of edges. -/
theorem reported_eq {g : List (List Nat)} (hz : g.length * (g.length - 1) < 2 ^ 64)
    (hg : ∀ i (hi : i < g.length), g[i].Pairwise (· < ·) ∧ i ∉ g[i] ∧ ∀ j ∈ g[i], ∃ hj : j < g.length, i ∈ g[j]) :
    reported g = numPairs g.length (fun i j => ∃ hi : i < g.length, j ∈ g[i]) := by
  classical
  set R : Nat → Nat → Prop := fun i j => ∃ hi : i < g.length, j ∈ g[i] with hR
  have hs : ∀ i j, R i j → R j i := by
    rintro i j ⟨hi, hj⟩
    obtain ⟨h1, h2⟩ := (hg i hi).2.2 j hj
    exact ⟨h1, h2⟩
  have hirr : ∀ i, ¬ R i i := by
    rintro i ⟨hi, hj⟩
    exact (hg i hi).2.1 hj
  have h1 := sum_card (g := g) (R := R) (fun i hi => ⟨(hg i hi).1.imp (fun h => Nat.ne_of_lt h), fun j => ⟨fun hj => ⟨((hg i hi).2.2 j hj).1, hi, hj⟩, fun hj => hj.2.2⟩⟩)
  rw [card_twice hs hirr] at h1
  have h2 := numPairs_le (n := g.length) hs hirr
  unfold reported
  rw [sumSizes_eq, h1, Nat.mod_eq_of_lt (by omega), Nat.mul_div_cancel_left _ (by norm_num)]

end Rakau
