import Verif.Proof.ForceState

/-! Writing the results of the critical nodes to the output. -/
set_option linter.unusedSectionVars false

namespace Rakau
open Spec

variable {K : Type} [Field K] [LinearOrder K]

theorem set_arr {α : Type} {m : Nat} {f : Nat → α} {i : Nat} (r : α) :
    (Arr m f).set i r = Arr m (fun j => if j = i then r else f j) := by
  apply eq_arr (by simp)
  intro k hk
  rw [List.getElem?_set]
  by_cases h : i = k
  · subst h; simp [hk]
  · rw [if_neg h, if_neg (Ne.symm h), arr_get hk]

/-- Writing a run of results: position `i` gets the result of index `ρ i`, if that is in the run. -/
theorem write_eq {n beg size : Nat} {ix : Nat → Option Nat} {π ρ : Nat → Nat} (hix : ∀ k < n, ix k = some (π k) ∧ π k < n ∧ ρ (π k) = k)
    (hρ : ∀ i < n, π (ρ i) = i) (hs : beg + size ≤ n) (r f : Nat → Res K) :
    Force.write ix (Arr n f) beg (Arr size r) =
      some (Arr n (fun i => if beg ≤ ρ i ∧ ρ i < beg + size then r (ρ i - beg) else f i)) := by
  unfold Force.write
  rw [show (Arr size r).length = size by simp]
  have key : ∀ m ≤ size, (List.range m).foldlM (fun out k => do
      let r ← (Arr size r)[k]?
      let i ← ix (beg + k)
      if i < out.length then some (out.set i r) else none) (Arr n f) =
      some (Arr n (fun i => if beg ≤ ρ i ∧ ρ i < beg + m then r (ρ i - beg) else f i)) := by
    intro m
    induction m with
    | zero =>
      intro _
      simp only [List.range_zero, List.foldlM_nil, pure, Option.some.injEq]
      apply arr_ext
      intro k _
      rw [if_neg (by omega)]
    | succ m ih =>
      intro hm
      rw [List.range_succ, List.foldlM_append, ih (by omega)]
      simp only [Option.bind_eq_bind, Option.bind_some, List.foldlM_cons, List.foldlM_nil, pure]
      obtain ⟨h1, h2, h3⟩ := hix (beg + m) (by omega)
      rw [arr_get (by omega), h1]
      simp only [Option.bind_some]
      rw [if_pos (by simpa using h2), Option.bind_some, set_arr, Option.some.injEq]
      apply arr_ext
      intro i hi
      have := hρ i hi
      by_cases hc : i = π (beg + m)
      · rw [if_pos hc]
        have h4 : ρ i = beg + m := by rw [hc]; exact h3
        rw [h4, if_pos (by omega), Nat.add_sub_cancel_left]
      · rw [if_neg hc]
        have h4 : ρ i ≠ beg + m := fun h => hc (by rw [← h, this])
        by_cases h5 : beg ≤ ρ i ∧ ρ i < beg + m
        · rw [if_pos h5, if_pos (by omega)]
        · rw [if_neg h5, if_neg (by omega)]
  exact key size le_rfl

/-- The run over the critical nodes with the given indices. -/
theorem cpuRun_eq {c : Force K} {n : Nat} {ix : Nat → Option Nat} {π ρ : Nat → Nat} (hpad : c.padCoord.isFinite = true)
    (hix : ∀ k < n, ix k = some (π k) ∧ π k < n ∧ ρ (π k) = k) (hρ : ∀ i < n, π (ρ i) = i) (val : Nat → Res K)
    (hc : ∀ cn ∈ c.crit, cn.beg ≤ cn.fin ∧ cn.fin ≤ n ∧ c.node cn = .ok (Arr (cn.fin - cn.beg) (fun a => val (cn.beg + a))))
    (order : List Nat) (ho : ∀ t ∈ order, t < c.crit.length) (f : Nat → Res K) :
    ∃ h : Nat → Res K, c.cpuRun ix order (Arr n f) = .ok (Arr n h) ∧ ∀ i < n,
      (∀ t ∈ order, ∀ ht : t < c.crit.length, c.crit[t].beg ≤ ρ i ∧ ρ i < c.crit[t].fin → h i = val (ρ i)) ∧
      ((∀ t ∈ order, ∀ ht : t < c.crit.length, ¬ (c.crit[t].beg ≤ ρ i ∧ ρ i < c.crit[t].fin)) → h i = f i) := by
  unfold Force.cpuRun
  rw [hpad]
  simp only [Bool.not_true, Bool.false_eq_true, if_false]
  induction order generalizing f with
  | nil => exact ⟨f, rfl, fun i _ => ⟨fun t ht => by simp at ht, fun _ => rfl⟩⟩
  | cons t order ih =>
    have ht := ho t List.mem_cons_self
    obtain ⟨c1, c2, c3⟩ := hc c.crit[t] (List.getElem_mem ht)
    have hw := write_eq (f := f) hix hρ (show c.crit[t].beg + (c.crit[t].fin - c.crit[t].beg) ≤ n by omega) (fun a => val (c.crit[t].beg + a))
    obtain ⟨h, h1, h2⟩ := ih (fun t ht => ho t (List.mem_cons_of_mem _ ht))
      (fun i => if c.crit[t].beg ≤ ρ i ∧ ρ i < c.crit[t].beg + (c.crit[t].fin - c.crit[t].beg) then
        (fun a => val (c.crit[t].beg + a)) (ρ i - c.crit[t].beg) else f i)
    refine ⟨h, ?_, ?_⟩
    · rw [List.foldlM_cons, List.getElem?_eq_getElem ht]
      simp only [ofUB, bind, Except.bind]
      rw [c3]
      simp only
      rw [hw]
      exact h1
    · intro i hi
      obtain ⟨k1, k2⟩ := h2 i hi
      constructor
      · intro t' ht' htl hin
        rcases List.mem_cons.1 ht' with rfl | hmem
        · by_cases hex : ∃ t'' ∈ order, ∃ ht : t'' < c.crit.length, c.crit[t''].beg ≤ ρ i ∧ ρ i < c.crit[t''].fin
          · obtain ⟨t'', m1, m2, m3⟩ := hex
            exact k1 t'' m1 m2 m3
          · rw [k2 (fun t'' m1 m2 m3 => hex ⟨t'', m1, m2, m3⟩), if_pos (by omega)]
            simp only
            congr 1; omega
        · exact k1 t' hmem htl hin
      · intro hno
        rw [k2 (fun t' m1 m2 => hno t' (List.mem_cons_of_mem _ m1) m2), if_neg]
        have := hno t List.mem_cons_self ht
        omega

/-- The result for particle `k`: that of the critical node with `k`. -/
def Force.val (c : Force K) (k : Nat) : Res K :=
  match c.crit.find? (fun cn => decide (cn.beg ≤ k ∧ k < cn.fin)) with
  | none => ⟨[], []⟩
  | some cn =>
    match c.node cn with
    | .error _ => ⟨[], []⟩
    | .ok l => l.getD (k - cn.beg) ⟨[], []⟩

end Rakau
