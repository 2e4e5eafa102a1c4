import Verif.Proof.Trav

/-! Two traversals of the same tree for the same target, one accepting more nodes than the other. -/
namespace Rakau
open Spec

/-- `j` is not inside a subtree that starts in `[i, j)`. -/
def Clear (tree : List Node) (i j : Nat) : Prop := i ≤ j ∧ ∀ k (hk : k < tree.length), i ≤ k → k < j → k + tree[k].nChildren + 1 ≤ j

theorem specStep_bounds {t : Nat} {acc : Nat → Bool} {i : Nat} {nd : Node} :
    i < (specStep t acc i nd).1 ∧ (specStep t acc i nd).1 ≤ i + nd.nChildren + 1 := by
  unfold specStep macStep
  split
  · split <;> (dsimp only; omega)
  · split <;> (dsimp only; omega)

theorem travGo_ok {over : Overshift} {w d tgtCode : Nat} {tree : List Node} {acc : Nat → Bool} {t fuel i : Nat} {vs : List Visit}
    (hstep : ∀ i (hi : i < tree.length), travStep over w d tgtCode acc i tree[i] = .ok (specStep t acc i tree[i]))
    (h : travGo over w d tree tgtCode acc fuel i = some (.ok vs)) :
    (tree.length ≤ i ∧ vs = []) ∨ ∃ (hi : i < tree.length) (f : Nat) (vs' : List Visit), fuel = f + 1 ∧
      travGo over w d tree tgtCode acc f (specStep t acc i tree[i]).1 = some (.ok vs') ∧ vs = ⟨i, (specStep t acc i tree[i]).2⟩ :: vs' := by
  rcases Nat.lt_or_ge i tree.length with hi | hi
  · right
    refine ⟨hi, ?_⟩
    cases fuel with
    | zero => unfold travGo at h; rw [List.getElem?_eq_getElem hi] at h; simp at h
    | succ f =>
      unfold travGo at h
      rw [List.getElem?_eq_getElem hi] at h
      simp only [hstep i hi] at h
      rw [Option.map_eq_some_iff] at h
      obtain ⟨r, h1, h2⟩ := h
      cases r with
      | error e => simp [Except.map] at h2
      | ok vs' =>
        simp only [Except.map, Except.ok.injEq] at h2
        exact ⟨f, vs', rfl, h1, h2.symm⟩
  · left
    refine ⟨hi, ?_⟩
    unfold travGo at h
    rw [List.getElem?_eq_none hi] at h
    simpa using h.symm

theorem travGo_ge {over : Overshift} {w d tgtCode : Nat} {tree : List Node} {acc : Nat → Bool} {t fuel i : Nat} {vs : List Visit}
    (hstep : ∀ i (hi : i < tree.length), travStep over w d tgtCode acc i tree[i] = .ok (specStep t acc i tree[i]))
    (h : travGo over w d tree tgtCode acc fuel i = some (.ok vs)) : ∀ v ∈ vs, i ≤ v.idx ∧ ∀ k, v.ev = some (.com k) → k = v.idx := by
  induction fuel generalizing i vs with
  | zero =>
    rcases travGo_ok hstep h with ⟨_, rfl⟩ | ⟨_, f, _, hf, _⟩
    · simp
    · omega
  | succ fuel ih =>
    rcases travGo_ok hstep h with ⟨_, rfl⟩ | ⟨hi, f, vs', hf, h1, rfl⟩
    · simp
    · have : f = fuel := by omega
      subst this
      have hb := specStep_bounds (t := t) (acc := acc) (i := i) (nd := tree[i])
      intro v hv
      rcases List.mem_cons.1 hv with rfl | hv
      · refine ⟨le_rfl, ?_⟩
        intro k hk
        unfold specStep macStep at hk
        dsimp only at hk
        split at hk
        · cases hk
        · split at hk
          · simp at hk; exact hk.symm
          · split at hk <;> simp at hk
      · obtain ⟨a, b⟩ := ih h1 v hv
        exact ⟨by omega, b⟩

/-- If every node accepted in the first traversal is accepted in the second one: every node visited in the second traversal is visited in the first one, every
leaf opened in the second one is opened in the first one, and every node accepted in the first one is, or is below, a node accepted in the second one. -/
theorem trav_refine {n : Nat} {tree : List Node} (D : Dfs n tree) {over : Overshift} {w d tgtCode t : Nat} {acc acc' : Nat → Bool}
    (hacc : ∀ i, i < tree.length → acc i = true → acc' i = true)
    (hstep : ∀ i (hi : i < tree.length), travStep over w d tgtCode acc i tree[i] = .ok (specStep t acc i tree[i]))
    (hstep' : ∀ i (hi : i < tree.length), travStep over w d tgtCode acc' i tree[i] = .ok (specStep t acc' i tree[i]))
    {fuel fuel' i j : Nat} {vs vs' : List Visit} (h : travGo over w d tree tgtCode acc fuel i = some (.ok vs))
    (h' : travGo over w d tree tgtCode acc' fuel' j = some (.ok vs')) (hc : Clear tree i j) :
    (∀ v' ∈ vs', ∃ v ∈ vs, v.idx = v'.idx) ∧ (∀ v' ∈ vs', ∀ l, v'.ev = some (.leaf l) → v' ∈ vs) ∧
    ∀ v ∈ vs, ∀ k, v.ev = some (.com k) → k < j ∨ ∃ v' ∈ vs', ∃ m, ∃ hm : m < tree.length, v'.ev = some (.com m) ∧ m ≤ k ∧ k ≤ m + tree[m].nChildren := by
  induction fuel generalizing i j fuel' vs vs' with
  | zero =>
    rcases travGo_ok hstep h with ⟨hl, rfl⟩ | ⟨_, f, _, hf, _⟩
    · rcases travGo_ok hstep' h' with ⟨_, rfl⟩ | ⟨hj, _⟩
      · simp
      · have := hc.1; omega
    · omega
  | succ fuel ih =>
    rcases travGo_ok hstep h with ⟨hl, rfl⟩ | ⟨hi, f, r, hf, h1, rfl⟩
    · rcases travGo_ok hstep' h' with ⟨_, rfl⟩ | ⟨hj, _⟩
      · simp
      · have := hc.1; omega
    have : f = fuel := by omega
    subst this
    have hb := specStep_bounds (t := t) (acc := acc) (i := i) (nd := tree[i])
    rcases Nat.eq_or_lt_of_le hc.1 with rfl | hij
    · rcases travGo_ok hstep' h' with ⟨hl, _⟩ | ⟨_, f', r', hf', h1', rfl⟩
      · omega
      -- the same node: the steps agree unless only the second traversal accepts
      by_cases hs : specStep t acc i tree[i] = specStep t acc' i tree[i]
      · rw [hs] at h1 ⊢
        obtain ⟨a, b, c⟩ := ih h1 h1' ⟨le_rfl, fun k _ k1 k2 => by omega⟩
        refine ⟨?_, ?_, ?_⟩
        · intro v' hv'
          rcases List.mem_cons.1 hv' with rfl | hv'
          · exact ⟨_, List.mem_cons_self, rfl⟩
          · obtain ⟨v, hv, e⟩ := a v' hv'
            exact ⟨v, List.mem_cons_of_mem _ hv, e⟩
        · intro v' hv' l hl
          rcases List.mem_cons.1 hv' with rfl | hv'
          · exact List.mem_cons_self
          · exact List.mem_cons_of_mem _ (b v' hv' l hl)
        · intro v hv k hk
          rcases List.mem_cons.1 hv with rfl | hv
          · right
            refine ⟨_, List.mem_cons_self, k, ?_⟩
            have hki : k = i := by
              have := (travGo_ge hstep h _ List.mem_cons_self).2 k (by rw [hs]; exact hk)
              exact this
            subst hki
            exact ⟨hi, hk, le_rfl, by omega⟩
          · rcases c v hv k hk with hlt | ⟨v', hv', m, hm, e⟩
            · -- impossible unless below the node
              have hge := (travGo_ge hstep h1 v hv)
              have := hge.2 k hk
              rw [← this] at hge
              omega
            · exact Or.inr ⟨v', List.mem_cons_of_mem _ hv', m, hm, e⟩
      · -- only the second traversal accepts
        have hsp : ¬ (i ≤ t ∧ t ≤ i + tree[i].nChildren) := by
          intro hc'
          apply hs
          unfold specStep
          rw [if_pos hc', if_pos hc']
        have ha : acc i = false := by
          by_contra hc'
          rw [Bool.not_eq_false] at hc'
          apply hs
          unfold specStep macStep
          rw [if_neg hsp, if_neg hsp, if_pos hc', if_pos (hacc i hi hc')]
        have ha' : acc' i = true := by
          by_contra hc'
          rw [Bool.not_eq_true] at hc'
          apply hs
          unfold specStep macStep
          rw [if_neg hsp, if_neg hsp, ha, hc']
        have e1 : specStep t acc i tree[i] = (i + 1, if tree[i].nChildren = 0 then some (.leaf i) else none) := by
          unfold specStep macStep
          rw [if_neg hsp, if_neg (by simp [ha])]
        have e2 : specStep t acc' i tree[i] = (i + tree[i].nChildren + 1, some (.com i)) := by
          unfold specStep macStep
          rw [if_neg hsp, if_pos ha']
        rw [e1] at h1 ⊢
        rw [e2] at h1' ⊢
        dsimp only at h1 h1' ⊢
        have hcl : Clear tree (i + 1) (i + tree[i].nChildren + 1) := by
          refine ⟨by omega, ?_⟩
          intro k hk k1 k2
          have := D.nest i k hi hk (by omega) (by omega)
          omega
        obtain ⟨a, b, c⟩ := ih h1 h1' hcl
        refine ⟨?_, ?_, ?_⟩
        · intro v' hv'
          rcases List.mem_cons.1 hv' with rfl | hv'
          · exact ⟨_, List.mem_cons_self, rfl⟩
          · obtain ⟨v, hv, e⟩ := a v' hv'
            exact ⟨v, List.mem_cons_of_mem _ hv, e⟩
        · intro v' hv' l hl
          rcases List.mem_cons.1 hv' with rfl | hv'
          · cases hl
          · exact List.mem_cons_of_mem _ (b v' hv' l hl)
        · intro v hv k hk
          rcases List.mem_cons.1 hv with rfl | hv
          · dsimp only at hk
            split at hk <;> simp at hk
          · rcases c v hv k hk with hlt | ⟨v', hv', m, hm, e⟩
            · right
              have hge := (travGo_ge hstep h1 v hv)
              have hkv := hge.2 k hk
              exact ⟨_, List.mem_cons_self, i, hi, rfl, by omega, by omega⟩
            · exact Or.inr ⟨v', List.mem_cons_of_mem _ hv', m, hm, e⟩
    · -- the first traversal is behind
      have hle := hc.2 i hi le_rfl hij
      have hcl : Clear tree (specStep t acc i tree[i]).1 j := ⟨by omega, fun k hk k1 k2 => hc.2 k hk (by omega) k2⟩
      obtain ⟨a, b, c⟩ := ih h1 h' hcl
      refine ⟨?_, ?_, ?_⟩
      · intro v' hv'
        obtain ⟨v, hv, e⟩ := a v' hv'
        exact ⟨v, List.mem_cons_of_mem _ hv, e⟩
      · intro v' hv' l hl
        exact List.mem_cons_of_mem _ (b v' hv' l hl)
      · intro v hv k hk
        rcases List.mem_cons.1 hv with rfl | hv
        · left
          have := (travGo_ge hstep h _ List.mem_cons_self).2 k hk
          dsimp only at this
          omega
        · exact c v hv k hk

end Rakau
