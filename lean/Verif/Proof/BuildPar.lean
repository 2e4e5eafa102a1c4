import Verif.Proof.BuildSer

/-! The parallel builder pushes pieces of the canonical lists; merging them in any order restores these lists. -/
namespace Rakau
open Spec

/-- Subtrees pushed by the parallel builder, in child order. -/
def parT (g : Cfg) (codes : List Nat) (split : Nat) : Nat → Path → List (List Path)
  | 0, _ => []
  | k + 1, p => (List.range (2 ^ g.d)).flatMap fun i =>
      if 0 < g.cnt codes (p ++ [i]) then
        if g.maxLeaf < g.cnt codes (p ++ [i]) then
          if g.cnt codes (p ++ [i]) < split then [(p ++ [i]) :: kidsP g codes k (p ++ [i])]
          else [p ++ [i]] :: parT g codes split k (p ++ [i])
        else [[p ++ [i]]]
      else []

/-- Lists of critical nodes pushed by the parallel builder, in child order. -/
def parC (g : Cfg) (codes : List Nat) (split : Nat) : Nat → Path → Bool → List (List Path)
  | 0, _, _ => []
  | k + 1, p, ca => (List.range (2 ^ g.d)).flatMap fun i =>
      if 0 < g.cnt codes (p ++ [i]) then
        if g.maxLeaf < g.cnt codes (p ++ [i]) then
          if g.cnt codes (p ++ [i]) < split then
            [(if isCrit g ca (g.cnt codes (p ++ [i])) (p.length + 1) then [p ++ [i]] else []) ++
              critP g codes k (p ++ [i]) (isCrit g ca (g.cnt codes (p ++ [i])) (p.length + 1) || ca)]
          else (if isCrit g ca (g.cnt codes (p ++ [i])) (p.length + 1) then [p ++ [i]] else []) ::
            parC g codes split k (p ++ [i]) (isCrit g ca (g.cnt codes (p ++ [i])) (p.length + 1) || ca)
        else [if isCrit g ca (g.cnt codes (p ++ [i])) (p.length + 1) then [p ++ [i]] else []]
      else []

variable {g : Cfg} {codes : List Nat}

theorem flatten_flatMap' {α β : Type} (l : List α) (f : α → List (List β)) :
    (l.flatMap f).flatten = l.flatMap (fun a => (f a).flatten) := by
  induction l with
  | nil => rfl
  | cons a l ih => simp [ih]

theorem parT_flatten (split k : Nat) (p : Path) : (parT g codes split k p).flatten = kidsP g codes k p := by
  induction k generalizing p with
  | zero => rfl
  | succ k ih =>
    simp only [parT, kidsP, flatten_flatMap']
    congr 1; funext i
    split_ifs <;> simp [ih]

theorem parC_flatten (split k : Nat) (p : Path) (ca : Bool) :
    (parC g codes split k p ca).flatten = critP g codes k p ca := by
  induction k generalizing p ca with
  | zero => rfl
  | succ k ih =>
    simp only [parC, critP, flatten_flatMap']
    congr 1; funext i
    by_cases h1 : 0 < g.cnt codes (p ++ [i]) <;> by_cases h2 : g.maxLeaf < g.cnt codes (p ++ [i]) <;>
      by_cases h3 : g.cnt codes (p ++ [i]) < split <;> simp [h1, h2, h3, ih]

theorem parT_ne_nil (split k : Nat) (p : Path) : ∀ t ∈ parT g codes split k p, t ≠ [] := by
  induction k generalizing p with
  | zero => simp [parT]
  | succ k ih =>
    intro t ht
    simp only [parT, List.mem_flatMap] at ht
    obtain ⟨i, _, ht⟩ := ht
    split_ifs at ht
    · simp at ht; rw [ht]; simp
    · rcases List.mem_cons.1 ht with rfl | ht
      · simp
      · exact ih _ t ht
    · simp at ht; rw [ht]; simp
    · simp at ht

def parTA (g : Cfg) (codes : List Nat) (split k : Nat) (p : Path) (i : Nat) : List (List Path) :=
  if 0 < g.cnt codes (p ++ [i]) then
    if g.maxLeaf < g.cnt codes (p ++ [i]) then
      if g.cnt codes (p ++ [i]) < split then [(p ++ [i]) :: kidsP g codes k (p ++ [i])]
      else [p ++ [i]] :: parT g codes split k (p ++ [i])
    else [[p ++ [i]]]
  else []

def parCA (g : Cfg) (codes : List Nat) (split k : Nat) (p : Path) (ca : Bool) (i : Nat) : List (List Path) :=
  if 0 < g.cnt codes (p ++ [i]) then
    if g.maxLeaf < g.cnt codes (p ++ [i]) then
      if g.cnt codes (p ++ [i]) < split then
        [(if isCrit g ca (g.cnt codes (p ++ [i])) (p.length + 1) then [p ++ [i]] else []) ++
          critP g codes k (p ++ [i]) (isCrit g ca (g.cnt codes (p ++ [i])) (p.length + 1) || ca)]
      else (if isCrit g ca (g.cnt codes (p ++ [i])) (p.length + 1) then [p ++ [i]] else []) ::
        parC g codes split k (p ++ [i]) (isCrit g ca (g.cnt codes (p ++ [i])) (p.length + 1) || ca)
    else [if isCrit g ca (g.cnt codes (p ++ [i])) (p.length + 1) then [p ++ [i]] else []]
  else []

theorem parT_succ (split k : Nat) (p : Path) :
    parT g codes split (k + 1) p = (List.range (2 ^ g.d)).flatMap (parTA g codes split k p) := rfl
theorem parC_succ (split k : Nat) (p : Path) (ca : Bool) :
    parC g codes split (k + 1) p ca = (List.range (2 ^ g.d)).flatMap (parCA g codes split k p ca) := rfl

theorem buildPar_eq (H : Hyp g codes) (hsz : codes.length * g.cb ≤ szMax) (split k : Nat) {p : Path} (hp : Path.Ok g.d p)
    (hl : p.length + k = g.cb) (ca : Bool) :
    buildPar g codes split k (Path.code g.d p) (lo g.d g.cb codes p) (hi g.d g.cb codes p) ca =
      .ok (⟨(parT g codes split k p).map (List.map (nodeOf g codes)),
            (parC g codes split k p ca).map (List.map (cnodeOf g codes))⟩, (kidsP g codes k p).length) := by
  induction k generalizing p ca with
  | zero => simp [buildPar, kidsP, parT, parC]
  | succ k ih =>
    obtain ⟨a1, a2, a3, a4, a5, a6, a7, a8, a9⟩ := level_arith H hp hl
    unfold buildPar
    simp only [a1, a2, a3, a4, ofUB, bind, Except.bind, not_le.2 a5, if_false, a6, a7]
    let I : Nat → PS × Nat := fun m =>
      (⟨((List.range m).flatMap (parTA g codes split k p)).map (List.map (nodeOf g codes)),
        ((List.range m).flatMap (parCA g codes split k p ca)).map (List.map (cnodeOf g codes))⟩,
       ((List.range m).flatMap (kidA g codes k p)).length)
    have e0 : ((⟨[], []⟩, 0) : PS × Nat) = I 0 := by simp [I]
    rw [e0, foldlM_range _ I]
    · simp only [I, kidsP_succ, parT_succ, parC_succ]
    · intro i hi
      have hq : Path.Ok g.d (p ++ [i]) := ok_snoc.2 ⟨hp, hi⟩
      have hql : (p ++ [i]).length + k = g.cb := by simp; omega
      have hcnt : g.cnt codes (p ++ [i]) = _ := count_eq H.hd H.bound hq (by omega)
      have hk' : g.cb - (p ++ [i]).length = k := by omega
      have hbound : ((List.range (i + 1)).flatMap (kidA g codes k p)).length ≤ szMax :=
        le_trans (flatMap_range_le _ hi) (kidsP_le_szMax H hsz (k := k + 1) hp (by omega))
      rw [List.range_succ, List.flatMap_append, List.flatMap_singleton, List.length_append] at hbound
      simp only [a8 i hi, a9 i hi, equalRange_child H hl hi, ← hcnt]
      by_cases hc : 0 < g.cnt codes (p ++ [i])
      · have hc' : g.cnt codes (p ++ [i]) ≠ 0 := by omega
        simp only [hc', ne_eq, not_false_eq_true, if_true]
        by_cases hm : g.maxLeaf < g.cnt codes (p ++ [i])
        · have hA : kidA g codes k p i = (p ++ [i]) :: kidsP g codes k (p ++ [i]) := by
            unfold kidA; rw [if_pos hc, if_pos hm]
          have hN : nodeOf g codes (p ++ [i]) = ⟨lo g.d g.cb codes (p ++ [i]), Rakau.hi g.d g.cb codes (p ++ [i]),
              (kidsP g codes k (p ++ [i])).length, Path.code g.d (p ++ [i]), p.length + 1⟩ := by
            unfold nodeOf desc; rw [if_pos hm, hk']; simp
          rw [hA, List.length_cons] at hbound
          by_cases hs : g.cnt codes (p ++ [i]) < split
          · have hT : parTA g codes split k p i = [(p ++ [i]) :: kidsP g codes k (p ++ [i])] := by
              unfold parTA; rw [if_pos hc, if_pos hm, if_pos hs]
            have hC : parCA g codes split k p ca i = [(if isCrit g ca (g.cnt codes (p ++ [i])) (p.length + 1) then [p ++ [i]] else []) ++
                critP g codes k (p ++ [i]) (isCrit g ca (g.cnt codes (p ++ [i])) (p.length + 1) || ca)] := by
              unfold parCA; rw [if_pos hc, if_pos hm, if_pos hs]
            rw [if_pos hm, if_pos hs, buildSer_eq H hsz k hq hql]
            simp only [List.singleton_append, List.modify_zero_cons, pure, Except.pure]
            rw [checkedUInc_ok (by simp only [I]; omega)]
            simp only
            rw [checkedUInc_ok (by simp only [I]; omega)]
            simp only [I, List.range_succ, List.flatMap_append, List.flatMap_singleton, hA, hT, hC, List.map_append,
              List.map_cons, List.map_nil, hN, List.length_append, List.length_cons]
            cases isCrit g ca (g.cnt codes (p ++ [i])) (p.length + 1) <;> simp [cnodeOf, Nat.add_assoc]
          · have hT : parTA g codes split k p i = [p ++ [i]] :: parT g codes split k (p ++ [i]) := by
              unfold parTA; rw [if_pos hc, if_pos hm, if_neg hs]
            have hC : parCA g codes split k p ca i = (if isCrit g ca (g.cnt codes (p ++ [i])) (p.length + 1) then [p ++ [i]] else []) ::
                parC g codes split k (p ++ [i]) (isCrit g ca (g.cnt codes (p ++ [i])) (p.length + 1) || ca) := by
              unfold parCA; rw [if_pos hc, if_pos hm, if_neg hs]
            rw [if_pos hm, if_neg hs, ih hq hql]
            simp only [pure, Except.pure]
            rw [checkedUInc_ok (by simp only [I]; omega)]
            simp only
            rw [checkedUInc_ok (by simp only [I]; omega)]
            simp only [I, List.range_succ, List.flatMap_append, List.flatMap_singleton, hA, hT, hC, List.map_append,
              List.map_cons, List.map_nil, hN, List.length_append, List.length_cons]
            cases isCrit g ca (g.cnt codes (p ++ [i])) (p.length + 1) <;> simp [cnodeOf, Nat.add_assoc]
        · have hA : kidA g codes k p i = [p ++ [i]] := by
            unfold kidA; rw [if_pos hc, if_neg hm]
          have hN : nodeOf g codes (p ++ [i]) = ⟨lo g.d g.cb codes (p ++ [i]), Rakau.hi g.d g.cb codes (p ++ [i]),
              0, Path.code g.d (p ++ [i]), p.length + 1⟩ := by
            unfold nodeOf desc; rw [if_neg hm]; simp
          have hT : parTA g codes split k p i = [[p ++ [i]]] := by
            unfold parTA; rw [if_pos hc, if_neg hm]
          have hC : parCA g codes split k p ca i = [if isCrit g ca (g.cnt codes (p ++ [i])) (p.length + 1) then [p ++ [i]] else []] := by
            unfold parCA; rw [if_pos hc, if_neg hm]
          rw [hA, List.length_singleton] at hbound
          rw [if_neg hm]
          simp only [pure, Except.pure]
          rw [checkedUInc_ok (by simp only [I, List.range_zero, List.flatMap_nil, List.length_nil]; omega)]
          simp only
          rw [checkedUInc_ok (by simp only [I, List.range_zero, List.flatMap_nil, List.length_nil]; omega)]
          simp only [I, List.range_succ, List.flatMap_append, List.flatMap_singleton, hA, hT, hC, List.map_append,
              List.map_cons, List.map_nil, hN, List.length_append, List.length_cons]
          cases isCrit g ca (g.cnt codes (p ++ [i])) (p.length + 1) <;> simp [cnodeOf]
      · have hc' : g.cnt codes (p ++ [i]) = 0 := by omega
        have hA : kidA g codes k p i = [] := by unfold kidA; rw [if_neg hc]
        have hT : parTA g codes split k p i = [] := by unfold parTA; rw [if_neg hc]
        have hC : parCA g codes split k p ca i = [] := by unfold parCA; rw [if_neg hc]
        simp [hc', I, List.range_succ, hA, hT, hC, pure, Except.pure]

/-! ### Sorting -/

/-- If the pushed list, in canonical order, is strictly increasing, then every sorting outcome is that list. -/
theorem sort_unique {α : Type} {lt : α → α → Bool} {l l' : List α} (h : IsSortOf lt l l')
    (hs : l.Pairwise (fun a b => lt a b = true)) (has : ∀ a ∈ l, ∀ b ∈ l, lt a b = true → lt b a = false) : l' = l := by
  obtain ⟨hp, hw⟩ := h
  induction l generalizing l' with
  | nil => simpa using hp
  | cons a l ih =>
    rw [List.pairwise_cons] at hs
    cases l' with
    | nil => simp at hp
    | cons b l' =>
      rw [List.pairwise_cons] at hw
      have hb : b ∈ a :: l := hp.subset List.mem_cons_self
      have hab : b = a := by
        rcases List.mem_cons.1 hb with rfl | hb'
        · rfl
        · have ha : a ∈ b :: l' := hp.symm.subset List.mem_cons_self
          rcases List.mem_cons.1 ha with h | ha'
          · exact h.symm
          · have h1 := hw.1 a ha'
            have h2 := hs.1 b hb'
            rw [h1] at h2; exact absurd h2 (by simp)
      subst hab
      rw [ih hs.2 (fun x hx y hy => has x (List.mem_cons_of_mem _ hx) y (List.mem_cons_of_mem _ hy)) (hp.cons_inv) hw.2]

theorem flatten_filter_ne {α : Type} (l : List (List α)) : (l.filter (fun x => !x.isEmpty)).flatten = l.flatten := by
  induction l with
  | nil => rfl
  | cons a l ih => cases a <;> simp [ih]

/-- Empty pieces do not matter: if the non-empty pieces are strictly increasing, every sorting outcome of all pieces
concatenates to the same list. -/
theorem sort_unique_flatten {α : Type} {lt : List α → List α → Bool} {l l' : List (List α)} (h : IsSortOf lt l l')
    (hs : (l.filter (fun x => !x.isEmpty)).Pairwise (fun a b => lt a b = true))
    (has : ∀ a ∈ l, ∀ b ∈ l, lt a b = true → lt b a = false) : l'.flatten = l.flatten := by
  rw [← flatten_filter_ne l, ← flatten_filter_ne l']
  congr 1
  apply sort_unique (lt := lt) ⟨h.1.filter _, h.2.filter _⟩ hs
  intro a ha b hb
  exact has a (List.mem_of_mem_filter ha) b (List.mem_of_mem_filter hb)

end Rakau
