import Verif.Proof.BuildPar

/-! Every run of the builder returns the canonical lists. -/
namespace Rakau
open Spec

/-- The canonical list of critical nodes. -/
def critAll (g : Cfg) (codes : List Nat) : List Path :=
  if rootCrit g codes then [[]] else critP g codes g.cb [] false

variable {g : Cfg} {codes : List Nat}

theorem cb_pos (H : Hyp g codes) : 0 < g.cb := by
  unfold Cfg.cb cbits
  have hd := H.hd
  have hw := H.hw
  have h1 : 1 ≤ g.w / g.d := (Nat.le_div_iff_mul_le hd).2 (by omega)
  split
  · rename_i h
    by_contra hc
    have h2 : g.w / g.d = 1 := by omega
    have := Nat.div_add_mod g.w g.d
    rw [h2] at this
    omega
  · omega

theorem isNode_ok {p : Path} (h : IsNode g.d g.cb g.maxLeaf codes p) : Path.Ok g.d p := count_pos_ok h.2.1

theorem root_lo_hi (H : Hyp g codes) :
    Path.code g.d [] = 1 ∧ lo g.d g.cb codes [] = 0 ∧ hi g.d g.cb codes [] = codes.length :=
  ⟨rfl, lo_nil _ _ _, hi_nil _ _ _ H.bound⟩

theorem treeLt_eq (H : Hyp g codes) {p q : Path} {a b : List Path} (hp : Path.Ok g.d p) (hq : Path.Ok g.d q)
    (hpl : p.length ≤ g.cb) (hql : q.length ≤ g.cb) :
    treeLt g ((p :: a).map (nodeOf g codes)) ((q :: b).map (nodeOf g codes)) = true ↔ Path.Before p q := by
  obtain ⟨r, h1, h2⟩ := nodeCompare_code H.hd H.hw H.hw64 p q hp hq hpl hql
  simp only [treeLt, List.map_cons, List.head?_cons, nodeOf, h1, Option.getD_some, h2]

theorem parT_sorted (H : Hyp g codes) (split : Nat) (hm : g.maxLeaf < g.cnt codes []) :
    ((parT g codes split g.cb []).map (List.map (nodeOf g codes))).Pairwise (fun a b => treeLt g a b = true) ∧
    ∀ a ∈ (parT g codes split g.cb []).map (List.map (nodeOf g codes)),
      ∀ b ∈ (parT g codes split g.cb []).map (List.map (nodeOf g codes)), treeLt g a b = true → treeLt g b a = false := by
  have hfl := parT_flatten (g := g) (codes := codes) split g.cb []
  have hs := kidsP_sorted (g := g) (codes := codes) g.cb []
  rw [← hfl, List.pairwise_flatten] at hs
  have hmem : ∀ t ∈ parT g codes split g.cb [], ∀ p ∈ t, Path.Ok g.d p ∧ p.length ≤ g.cb := by
    intro t ht p hp
    have : p ∈ kidsP g codes g.cb [] := by rw [← hfl]; exact List.mem_flatten.2 ⟨t, ht, hp⟩
    have h := (mem_kidsP_spec (p := []) (by simp) hm).1 (by simpa using this)
    exact ⟨isNode_ok h.2, h.2.1⟩
  have hne := parT_ne_nil (g := g) (codes := codes) split g.cb []
  constructor
  · rw [List.pairwise_map]
    refine hs.2.imp_of_mem ?_
    intro a b ha hb hab
    obtain ⟨p, a', rfl⟩ := List.exists_cons_of_ne_nil (hne a ha)
    obtain ⟨q, b', rfl⟩ := List.exists_cons_of_ne_nil (hne b hb)
    have h1 := hmem _ ha p List.mem_cons_self
    have h2 := hmem _ hb q List.mem_cons_self
    exact (treeLt_eq H h1.1 h2.1 h1.2 h2.2).2 (hab p List.mem_cons_self q List.mem_cons_self)
  · intro a ha0 b hb0
    obtain ⟨a, ha, rfl⟩ := List.mem_map.1 ha0
    obtain ⟨b, hb, rfl⟩ := List.mem_map.1 hb0
    obtain ⟨p, a', rfl⟩ := List.exists_cons_of_ne_nil (hne a ha)
    obtain ⟨q, b', rfl⟩ := List.exists_cons_of_ne_nil (hne b hb)
    have h1 := hmem _ ha p List.mem_cons_self
    have h2 := hmem _ hb q List.mem_cons_self
    rw [treeLt_eq H h1.1 h2.1 h1.2 h2.2]
    intro h
    rw [Bool.eq_false_iff, Ne, treeLt_eq H h2.1 h1.1 h2.2 h1.2]
    exact before_asymm h

theorem tiles_lower {a b : Nat} {l : List Path} (h : Tiles g codes a b l) : ∀ p ∈ l, a ≤ lo g.d g.cb codes p := by
  induction l generalizing a with
  | nil => simp
  | cons q l ih =>
    intro p hp
    rcases List.mem_cons.1 hp with rfl | hp
    · exact h.1.ge
    · exact le_trans (le_of_lt h.2.1) (ih h.2.2 p hp)

theorem tiles_sorted {a b : Nat} {l : List Path} (h : Tiles g codes a b l) :
    l.Pairwise (fun p q => lo g.d g.cb codes p < lo g.d g.cb codes q) := by
  induction l generalizing a with
  | nil => simp
  | cons q l ih =>
    rw [List.pairwise_cons]
    refine ⟨fun p hp => ?_, ih h.2.2⟩
    have := tiles_lower h.2.2 p hp
    have h1 := h.1; have h2 := h.2.1
    omega

theorem critLt_asymm (a b : List CNode) (h : critLt a b = true) : critLt b a = false := by
  cases a <;> cases b <;> simp_all [critLt]
  omega

theorem crit_sorted {L : List (List Path)} {a b : Nat} (h : Tiles g codes a b L.flatten) :
    ((L.map (List.map (cnodeOf g codes))).filter (fun x => !x.isEmpty)).Pairwise (fun a b => critLt a b = true) := by
  have hs := tiles_sorted h
  rw [List.pairwise_flatten] at hs
  rw [List.filter_map, List.pairwise_map]
  refine (hs.2.filter _).imp_of_mem ?_
  intro x y hx hy hxy
  have hx := (List.mem_filter.1 hx).2
  have hy := (List.mem_filter.1 hy).2
  cases x with
  | nil => simp at hx
  | cons p x =>
    cases y with
    | nil => simp at hy
    | cons q y =>
      simp [critLt, cnodeOf, hxy p List.mem_cons_self q List.mem_cons_self]

theorem critAll_tiles (H : Hyp g codes) (hn : codes ≠ []) : Tiles g codes 0 codes.length (critAll g codes) := by
  obtain ⟨_, h2, h3⟩ := root_lo_hi H
  unfold critAll
  split
  · exact ⟨h2, by rw [h3]; exact List.length_pos_iff.2 hn, h3⟩
  · have hcb := cb_pos H
    obtain ⟨k, hk⟩ : ∃ k, g.cb = k + 1 := ⟨g.cb - 1, by omega⟩
    have := critP_tiles H k (ok_nil g.d) (by simp; omega)
    rw [h2, h3, ← hk] at this
    exact this

/-- Every run returns normally, with the canonical lists. -/
theorem isBuild_eq (H : Hyp g codes) (hsz : codes.length * g.cb ≤ szMax) (split : Nat) (hn : codes ≠ [])
    {r : Except Err (List Node × List CNode)} (h : IsBuild g codes split r) :
    r = .ok ((allP g codes).map (nodeOf g codes), (critAll g codes).map (cnodeOf g codes)) := by
  obtain ⟨hr1, hr2, hr3⟩ := root_lo_hi H
  have hcnt : g.cnt codes [] = codes.length := count_nil _ _ _
  have hkid : rootChildren g codes split = if codes.length > g.maxLeaf then
      .ok (⟨(parT g codes split g.cb []).map (List.map (nodeOf g codes)),
        (parC g codes split g.cb [] (rootCrit g codes)).map (List.map (cnodeOf g codes))⟩, (kidsP g codes g.cb []).length)
      else .ok (⟨[], []⟩, 0) := by
    unfold rootChildren
    have := buildPar_eq H hsz split g.cb (ok_nil g.d) (by simp) (rootCrit g codes)
    rw [hr1, hr2, hr3] at this
    rw [this]
  cases h with
  | empty h => exact absurd h hn
  | fail er _ h =>
    rw [hkid] at h
    split at h <;> simp at h
  | run ps cc trees crits _ h ht hc =>
    rw [hkid] at h
    by_cases hm : codes.length > g.maxLeaf
    · rw [if_pos hm] at h
      simp only [Except.ok.injEq, Prod.mk.injEq] at h
      obtain ⟨rfl, rfl⟩ := h
      have hm' : g.maxLeaf < g.cnt codes [] := by omega
      have hdesc : desc g codes [] = kidsP g codes g.cb [] := by unfold desc; rw [if_pos hm']; simp
      have e1 := sort_unique ht (parT_sorted H split hm').1 (parT_sorted H split hm').2
      have e2 : crits.flatten = (critAll g codes).map (cnodeOf g codes) := by
        set L : List (List Path) := (if rootCrit g codes then [[[]]] else []) ++ parC g codes split g.cb [] (rootCrit g codes) with hL
        have hLf : L.flatten = critAll g codes := by
          rw [hL, List.flatten_append, parC_flatten]
          unfold critAll
          by_cases hrc : rootCrit g codes = true
          · rw [if_pos hrc, if_pos hrc, hrc, critP_true]; rfl
          · rw [Bool.not_eq_true] at hrc
            rw [hrc]; rfl
        have hLm : (if rootCrit g codes then [[⟨1, 0, codes.length⟩]] else []) ++
            (parC g codes split g.cb [] (rootCrit g codes)).map (List.map (cnodeOf g codes)) =
            L.map (List.map (cnodeOf g codes)) := by
          rw [hL, List.map_append]
          congr 1
          by_cases hrc : rootCrit g codes = true
          · rw [if_pos hrc, if_pos hrc]; simp [cnodeOf, hr1, hr2, hr3]
          · rw [if_neg hrc, if_neg hrc]; rfl
        rw [hLm] at hc
        rw [sort_unique_flatten hc (crit_sorted (by rw [hLf]; exact critAll_tiles H hn))
          (fun a _ b _ => critLt_asymm a b), ← List.map_flatten, hLf]
      rw [e1, e2, ← List.map_flatten, parT_flatten]
      simp only [allP, hdesc, List.map_cons, nodeOf, hr1, hr2, hr3]
      simp
    · rw [if_neg hm] at h
      simp only [Except.ok.injEq, Prod.mk.injEq] at h
      obtain ⟨rfl, rfl⟩ := h
      have hm' : ¬ g.maxLeaf < g.cnt codes [] := by omega
      have hdesc : desc g codes [] = [] := by unfold desc; rw [if_neg hm']
      have hrc : rootCrit g codes = true := by simp [rootCrit]; omega
      have e1 : trees = [] := by simpa using ht.1
      rw [if_pos hrc] at hc
      have e2 : crits = [[⟨1, 0, codes.length⟩]] := by simpa using hc.1
      rw [e1, e2]
      simp [allP, hdesc, nodeOf, cnodeOf, hr1, hr2, hr3, critAll, hrc]

/-- Some run exists. -/
theorem exists_isBuild (H : Hyp g codes) (hsz : codes.length * g.cb ≤ szMax) (split : Nat) :
    ∃ r, IsBuild g codes split r := by
  by_cases hn : codes = []
  · exact ⟨_, .empty hn⟩
  · have ok1 : ∀ t : List (List CNode), ∃ t', IsSortOf critLt t t' := by
      intro t
      refine ⟨t.mergeSort (fun a b => !critLt b a), List.mergeSort_perm _ _, ?_⟩
      have := List.pairwise_mergeSort (le := fun a b => !critLt b a) ?_ ?_ t
      · simpa using this
      · intro a b c
        cases a <;> cases b <;> cases c <;> simp [critLt]
        omega
      · intro a b
        cases a <;> cases b <;> simp [critLt]
        omega
    cases hk : rootChildren g codes split with
    | error er => exact ⟨_, .fail er hn hk⟩
    | ok v =>
      obtain ⟨ps, cc⟩ := v
      obtain ⟨cs, hcs⟩ := ok1 ((if rootCrit g codes then [[⟨1, 0, codes.length⟩]] else []) ++ ps.crits)
      have : IsSortOf (treeLt g) ps.trees ps.trees := by
        refine ⟨.refl _, ?_⟩
        unfold rootChildren at hk
        by_cases hm : codes.length > g.maxLeaf
        · have := buildPar_eq H hsz split g.cb (ok_nil g.d) (by simp) (rootCrit g codes)
          obtain ⟨hr1, hr2, hr3⟩ := root_lo_hi H
          rw [hr1, hr2, hr3] at this
          rw [if_pos hm, this] at hk
          simp only [Except.ok.injEq, Prod.mk.injEq] at hk
          obtain ⟨rfl, rfl⟩ := hk
          have := parT_sorted H split (codes := codes) (by rw [Cfg.cnt, count_nil]; exact hm)
          exact this.1.imp_of_mem (fun ha hb h => this.2 _ ha _ hb h)
        · rw [if_neg hm] at hk
          simp only [Except.ok.injEq, Prod.mk.injEq] at hk
          obtain ⟨rfl, rfl⟩ := hk
          simp
      exact ⟨_, .run ps cc ps.trees cs hn hk this hcs⟩

/-! ### Membership in the list of critical nodes -/

theorem mem_critP {k : Nat} {p q : Path} (hl : p.length + k = g.cb) :
    q ∈ critP g codes k p false ↔ q ∈ kidsP g codes k p ∧ CritSize g.d g.cb g.maxLeaf g.ncrit codes q ∧
      ∀ t, t <+: q → p.length < t.length → t ≠ q → ¬ CritSize g.d g.cb g.maxLeaf g.ncrit codes t := by
  induction k generalizing p with
  | zero => simp [critP, kidsP]
  | succ k ih =>
    have hcs : ∀ i, isCrit g false (g.cnt codes (p ++ [i])) (p.length + 1) = true ↔
        CritSize g.d g.cb g.maxLeaf g.ncrit codes (p ++ [i]) := by
      intro i
      simp [isCrit, CritSize, or_assoc]
    have hpre : ∀ i, q ∈ kidsP g codes k (p ++ [i]) → p ++ [i] <+: q ∧ p ++ [i] ≠ q := by
      intro i h
      obtain ⟨s, hs, rfl, _⟩ := mem_kidsP.1 h
      exact ⟨List.prefix_append _ _, by simpa using hs⟩
    simp only [critP, kidsP, List.mem_flatMap, List.mem_range]
    constructor
    · rintro ⟨i, hi, h⟩
      by_cases hc : 0 < g.cnt codes (p ++ [i])
      · rw [if_pos hc] at h
        by_cases hcr : isCrit g false (g.cnt codes (p ++ [i])) (p.length + 1) = true
        · simp only [hcr, if_true, Bool.true_or, critP_true, ite_self, List.append_nil, List.mem_singleton] at h
          subst h
          refine ⟨⟨i, hi, by rw [if_pos hc]; exact List.mem_cons_self⟩, (hcs i).1 hcr, ?_⟩
          intro t ht hlt hne
          have := ht.length_le
          simp at this
          exact absurd (ht.eq_of_length (by simp; omega)) hne
        · have hcr' := hcr
          rw [Bool.not_eq_true] at hcr'
          rw [if_neg hcr, hcr', List.nil_append, Bool.or_false] at h
          by_cases hm : g.maxLeaf < g.cnt codes (p ++ [i])
          · rw [if_pos hm, ih (by simp; omega)] at h
            obtain ⟨h1, h2, h3⟩ := h
            refine ⟨⟨i, hi, by rw [if_pos hc, if_pos hm]; exact List.mem_cons_of_mem _ h1⟩, h2, ?_⟩
            intro t ht hlt hne
            by_cases hlt2 : (p ++ [i]).length < t.length
            · exact h3 t ht hlt2 hne
            · have : t = p ++ [i] := by
                have h4 := (hpre i h1).1
                have h5 : t <+: p ++ [i] := List.prefix_of_prefix_length_le ht h4 (by omega)
                exact h5.eq_of_length (by simp at hlt2 ⊢; omega)
              rw [this, ← hcs]; exact hcr
          · rw [if_neg hm] at h; simp at h
      · rw [if_neg hc] at h; simp at h
    · rintro ⟨⟨i, hi, h⟩, h2, h3⟩
      refine ⟨i, hi, ?_⟩
      by_cases hc : 0 < g.cnt codes (p ++ [i])
      · rw [if_pos hc] at h ⊢
        rcases List.mem_cons.1 h with rfl | h
        · rw [if_pos ((hcs i).2 h2)]; simp
        · by_cases hm : g.maxLeaf < g.cnt codes (p ++ [i])
          · rw [if_pos hm] at h ⊢
            obtain ⟨hp1, hp2⟩ := hpre i h
            have hn : isCrit g false (g.cnt codes (p ++ [i])) (p.length + 1) = false := by
              rw [Bool.eq_false_iff, Ne, hcs]
              exact h3 _ hp1 (by simp) hp2
            rw [hn]
            rw [if_neg (by simp), List.nil_append, Bool.or_false, ih (by simp; omega)]
            refine ⟨h, h2, fun t ht hlt hne => h3 t ht (by simp at hlt; omega) hne⟩
          · rw [if_neg hm] at h; simp at h
      · rw [if_neg hc] at h; simp at h

theorem critSize_root (H : Hyp g codes) :
    rootCrit g codes = true ↔ CritSize g.d g.cb g.maxLeaf g.ncrit codes [] := by
  have := cb_pos H
  simp [rootCrit, CritSize, count_nil]
  omega

theorem mem_critAll (H : Hyp g codes) (hn : codes ≠ []) {q : Path} :
    q ∈ critAll g codes ↔ IsCritNode g.d g.cb g.maxLeaf g.ncrit codes q := by
  unfold critAll IsCritNode
  have hroot : IsNode g.d g.cb g.maxLeaf codes [] := by
    rw [← mem_allP hn]; exact List.mem_cons_self
  split
  · rename_i h
    rw [critSize_root H] at h
    rw [List.mem_singleton]
    constructor
    · rintro rfl
      exact ⟨hroot, h, fun t ht hne => absurd (List.prefix_nil.1 ht) hne⟩
    · rintro ⟨_, _, h3⟩
      by_contra hne
      exact h3 [] List.nil_prefix (Ne.symm hne) h
  · rename_i h
    have hm : g.maxLeaf < g.cnt codes [] := by
      simp [rootCrit] at h; rw [Cfg.cnt, count_nil]; exact h.2
    rw [critSize_root H] at h
    rw [mem_critP (by simp)]
    have := mem_kidsP_spec (p := []) (q := q) (by simp) hm
    simp only [List.length_nil, Nat.sub_zero] at this
    rw [this]
    constructor
    · rintro ⟨⟨⟨h1, h2⟩, h3⟩, h4, h5⟩
      refine ⟨h3, h4, fun t ht hne => ?_⟩
      by_cases h0 : t = []
      · rw [h0]; exact h
      · exact h5 t ht (List.length_pos_iff.2 h0) hne
    · rintro ⟨h3, h4, h5⟩
      refine ⟨⟨⟨List.nil_prefix, ?_⟩, h3⟩, h4, fun t ht _ hne => h5 t ht hne⟩
      rintro rfl
      exact h h4

end Rakau
