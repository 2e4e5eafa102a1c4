import Verif.Proof.Alike
import Verif.Proof.Refine

/-!
Two trees whose particles are in the same cells up to a permutation of the axes: the trees have different codes and different orders of nodes
and particles, but their nodes correspond, with the particles in them, their levels and the subtrees below them.
-/
set_option linter.unusedSectionVars false

namespace Rakau
open Spec

/-! ### The tree in terms of the cells of the particles -/

/-- The path of length `L` to the cell of particle `k`. -/
def anc (d cb : Nat) (codes : List Nat) (L k : Nat) : Path := (digits d cb (codes.getD k 0)).take L

/-- The number of particles in the cell of level `L` of particle `k`. -/
def csize (n : Nat) (an : Nat → Nat → Path) (L k : Nat) : Nat := ((Finset.range n).filter (fun l => an L l = an L k)).card

/-- What the tree says about the cells `an` of `n` particles. -/
structure TShape (n cb ml : Nat) (tree : List Node) (an : Nat → Nat → Path) : Prop where
  rng : ∀ i (hi : i < tree.length), tree[i].beg < tree[i].fin ∧ tree[i].fin ≤ n ∧ tree[i].level ≤ cb
  mem : ∀ i (hi : i < tree.length) l, tree[i].beg ≤ l → l < tree[i].fin → ∀ k < n,
    (tree[i].beg ≤ k ∧ k < tree[i].fin) ↔ an tree[i].level k = an tree[i].level l
  node : ∀ k < n, ∀ L ≤ cb, (∃ i, ∃ hi : i < tree.length, tree[i].level = L ∧ tree[i].beg ≤ k ∧ k < tree[i].fin) ↔
    (L = 0 ∨ ml < csize n an (L - 1) k)
  uniq : ∀ i j (hi : i < tree.length) (hj : j < tree.length) k, tree[i].level = tree[j].level → tree[i].beg ≤ k → k < tree[i].fin →
    tree[j].beg ≤ k → k < tree[j].fin → i = j
  desc : ∀ i j (hi : i < tree.length) (hj : j < tree.length), (i ≤ j ∧ j ≤ i + tree[i].nChildren) ↔
    (tree[i].level ≤ tree[j].level ∧ tree[i].beg ≤ tree[j].beg ∧ tree[j].beg < tree[i].fin)
  leaf : ∀ i (hi : i < tree.length), tree[i].nChildren = 0 ↔ (tree[i].fin - tree[i].beg ≤ ml ∨ tree[i].level = cb)
  up : ∀ L M k l, L ≤ M → an M k = an M l → an L k = an L l

/-- The cell of level `L` of particle `k` is small enough for a group of targets. -/
def CSize (n cb ml nc : Nat) (an : Nat → Nat → Path) (L k : Nat) : Prop := csize n an L k ≤ nc ∨ csize n an L k ≤ ml ∨ L = cb

theorem getD_at {codes : List Nat} {k : Nat} (hk : k < codes.length) : codes.getD k 0 = codes[k] := by simp [List.getD, hk]

theorem inNode_anc {d cb : Nat} {codes : List Nat} {p : Path} {k : Nat} (hk : k < codes.length) :
    InNode d cb p codes[k] ↔ anc d cb codes p.length k = p := by
  unfold InNode anc
  rw [List.prefix_iff_eq_take, getD_at hk]
  exact eq_comm

theorem count_card (d cb : Nat) (codes : List Nat) (p : Path) :
    count d cb codes p = ((Finset.range codes.length).filter (fun l => anc d cb codes p.length l = p)).card := by
  have h1 : codes = (List.range codes.length).map (fun k => codes.getD k 0) := by
    apply List.ext_getElem
    · simp
    · intro k k1 k2
      simp [List.getD, k1]
  have h2 : ((Finset.range codes.length).filter (fun l => anc d cb codes p.length l = p)).card =
      (List.range codes.length).countP (fun l => decide (anc d cb codes p.length l = p)) := by
    rw [List.countP_eq_length_filter]
    rfl
  rw [h2]
  unfold count
  conv_lhs => rw [h1]
  rw [List.countP_map]
  apply List.countP_congr
  intro k hk
  rw [List.mem_range] at hk
  simp only [Function.comp, decide_eq_true_eq]
  rw [getD_at hk]
  exact inNode_anc hk

theorem count_csize {d cb : Nat} {codes : List Nat} {p : Path} {k : Nat} (h : anc d cb codes p.length k = p) :
    count d cb codes p = csize codes.length (anc d cb codes) p.length k := by
  rw [count_card]
  unfold csize
  rw [h]

theorem anc_length {d cb : Nat} (codes : List Nat) {L : Nat} (hL : L ≤ cb) (k : Nat) : (anc d cb codes L k).length = L := by
  unfold anc
  rw [List.length_take, digits_length]
  omega

theorem anc_take {d cb : Nat} (codes : List Nat) {L M : Nat} (hL : L ≤ M) (k : Nat) : (anc d cb codes M k).take L = anc d cb codes L k := by
  unfold anc
  rw [List.take_take, min_eq_left hL]

theorem shape_of {g : Cfg} {codes : List Nat} (I : BuildInput g codes) {split : Nat} {tree : List Node} {crit : List CNode}
    (h : IsBuild g codes split (.ok (tree, crit))) : TShape codes.length (cbits g.w g.d) g.maxLeaf tree (anc g.d (cbits g.w g.d) codes) := by
  obtain ⟨ps, hlen, hroot, hsort, hmem, hall⟩ := C11_depth_first I h
  have hnd : ps.Nodup := hsort.imp (fun {a b} hab e => by subst e; exact List.lt_irrefl a hab)
  have hin : ∀ i (hi : i < tree.length) k, tree[i].beg ≤ k → k < tree[i].fin → anc g.d (cbits g.w g.d) codes tree[i].level k = ps[i] := by
    intro i hi k k1 k2
    obtain ⟨_, h2, _, h4, h5, _⟩ := hall i hi
    have hk : k < codes.length := by omega
    have := (h5 k hk).1 ⟨k1, k2⟩
    rw [inNode_anc hk] at this
    rw [h2]
    exact this
  have hnode : ∀ i (hi : i < tree.length), IsNode g.d (cbits g.w g.d) g.maxLeaf codes (ps[i]'(by omega)) := fun i hi => (hmem _).1 (List.getElem_mem _)
  refine ⟨?_, ?_, ?_, ?_, ?_, ?_, ?_⟩
  · intro i hi
    obtain ⟨_, h2, h3, h4, _⟩ := hall i hi
    refine ⟨h3, h4, ?_⟩
    rw [h2]
    exact (hnode i hi).1
  · intro i hi l l1 l2 k hk
    obtain ⟨_, h2, _, _, h5, _⟩ := hall i hi
    rw [h5 k hk, inNode_anc hk, hin i hi l l1 l2, h2]
  · intro k hk L hL
    constructor
    · rintro ⟨i, hi, rfl, k1, k2⟩
      obtain ⟨_, h2, _⟩ := hall i hi
      rcases Nat.eq_zero_or_pos tree[i].level with h0 | h0
      · exact Or.inl h0
      · right
        have hne : ps[i] ≠ [] := by
          intro e
          rw [h2, e] at h0
          simp at h0
        have h3 := (hnode i hi).2.2 hne
        have h4 := hin i hi k k1 k2
        have h5 : anc g.d (cbits g.w g.d) codes (ps[i].dropLast).length k = ps[i].dropLast := by
          rw [List.length_dropLast, ← h2, List.dropLast_eq_take, ← h2, ← h4, anc_take _ (by omega)]
        rw [count_csize h5, List.length_dropLast, ← h2] at h3
        exact h3
    · intro h3
      have hl := anc_length (d := g.d) codes hL k
      have hex : anc g.d (cbits g.w g.d) codes L k ∈ ps := by
        rw [hmem]
        refine ⟨by omega, ?_, ?_⟩
        · rw [count_card, hl]
          apply Finset.card_pos.2
          exact ⟨k, by simp [hk]⟩
        · intro hne
          have hL0 : L ≠ 0 := by
            rintro rfl
            exact hne (List.length_eq_zero_iff.1 hl)
          have h5 : (anc g.d (cbits g.w g.d) codes L k).dropLast = anc g.d (cbits g.w g.d) codes (L - 1) k := by
            rw [List.dropLast_eq_take, hl, anc_take _ (by omega)]
          have h6 := anc_length (d := g.d) codes (L := L - 1) (cb := cbits g.w g.d) (by omega) k
          rw [h5, count_csize (k := k) (by rw [h6]), h6]
          rcases h3 with h3 | h3
          · exact absurd h3 hL0
          · exact h3
      obtain ⟨i, hi, he⟩ := List.getElem_of_mem hex
      have hi' : i < tree.length := by omega
      obtain ⟨_, h2, _, _, h5, _⟩ := hall i hi'
      refine ⟨i, hi', by rw [h2, he, hl], ?_⟩
      rw [h5 k hk, inNode_anc hk, he, hl]
  · intro i j hi hj k hij i1 i2 j1 j2
    have e1 := hin i hi k i1 i2
    have e2 := hin j hj k j1 j2
    rw [hij] at e1
    exact (hnd.getElem_inj_iff).1 (e1.symm.trans e2)
  · intro i j hi hj
    obtain ⟨_, h2, h3, h4, h5, _, h7⟩ := hall i hi
    obtain ⟨_, h2', h3', h4', h5', _⟩ := hall j hj
    have hbj : tree[j].beg < codes.length := by omega
    constructor
    · rintro ⟨a1, a2⟩
      rcases Nat.eq_or_lt_of_le a1 with rfl | a1
      · omega
      · obtain ⟨b1, _⟩ := (h7 j hj).1 ⟨a1, a2⟩
        refine ⟨by rw [h2, h2']; exact b1.length_le, ?_⟩
        rw [h5 _ hbj]
        exact b1.trans ((h5' _ hbj).1 ⟨le_refl _, h3'⟩)
    · rintro ⟨a1, a2, a3⟩
      have b1 := (h5 _ hbj).1 ⟨a2, a3⟩
      have b2 := (h5' _ hbj).1 ⟨le_refl _, h3'⟩
      have b3 : ps[i] <+: ps[j] := List.prefix_of_prefix_length_le b1 b2 (by omega)
      by_cases he : ps[i] = ps[j]
      · have := (hnd.getElem_inj_iff).1 he
        omega
      · have := (h7 j hj).2 ⟨b3, he⟩
        omega
  · intro i hi
    exact C12_leaf_iff I h i hi
  · intro L M k l hLM e
    rw [← anc_take codes hLM, e, anc_take codes hLM]

/-- The level of a critical node: the first level at which the cell is small enough. -/
theorem crit_level {g : Cfg} {codes : List Nat} (I : BuildInput g codes) {split : Nat} {tree : List Node} {crit : List CNode}
    (h : IsBuild g codes split (.ok (tree, crit))) {c : CNode} (hc : c ∈ crit) {t : Nat} (ht : t < tree.length) (htc : tree[t].code = c.code)
    {k : Nat} (k1 : c.beg ≤ k) (k2 : k < c.fin) (hk : k < codes.length) :
    CSize codes.length (cbits g.w g.d) g.maxLeaf g.ncrit (anc g.d (cbits g.w g.d) codes) tree[t].level k ∧
    ∀ L < tree[t].level, ¬ CSize codes.length (cbits g.w g.d) g.maxLeaf g.ncrit (anc g.d (cbits g.w g.d) codes) L k := by
  obtain ⟨qs, hq, q1, q2, _⟩ := C13_critical_nodes I h
  obtain ⟨ps, hlen, _, _, hmem, hall⟩ := C11_depth_first I h
  obtain ⟨i, hi, rfl⟩ := List.getElem_of_mem hc
  obtain ⟨a1, a2, _⟩ := q2 i hi
  have hcr := (q1 _).1 (List.getElem_mem (show i < qs.length by omega))
  obtain ⟨b1, b2, _⟩ := hall t ht
  have hno := (hmem _).1 (List.getElem_mem (show t < ps.length by omega))
  have he : ps[t] = qs[i] := code_inj g.d I.hyp.hd _ _ (isNode_ok hno) (isNode_ok hcr.1) (by rw [← b1, htc, a1])
  have hin := (a2 k hk).1 ⟨k1, k2⟩
  rw [inNode_anc hk] at hin
  rw [b2, he]
  obtain ⟨hN, hC, hT⟩ := hcr
  constructor
  · unfold CritSize at hC
    rw [count_csize hin] at hC
    exact hC
  · intro L hL hc
    have hLl : (qs[i].take L).length = L := by rw [List.length_take]; omega
    apply hT (qs[i].take L) (List.take_prefix _ _)
    · intro e
      rw [e] at hLl
      omega
    · have h5 : anc g.d (cbits g.w g.d) codes (qs[i].take L).length k = qs[i].take L := by
        rw [hLl, ← anc_take codes hL.le, hin]
      unfold CritSize
      rw [count_csize h5, hLl]
      exact hc

/-! ### The nodes that the traversal visits -/

/-- The nodes visited: those below no node whose subtree is passed over. -/
def Vis (tree : List Node) (t : Nat) (acc : Nat → Bool) (lo m : Nat) : Prop :=
  ∀ q (hq : q < tree.length), lo ≤ q → q < m → (specStep t acc q tree[q]).1 ≤ m

theorem specStep_next (t : Nat) (acc : Nat → Bool) (q : Nat) (nd : Node) :
    (specStep t acc q nd).1 = q + 1 ∨ (specStep t acc q nd).1 = q + nd.nChildren + 1 := by
  unfold specStep macStep
  split
  · split
    · right; simp only; omega
    · left; simp only
  · split
    · right; rfl
    · left; rfl

open Classical in
theorem travGo_vis {n : Nat} {tree : List Node} (D : Dfs n tree) {over : Overshift} {w d tgtCode : Nat} {acc : Nat → Bool} {t fuel i : Nat} {vs : List Visit}
    (hstep : ∀ i (hi : i < tree.length), travStep over w d tgtCode acc i tree[i] = .ok (specStep t acc i tree[i]))
    (h : travGo over w d tree tgtCode acc fuel i = some (.ok vs)) :
    vs = ((List.range' i (tree.length - i)).filter (fun m => decide (Vis tree t acc i m))).map
      (fun m => ⟨m, if h : m < tree.length then (specStep t acc m tree[m]).2 else none⟩) := by
  induction fuel generalizing i vs with
  | zero =>
    rcases travGo_ok hstep h with ⟨h0, rfl⟩ | ⟨_, f, _, hf, _⟩
    · rw [Nat.sub_eq_zero_of_le h0]; simp
    · omega
  | succ fuel ih =>
    rcases travGo_ok hstep h with ⟨h0, rfl⟩ | ⟨hi, f, vs', hf, h1, rfl⟩
    · rw [Nat.sub_eq_zero_of_le h0]; simp
    · have hff : f = fuel := by omega
      subst hff
      have ihh := ih h1
      have hsub := D.sub i hi
      have hnx := specStep_next t acc i tree[i]
      generalize hj : (specStep t acc i tree[i]).1 = j at *
      have hj1 : i + 1 ≤ j := by omega
      have hj2 : j ≤ tree.length := by omega
      rw [ihh]
      have hr : List.range' i (tree.length - i) = i :: (List.range' (i + 1) (j - (i + 1)) ++ List.range' j (tree.length - j)) := by
        rw [range'_append' hj1 hj2, show tree.length - i = (tree.length - (i + 1)) + 1 by omega, List.range'_succ]
      rw [hr, List.filter_cons_of_pos (by
        rw [decide_eq_true_eq]
        intro q _ q1 q2
        omega), List.map_cons, List.filter_append]
      have hz : (List.range' (i + 1) (j - (i + 1))).filter (fun m => decide (Vis tree t acc i m)) = [] := by
        rw [List.filter_eq_nil_iff]
        intro m hm
        rw [List.mem_range'_1] at hm
        rw [decide_eq_true_eq]
        intro hv
        have := hv i hi (le_refl _) (by omega)
        omega
      rw [hz, List.nil_append, dif_pos hi]
      congr 2
      apply List.filter_congr
      intro m hm
      rw [List.mem_range'_1] at hm
      rw [decide_eq_decide]
      constructor
      · intro hv q hq q1 q2
        by_cases hqj : j ≤ q
        · exact hv q hq hqj q2
        · rcases Nat.eq_or_lt_of_le q1 with rfl | q1
          · omega
          · have := D.nest i q hi hq q1 (by omega)
            have := specStep_next t acc q tree[q]
            omega
      · intro hv q hq q1 q2
        exact hv q hq (by omega) q2

/-- A visited node: no proper ancestor is passed over. -/
def Skip (tree : List Node) (t : Nat) (acc : Nat → Bool) (q : Nat) : Prop :=
  ∃ hq : q < tree.length, if q ≤ t ∧ t ≤ q + tree[q].nChildren then q = t else acc q = true

theorem vis_iff {tree : List Node} (t : Nat) (acc : Nat → Bool) (m : Nat) :
    Vis tree t acc 0 m ↔ ∀ q (hq : q < tree.length), q ≠ m → q ≤ m → m ≤ q + tree[q].nChildren → ¬ Skip tree t acc q := by
  have hnx : ∀ q (hq : q < tree.length), (Skip tree t acc q → (specStep t acc q tree[q]).1 = q + tree[q].nChildren + 1) ∧
      (¬ Skip tree t acc q → (specStep t acc q tree[q]).1 = q + 1) := by
    intro q hq
    unfold Skip specStep macStep
    constructor
    · rintro ⟨_, h⟩
      split at h
      · rename_i h1
        rw [if_pos h1, if_pos h]
        simp only; omega
      · rename_i h1
        rw [if_neg h1, if_pos h]
    · intro h
      have h : ¬ (if q ≤ t ∧ t ≤ q + tree[q].nChildren then q = t else acc q = true) := fun h' => h ⟨hq, h'⟩
      split at h
      · rename_i h1
        rw [if_pos h1, if_neg h]
      · rename_i h1
        rw [if_neg h1, if_neg h]
  constructor
  · intro hv q hq h1 h2 h3 hs
    have := hv q hq (Nat.zero_le _) (by omega)
    rw [(hnx q hq).1 hs] at this
    omega
  · intro hv q hq _ h2
    by_cases h3 : m ≤ q + tree[q].nChildren
    · rw [(hnx q hq).2 (hv q hq (by omega) (by omega) h3)]
      omega
    · have := specStep_next t acc q tree[q]
      omega

/-! ### Trees with corresponding cells -/

/-- Particle `k` of the first tree is particle `τ k` of the second, and two particles share a cell of the first tree iff they share one of the second. -/
structure Match (n cb ml : Nat) (tree' tree : List Node) (an' an : Nat → Nat → Path) (τ : Nat → Nat) : Prop where
  S' : TShape n cb ml tree' an'
  S : TShape n cb ml tree an
  lt : ∀ k < n, τ k < n
  inj : ∀ k l, k < n → l < n → τ k = τ l → k = l
  same : ∀ L ≤ cb, ∀ k l, k < n → l < n → (an' L k = an' L l ↔ an L (τ k) = an L (τ l))

/-- Corresponding nodes. -/
structure Corr (n : Nat) (tree' tree : List Node) (τ : Nat → Nat) (i' i : Nat) : Prop where
  hi' : i' < tree'.length
  hi : i < tree.length
  level : tree'[i'].level = tree[i].level
  mem : ∀ k < n, (tree'[i'].beg ≤ k ∧ k < tree'[i'].fin) ↔ (tree[i].beg ≤ τ k ∧ τ k < tree[i].fin)

theorem surj_of {n : Nat} {τ : Nat → Nat} (lt : ∀ k < n, τ k < n) (inj : ∀ k l, k < n → l < n → τ k = τ l → k = l) {m : Nat} (hm : m < n) :
    ∃ k < n, τ k = m := by
  have h1 := map_range'_perm (τ := τ) (lo := 0) (l := n) (n := n) (by omega) inj (fun k _ hk => ⟨by omega, by have := lt k (by omega); omega⟩)
  have h2 : m ∈ (List.range' 0 n).map τ := by rw [h1.mem_iff, List.mem_range'_1]; omega
  obtain ⟨k, k1, k2⟩ := List.mem_map.1 h2
  rw [List.mem_range'_1] at k1
  exact ⟨k, by omega, k2⟩

/-- Ranges that correspond have corresponding particles. -/
theorem map_range_perm {n lo' hi' lo hi : Nat} {τ : Nat → Nat} (lt : ∀ k < n, τ k < n) (inj : ∀ k l, k < n → l < n → τ k = τ l → k = l)
    (h' : hi' ≤ n) (h : hi ≤ n) (mem : ∀ k < n, (lo' ≤ k ∧ k < hi') ↔ (lo ≤ τ k ∧ τ k < hi)) :
    ((List.range' lo' (hi' - lo')).map τ).Perm (List.range' lo (hi - lo)) := by
  have hnd : ((List.range' lo' (hi' - lo')).map τ).Nodup := by
    apply List.Nodup.map_on
    · intro a ha c hc h
      rw [List.mem_range'_1] at ha hc
      exact inj a c (by omega) (by omega) h
    · exact List.nodup_range'
  rw [List.perm_ext_iff_of_nodup hnd List.nodup_range']
  intro m
  rw [List.mem_map, List.mem_range'_1]
  constructor
  · rintro ⟨k, hk, rfl⟩
    rw [List.mem_range'_1] at hk
    have := (mem k (by omega)).1 (by omega)
    omega
  · intro hm
    obtain ⟨k, k1, rfl⟩ := surj_of lt inj (show m < n by omega)
    refine ⟨k, ?_, rfl⟩
    have := (mem k k1).2 (by omega)
    rw [List.mem_range'_1]
    omega

theorem map_filter_perm {n lo' hi' lo hi : Nat} {τ : Nat → Nat} (lt : ∀ k < n, τ k < n) (inj : ∀ k l, k < n → l < n → τ k = τ l → k = l)
    (h' : hi' ≤ n) (h : hi ≤ n) (mem : ∀ k < n, (lo' ≤ k ∧ k < hi') ↔ (lo ≤ τ k ∧ τ k < hi)) {k : Nat} (hk : k < n) :
    (((List.range' lo' (hi' - lo')).filter (· ≠ k)).map τ).Perm ((List.range' lo (hi - lo)).filter (· ≠ τ k)) := by
  have h1 := (map_range_perm lt inj h' h mem).filter (· ≠ τ k)
  rw [List.filter_map] at h1
  have h2 : (List.range' lo' (hi' - lo')).filter ((fun a => decide (a ≠ τ k)) ∘ τ) = (List.range' lo' (hi' - lo')).filter (· ≠ k) := by
    apply List.filter_congr
    intro a ha
    rw [List.mem_range'_1] at ha
    simp only [Function.comp, decide_eq_decide, ne_eq, not_iff_not]
    exact ⟨fun h => inj a k (by omega) hk h, fun h => by rw [h]⟩
  rw [h2] at h1
  exact h1

theorem sum_range_map {M : Type} [AddCommMonoid M] {n lo' hi' lo hi : Nat} {τ : Nat → Nat} (lt : ∀ k < n, τ k < n)
    (inj : ∀ k l, k < n → l < n → τ k = τ l → k = l)
    (h' : hi' ≤ n) (h : hi ≤ n) (mem : ∀ k < n, (lo' ≤ k ∧ k < hi') ↔ (lo ≤ τ k ∧ τ k < hi)) (f : Nat → M) :
    ∑ k ∈ Finset.Ico lo' hi', f (τ k) = ∑ k ∈ Finset.Ico lo hi, f k := by
  have h1 : (Finset.Ico lo' hi').image τ = Finset.Ico lo hi := by
    ext m
    rw [Finset.mem_image, Finset.mem_Ico]
    constructor
    · rintro ⟨k, hk, rfl⟩
      rw [Finset.mem_Ico] at hk
      exact (mem k (by omega)).1 hk
    · intro hm
      obtain ⟨k, k1, rfl⟩ := surj_of lt inj (show m < n by omega)
      exact ⟨k, by rw [Finset.mem_Ico]; exact (mem k k1).2 hm, rfl⟩
  rw [← h1, Finset.sum_image]
  intro a ha c hc hac
  rw [Finset.mem_coe, Finset.mem_Ico] at ha hc
  exact inj a c (by omega) (by omega) hac

section Match
variable {n cb ml : Nat} {tree' tree : List Node} {an' an : Nat → Nat → Path} {τ : Nat → Nat} (M : Match n cb ml tree' tree an' an τ)
include M

theorem Match.csize {L : Nat} (hL : L ≤ cb) {k : Nat} (hk : k < n) : csize n an' L k = csize n an L (τ k) := by
  unfold Rakau.csize
  have h1 : ((Finset.range n).filter (fun l => an' L l = an' L k)).image τ = (Finset.range n).filter (fun l => an L l = an L (τ k)) := by
    ext m
    rw [Finset.mem_image, Finset.mem_filter, Finset.mem_range]
    constructor
    · rintro ⟨l, hl, rfl⟩
      rw [Finset.mem_filter, Finset.mem_range] at hl
      exact ⟨M.lt l hl.1, (M.same L hL l k hl.1 hk).1 hl.2⟩
    · rintro ⟨m1, m2⟩
      obtain ⟨l, l1, rfl⟩ := surj_of M.lt M.inj m1
      exact ⟨l, by rw [Finset.mem_filter, Finset.mem_range]; exact ⟨l1, (M.same L hL l k l1 hk).2 m2⟩, rfl⟩
  rw [← h1, Finset.card_image_of_injOn]
  intro a ha c hc hac
  rw [Finset.mem_coe, Finset.mem_filter, Finset.mem_range] at ha hc
  exact M.inj a c ha.1 hc.1 hac

/-- Nodes of the same level with a common particle correspond. -/
theorem Match.corr {i' i : Nat} (hi' : i' < tree'.length) (hi : i < tree.length) (hl : tree'[i'].level = tree[i].level) {k : Nat}
    (k1 : tree'[i'].beg ≤ k) (k2 : k < tree'[i'].fin) (k3 : tree[i].beg ≤ τ k) (k4 : τ k < tree[i].fin) : Corr n tree' tree τ i' i := by
  obtain ⟨r1, r2, r3⟩ := M.S'.rng i' hi'
  refine ⟨hi', hi, hl, fun l hlt => ?_⟩
  rw [M.S'.mem i' hi' k k1 k2 l hlt, M.S.mem i hi (τ k) k3 k4 (τ l) (M.lt l hlt), ← hl]
  exact M.same _ r3 l k hlt (by omega)

theorem Match.left {i' : Nat} (hi' : i' < tree'.length) : ∃ i, Corr n tree' tree τ i' i := by
  obtain ⟨r1, r2, r3⟩ := M.S'.rng i' hi'
  have h1 := (M.S'.node tree'[i'].beg (by omega) _ r3).1 ⟨i', hi', rfl, le_refl _, r1⟩
  rw [M.csize (by omega) (by omega)] at h1
  obtain ⟨i, hi, e1, e2, e3⟩ := (M.S.node (τ tree'[i'].beg) (M.lt _ (by omega)) _ r3).2 h1
  exact ⟨i, M.corr hi' hi e1.symm (le_refl _) r1 e2 e3⟩

theorem Match.right {i : Nat} (hi : i < tree.length) : ∃ i', Corr n tree' tree τ i' i := by
  obtain ⟨r1, r2, r3⟩ := M.S.rng i hi
  obtain ⟨k, k1, k2⟩ := surj_of M.lt M.inj (show tree[i].beg < n by omega)
  have h1 := (M.S.node tree[i].beg (by omega) _ r3).1 ⟨i, hi, rfl, le_refl _, r1⟩
  rw [← k2, ← M.csize (by omega) k1] at h1
  obtain ⟨i', hi', e1, e2, e3⟩ := (M.S'.node k k1 _ r3).2 h1
  exact ⟨i', M.corr hi' hi e1 e2 e3 (by omega) (by omega)⟩

theorem Match.anc {q' q m' m : Nat} (hq : Corr n tree' tree τ q' q) (hm : Corr n tree' tree τ m' m) :
    (q' ≤ m' ∧ m' ≤ q' + (tree'[q']'hq.hi').nChildren) ↔ (q ≤ m ∧ m ≤ q + (tree[q]'hq.hi).nChildren) := by
  rw [M.S'.desc q' m' hq.hi' hm.hi', M.S.desc q m hq.hi hm.hi, hq.level, hm.level]
  obtain ⟨r1, r2, r3⟩ := M.S'.rng m' hm.hi'
  obtain ⟨r1', r2', r3'⟩ := M.S.rng m hm.hi
  have h1 := (hm.mem _ (by omega)).1 ⟨le_refl _, r1⟩
  have hmi := hm.hi
  have hmi' := hm.hi'
  have h2 : ∀ a c, tree[m].level ≥ (tree[q]'hq.hi).level → a < n → c < n → tree[m].beg ≤ a → a < tree[m].fin → tree[m].beg ≤ c → c < tree[m].fin →
      (tree[q]'hq.hi).beg ≤ a → a < (tree[q]'hq.hi).fin → (tree[q]'hq.hi).beg ≤ c ∧ c < (tree[q]'hq.hi).fin := by
    intro a c hl ha hc a1 a2 c1 c2 a3 a4
    rw [M.S.mem q hq.hi a a3 a4 c hc]
    exact M.S.up _ _ _ _ hl ((M.S.mem m hm.hi a a1 a2 c hc).1 ⟨c1, c2⟩)
  constructor
  · rintro ⟨a1, a2⟩
    have h3 := (hq.mem _ (by omega)).1 a2
    exact ⟨a1, h2 _ _ a1 (by omega) (by omega) h1.1 h1.2 (le_refl _) r1' h3.1 h3.2⟩
  · rintro ⟨a1, a2⟩
    refine ⟨a1, (hq.mem _ (by omega)).2 ?_⟩
    exact h2 _ _ a1 (by omega) (by omega) (le_refl _) r1' h1.1 h1.2 a2.1 a2.2

theorem Match.inj_left {i' j' i : Nat} (h : Corr n tree' tree τ i' i) (h' : Corr n tree' tree τ j' i) : i' = j' := by
  obtain ⟨r1, r2, r3⟩ := M.S'.rng i' h.hi'
  have h1 := (h.mem _ (by omega)).1 ⟨le_refl _, r1⟩
  have h2 := (h'.mem _ (by omega)).2 h1
  exact M.S'.uniq i' j' h.hi' h'.hi' _ (h.level.trans h'.level.symm) (le_refl _) r1 h2.1 h2.2

theorem Match.inj_right {i' i j : Nat} (h : Corr n tree' tree τ i' i) (h' : Corr n tree' tree τ i' j) : i = j := by
  obtain ⟨r1, r2, r3⟩ := M.S'.rng i' h.hi'
  have h1 := (h.mem _ (by omega)).1 ⟨le_refl _, r1⟩
  have h2 := (h'.mem _ (by omega)).1 ⟨le_refl _, r1⟩
  exact M.S.uniq i j h.hi h'.hi _ (h.level.symm.trans h'.level) h1.1 h1.2 h2.1 h2.2

theorem Match.size {i' i : Nat} (h : Corr n tree' tree τ i' i) : (tree'[i']'h.hi').fin - (tree'[i']'h.hi').beg = (tree[i]'h.hi).fin - (tree[i]'h.hi).beg := by
  have h1 := (map_range_perm M.lt M.inj (M.S'.rng i' h.hi').2.1 (M.S.rng i h.hi).2.1 h.mem).length_eq
  simpa using h1

theorem Match.leaf {i' i : Nat} (h : Corr n tree' tree τ i' i) : (tree'[i']'h.hi').nChildren = 0 ↔ (tree[i]'h.hi).nChildren = 0 := by
  rw [M.S'.leaf i' h.hi', M.S.leaf i h.hi, M.size h, h.level]

theorem Match.length : tree'.length = tree.length := by
  classical
  have h : ∀ m' < tree'.length, ∃ m, Corr n tree' tree τ m' m := fun m' h => M.left h
  choose! φ hφ using h
  have := Finset.card_bij (s := Finset.range tree'.length) (t := Finset.range tree.length) (fun m' _ => φ m')
    (fun m' hm' => Finset.mem_range.2 (hφ m' (Finset.mem_range.1 hm')).hi)
    (fun a ha c hc hac => by
      have := hφ a (Finset.mem_range.1 ha)
      rw [hac] at this
      exact M.inj_left this (hφ c (Finset.mem_range.1 hc)))
    (fun m hm => by
      obtain ⟨m', C⟩ := M.right (Finset.mem_range.1 hm)
      exact ⟨m', Finset.mem_range.2 C.hi', M.inj_right (hφ m' C.hi') C⟩)
  simpa using this

theorem Match.kids (hsub' : ∀ i (hi : i < tree'.length), i + tree'[i].nChildren < tree'.length) (hsub : ∀ i (hi : i < tree.length), i + tree[i].nChildren < tree.length)
    {i' i : Nat} (C : Corr n tree' tree τ i' i) : (tree'[i']'C.hi').nChildren = (tree[i]'C.hi).nChildren := by
  classical
  have h : ∀ m' < tree'.length, ∃ m, Corr n tree' tree τ m' m := fun m' h => M.left h
  choose! φ hφ using h
  have s1 := hsub' i' C.hi'
  have s2 := hsub i C.hi
  have := Finset.card_bij (s := Finset.Icc i' (i' + (tree'[i']'C.hi').nChildren)) (t := Finset.Icc i (i + (tree[i]'C.hi).nChildren)) (fun m' _ => φ m')
    (fun m' hm' => by
      rw [Finset.mem_Icc] at hm' ⊢
      exact (M.anc C (hφ m' (by omega))).1 hm')
    (fun a ha c hc hac => by
      rw [Finset.mem_Icc] at ha hc
      have := hφ a (by omega)
      rw [hac] at this
      exact M.inj_left this (hφ c (by omega)))
    (fun m hm => by
      rw [Finset.mem_Icc] at hm
      obtain ⟨m', C2⟩ := M.right (i := m) (by omega)
      refine ⟨m', ?_, M.inj_right (hφ m' C2.hi') C2⟩
      rw [Finset.mem_Icc]
      exact (M.anc C C2).2 hm)
  rw [Nat.card_Icc, Nat.card_Icc] at this
  omega

variable {t' t : Nat} {acc' acc : Nat → Bool} (ht : Corr n tree' tree τ t' t) (hacc : ∀ i' i, Corr n tree' tree τ i' i → acc' i' = acc i)
include ht hacc

theorem Match.skip {q' q : Nat} (h : Corr n tree' tree τ q' q) : Skip tree' t' acc' q' ↔ Skip tree t acc q := by
  unfold Skip
  rw [exists_prop_of_true h.hi', exists_prop_of_true h.hi, hacc q' q h]
  have h1 := M.anc h ht
  have h2 : q' = t' ↔ q = t := by
    constructor
    · rintro rfl; exact M.inj_right h ht
    · rintro rfl; exact M.inj_left h ht
  by_cases h3 : q ≤ t ∧ t ≤ q + (tree[q]'h.hi).nChildren
  · rw [if_pos h3, if_pos (h1.2 h3), h2]
  · rw [if_neg h3, if_neg (fun h4 => h3 (h1.1 h4))]

theorem Match.vis {m' m : Nat} (h : Corr n tree' tree τ m' m) : Vis tree' t' acc' 0 m' ↔ Vis tree t acc 0 m := by
  rw [vis_iff, vis_iff]
  constructor
  · intro hv q hq h1 h2 h3 hs
    obtain ⟨q', hc⟩ := M.right hq
    obtain ⟨a1, a2⟩ := (M.anc hc h).2 ⟨h2, h3⟩
    exact hv q' hc.hi' (fun e => h1 (by subst e; exact M.inj_right hc h)) a1 a2 ((M.skip ht hacc hc).2 hs)
  · intro hv q' hq h1 h2 h3 hs
    obtain ⟨q, hc⟩ := M.left hq
    obtain ⟨a1, a2⟩ := (M.anc hc h).1 ⟨h2, h3⟩
    exact hv q hc.hi (fun e => h1 (by subst e; exact M.inj_left hc h)) a1 a2 ((M.skip ht hacc hc).1 hs)

/-- The contributions of corresponding nodes are of the same kind. -/
theorem Match.event {m' m : Nat} (h : Corr n tree' tree τ m' m) :
    ((specStep t' acc' m' (tree'[m']'h.hi')).2 = none ∧ (specStep t acc m (tree[m]'h.hi)).2 = none) ∨
    ((specStep t' acc' m' (tree'[m']'h.hi')).2 = some (.com m') ∧ (specStep t acc m (tree[m]'h.hi)).2 = some (.com m)) ∨
    ((specStep t' acc' m' (tree'[m']'h.hi')).2 = some (.leaf m') ∧ (specStep t acc m (tree[m]'h.hi)).2 = some (.leaf m)) := by
  have h1 := M.anc h ht
  have h2 := M.leaf h
  have h3 := hacc m' m h
  unfold specStep macStep
  by_cases a1 : m ≤ t ∧ t ≤ m + (tree[m]'h.hi).nChildren
  · rw [if_pos a1, if_pos (h1.2 a1)]; simp
  · rw [if_neg a1, if_neg (fun h4 => a1 (h1.1 h4)), h3]
    cases acc m with
    | true => simp
    | false =>
      by_cases a2 : (tree[m]'h.hi).nChildren = 0
      · simp [a2, h2.2 a2]
      · have a3 : ¬ (tree'[m']'h.hi').nChildren = 0 := fun e => a2 (h2.1 e)
        rw [if_neg a3, if_neg a2]
        simp

end Match

/-! ### Values with permuted axes -/

/-- The axes of the acceleration permuted, with signs. -/
def axv {K : Type} [Field K] (ε : Nat → K) (σ : Nat → Nat) (v : Val K) : Val K := (fun j => ε j * v.1 (σ j), v.2)

theorem axv_add {K : Type} [Field K] (ε : Nat → K) (σ : Nat → Nat) (v v' : Val K) : axv ε σ (v + v') = axv ε σ v + axv ε σ v' := by
  unfold axv
  ext
  · simp [mul_add]
  · simp

theorem axv_zero {K : Type} [Field K] (ε : Nat → K) (σ : Nat → Nat) : axv ε σ (0 : Val K) = 0 := by
  unfold axv
  ext <;> simp

theorem axv_sum {K : Type} [Field K] {α : Type} (ε : Nat → K) (σ : Nat → Nat) (L : List α) (f : α → Val K) :
    (L.map (fun a => axv ε σ (f a))).sum = axv ε σ (L.map f).sum := by
  induction L with
  | nil => exact (axv_zero ε σ).symm
  | cons a L ih => rw [List.map_cons, List.sum_cons, ih, List.map_cons, List.sum_cons, axv_add]

theorem axv_finsum {K : Type} [Field K] {α : Type} (ε : Nat → K) (σ : Nat → Nat) (S : Finset α) (f : α → Val K) :
    ∑ a ∈ S, axv ε σ (f a) = axv ε σ (∑ a ∈ S, f a) := by
  classical
  induction S using Finset.induction_on with
  | empty => exact (axv_zero ε σ).symm
  | insert a S ha ih => rw [Finset.sum_insert ha, Finset.sum_insert ha, ih, axv_add]

theorem axv_smul {K : Type} [Field K] (ε : Nat → K) (σ : Nat → Nat) (g : K) (v : Val K) : Val.smul g (axv ε σ v) = axv ε σ (Val.smul g v) := by
  unfold Val.smul axv
  ext
  · simp; ring
  · simp

theorem VEq.finsum {K : Type} [Field K] {α : Type} {d : Nat} {S : Finset α} {f g : α → Val K} (h : ∀ a ∈ S, VEq d (f a) (g a)) :
    VEq d (∑ a ∈ S, f a) (∑ a ∈ S, g a) := by
  classical
  induction S using Finset.induction_on with
  | empty => exact VEq.rfl' _
  | insert a S ha ih =>
    rw [Finset.sum_insert ha, Finset.sum_insert ha]
    exact (h a (by simp)).add (ih (fun c hc => h c (by simp [hc])))

section
variable {K : Type} [Field K] [LinearOrder K] [FloorRing K] [IsStrictOrderedRing K]

theorem sum_axes {M : Type} [AddCommMonoid M] {d : Nat} {σ : Nat → Nat} (lt : ∀ j < d, σ j < d) (inj : ∀ i j, i < d → j < d → σ i = σ j → i = j) (f : Nat → M) :
    ∑ j ∈ Finset.range d, f (σ j) = ∑ j ∈ Finset.range d, f j := by
  rw [Finset.range_eq_Ico]
  exact sum_Ico_map (n := d) le_rfl inj (fun k _ hk => ⟨Nat.zero_le _, lt k hk⟩) f

theorem D2_axes {d : Nat} {ε : Nat → K} {σ : Nat → Nat} (sgn : ∀ j < d, ε j = 1 ∨ ε j = -1) (lt : ∀ j < d, σ j < d)
    (inj : ∀ i j, i < d → j < d → σ i = σ j → i = j) {e : K} {y z y' z' : Nat → K}
    (hy : ∀ j < d, y' j = ε j * y (σ j)) (hz : ∀ j < d, z' j = ε j * z (σ j)) : D2 d e y' z' = D2 d e y z := by
  unfold D2
  rw [← sum_axes lt inj (fun j => (z j - y j) ^ 2)]
  congr 1
  apply Finset.sum_congr rfl
  intro j hj
  rw [Finset.mem_range] at hj
  rw [hy j hj, hz j hj]
  rcases sgn j hj with h | h <;> rw [h] <;> ring

/-- The inverse distances are the same functions. -/
def InvSame (M M' : Mode K) : Prop := ∀ q, M'.inv1 q = M.inv1 q ∧ M'.inv3 q = M.inv3 q

theorem grav_axes {d : Nat} {ε : Nat → K} {σ : Nat → Nat} (sgn : ∀ j < d, ε j = 1 ∨ ε j = -1) (lt : ∀ j < d, σ j < d)
    (inj : ∀ i j, i < d → j < d → σ i = σ j → i = j) {e : K} {M M' : Mode K}
    (hi : InvSame M M') {y z y' z' : Nat → K} {m m1 m' m1' : K} (hy : ∀ j < d, y' j = ε j * y (σ j))
    (hz : ∀ j < d, z' j = ε j * z (σ j)) (hm : m' = m) (hm1 : m1' = m1) :
    VEq d (grav M'.inv1 M'.inv3 d e y' m' z' m1') (axv ε σ (grav M.inv1 M.inv3 d e y m z m1)) := by
  obtain ⟨i1, i3⟩ := hi (D2 d e y z)
  unfold VEq grav axv
  simp only
  rw [D2_axes sgn lt inj hy hz, i1, i3, hm, hm1]
  refine ⟨fun j hj => ?_, rfl⟩
  rw [hy j hj, hz j hj]
  ring

/-! ### Cells -/

/-- The upper bits of a mirrored cell. -/
theorem mirror_div {a cb S : Nat} (hS : S ≤ cb) (ha : a < 2 ^ cb) : (2 ^ cb - 1 - a) / 2 ^ S = 2 ^ (cb - S) - 1 - a / 2 ^ S := by
  have h1 : 2 ^ (cb - S) * 2 ^ S = 2 ^ cb := by rw [← pow_add, Nat.sub_add_cancel hS]
  have h2 : 0 < 2 ^ S := Nat.two_pow_pos _
  have h3 : a / 2 ^ S < 2 ^ (cb - S) := by rw [Nat.div_lt_iff_lt_mul h2, h1]; exact ha
  have h4 := Nat.div_add_mod a (2 ^ S)
  have h5 := Nat.mod_lt a h2
  generalize a / 2 ^ S = q at *
  generalize a % 2 ^ S = m at *
  obtain ⟨p, hp⟩ : ∃ p, 2 ^ (cb - S) = q + 1 + p := ⟨2 ^ (cb - S) - (q + 1), by omega⟩
  rw [hp] at h1 ⊢
  rw [show q + 1 + p - 1 - q = p by omega]
  have e : 2 ^ cb - 1 - a = (2 ^ S - 1 - m) + 2 ^ S * p := by
    rw [← h1, ← h4, Nat.add_mul, Nat.add_mul, Nat.mul_comm q, Nat.mul_comm p]
    omega
  rw [e, Nat.add_mul_div_left _ _ h2, Nat.div_eq_of_lt (by omega), Nat.zero_add]

/-- The cell of a coordinate. -/
def cellOf (A : Arith K) (w d : Nat) (b q : K) : Nat := ((discSingle A w (cbits w d) (.fin q) (invBox A (.fin b))).toOption).getD 0

section Cells
variable {A : Arith K} {simd : Option (Simd K)} {mac : Mac} {w d : Nat} {s : TS (rakauEnv A simd mac w d)} {x : Nat → Nat → K} {b : K}

theorem reach_cells (hs : Supported w d) (h : Reach _ s) (hb : s.box = .fin b) (hx : IsData d s.n s.parts x) {k : Nat} (hk : k < s.codes.length) :
    mortonEncode w ((List.range d).map (fun j => cellOf A w d b (x j k))) = some s.codes[k] ∧ ∀ j < d, cellOf A w d b (x j k) < 2 ^ cbits w d := by
  have h1 := (reach_code h hb hx).2 k hk
  rcases codeOf_cases A hs (box := .fin b) (c := ((List.range d).map (fun j => x j k)).map .fin) (by simp) with ⟨xs, v, a1, a2, a3, _, a5⟩ | ⟨_, a5⟩
  · have e : xs = (List.range d).map (fun j => cellOf A w d b (x j k)) := by
      have hl := a1.length_eq
      apply List.ext_getElem
      · simpa using hl.symm
      · intro j j1 j2
        have hj : j < d := by simpa using j2
        have := (List.forall₂_iff_get.1 a1).2 j (by simpa using hj) j1
        simp only [List.get_eq_getElem, List.getElem_map, List.getElem_range] at this
        rw [List.getElem_map, List.getElem_range]
        unfold cellOf
        rw [this]
        rfl
    rw [a5, Except.ok.injEq] at h1
    rw [e, h1] at a3
    refine ⟨a3, fun j hj => a2 _ ?_⟩
    rw [e]
    exact List.mem_map.2 ⟨j, List.mem_range.2 hj, rfl⟩
  · rw [a5] at h1
    simp at h1

/-- Two particles share a cell of level `L` iff their cells agree in the first `L` bits of every coordinate. -/
theorem anc_cells (hs : Supported w d) (h : Reach _ s) (hz : s.n * cbits w d < 2 ^ 64) (hb : s.box = .fin b) (hx : IsData d s.n s.parts x) {L : Nat} (hL : L ≤ cbits w d)
    {k l : Nat} (hk : k < s.n) (hl : l < s.n) :
    anc d (cbits w d) s.codes L k = anc d (cbits w d) s.codes L l ↔
      ∀ j < d, cellOf A w d b (x j k) >>> (cbits w d - L) = cellOf A w d b (x j l) >>> (cbits w d - L) := by
  obtain ⟨hcl, B, _⟩ := reach_build (rakauEnv_ok A simd mac hs) h hz (by omega)
  have hd : 0 < d := B.hyp.hd
  have hk' : k < s.codes.length := by omega
  have hl' : l < s.codes.length := by omega
  obtain ⟨a1, a2⟩ := reach_cells hs h hb hx hk'
  obtain ⟨b1, b2⟩ := reach_cells hs h hb hx hl'
  have hlen := anc_length (d := d) s.codes hL l
  have hbd : ∀ c ∈ s.codes, c < 2 ^ (cbits w d * d) := B.hyp.bound
  have hok : Path.Ok d (anc d (cbits w d) s.codes L l) := fun i hi => digits_ok _ _ _ i (List.mem_of_mem_take hi)
  have e1 := inNode_anc (d := d) (cb := cbits w d) (p := anc d (cbits w d) s.codes L l) hk'
  have e2 := (inNode_anc (d := d) (cb := cbits w d) (p := anc d (cbits w d) s.codes L l) hl').2 (by rw [hlen])
  rw [inNode_iff hd hok (by omega) (hbd _ (List.getElem_mem _))] at e1 e2
  rw [hlen] at e1 e2
  rw [← e1, ← e2, ← Nat.shiftRight_eq_div_pow, ← Nat.shiftRight_eq_div_pow]
  have hxl : ((List.range d).map (fun j => cellOf A w d b (x j k))).length = d := by simp
  have h3 := C07_prefix_cell (w := w) (L := L) (xs := (List.range d).map (fun j => cellOf A w d b (x j k))) (ys := (List.range d).map (fun j => cellOf A w d b (x j l)))
    (by rw [hxl]; exact hs) (by simp) (by rw [hxl]; exact hL)
    (by rw [hxl]; intro q hq; obtain ⟨j, hj, rfl⟩ := List.mem_map.1 hq; exact a2 j (List.mem_range.1 hj))
    (by rw [hxl]; intro q hq; obtain ⟨j, hj, rfl⟩ := List.mem_map.1 hq; exact b2 j (List.mem_range.1 hj)) a1 b1
  simp only [hxl] at h3
  rw [h3]
  constructor
  · intro h j hj
    simpa using h j hj
  · intro h j hj
    simpa using h j hj

/-- The corner of a node: the cells of its particles rounded down to the cells of its level. -/
theorem node_corner (hs : Supported w d) (h : Reach _ s) (hz : s.n * cbits w d < 2 ^ 64) (hb : s.box = .fin b) (hx : IsData d s.n s.parts x) {p : Path}
    (hp : p.Ok d) (hl : p.length ≤ cbits w d) {k : Nat} (hk : k < s.codes.length) (hin : InNode d (cbits w d) p s.codes[k]) {c : List Nat}
    (hc : mortonDecode w d (pv d p <<< ((cbits w d - p.length) * d)) = some c) :
    c = (List.range d).map (fun j => cellOf A w d b (x j k) / 2 ^ (cbits w d - p.length) * 2 ^ (cbits w d - p.length)) := by
  obtain ⟨hcl, B, _⟩ := reach_build (rakauEnv_ok A simd mac hs) h hz (by have := (reach_code h hb hx).1; omega)
  have hd : 0 < d := B.hyp.hd
  have hbd : ∀ c ∈ s.codes, c < 2 ^ (cbits w d * d) := B.hyp.bound
  obtain ⟨a1, a2⟩ := reach_cells hs h hb hx hk
  rw [inNode_iff hd hp hl (hbd _ (List.getElem_mem _)), ← Nat.shiftRight_eq_div_pow] at hin
  set S := cbits w d - p.length with hS
  have hS2 : 0 < 2 ^ S := Nat.two_pow_pos _
  have hpow : 2 ^ p.length * 2 ^ S = 2 ^ cbits w d := by rw [← pow_add, Nat.add_sub_cancel' hl]
  -- any point of the cube
  have key : ∀ f : Nat → Nat, (∀ j < d, f j / 2 ^ S = cellOf A w d b (x j k) / 2 ^ S) → ∃ hcl : c.length = d, ∀ j (hj : j < d), c[j] ≤ f j ∧ f j < c[j] + 2 ^ S := by
    intro f hf
    have hfb : ∀ j < d, f j < 2 ^ cbits w d := by
      intro j hj
      have h1 := a2 j hj
      rw [← hpow] at h1 ⊢
      rw [← Nat.div_lt_iff_lt_mul hS2, hf j hj, Nat.div_lt_iff_lt_mul hS2]
      exact h1
    have hxl : ((List.range d).map f).length = d := by simp
    have hkl : ((List.range d).map (fun j => cellOf A w d b (x j k))).length = d := by simp
    have hfm : ∀ q ∈ (List.range d).map f, q < 2 ^ cbits w d := by
      intro q hq; obtain ⟨j, hj, rfl⟩ := List.mem_map.1 hq; exact hfb j (List.mem_range.1 hj)
    obtain ⟨m, m1, _⟩ := mortonEncode_interleaves (w := w) (xs := (List.range d).map f) (by rw [hxl]; exact hs) (by rw [hxl]; exact hfm)
    have h3 := C07_prefix_cell (w := w) (L := p.length) (xs := (List.range d).map (fun j => cellOf A w d b (x j k))) (ys := (List.range d).map f)
      (by rw [hkl]; exact hs) (by simp) (by rw [hkl]; exact hl)
      (by rw [hkl]; intro q hq; obtain ⟨j, hj, rfl⟩ := List.mem_map.1 hq; exact a2 j (List.mem_range.1 hj)) (by rw [hkl]; exact hfm) a1 m1
    simp only [hkl] at h3
    have h4 := h3.2 (fun j hj => by simp [Nat.shiftRight_eq_div_pow, ← hS, hf j hj])
    rw [← hS, hin] at h4
    have hq : pv d p < 2 ^ (p.length * d) := by
      rw [← hin, Nat.shiftRight_eq_div_pow, Nat.div_lt_iff_lt_mul (Nat.two_pow_pos _), ← pow_add, ← Nat.add_mul, hS, Nat.add_sub_cancel' hl]
      exact hbd _ (List.getElem_mem _)
    obtain ⟨c', c1, c2, c3⟩ := C07_node_cube (w := w) (L := p.length) (q := pv d p) (xs := (List.range d).map f) (by rw [hxl]; exact hs) (by rw [hxl]; exact hl)
      (by rw [hxl]; exact hfm) m1 (by rw [hxl]; exact hq)
    simp only [hxl] at c1 c2 c3
    rw [← hS, hc, Option.some.injEq] at c1
    subst c1
    refine ⟨c2, fun j hj => ?_⟩
    have := c3.1 (by rw [← hS]; exact h4.symm) j hj
    simpa [← hS] using this
  obtain ⟨hlen, k1⟩ := key (fun j => cellOf A w d b (x j k) / 2 ^ S * 2 ^ S) (fun j hj => by rw [Nat.mul_div_cancel _ hS2])
  obtain ⟨_, k2⟩ := key (fun j => cellOf A w d b (x j k) / 2 ^ S * 2 ^ S + (2 ^ S - 1)) (fun j hj => by
    rw [Nat.add_comm, Nat.add_mul_div_right _ _ hS2, Nat.div_eq_of_lt (by omega), Nat.zero_add])
  apply List.ext_getElem
  · simpa using hlen
  · intro j j1 j2
    have hj : j < d := by omega
    have := k1 j hj
    have := k2 j hj
    rw [List.getElem_map, List.getElem_range]
    omega

end Cells

/-! ### Two trees with permuted axes -/

/-- Coordinate `j` of particle `k` of `s'` is `ε j` times coordinate `σ j` of particle `τ k` of `s`; parameters are the same, and cells are mirrored with the
coordinates. -/
structure Turned {A : Arith K} {simd simd' : Option (Simd K)} {mac : Mac} {w d : Nat} (s : TS (rakauEnv A simd mac w d))
    (s' : TS (rakauEnv A simd' mac w d)) (x x' : Nat → Nat → K) (b : K) (ε : Nat → K) (σ τ : Nat → Nat) : Prop where
  n : s'.n = s.n
  maxLeaf : s'.maxLeaf = s.maxLeaf
  ncrit : s'.ncrit = s.ncrit
  sgn : ∀ j < d, ε j = 1 ∨ ε j = -1
  slt : ∀ j < d, σ j < d
  sinj : ∀ i j, i < d → j < d → σ i = σ j → i = j
  lt : ∀ k < s.n, τ k < s.n
  inj : ∀ k l, k < s.n → l < s.n → τ k = τ l → k = l
  pos : ∀ k < s.n, ∀ j < d, x' j k = ε j * x (σ j) (τ k)
  mass : ∀ k < s.n, x' d k = x d (τ k)
  cell : ∀ k < s.n, ∀ j < d, ε j = -1 → cellOf A w d b (x' j k) = 2 ^ cbits w d - 1 - cellOf A w d b (x (σ j) (τ k))

section Pair
variable {A : Arith K} {simd simd' : Option (Simd K)} {mac : Mac} {w d : Nat} {s : TS (rakauEnv A simd mac w d)} {s' : TS (rakauEnv A simd' mac w d)}
  {x x' : Nat → Nat → K} {ε : Nat → K} {σ τ : Nat → Nat} {b : K}
  (T : Turned s s' x x' b ε σ τ)
  {rsqrt rsqrt' : Option (Fl K → Fl K)} {over : Overshift} {mv e : K} (H : Sit s rsqrt over x b mv e)
  (H' : Sit s' rsqrt' over x' b mv e)
include T H H'

/-- The upper bits of a cell of `s'`. -/
theorem Turned.cellDiv {S : Nat} (hS : S ≤ cbits w d) {k : Nat} (hk : k < s.n) {j : Nat} (hj : j < d) :
    cellOf A w d b (x (σ j) (τ k)) / 2 ^ S < 2 ^ (cbits w d - S) ∧
    cellOf A w d b (x' j k) / 2 ^ S = if ε j = -1 then 2 ^ (cbits w d - S) - 1 - cellOf A w d b (x (σ j) (τ k)) / 2 ^ S
      else cellOf A w d b (x (σ j) (τ k)) / 2 ^ S := by
  have hcl := (reach_code H.reach H.box H.data).1
  have hlt := (reach_cells H.supp H.reach H.box H.data (k := τ k) (by have := T.lt k hk; omega)).2 (σ j) (T.slt j hj)
  constructor
  · rw [Nat.div_lt_iff_lt_mul (Nat.two_pow_pos _), ← pow_add, Nat.sub_add_cancel hS]
    exact hlt
  · by_cases h : ε j = -1
    · rw [if_pos h, T.cell k hk j hj h, mirror_div hS hlt]
    · rw [if_neg h, T.pos k hk j hj, (T.sgn j hj).resolve_right h, one_mul]

theorem Turned.upper {L : Nat} (hL : L ≤ cbits w d) {k l : Nat} (hk : k < s.n) (hl : l < s.n) {j : Nat} (hj : j < d) :
    cellOf A w d b (x' j k) >>> (cbits w d - L) = cellOf A w d b (x' j l) >>> (cbits w d - L) ↔
      cellOf A w d b (x (σ j) (τ k)) >>> (cbits w d - L) = cellOf A w d b (x (σ j) (τ l)) >>> (cbits w d - L) := by
  simp only [Nat.shiftRight_eq_div_pow]
  obtain ⟨a1, a2⟩ := T.cellDiv H H' (S := cbits w d - L) (by omega) hk hj
  obtain ⟨b1, b2⟩ := T.cellDiv H H' (S := cbits w d - L) (by omega) hl hj
  rw [a2, b2]
  split
  · omega
  · rfl

/-- The nodes of the two trees correspond. -/
theorem Turned.match (h0 : 0 < s.n) :
    Match s.n (cbits w d) s.maxLeaf s'.tree s.tree (anc d (cbits w d) s'.codes) (anc d (cbits w d) s.codes) τ := by
  obtain ⟨c1, B, sp, hb⟩ := reach_build (rakauEnv_ok A simd mac H.supp) H.reach H.size h0
  obtain ⟨c1', B', sp', hb'⟩ := reach_build (rakauEnv_ok A simd' mac H'.supp) H'.reach H'.size (by rw [T.n]; exact h0)
  have S := shape_of B hb
  have S' := shape_of B' hb'
  rw [c1] at S
  rw [c1', T.n] at S'
  have e1 : s'.cfg.maxLeaf = s.maxLeaf := T.maxLeaf
  rw [e1] at S'
  refine ⟨S', S, T.lt, T.inj, ?_⟩
  intro L hL k l hk hl
  rw [anc_cells H'.supp H'.reach H'.size H'.box H'.data hL (by rw [T.n]; exact hk) (by rw [T.n]; exact hl),
    anc_cells H.supp H.reach H.size H.box H.data hL (T.lt k hk) (T.lt l hl)]
  constructor
  · intro h j hj
    obtain ⟨i, i1, rfl⟩ := surj_of T.slt T.sinj hj
    exact (T.upper H H' hL hk hl i1).1 (h i i1)
  · intro h j hj
    exact (T.upper H H' hL hk hl hj).2 (h _ (T.slt j hj))

/-- The critical nodes of corresponding particles correspond. -/
theorem Turned.crit (h0 : 0 < s.n) {cn' cn : CNode} (hc' : cn' ∈ s'.crit) (hc : cn ∈ s.crit) {k : Nat} (k1 : cn'.beg ≤ k) (k2 : k < cn'.fin)
    (k3 : cn.beg ≤ τ k) (k4 : τ k < cn.fin) {t' t : Nat} (ht' : t' < s'.tree.length) (ht : t < s.tree.length)
    (t1' : s'.tree[t'].code = cn'.code) (t2' : s'.tree[t'].beg = cn'.beg) (t3' : s'.tree[t'].fin = cn'.fin)
    (t1 : s.tree[t].code = cn.code) (t2 : s.tree[t].beg = cn.beg) (t3 : s.tree[t].fin = cn.fin) : Corr s.n s'.tree s.tree τ t' t := by
  have M := T.match H H' h0
  obtain ⟨c1, B, sp, hb⟩ := reach_build (rakauEnv_ok A simd mac H.supp) H.reach H.size h0
  obtain ⟨c1', B', sp', hb'⟩ := reach_build (rakauEnv_ok A simd' mac H'.supp) H'.reach H'.size (by rw [T.n]; exact h0)
  have r := M.S.rng t ht
  have r' := M.S'.rng t' ht'
  have hk : k < s.n := by omega
  obtain ⟨a1, a2⟩ := crit_level B hb hc ht t1 k3 k4 (by have := T.lt k hk; omega)
  obtain ⟨a1', a2'⟩ := crit_level B' hb' hc' ht' t1' k1 k2 (by have := T.n; omega)
  rw [c1] at a1 a2
  rw [c1', T.n] at a1' a2'
  have e1 : s'.cfg.maxLeaf = s.cfg.maxLeaf := T.maxLeaf
  have e2 : s'.cfg.ncrit = s.cfg.ncrit := T.ncrit
  rw [e1, e2] at a1' a2'
  have hcs : ∀ L ≤ cbits w d, CSize s.n (cbits w d) s.cfg.maxLeaf s.cfg.ncrit (anc d (cbits w d) s'.codes) L k ↔
      CSize s.n (cbits w d) s.cfg.maxLeaf s.cfg.ncrit (anc d (cbits w d) s.codes) L (τ k) := by
    intro L hL
    unfold CSize
    rw [M.csize hL hk]
  have hlev : s'.tree[t'].level = s.tree[t].level := by
    rcases Nat.lt_trichotomy s'.tree[t'].level s.tree[t].level with h | h | h
    · exact absurd ((hcs _ r'.2.2).1 a1') (a2 _ h)
    · exact h
    · exact absurd ((hcs _ r.2.2).2 a1) (a2' _ h)
  exact M.corr ht' ht hlev (k := k) (by omega) (by omega) (by omega) (by omega)

/-- The data of corresponding nodes. -/
theorem Turned.node (h0 : 0 < s.n) {i' i : Nat} (C : Corr s.n s'.tree s.tree τ i' i) :
    s'.cm i' = s.cm i ∧ (∀ j < d, s'.cx i' j = ε j * s.cx i (σ j)) ∧ (mac = .bhGeom → s'.cdelta i' = s.cdelta i) := by
  have M := T.match H H' h0
  have hi := C.hi
  have hi' := C.hi'
  obtain ⟨hcl, _, _, _, p, p1, p2, p3, p4, p5, p6, _, p8⟩ := reach_node (rakauEnv_ok A simd mac H.supp) H.reach H.size hi
  obtain ⟨hcl', _, _, _, p', p1', p2', p3', p4', p5', p6', _, p8'⟩ := reach_node (rakauEnv_ok A simd' mac H'.supp) H'.reach H'.size hi'
  obtain ⟨hp, m1, m2, m3⟩ := C17_exact H.exact H.batch H.supp H.reach H.size H.box H.data hi
  obtain ⟨hp', m1', m2', m3'⟩ := C17_exact H'.exact H'.batch H'.supp H'.reach H'.size H'.box H'.data hi'
  obtain ⟨_, com, cen, c1, c2, c3, c4, c5, c6⟩ := C19_size H.exact H.batch H.supp H.reach H.size H.box H.data hi
  obtain ⟨_, com', cen', c1', c2', c3', c4', c5', c6'⟩ := C19_size H'.exact H'.batch H'.supp H'.reach H'.size H'.box H'.data hi'
  have hr := (M.S.rng i hi).2.1
  have hr' := (M.S'.rng i' hi').2.1
  have hM : ∑ k ∈ Finset.Ico s'.tree[i'].beg s'.tree[i'].fin, x' d k = ∑ k ∈ Finset.Ico s.tree[i].beg s.tree[i].fin, x d k := by
    rw [← sum_range_map T.lt T.inj hr' hr C.mem (x d)]
    apply Finset.sum_congr rfl
    intro k hk
    rw [Finset.mem_Ico] at hk
    exact T.mass k (by omega)
  have hX : ∀ j < d, ∑ k ∈ Finset.Ico s'.tree[i'].beg s'.tree[i'].fin, x' d k * x' j k =
      ε j * ∑ k ∈ Finset.Ico s.tree[i].beg s.tree[i].fin, x d k * x (σ j) k := by
    intro j hj
    rw [← sum_range_map T.lt T.inj hr' hr C.mem (fun k => x d k * x (σ j) k), Finset.mul_sum]
    apply Finset.sum_congr rfl
    intro k hk
    rw [Finset.mem_Ico] at hk
    rw [T.mass k (by omega), T.pos k (by omega) j hj]
    ring
  have hinj : Function.Injective (List.map (Fl.fin (K := K))) := List.map_injective_iff.2 (fun a b h => by simpa using h)
  -- the centres of the cubes
  have hcen : ∀ j (hj : j < d), cen'[j] = ε j * cen[σ j]'(by have := T.slt j hj; omega) := by
    have p3 : s.tree[i].code = p.code d := p3
    have p2 : p.length ≤ cbits w d := p2
    have p3' : s'.tree[i'].code = p'.code d := p3'
    have p2' : p'.length ≤ cbits w d := p2'
    have hk' : s'.tree[i'].beg < s.n := by omega
    have hk := (C.mem _ hk').1 ⟨le_refl _, p5'⟩
    obtain ⟨c, a1, _, a3⟩ := nodeCentre_exact H.exact H.supp p1 p2 b
    obtain ⟨c', a1', _, a3'⟩ := nodeCentre_exact H'.exact H'.supp p1' p2' b
    have e := node_corner H.supp H.reach H.size H.box H.data p1 p2 (k := τ s'.tree[i'].beg) (by omega) ((p8 _ (by omega)).1 hk) a1
    have e' := node_corner H'.supp H'.reach H'.size H'.box H'.data p1' p2' (k := s'.tree[i'].beg) (by omega) ((p8' _ (by omega)).1 ⟨le_refl _, p5'⟩) a1'
    rw [p3, H.box, a3, Except.ok.injEq] at c4
    rw [p3', H'.box, a3', Except.ok.injEq] at c4'
    have q4 := hinj c4
    have q4' := hinj c4'
    have hl : p'.length = p.length := by rw [← p4', ← p4, C.level]
    intro j hj
    subst q4 q4'
    simp only [e, e', List.getElem_map, List.getElem_range]
    obtain ⟨b1, b2⟩ := T.cellDiv H H' (S := cbits w d - p.length) (by omega) hk' hj
    rw [show cbits w d - (cbits w d - p.length) = p.length by omega] at b1 b2
    rw [hl, b2]
    have hpw : (2 : K) ^ (cbits w d - p.length) / 2 ^ cbits w d = 1 / 2 ^ p.length := by
      rw [div_eq_div_iff (by positivity) (by positivity), ← pow_add, Nat.sub_add_cancel p2, one_mul]
    have hshift : ∀ q : Nat, ((q * 2 ^ (cbits w d - p.length) : Nat) : K) * (b / 2 ^ cbits w d) = q * b / 2 ^ p.length := by
      intro q
      push_cast
      rw [show (q : K) * 2 ^ (cbits w d - p.length) * (b / 2 ^ cbits w d) = q * b * (2 ^ (cbits w d - p.length) / 2 ^ cbits w d) by ring, hpw]
      ring
    rw [hshift, hshift]
    generalize cellOf A w d b (x (σ j) (τ s'.tree[i'].beg)) / 2 ^ (cbits w d - p.length) = a at b1
    by_cases hε : ε j = -1
    · rw [if_pos hε, hε]
      have : ((2 ^ p.length - 1 - a : Nat) : K) = 2 ^ p.length - 1 - a := by
        rw [Nat.cast_sub (by omega), Nat.cast_sub (Nat.one_le_two_pow)]
        push_cast
        ring
      rw [this]
      have h2 : (2 : K) ^ p.length ≠ 0 := by positivity
      field_simp
      ring
    · rw [if_neg hε, (T.sgn j hj).resolve_right hε, one_mul]
  -- the centres of mass
  have hcom : ∀ j (hj : j < d), com'[j] = ε j * com[σ j]'(by have := T.slt j hj; omega) := by
    by_cases h0 : ∑ k ∈ Finset.Ico s.tree[i].beg s.tree[i].fin, x d k = 0
    · have e1 := m3 h0
      have e2 := m3' (by rw [hM, h0])
      rw [c3, c4, Except.ok.injEq] at e1
      rw [c3', c4', Except.ok.injEq] at e2
      intro j hj
      have := hcen j hj
      simp only [← hinj e1, ← hinj e2]
      exact this
    · have e1 := m2 h0
      have e2 := m2' (by rw [hM]; exact h0)
      rw [c3] at e1
      rw [c3'] at e2
      intro j hj
      have hσ := T.slt j hj
      have f1 := congrArg (·[σ j]?) e1
      have f2 := congrArg (·[j]?) e2
      simp only [List.getElem?_map, List.getElem?_range hσ, Option.map_some] at f1
      simp only [List.getElem?_map, List.getElem?_range hj, Option.map_some] at f2
      rw [List.getElem?_eq_getElem (by omega), Option.map_some, Option.some.injEq, Fl.fin.injEq] at f1 f2
      rw [f1, f2, hM, hX j hj, mul_div_assoc]
  have hcx : ∀ {simd₀ : Option (Simd K)} {t : TS (rakauEnv A simd₀ mac w d)} {cm : List K} {i : Nat} (ht : i < t.props.length), t.props[i].com = cm.map .fin →
      ∀ j (hj : j < cm.length), t.cx i j = cm[j] := by
    intro simd₀ t cm i ht hc j hj
    unfold TS.cx
    rw [List.getElem?_eq_getElem ht, Option.map_some, Option.getD_some, hc, List.getD_eq_getElem?_getD,
      List.getElem?_eq_getElem (by simpa using hj), Option.getD_some, List.getElem_map]
    rfl
  refine ⟨?_, ?_, ?_⟩
  · unfold TS.cm
    rw [List.getElem?_eq_getElem hp, List.getElem?_eq_getElem hp', Option.map_some, Option.map_some, Option.getD_some, Option.getD_some, m1, m1', hM]
  · intro j hj
    have := T.slt j hj
    rw [hcx hp c3 (σ j) (by omega), hcx hp' c3' j (by omega)]
    exact hcom j hj
  · intro hg
    have d1 := (c6 hg).2
    have d2 := (c6' hg).2
    have hz : ∀ {u v : List K}, u.length = d → v.length = d → ((u.zip v).map (fun q => (q.1 - q.2) ^ 2)).sum =
        ∑ j ∈ Finset.range d, (u.getD j 0 - v.getD j 0) ^ 2 := by
      intro u v hu hv
      have : (u.zip v).map (fun q => (q.1 - q.2) ^ 2) = (List.range d).map (fun j => (u.getD j 0 - v.getD j 0) ^ 2) := by
        apply List.ext_getElem
        · simp [hu, hv]
        · intro j j1 j2
          have hj : j < d := by simpa using j2
          simp [List.getD, hu, hv, hj]
      rw [this]
      rfl
    have hsq : ((com'.zip cen').map (fun q => (q.1 - q.2) ^ 2)).sum = ((com.zip cen).map (fun q => (q.1 - q.2) ^ 2)).sum := by
      rw [hz c1 c2, hz c1' c2', ← sum_axes T.slt T.sinj (fun j => (com.getD j 0 - cen.getD j 0) ^ 2)]
      apply Finset.sum_congr rfl
      intro j hj
      rw [Finset.mem_range] at hj
      have := T.slt j hj
      have a1 := hcom j hj
      have a2 := hcen j hj
      simp only [List.getD, c1, c2, c1', c2', hj, this, a1, a2, List.getElem?_eq_getElem, Option.getD_some]
      rcases T.sgn j hj with h | h <;> rw [h] <;> ring
    rw [hsq] at d2
    unfold TS.cdelta
    rw [List.getElem?_eq_getElem hp, List.getElem?_eq_getElem hp', Option.map_some, Option.map_some, Option.getD_some, Option.getD_some, d1, d2]

/-- The bounds of the acceptance check, and the squared distances from the centres of mass. -/
theorem Turned.check (h0 : 0 < s.n) {i' i : Nat} (C : Corr s.n s'.tree s.tree τ i' i) :
    s'.bound b mv i' = s.bound b mv i ∧ ∀ k < s.n, s'.cdist2 (fun j => x' j k) i' = s.cdist2 (fun j => x j (τ k)) i := by
  obtain ⟨_, h2, h3⟩ := T.node H H' h0 C
  have hdim : s'.cdim b i' = s.cdim b i := by
    unfold TS.cdim
    rw [List.getElem?_eq_getElem C.hi, List.getElem?_eq_getElem C.hi', Option.map_some, Option.map_some, Option.getD_some, Option.getD_some, C.level]
  constructor
  · unfold TS.bound
    rw [hdim]
    cases mac with
    | bh => simp only [if_true]
    | bhGeom => simp only [reduceCtorEq, if_false]; rw [h3 rfl]
  · intro k hk
    unfold TS.cdist2
    exact D2_axes T.sgn T.slt T.sinj (T.pos k hk) h2

/-- The value of a visited node. -/
def nodeVal {A : Arith K} {simd : Option (Simd K)} {mac : Mac} {w d : Nat} (s : TS (rakauEnv A simd mac w d)) (M : Mode K) (e : K) (x : Nat → Nat → K)
    (t : Nat) (acc : Nat → Bool) (k m : Nat) : Val K :=
  s.visVal M e x k ⟨m, if h : m < s.tree.length then (specStep t acc m s.tree[m]).2 else none⟩

omit T H H' in
open Classical in
/-- The sum over the visits as a sum over the nodes. -/
theorem visits_sum (H : Sit s rsqrt over x b mv e) {cn : CNode} {acc : Nat → Bool} {t : Nat} (ht : t < s.tree.length) (t1 : s.tree[t].code = cn.code) (h0 : 0 < s.n) {vs : List Visit}
    (hv : travGo over w d s.tree cn.code acc s.tree.length 0 = some (.ok vs)) (M : Mode K) (k : Nat) :
    (vs.map (s.visVal M e x k)).sum = ∑ m ∈ (Finset.range s.tree.length).filter (fun m => Vis s.tree t acc 0 m), nodeVal s M e x t acc k m := by
  obtain ⟨c1, B, sp, hb⟩ := reach_build (rakauEnv_ok A simd mac H.supp) H.reach H.size h0
  have D := build_dfs B hb
  have := travGo_vis D (fun i hi => travStep_spec B hb H.small acc ht i hi) (by rw [t1]; exact hv)
  rw [this, List.map_map, Nat.sub_zero, ← List.range_eq_range']
  rfl

/-- The results: particle `k` of `s'` and particle `τ k` of `s`. -/
theorem Turned.value (hinv : InvSame ((⟨A, simd, rsqrt⟩ : Hw K).mode d) ((⟨A, simd', rsqrt'⟩ : Hw K).mode d))
    (hm : ∀ k < s.n, 0 ≤ x d k) (hsep : ∀ k l, k < s.n → l < s.n → k ≠ l → 0 < D2 d e (fun j => x j k) (fun j => x j l)) (Q : Quant) (g : K)
    {val val' : Nat → Res K}
    (hv : ∀ cn ∈ s.crit, (s.fc rsqrt over Q mv g e).node cn = .ok (Arr (cn.fin - cn.beg) (fun a => val (cn.beg + a))))
    (hv' : ∀ cn ∈ s'.crit, (s'.fc rsqrt' over Q mv g e).node cn = .ok (Arr (cn.fin - cn.beg) (fun a => val' (cn.beg + a))))
    {k : Nat} (hk : k < s.n) : ∃ v, val (τ k) = mkRes Q d v ∧ val' k = mkRes Q d (axv ε σ v) := by
  classical
  have h0 : 0 < s.n := by omega
  have MM := T.match H H' h0
  have hm' : ∀ k < s'.n, 0 ≤ x' d k := by
    intro k hk
    rw [T.n] at hk
    rw [T.mass k hk]
    exact hm _ (T.lt k hk)
  have hsep' : ∀ k l, k < s'.n → l < s'.n → k ≠ l → 0 < D2 d e (fun j => x' j k) (fun j => x' j l) := by
    intro k l hk hl hkl
    rw [T.n] at hk hl
    rw [D2_axes (y := fun j => x j (τ k)) (z := fun j => x j (τ l)) T.sgn T.slt T.sinj (T.pos k hk) (T.pos l hl)]
    exact hsep _ _ (T.lt k hk) (T.lt l hl) (fun h => hkl (T.inj k l hk hl h))
  obtain ⟨ht1, ht2⟩ := crit_tiling (rakauEnv_ok A simd mac H.supp) H.reach H.size
  obtain ⟨ht1', ht2'⟩ := crit_tiling (rakauEnv_ok A simd' mac H'.supp) H'.reach H'.size
  obtain ⟨c, ⟨hc, k1, k2⟩, _⟩ := ht2 (τ k) (T.lt k hk)
  have hcm := List.getElem_mem hc
  generalize s.crit[c] = cn at k1 k2 hcm
  obtain ⟨c', ⟨hc', k1', k2'⟩, _⟩ := ht2' k (by rw [T.n]; exact hk)
  have hcm' := List.getElem_mem hc'
  generalize s'.crit[c'] = cn' at k1' k2' hcm'
  obtain ⟨vs, w1, w2, w3, w4⟩ := C24_values H hsep Q g hcm
  obtain ⟨vs', w1', w2', w3', w4'⟩ := C24_values H' hsep' Q g hcm'
  obtain ⟨t, _, ht, t1, t2, t3, _⟩ := reach_visits (rakauEnv_ok A simd mac H.supp) H.reach H.size H.small (fun _ => false) hcm (by omega)
  obtain ⟨t', _, ht', t1', t2', t3', _⟩ := reach_visits (rakauEnv_ok A simd' mac H'.supp) H'.reach H'.size H'.small (fun _ => false) hcm' (by rw [T.n]; omega)
  have CT := T.crit H H' h0 hcm' hcm k1' k2' k1 k2 ht' ht t1' t2' t3' t1 t2 t3
  have hmem := CT.mem
  rw [t2, t3, t2', t3'] at hmem
  have hfn := (ht1 cn hcm).2
  have hfn' := (ht1' cn' hcm').2
  rw [T.n] at hfn'
  -- the same nodes are accepted
  have hacc : ∀ i' i, Corr s.n s'.tree s.tree τ i' i → (s'.fc rsqrt' over Q mv g e).accepts (cn'.fin - cn'.beg) ((s'.fc rsqrt' over Q mv g e).slot cn') i' =
      (s.fc rsqrt over Q mv g e).accepts (cn.fin - cn.beg) ((s.fc rsqrt over Q mv g e).slot cn) i := by
    intro i' i C
    obtain ⟨q1, q2⟩ := T.check H H' h0 C
    rw [Bool.eq_iff_iff, C24_acceptance H' hm' Q g hcm' C.hi', C24_acceptance H hm Q g hcm C.hi]
    constructor
    · intro h l l1 l2
      obtain ⟨l0, m0, rfl⟩ := surj_of T.lt T.inj (show l < s.n by omega)
      obtain ⟨n1, n2⟩ := (hmem l0 m0).2 ⟨l1, l2⟩
      have := h l0 n1 n2
      rw [q1, q2 l0 m0] at this
      exact this
    · intro h l l1 l2
      obtain ⟨n1, n2⟩ := (hmem l (by omega)).1 ⟨l1, l2⟩
      rw [q1, q2 l (by omega)]
      exact h _ n1 n2
  generalize hac : (s.fc rsqrt over Q mv g e).accepts (cn.fin - cn.beg) ((s.fc rsqrt over Q mv g e).slot cn) = acc at *
  generalize hac' : (s'.fc rsqrt' over Q mv g e).accepts (cn'.fin - cn'.beg) ((s'.fc rsqrt' over Q mv g e).slot cn') = acc' at *
  have w5 := hv cn hcm
  have w5' := hv' cn' hcm'
  rw [w4, Except.ok.injEq] at w5
  rw [w4', Except.ok.injEq] at w5'
  have w6 : (Arr (cn.fin - cn.beg) _)[τ k - cn.beg]? = (Arr (cn.fin - cn.beg) _)[τ k - cn.beg]? := congrArg (·[τ k - cn.beg]?) w5
  rw [arr_get (by omega), arr_get (by omega), Option.some.injEq, show cn.beg + (τ k - cn.beg) = τ k by omega] at w6
  have w6' : (Arr (cn'.fin - cn'.beg) _)[k - cn'.beg]? = (Arr (cn'.fin - cn'.beg) _)[k - cn'.beg]? := congrArg (·[k - cn'.beg]?) w5'
  rw [arr_get (by omega), arr_get (by omega), Option.some.injEq, show cn'.beg + (k - cn'.beg) = k by omega] at w6'
  refine ⟨_, w6.symm, ?_⟩
  rw [← w6', ← axv_smul]
  apply VEq.mkRes
  rw [axv_add]
  have hpull : ∀ l < s.n, VEq d (pull (s'.fc rsqrt' over Q mv g e).M d e x' k l)
      (axv ε σ (pull (s.fc rsqrt over Q mv g e).M d e x (τ k) (τ l))) := fun l hl =>
    grav_axes T.sgn T.slt T.sinj hinv (T.pos k hk) (T.pos l hl) (T.mass k hk) (T.mass l hl)
  apply VEq.add
  · rw [visits_sum H ht t1 h0 w1, visits_sum H' ht' t1' (by rw [T.n]; exact h0) w1']
    -- the nodes one by one
    have hterm : ∀ m' m, Corr s.n s'.tree s.tree τ m' m → VEq d (nodeVal s' (s'.fc rsqrt' over Q mv g e).M e x' t' acc' k m')
        (axv ε σ (nodeVal s (s.fc rsqrt over Q mv g e).M e x t acc (τ k) m)) := by
      intro m' m C
      unfold nodeVal
      rw [dif_pos C.hi, dif_pos C.hi']
      rcases MM.event CT hacc C with ⟨e1, e2⟩ | ⟨e1, e2⟩ | ⟨e1, e2⟩
      · rw [e1, e2]
        show VEq d 0 (axv ε σ 0)
        rw [axv_zero]
        exact VEq.rfl' _
      · rw [e1, e2]
        obtain ⟨n1, n2, _⟩ := T.node H H' h0 C
        exact grav_axes T.sgn T.slt T.sinj hinv (T.pos k hk) n2 (T.mass k hk) n1
      · rw [e1, e2]
        unfold TS.visVal
        simp only
        rw [Ev.particles_leaf C.hi, Ev.particles_leaf C.hi', ← axv_sum]
        have hp2 := map_range_perm T.lt T.inj (MM.S'.rng m' C.hi').2.1 (MM.S.rng m C.hi).2.1 C.mem
        rw [← (hp2.map (fun l => axv ε σ (pull (s.fc rsqrt over Q mv g e).M d e x (τ k) l))).sum_eq, List.map_map]
        apply VEq.sum
        intro l hl
        rw [List.mem_range'_1] at hl
        have := (MM.S'.rng m' C.hi').2.1
        exact hpull l (by omega)
    have hex : ∀ m' < s'.tree.length, ∃ m, Corr s.n s'.tree s.tree τ m' m := fun m' h => MM.left h
    choose! φ hφ using hex
    have h1 : VEq d (∑ m' ∈ (Finset.range s'.tree.length).filter (fun m => Vis s'.tree t' acc' 0 m), nodeVal s' (s'.fc rsqrt' over Q mv g e).M e x' t' acc' k m')
        (∑ m' ∈ (Finset.range s'.tree.length).filter (fun m => Vis s'.tree t' acc' 0 m), axv ε σ (nodeVal s (s.fc rsqrt over Q mv g e).M e x t acc (τ k) (φ m'))) := by
      apply VEq.finsum
      intro m' hm'
      rw [Finset.mem_filter, Finset.mem_range] at hm'
      exact hterm _ _ (hφ m' hm'.1)
    rw [← axv_finsum]
    have h2 : ∑ m' ∈ (Finset.range s'.tree.length).filter (fun m => Vis s'.tree t' acc' 0 m), axv ε σ (nodeVal s (s.fc rsqrt over Q mv g e).M e x t acc (τ k) (φ m')) =
        ∑ m ∈ (Finset.range s.tree.length).filter (fun m => Vis s.tree t acc 0 m), axv ε σ (nodeVal s (s.fc rsqrt over Q mv g e).M e x t acc (τ k) m) := by
      apply Finset.sum_bij (fun m' _ => φ m')
      · intro m' hm'
        rw [Finset.mem_filter, Finset.mem_range] at hm' ⊢
        exact ⟨(hφ m' hm'.1).hi, (MM.vis CT hacc (hφ m' hm'.1)).1 hm'.2⟩
      · intro a ha c hc hac
        rw [Finset.mem_filter, Finset.mem_range] at ha hc
        have := hφ a ha.1
        rw [hac] at this
        exact MM.inj_left this (hφ c hc.1)
      · intro m hm
        rw [Finset.mem_filter, Finset.mem_range] at hm
        obtain ⟨m', C⟩ := MM.right hm.1
        refine ⟨m', ?_, MM.inj_right (hφ m' C.hi') C⟩
        rw [Finset.mem_filter, Finset.mem_range]
        exact ⟨C.hi', (MM.vis CT hacc C).2 hm.2⟩
      · intro m' _
        rfl
    rw [← h2]
    exact h1
  · have hp3 := map_filter_perm T.lt T.inj hfn' hfn hmem hk
    rw [← axv_sum, ← (hp3.map (fun l => axv ε σ (pull (s.fc rsqrt over Q mv g e).M d e x (τ k) l))).sum_eq, List.map_map]
    apply VEq.sum
    intro l hl
    have := List.mem_range'_1.1 (List.mem_of_mem_filter hl)
    exact hpull l (by omega)

end Pair
end

end Rakau
