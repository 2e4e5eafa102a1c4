import Verif.Proof.Canon
import Mathlib.Data.List.Nodup

/-!
Property theorems on the built tree: C11 (depth-first tree), C12 (leaves), C13 (critical nodes), C14 (determinism),
C15 (input order), C44 (counters). `IsBuild g codes split r` says that `r` is a possible outcome of building the tree
for the sorted code array `codes`, with any task schedule and any sorting outcome.
-/
namespace Rakau
open Spec

/-- What the builder is given: a supported dimension and code width, sorted codes of `cbits*d` bits, and few enough
particles for 64-bit counters (`2^64 > n * cbits`; a particle occupies more than `cbits` bytes of memory). -/
structure BuildInput (g : Cfg) (codes : List Nat) : Prop where
  dim : 0 < g.d ∧ g.d < g.w ∧ g.w ≤ 64
  sorted : codes.Pairwise (· ≤ ·)
  bound : ∀ c ∈ codes, c < 2 ^ (cbits g.w g.d * g.d)
  size : codes.length * cbits g.w g.d < 2 ^ 64
  nonempty : codes ≠ []

theorem BuildInput.hyp {g : Cfg} {codes : List Nat} (h : BuildInput g codes) : Hyp g codes :=
  ⟨h.dim.1, h.dim.2.1, h.dim.2.2, h.sorted, h.bound⟩

theorem BuildInput.hsz {g : Cfg} {codes : List Nat} (h : BuildInput g codes) : codes.length * g.cb ≤ szMax := by
  have := h.size; unfold szMax Cfg.cb; omega

/-- Sample input used in the examples: a 2-dimensional tree with 32-bit codes, five particles (two of them
coincident), at most one particle per leaf. -/
def exCfg : Cfg := ⟨32, 2, 1, 2⟩
def exCodes : List Nat := [5, 5, 7, 2 ^ 28, 3 * 2 ^ 28 + 1]

theorem exInput : BuildInput exCfg exCodes where
  dim := by decide
  sorted := by decide
  bound := by decide
  size := by decide
  nonempty := by decide

variable {g : Cfg} {codes : List Nat}

theorem before_nodup {ps : List Path} (h : ps.Pairwise Path.Before) : ps.Nodup :=
  h.imp (fun {a b} hab => fun (e : a = b) => by subst e; exact before_irrefl _ hab)

/-- Position of the descendants of a node in the depth-first list. -/
theorem desc_positions {i : Nat} (hi : i < (allP g codes).length) :
    i + (desc g codes (allP g codes)[i]).length < (allP g codes).length ∧
    ∀ j (hj : j < (allP g codes).length), (i < j ∧ j ≤ i + (desc g codes (allP g codes)[i]).length) ↔
      (allP g codes)[j] ∈ desc g codes (allP g codes)[i] := by
  set q := (allP g codes)[i] with hq
  obtain ⟨pre, post, he⟩ := allP_split (q := q) (List.getElem_mem hi)
  have hnd := before_nodup (allP_sorted (g := g) (codes := codes))
  have hlen : (allP g codes).length = pre.length + 1 + (desc g codes q).length + post.length := by
    rw [he]; simp; omega
  have hip : i = pre.length := by
    have h1 : (allP g codes)[pre.length]'(by omega) = q := by
      simp only [he]
      rw [List.getElem_append_left (by simp), List.getElem_append_right (by simp)]
      simp
    exact (hnd.getElem_inj_iff).1 (hq.symm.trans h1.symm)
  refine ⟨by omega, fun j hj => ?_⟩
  constructor
  · rintro ⟨h1, h2⟩
    have : (allP g codes)[j] = (desc g codes q)[j - i - 1]'(by omega) := by
      simp only [he]
      rw [List.getElem_append_left (by simp; omega), List.getElem_append_right (by omega), List.getElem_cons]
      rw [dif_neg (by omega)]
      congr 1
      omega
    rw [this]; exact List.getElem_mem _
  · intro h
    obtain ⟨m, hm, he2⟩ := List.getElem_of_mem h
    have : (allP g codes)[i + 1 + m]'(by omega) = (desc g codes q)[m] := by
      simp only [he]
      rw [List.getElem_append_left (by simp; omega), List.getElem_append_right (by omega), List.getElem_cons]
      rw [dif_neg (by omega)]
      congr 1
      omega
    have := (hnd.getElem_inj_iff).1 (this.trans he2)
    omega

/-- C11: the node list is the depth-first list of the specified nodes. The root comes first; `ps` are the paths.
Each node has the code and level of its path, its particle range consists of the particles whose code starts with the
path, and the `n_children` nodes right after it are exactly its proper descendants. -/
theorem C11_depth_first (I : BuildInput g codes) {split : Nat} {tree : List Node} {crit : List CNode}
    (h : IsBuild g codes split (.ok (tree, crit))) :
    ∃ (ps : List Path) (hlen : ps.length = tree.length),
      ps.head? = some [] ∧ ps.Pairwise Path.Before ∧
      (∀ p, p ∈ ps ↔ IsNode g.d (cbits g.w g.d) g.maxLeaf codes p) ∧
      ∀ i (hi : i < tree.length),
        tree[i].code = Path.code g.d ps[i] ∧ tree[i].level = ps[i].length ∧
        tree[i].beg < tree[i].fin ∧ tree[i].fin ≤ codes.length ∧
        (∀ k (hk : k < codes.length), (tree[i].beg ≤ k ∧ k < tree[i].fin) ↔ InNode g.d (cbits g.w g.d) ps[i] codes[k]) ∧
        i + tree[i].nChildren < tree.length ∧
        ∀ j (hj : j < tree.length),
          (i < j ∧ j ≤ i + tree[i].nChildren) ↔ (ps[i] <+: ps[j] ∧ ps[i] ≠ ps[j]) := by
  have H := I.hyp
  have he := isBuild_eq H I.hsz split I.nonempty h
  simp only [Except.ok.injEq, Prod.mk.injEq] at he
  obtain ⟨rfl, rfl⟩ := he
  refine ⟨allP g codes, by simp, rfl, allP_sorted, fun p => mem_allP I.nonempty, ?_⟩
  intro i hi
  have hi' : i < (allP g codes).length := by simpa using hi
  have hnode := (mem_allP I.nonempty).1 (List.getElem_mem hi')
  have hok := isNode_ok hnode
  have hcnt := count_eq H.hd H.bound hok hnode.1
  have hpos := hnode.2.1
  obtain ⟨d1, d2⟩ := desc_positions hi'
  simp only [List.getElem_map, nodeOf, List.length_map]
  refine ⟨trivial, trivial, by omega, hi_le_length _ _ _ _, ?_, d1, ?_⟩
  · intro k hk
    exact mem_range_iff H.hd H.sorted H.bound hok hnode.1 k hk
  · intro j hj
    rw [d2 j hj, mem_desc hnode.1]
    have := (mem_allP I.nonempty).1 (List.getElem_mem hj)
    exact ⟨fun h => h.1, fun h => ⟨h, this⟩⟩

example : BuildInput exCfg exCodes ∧ IsNode exCfg.d (cbits exCfg.w exCfg.d) exCfg.maxLeaf exCodes [0, 0] ∧
    ¬ IsNode exCfg.d (cbits exCfg.w exCfg.d) exCfg.maxLeaf exCodes [1, 0] :=
  ⟨exInput, by decide, by decide⟩

/-- Paths of the nodes from the specification in `C11_depth_first`: a node has a child on each non-empty branch. -/
theorem child_isNode {cb maxLeaf d : Nat} {p : Path} {c : Nat} (hp : p.length < cb) (hm : maxLeaf < count d cb codes p)
    (hc : c ∈ codes) (hin : InNode d cb p c) :
    ∃ i, IsNode d cb maxLeaf codes (p ++ [i]) ∧ InNode d cb (p ++ [i]) c := by
  obtain ⟨t, ht⟩ := hin
  have hl := digits_length d cb c
  rw [← ht] at hl
  cases t with
  | nil => simp at hl; omega
  | cons i t =>
    have hin2 : InNode d cb (p ++ [i]) c := ⟨t, by rw [← ht]; simp⟩
    refine ⟨i, ⟨by simp; omega, ?_, fun _ => by simpa using hm⟩, hin2⟩
    exact List.countP_pos_iff.2 ⟨c, hc, by simpa using hin2⟩

/-- C11: the direct children of an internal node (the nodes of its subtree one level deeper) have codes
`parent*2^d + c`, lie inside its range, follow one another by increasing code without overlap, and every particle of
the node is in exactly one of them. -/
theorem C11_children (I : BuildInput g codes) {split : Nat} {tree : List Node} {crit : List CNode}
    (h : IsBuild g codes split (.ok (tree, crit))) (i : Nat) (hi : i < tree.length) :
    let Child := fun j => ∃ hj : j < tree.length, i < j ∧ j ≤ i + tree[i].nChildren ∧ tree[j].level = tree[i].level + 1
    (∀ j (hj : j < tree.length), Child j →
      (∃ c < 2 ^ g.d, tree[j].code = tree[i].code * 2 ^ g.d + c) ∧ tree[i].beg ≤ tree[j].beg ∧ tree[j].fin ≤ tree[i].fin) ∧
    (∀ j j' (hj : j < tree.length) (hj' : j' < tree.length), Child j → Child j' → j < j' →
      tree[j].code < tree[j'].code ∧ tree[j].fin ≤ tree[j'].beg) ∧
    (tree[i].nChildren ≠ 0 → ∀ k, tree[i].beg ≤ k → k < tree[i].fin →
      ∃! j, Child j ∧ ∃ hj : j < tree.length, tree[j].beg ≤ k ∧ k < tree[j].fin) := by
  intro Child
  obtain ⟨ps, hlen, -, hsort, hmem, hall⟩ := C11_depth_first I h
  obtain ⟨ci, li, ri, ri2, mi, si, di⟩ := hall i hi
  have hchild : ∀ j (hj : j < tree.length), Child j → ∃ c < 2 ^ g.d, ps[j] = ps[i] ++ [c] := by
    rintro j hj ⟨_, h1, h2, h3⟩
    obtain ⟨cj, lj, _⟩ := hall j hj
    obtain ⟨⟨s, hs⟩, _⟩ := (di j hj).1 ⟨h1, h2⟩
    have hsl : s.length = 1 := by
      have := congrArg List.length hs
      rw [List.length_append] at this; omega
    obtain ⟨c, rfl⟩ := List.length_eq_one_iff.1 hsl
    have : Path.Ok g.d ps[j] := isNode_ok (g := g) (codes := codes) ((hmem _).1 (List.getElem_mem _))
    rw [← hs, ok_snoc] at this
    exact ⟨c, this.2, hs.symm⟩
  have hsub : ∀ j (hj : j < tree.length), Child j → tree[i].beg ≤ tree[j].beg ∧ tree[j].fin ≤ tree[i].fin := by
    intro j hj hc
    obtain ⟨cj, lj, rj, rj2, mj, _⟩ := hall j hj
    obtain ⟨c, hc, he⟩ := hchild j hj hc
    have key : ∀ k (hk : k < codes.length), tree[j].beg ≤ k → k < tree[j].fin → tree[i].beg ≤ k ∧ k < tree[i].fin := by
      intro k hk h1 h2
      rw [mi k hk]
      have := (mj k hk).1 ⟨h1, h2⟩
      rw [he] at this
      exact (List.prefix_append _ _).trans this
    have k1 := key tree[j].beg (by omega) le_rfl rj
    have k2 := key (tree[j].fin - 1) (by omega) (by omega) (by omega)
    omega
  refine ⟨fun j hj hc => ⟨?_, hsub j hj hc⟩, ?_, ?_⟩
  · obtain ⟨c, hc, he⟩ := hchild j hj hc
    refine ⟨c, hc, ?_⟩
    rw [(hall j hj).1, ci, he]
    simp [Path.code]
  · intro j j' hj hj' hc hc' hlt
    obtain ⟨c, hcl, he⟩ := hchild j hj hc
    obtain ⟨c', hcl', he'⟩ := hchild j' hj' hc'
    have hb : Path.Before ps[j] ps[j'] := List.pairwise_iff_getElem.1 hsort j j' _ _ hlt
    have hcc : c < c' := by
      rcases Nat.lt_trichotomy c c' with h | h | h
      · exact h
      · rw [he, he', h] at hb; exact absurd hb (before_irrefl _)
      · have h' := before_sib (p := ps[i]) (s := []) (t := []) h
        rw [he, he'] at hb
        exact absurd hb (before_asymm h')
    obtain ⟨cj, lj, rj, rj2, mj, _⟩ := hall j hj
    obtain ⟨cj', lj', rj', rj2', mj', _⟩ := hall j' hj'
    constructor
    · rw [cj, cj', he, he']
      simp [Path.code]; exact hcc
    · by_contra hov
      rw [not_le] at hov
      -- the first particle of j' precedes the last one of j: codes are sorted, so prefixes are ordered the other way
      have H := I.hyp
      have k1 := (mj (tree[j].fin - 1) (by omega)).1 ⟨by omega, by omega⟩
      have k2 := (mj' tree[j'].beg (by omega)).1 ⟨le_rfl, rj'⟩
      have hle : codes[tree[j'].beg] ≤ codes[tree[j].fin - 1] := by
        rcases Nat.lt_or_ge tree[j'].beg (tree[j].fin - 1) with h | h
        · exact List.pairwise_iff_getElem.1 I.sorted _ _ _ _ h
        · have : tree[j'].beg = tree[j].fin - 1 := by omega
          simp [this]
      have n1 := (hmem _).1 (List.getElem_mem (by omega : j < ps.length))
      have n2 := (hmem _).1 (List.getElem_mem (by omega : j' < ps.length))
      rw [inNode_iff H.hd (isNode_ok (g := g) (codes := codes) n1) n1.1 (I.bound _ (List.getElem_mem _))] at k1
      rw [inNode_iff H.hd (isNode_ok (g := g) (codes := codes) n2) n2.1 (I.bound _ (List.getElem_mem _))] at k2
      have hl1 : ps[j].length = ps[j'].length := by rw [he, he']; simp
      rw [hl1] at k1
      have := Nat.div_le_div_right (c := 2 ^ ((cbits g.w g.d - ps[j'].length) * g.d)) hle
      rw [k1, k2, he, he', pv_snoc, pv_snoc] at this
      omega
  · intro hnc k hk1 hk2
    have hkl : k < codes.length := by omega
    have hin := (mi k hkl).1 ⟨hk1, hk2⟩
    have ni := (hmem _).1 (List.getElem_mem (by omega : i < ps.length))
    -- a node with a descendant has more than maxLeaf particles and is not at the deepest level
    obtain ⟨hpre, hne⟩ := (di (i + 1) (by omega)).1 ⟨by omega, by omega⟩
    have n1 := (hmem _).1 (List.getElem_mem (by omega : i + 1 < ps.length))
    have hlt : ps[i].length < ps[i + 1].length := by
      rcases Nat.lt_or_ge ps[i].length ps[i + 1].length with h | h
      · exact h
      · exact absurd (hpre.eq_of_length (le_antisymm hpre.length_le h)) hne
    have hm : g.maxLeaf < count g.d (cbits g.w g.d) codes ps[i] := by
      have h1 := n1.2.2 (by intro h; rw [h] at hlt; simp at hlt)
      have h2 : ps[i] <+: ps[i + 1].dropLast :=
        List.prefix_of_prefix_length_le hpre (List.dropLast_prefix _) (by rw [List.length_dropLast]; omega)
      exact lt_of_lt_of_le h1 (count_anti h2)
    obtain ⟨c, hcn, hcin⟩ := child_isNode (lt_of_lt_of_le hlt n1.1) hm (List.getElem_mem hkl) hin
    obtain ⟨j, hj, hej⟩ := List.getElem_of_mem ((hmem _).2 hcn)
    have hj' : j < tree.length := by omega
    have hpj : ps[i] <+: ps[j] ∧ ps[i] ≠ ps[j] := by rw [hej]; exact ⟨List.prefix_append _ _, by simp⟩
    have hij := (di j hj').2 hpj
    obtain ⟨cj, lj, rj, rj2, mj, _⟩ := hall j hj'
    refine ⟨j, ⟨⟨hj', hij.1, hij.2, by rw [lj, hej, li]; simp⟩, hj', (mj k hkl).2 (by rw [hej]; exact hcin)⟩, ?_⟩
    rintro j2 ⟨hc2, hj2, hr⟩
    obtain ⟨c2, _, he2⟩ := hchild j2 hj2 hc2
    have hin2 := ((hall j2 hj2).2.2.2.2.1 k hkl).1 hr
    rw [he2] at hin2
    have : ps[i] ++ [c2] = ps[i] ++ [c] :=
      (List.prefix_of_prefix_length_le hin2 hcin (by simp)).eq_of_length (by simp)
    have hnd := before_nodup hsort
    exact (hnd.getElem_inj_iff (hi := by omega) (hj := by omega)).1 (by rw [he2, hej, this])

/-- C12: a node is a leaf exactly when it holds at most `max_leaf_n` particles or sits at the deepest level. -/
theorem C12_leaf_iff (I : BuildInput g codes) {split : Nat} {tree : List Node} {crit : List CNode}
    (h : IsBuild g codes split (.ok (tree, crit))) (i : Nat) (hi : i < tree.length) :
    tree[i].nChildren = 0 ↔ (tree[i].fin - tree[i].beg ≤ g.maxLeaf ∨ tree[i].level = cbits g.w g.d) := by
  have H := I.hyp
  have he := isBuild_eq H I.hsz split I.nonempty h
  simp only [Except.ok.injEq, Prod.mk.injEq] at he
  obtain ⟨rfl, rfl⟩ := he
  have hi' : i < (allP g codes).length := by simpa using hi
  have hnode := (mem_allP I.nonempty).1 (List.getElem_mem hi')
  set p := (allP g codes)[i] with hp
  have hcnt := count_eq H.hd H.bound (isNode_ok hnode) hnode.1
  simp only [List.getElem_map, nodeOf, ← hp, ← hcnt]
  rw [List.length_eq_zero_iff]
  constructor
  · intro hd
    by_contra hc
    rw [not_or, not_le] at hc
    obtain ⟨c, hcm, hin⟩ := List.countP_pos_iff.1 hnode.2.1
    have hlt : p.length < g.cb := lt_of_le_of_ne hnode.1 hc.2
    obtain ⟨j, hj, _⟩ := child_isNode hlt hc.1 hcm (by simpa using hin)
    have : p ++ [j] ∈ desc g codes p := (mem_desc hnode.1).2 ⟨⟨List.prefix_append _ _, by simp⟩, hj⟩
    rw [hd] at this
    simp at this
  · rintro (h | h)
    · unfold desc; rw [if_neg (not_lt.2 h)]
    · unfold desc
      have : g.cb - p.length = 0 := by rw [h]; exact Nat.sub_self _
      rw [this]; simp [kidsP]

example : (∃ tree crit, IsBuild exCfg exCodes 40000 (.ok (tree, crit)) ∧ tree.length = 19) ∧
    count 2 15 exCodes (List.replicate 13 0 ++ [1, 1]) = 2 := by
  refine ⟨?_, by decide⟩
  obtain ⟨r, hr⟩ := exists_isBuild exInput.hyp exInput.hsz 40000
  have := isBuild_eq exInput.hyp exInput.hsz 40000 exInput.nonempty hr
  subst this
  exact ⟨_, _, hr, by rw [List.length_map]; decide +kernel⟩

/-- C12: every particle is in exactly one leaf. -/
theorem C12_one_leaf (I : BuildInput g codes) {split : Nat} {tree : List Node} {crit : List CNode}
    (h : IsBuild g codes split (.ok (tree, crit))) (k : Nat) (hk : k < codes.length) :
    ∃! i, ∃ hi : i < tree.length, tree[i].nChildren = 0 ∧ tree[i].beg ≤ k ∧ k < tree[i].fin := by
  obtain ⟨ps, hlen, hroot, hsort, hmem, hall⟩ := C11_depth_first I h
  -- descend: from any node containing k there is a leaf containing k
  have hdown : ∀ m i (hi : i < tree.length), tree.length - i ≤ m → tree[i].beg ≤ k → k < tree[i].fin →
      ∃ j, ∃ hj : j < tree.length, tree[j].nChildren = 0 ∧ tree[j].beg ≤ k ∧ k < tree[j].fin := by
    intro m
    induction m with
    | zero => intro i hi h; omega
    | succ m ih =>
      intro i hi hm h1 h2
      by_cases hnc : tree[i].nChildren = 0
      · exact ⟨i, hi, hnc, h1, h2⟩
      · obtain ⟨j, ⟨⟨_, hlt, _, _⟩, hj, h3, h4⟩, _⟩ := (C11_children I h i hi).2.2 hnc k h1 h2
        exact ih j hj (by omega) h3 h4
  have h0 : 0 < tree.length := by
    rw [← hlen]
    cases ps with
    | nil => simp at hroot
    | cons => simp
  have hps0 : ps[0]'(by omega) = [] := by
    cases ps with
    | nil => simp at hroot
    | cons => simpa using hroot
  have hin0 := ((hall 0 h0).2.2.2.2.1 k hk).2 (by rw [hps0]; exact List.nil_prefix)
  obtain ⟨j, hj, hleaf, hr⟩ := hdown _ 0 h0 le_rfl hin0.1 hin0.2
  refine ⟨j, ⟨hj, hleaf, hr⟩, ?_⟩
  rintro i ⟨hi, hleaf', hr'⟩
  -- two leaves with a common particle have comparable paths
  have hp1 := ((hall j hj).2.2.2.2.1 k hk).1 hr
  have hp2 := ((hall i hi).2.2.2.2.1 k hk).1 hr'
  have hnd := before_nodup hsort
  by_contra hne
  have hpne : ps[i] ≠ ps[j] := fun he => hne (hnd.getElem_inj_iff.1 he)
  rcases Nat.le_total ps[i].length ps[j].length with hl | hl
  · have := ((hall i hi).2.2.2.2.2.2 j hj).2 ⟨List.prefix_of_prefix_length_le hp2 hp1 hl, hpne⟩
    omega
  · have := ((hall j hj).2.2.2.2.2.2 i hi).2 ⟨List.prefix_of_prefix_length_le hp1 hp2 hl, hpne.symm⟩
    omega

example : ∃ tree crit, IsBuild exCfg exCodes 2 (.ok (tree, crit)) ∧ 1 < exCodes.length := by
  obtain ⟨r, hr⟩ := exists_isBuild exInput.hyp exInput.hsz 2
  have := isBuild_eq exInput.hyp exInput.hsz 2 exInput.nonempty hr
  subst this
  exact ⟨_, _, hr, by decide⟩

/-- C13: the critical nodes are exactly the topmost nodes of critical size (at most `ncrit` or `max_leaf_n` particles,
or at the deepest level); each has the code of its path and holds the particles of that path, and each is a node of
the tree. -/
theorem C13_critical_nodes (I : BuildInput g codes) {split : Nat} {tree : List Node} {crit : List CNode}
    (h : IsBuild g codes split (.ok (tree, crit))) :
    ∃ (ps : List Path) (hlen : ps.length = crit.length),
      (∀ p, p ∈ ps ↔ IsCritNode g.d (cbits g.w g.d) g.maxLeaf g.ncrit codes p) ∧
      (∀ i (hi : i < crit.length), crit[i].code = Path.code g.d ps[i] ∧
        (∀ k (hk : k < codes.length), (crit[i].beg ≤ k ∧ k < crit[i].fin) ↔ InNode g.d (cbits g.w g.d) ps[i] codes[k]) ∧
        ∃ n ∈ tree, n.code = crit[i].code ∧ n.beg = crit[i].beg ∧ n.fin = crit[i].fin ∧
          (crit[i].fin - crit[i].beg ≤ max g.ncrit g.maxLeaf ∨ n.level = cbits g.w g.d)) ∧
      (∀ i j (hi : i < crit.length) (hj : j < crit.length), i ≠ j → ¬ ps[i] <+: ps[j]) := by
  have H := I.hyp
  have he := isBuild_eq H I.hsz split I.nonempty h
  simp only [Except.ok.injEq, Prod.mk.injEq] at he
  obtain ⟨rfl, rfl⟩ := he
  have hnd : (critAll g codes).Nodup :=
    (tiles_sorted (critAll_tiles H I.nonempty)).imp (fun {a b} hab => fun (e : a = b) => by subst e; omega)
  refine ⟨critAll g codes, by simp, fun p => mem_critAll H I.nonempty, ?_, ?_⟩
  · intro i hi
    have hi' : i < (critAll g codes).length := by simpa using hi
    have hc := (mem_critAll H I.nonempty).1 (List.getElem_mem hi')
    set p := (critAll g codes)[i] with hp
    have hok := isNode_ok hc.1
    have hcnt := count_eq H.hd H.bound hok hc.1.1
    simp only [List.getElem_map, ← hp, cnodeOf]
    refine ⟨trivial, fun k hk => mem_range_iff H.hd H.sorted H.bound hok hc.1.1 k hk, nodeOf g codes p,
      List.mem_map.2 ⟨p, (mem_allP I.nonempty).2 hc.1, rfl⟩, rfl, rfl, rfl, ?_⟩
    rw [← hcnt]
    rcases hc.2.1 with h | h | h
    · left; exact le_trans h (le_max_left _ _)
    · left; exact le_trans h (le_max_right _ _)
    · right; exact h
  · intro i j hi hj hne hpre
    have hi' : i < (critAll g codes).length := by simpa using hi
    have hj' : j < (critAll g codes).length := by simpa using hj
    have c1 := (mem_critAll H I.nonempty).1 (List.getElem_mem hi')
    have c2 := (mem_critAll H I.nonempty).1 (List.getElem_mem hj')
    exact c2.2.2 _ hpre (fun e => hne (hnd.getElem_inj_iff.1 e)) c1.2.1

/-- C13: the critical nodes, in list order, tile the particle range: the first starts at 0, each starts where the
previous one ends, the last ends at `n`, and none is empty. So every particle is in exactly one. -/
theorem C13_tiling (I : BuildInput g codes) {split : Nat} {tree : List Node} {crit : List CNode}
    (h : IsBuild g codes split (.ok (tree, crit))) :
    0 < crit.length ∧
    (∀ (h0 : 0 < crit.length), crit[0].beg = 0 ∧ crit[crit.length - 1].fin = codes.length) ∧
    (∀ i (hi : i < crit.length), crit[i].beg < crit[i].fin) ∧
    (∀ i (hi : i + 1 < crit.length), crit[i].fin = crit[i + 1].beg) ∧
    ∀ k < codes.length, ∃! i, ∃ hi : i < crit.length, crit[i].beg ≤ k ∧ k < crit[i].fin := by
  have H := I.hyp
  have he := isBuild_eq H I.hsz split I.nonempty h
  simp only [Except.ok.injEq, Prod.mk.injEq] at he
  obtain ⟨rfl, rfl⟩ := he
  have ht := critAll_tiles H I.nonempty
  have hn := List.length_pos_iff.2 I.nonempty
  have key : ∀ (l : List Path) (a b : Nat), Tiles g codes a b l →
      (∀ (h0 : 0 < l.length), lo g.d g.cb codes l[0] = a ∧ Rakau.hi g.d g.cb codes l[l.length - 1] = b) ∧
      (l = [] → a = b) ∧ a ≤ b ∧
      (∀ i (hi : i < l.length), lo g.d g.cb codes l[i] < Rakau.hi g.d g.cb codes l[i]) ∧
      (∀ i (hi : i + 1 < l.length), Rakau.hi g.d g.cb codes l[i] = lo g.d g.cb codes l[i + 1]) ∧
      ∀ k, a ≤ k → k < b → ∃! i, ∃ hi : i < l.length, lo g.d g.cb codes l[i] ≤ k ∧ k < Rakau.hi g.d g.cb codes l[i] := by
    intro l
    induction l with
    | nil =>
      intro a b h
      simp only [Tiles] at h
      subst h
      exact ⟨fun h => by simp at h, fun _ => rfl, le_rfl, fun i hi => by simp at hi, fun i hi => by simp at hi,
        fun k h1 h2 => by omega⟩
    | cons p l ih =>
      rintro a b ⟨h1, h2, h3⟩
      obtain ⟨i1, i2, i3, i4, i5, i6⟩ := ih _ _ h3
      refine ⟨fun _ => ⟨h1, ?_⟩, by simp, by omega, ?_, ?_, ?_⟩
      · cases l with
        | nil => simpa using i2 rfl
        | cons q l => simpa using (i1 (by simp)).2
      · intro i hi
        cases i with
        | zero => simp; omega
        | succ i => simpa using i4 i (by simpa using hi)
      · intro i hi
        cases i with
        | zero =>
          have : 0 < l.length := by simpa using hi
          simpa using (i1 this).1.symm
        | succ i => simpa using i5 i (by simpa using hi)
      · intro k hk1 hk2
        have hlow := tiles_lower h3
        by_cases hk : k < Rakau.hi g.d g.cb codes p
        · refine ⟨0, ⟨by simp, by simpa using ⟨by omega, hk⟩⟩, ?_⟩
          rintro i ⟨hi, h4, h5⟩
          cases i with
          | zero => rfl
          | succ i =>
            have := hlow (l[i]'(by simpa using hi)) (List.getElem_mem _)
            simp at h4; omega
        · obtain ⟨i, ⟨hi, h4⟩, hu⟩ := i6 k (by omega) hk2
          refine ⟨i + 1, ⟨by simpa using hi, by simpa using h4⟩, ?_⟩
          rintro j ⟨hj, h5, h6⟩
          cases j with
          | zero => simp at h6; omega
          | succ j => rw [hu j ⟨by simpa using hj, by simpa using h5, by simpa using h6⟩]
  obtain ⟨k1, k2, _, k4, k5, k6⟩ := key _ _ _ ht
  have hpos : 0 < (critAll g codes).length := by
    rw [List.length_pos_iff]; intro h0; have := k2 h0; omega
  refine ⟨by simpa using hpos, fun _ => ?_, ?_, ?_, ?_⟩
  · have := k1 hpos
    simpa [cnodeOf] using this
  · intro i hi
    simpa [cnodeOf] using k4 i (by simpa using hi)
  · intro i hi
    simpa [cnodeOf] using k5 i (by simpa using hi)
  · intro k hk
    simpa [cnodeOf] using k6 k (Nat.zero_le _) hk

example : ∃ tree crit, IsBuild exCfg exCodes 40000 (.ok (tree, crit)) ∧ crit.length = 4 := by
  obtain ⟨r, hr⟩ := exists_isBuild exInput.hyp exInput.hsz 40000
  have := isBuild_eq exInput.hyp exInput.hsz 40000 exInput.nonempty hr
  subst this
  exact ⟨_, _, hr, by rw [List.length_map]; decide +kernel⟩

/-- C14: the result does not depend on the schedule, on sorting outcomes, or on the parallel/serial cut-off: any two
outcomes, even for different cut-offs, are equal. -/
theorem C14_deterministic (I : BuildInput g codes) {s1 s2 : Nat} {r1 r2 : Except Err (List Node × List CNode)}
    (h1 : IsBuild g codes s1 r1) (h2 : IsBuild g codes s2 r2) : r1 = r2 :=
  (isBuild_eq I.hyp I.hsz s1 I.nonempty h1).trans (isBuild_eq I.hyp I.hsz s2 I.nonempty h2).symm

/-- C14: the common outcome is that of the purely serial builder run from the root. -/
theorem C14_equals_serial (I : BuildInput g codes) {s : Nat} {tree : List Node} {crit : List CNode}
    (h : IsBuild g codes s (.ok (tree, crit))) (hm : g.maxLeaf < codes.length) :
    ∃ cc, buildSer g codes (cbits g.w g.d) 1 0 codes.length (rootCrit g codes)
      ⟨[], if rootCrit g codes then [⟨1, 0, codes.length⟩] else []⟩ = .ok (⟨tree.tail, crit⟩, cc) ∧
      tree.head? = some ⟨0, codes.length, cc, 1, 0⟩ := by
  have H := I.hyp
  have he := isBuild_eq H I.hsz s I.nonempty h
  simp only [Except.ok.injEq, Prod.mk.injEq] at he
  obtain ⟨rfl, rfl⟩ := he
  obtain ⟨hr1, hr2, hr3⟩ := root_lo_hi H
  have hm' : g.maxLeaf < g.cnt codes [] := by rw [Cfg.cnt, count_nil]; exact hm
  have hdesc : desc g codes [] = kidsP g codes g.cb [] := by unfold desc; rw [if_pos hm']; simp
  have := buildSer_eq H I.hsz g.cb (ok_nil g.d) (by simp) (rootCrit g codes)
    ⟨[], if rootCrit g codes then [⟨1, 0, codes.length⟩] else []⟩
  rw [hr1, hr2, hr3] at this
  refine ⟨(kidsP g codes g.cb []).length, this.trans ?_, ?_⟩
  · congr 3
    · simp [allP, hdesc]
    · unfold critAll
      by_cases hrc : rootCrit g codes = true
      · simp [hrc, critP_true, cnodeOf, hr1, hr2, hr3]
      · rw [Bool.not_eq_true] at hrc; simp [hrc]
  · simp [allP, hdesc, nodeOf, hr1, hr2, hr3]

example : BuildInput exCfg exCodes ∧ (∃ r, IsBuild exCfg exCodes 3 r) ∧ (∃ r, IsBuild exCfg exCodes 40000 r) ∧
    exCfg.maxLeaf < exCodes.length :=
  ⟨exInput, exists_isBuild exInput.hyp exInput.hsz 3, exists_isBuild exInput.hyp exInput.hsz 40000, by decide⟩

/-- C15: two inputs that are permutations of each other give the same sorted codes, nodes and critical nodes, whatever
the sorts and the schedules did. -/
theorem C15_input_order {raw1 raw2 c1 c2 : List Nat} (hp : raw1.Perm raw2)
    (s1 : IsSortOf (fun a b => decide (a < b)) raw1 c1) (s2 : IsSortOf (fun a b => decide (a < b)) raw2 c2)
    (I : BuildInput g c1) {sp1 sp2 : Nat} {r1 r2 : Except Err (List Node × List CNode)}
    (h1 : IsBuild g c1 sp1 r1) (h2 : IsBuild g c2 sp2 r2) : c1 = c2 ∧ r1 = r2 := by
  have hc : c1 = c2 := by
    have hperm : c1.Perm c2 := s1.1.trans (hp.trans s2.1.symm)
    have h1 : c1.Pairwise (· ≤ ·) := s1.2.imp (by simp)
    have h2 : c2.Pairwise (· ≤ ·) := s2.2.imp (by simp)
    exact List.Perm.eq_of_pairwise (fun a b _ _ h1 h2 => le_antisymm h1 h2) h1 h2 hperm
  subst hc
  exact ⟨rfl, C14_deterministic I h1 h2⟩

example : [7, 5, 3 * 2 ^ 28 + 1, 5, 2 ^ 28].Perm [2 ^ 28, 5, 5, 3 * 2 ^ 28 + 1, 7] ∧
    IsSortOf (fun a b => decide (a < b)) [7, 5, 3 * 2 ^ 28 + 1, 5, 2 ^ 28] exCodes ∧ BuildInput exCfg exCodes :=
  ⟨by decide, ⟨by decide, by decide⟩, exInput⟩

/-- C44: building never overflows a counter and never executes an undefined shift: the only outcome is a normal
return, and the number of nodes is at most `1 + n * cbits`, the number of critical nodes at most `n`. The comparisons
made by the sorts are all defined. -/
theorem C44_no_overflow (I : BuildInput g codes) {split : Nat} {r : Except Err (List Node × List CNode)}
    (h : IsBuild g codes split r) :
    ∃ tree crit, r = .ok (tree, crit) ∧ tree.length ≤ 1 + codes.length * cbits g.w g.d ∧ crit.length ≤ codes.length ∧
      ∀ a ∈ tree, ∀ b ∈ tree, nodeCompare g.w g.d a.code b.code ≠ none := by
  have H := I.hyp
  have he := isBuild_eq H I.hsz split I.nonempty h
  refine ⟨_, _, he, ?_, ?_, ?_⟩
  · have := desc_length_le H (ok_nil g.d) (by simp)
    rw [Cfg.cnt, count_nil] at this
    simp only [List.length_nil, Nat.sub_zero] at this
    simp only [allP, List.map_cons, List.length_cons, List.length_map]
    unfold Cfg.cb at this
    omega
  · rw [List.length_map]
    have key : ∀ (l : List Path) (a b : Nat), Tiles g codes a b l → l.length + a ≤ b := by
      intro l
      induction l with
      | nil => intro a b h; simp only [Tiles] at h; simp; omega
      | cons p l ih =>
        rintro a b ⟨h1, h2, h3⟩
        have := ih _ _ h3
        simp only [List.length_cons]; omega
    exact key _ _ _ (critAll_tiles H I.nonempty)
  · intro a ha b hb
    obtain ⟨p, hp, rfl⟩ := List.mem_map.1 ha
    obtain ⟨q, hq, rfl⟩ := List.mem_map.1 hb
    have n1 := (mem_allP I.nonempty).1 hp
    have n2 := (mem_allP I.nonempty).1 hq
    obtain ⟨r, hr, _⟩ := nodeCompare_code H.hd H.hw H.hw64 p q (isNode_ok n1) (isNode_ok n2) n1.1 n2.1
    simp [nodeOf, hr]

/-- C44: for supported inputs some outcome exists (the relation is not empty). -/
theorem C44_outcome_exists (I : BuildInput g codes) (split : Nat) : ∃ r, IsBuild g codes split r :=
  exists_isBuild I.hyp I.hsz split

example : ∃ r, IsBuild exCfg exCodes 40000 r := C44_outcome_exists exInput 40000

end Rakau
