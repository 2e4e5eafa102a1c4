import Verif.Model.Build
import Verif.Proof.Count
import Mathlib.Algebra.BigOperators.Ring.List
import Mathlib.Algebra.Order.BigOperators.Group.List

/-! The canonical (order-independent) description of the built tree as lists of paths, and its properties. -/
namespace Rakau
open Spec

/-- Number of particles in a node. -/
abbrev Cfg.cnt (g : Cfg) (codes : List Nat) (p : Path) : Nat := count g.d g.cb codes p

/-- Proper descendants of `p` down to `k` more levels, in depth-first order. -/
def kidsP (g : Cfg) (codes : List Nat) : Nat → Path → List Path
  | 0, _ => []
  | k + 1, p => (List.range (2 ^ g.d)).flatMap fun i =>
      if 0 < g.cnt codes (p ++ [i]) then
        (p ++ [i]) :: (if g.maxLeaf < g.cnt codes (p ++ [i]) then kidsP g codes k (p ++ [i]) else [])
      else []

/-- Descendants of a node. -/
def desc (g : Cfg) (codes : List Nat) (p : Path) : List Path :=
  if g.maxLeaf < g.cnt codes p then kidsP g codes (g.cb - p.length) p else []

/-- Critical nodes among the proper descendants of `p`. -/
def critP (g : Cfg) (codes : List Nat) : Nat → Path → Bool → List Path
  | 0, _, _ => []
  | k + 1, p, ca => (List.range (2 ^ g.d)).flatMap fun i =>
      if 0 < g.cnt codes (p ++ [i]) then
        (if isCrit g ca (g.cnt codes (p ++ [i])) (p.length + 1) then [p ++ [i]] else []) ++
        (if g.maxLeaf < g.cnt codes (p ++ [i]) then
          critP g codes k (p ++ [i]) (isCrit g ca (g.cnt codes (p ++ [i])) (p.length + 1) || ca) else [])
      else []

/-- The node with path `p`. -/
def nodeOf (g : Cfg) (codes : List Nat) (p : Path) : Node :=
  ⟨lo g.d g.cb codes p, hi g.d g.cb codes p, (desc g codes p).length, Path.code g.d p, p.length⟩

/-- The critical node with path `p`. -/
def cnodeOf (g : Cfg) (codes : List Nat) (p : Path) : CNode :=
  ⟨Path.code g.d p, lo g.d g.cb codes p, hi g.d g.cb codes p⟩

/-- Assumptions on the parameters and on the codes. -/
structure Hyp (g : Cfg) (codes : List Nat) : Prop where
  hd : 0 < g.d
  hw : g.d < g.w
  hw64 : g.w ≤ 64
  sorted : codes.Pairwise (· ≤ ·)
  bound : ∀ c ∈ codes, c < 2 ^ (g.cb * g.d)

variable {g : Cfg} {codes : List Nat}

/-- Membership in the list of descendants. -/
theorem mem_kidsP {k : Nat} {p q : Path} :
    q ∈ kidsP g codes k p ↔ ∃ s, s ≠ [] ∧ q = p ++ s ∧ Path.Ok g.d s ∧ s.length ≤ k ∧ 0 < g.cnt codes q ∧
      ∀ t, t <+: s → t ≠ [] → t ≠ s → g.maxLeaf < g.cnt codes (p ++ t) := by
  induction k generalizing p with
  | zero =>
    constructor
    · intro h; simp [kidsP] at h
    · rintro ⟨s, h1, _, _, h4, _⟩
      exact absurd (List.length_eq_zero_iff.1 (Nat.le_zero.1 h4)) h1
  | succ k ih =>
    simp only [kidsP, List.mem_flatMap, List.mem_range]
    constructor
    · rintro ⟨i, hi, h⟩
      by_cases hc : 0 < g.cnt codes (p ++ [i])
      · rw [if_pos hc, List.mem_cons] at h
        rcases h with rfl | h
        · refine ⟨[i], by simp, rfl, by simpa [Path.Ok] using hi, by simp, hc, ?_⟩
          intro t ht h1 h2
          rcases List.prefix_cons_iff.1 ht with rfl | ⟨t', rfl, ht'⟩
          · exact absurd rfl h1
          · rw [List.prefix_nil] at ht'; subst ht'; exact absurd rfl h2
        · by_cases hm : g.maxLeaf < g.cnt codes (p ++ [i])
          · rw [if_pos hm, ih] at h
            obtain ⟨s, h1, h2, h3, h4, h5, h6⟩ := h
            refine ⟨i :: s, by simp, by simp [h2], ?_, by simpa using h4, h5, ?_⟩
            · intro j hj
              rcases List.mem_cons.1 hj with rfl | hj
              · exact hi
              · exact h3 j hj
            · intro t ht g1 g2
              rcases List.prefix_cons_iff.1 ht with rfl | ⟨t', rfl, ht'⟩
              · exact absurd rfl g1
              · by_cases he : t' = []
                · subst he; exact hm
                · have := h6 t' ht' he (by rintro rfl; exact g2 rfl)
                  simpa using this
          · rw [if_neg hm] at h; simp at h
      · rw [if_neg hc] at h; simp at h
    · rintro ⟨s, h1, rfl, h3, h4, h5, h6⟩
      cases s with
      | nil => exact absurd rfl h1
      | cons i s =>
        refine ⟨i, h3 i List.mem_cons_self, ?_⟩
        have e : p ++ i :: s = (p ++ [i]) ++ s := by simp
        have hc : 0 < g.cnt codes (p ++ [i]) :=
          lt_of_lt_of_le h5 (count_anti (by rw [e]; exact List.prefix_append _ _))
        rw [if_pos hc, List.mem_cons]
        by_cases hs : s = []
        · left; subst hs; rfl
        · right
          have hm : g.maxLeaf < g.cnt codes (p ++ [i]) := by
            apply h6 [i]
            · simp
            · simp
            · intro h; simp at h; exact hs h
          rw [if_pos hm, ih]
          refine ⟨s, hs, e, fun j hj => h3 j (List.mem_cons_of_mem _ hj), by simpa using h4, h5, ?_⟩
          intro t ht g1 g2
          have := h6 (i :: t) (by simpa using ht) (by simp) (by simpa using g2)
          simpa using this

/-- The set of nodes of the subtree at `p`: specification form. -/
theorem mem_kidsP_spec {p q : Path} (hp : p.length ≤ g.cb) (hm : g.maxLeaf < g.cnt codes p) :
    q ∈ kidsP g codes (g.cb - p.length) p ↔ (p <+: q ∧ p ≠ q) ∧ IsNode g.d g.cb g.maxLeaf codes q := by
  rw [mem_kidsP]
  constructor
  · rintro ⟨s, h1, rfl, h3, h4, h5, h6⟩
    refine ⟨⟨List.prefix_append _ _, by simpa using h1⟩, ?_, h5, ?_⟩
    · simp; omega
    · intro _
      rw [List.dropLast_append_of_ne_nil h1]
      by_cases he : s.dropLast = []
      · rw [he]; simpa using hm
      · apply h6 _ (List.dropLast_prefix s) he
        intro h
        have := congrArg List.length h
        rw [List.length_dropLast] at this
        have : 0 < s.length := List.length_pos_iff.2 h1
        omega
  · rintro ⟨⟨⟨s, rfl⟩, hne⟩, h1, h2, h3⟩
    have hs : s ≠ [] := by rintro rfl; simp at hne
    refine ⟨s, hs, rfl, (ok_append.1 (count_pos_ok h2)).2, by simp at h1; omega, h2, ?_⟩
    intro t ht _ h5
    have h3 := h3 (by simp [hs])
    rw [List.dropLast_append_of_ne_nil hs] at h3
    refine lt_of_lt_of_le h3 (count_anti ?_)
    apply (List.prefix_append_right_inj p).2
    obtain ⟨u, rfl⟩ := ht
    have hu : u ≠ [] := by rintro rfl; simp at h5
    rw [List.dropLast_append_of_ne_nil hu]
    exact List.prefix_append _ _

theorem mem_desc {p q : Path} (hp : p.length ≤ g.cb) :
    q ∈ desc g codes p ↔ (p <+: q ∧ p ≠ q) ∧ IsNode g.d g.cb g.maxLeaf codes q := by
  unfold desc
  split
  · rename_i h; exact mem_kidsP_spec hp h
  · rename_i h
    constructor
    · intro h; simp at h
    · rintro ⟨⟨⟨s, rfl⟩, hne⟩, h1, h2, h3⟩
      exfalso
      have hs : s ≠ [] := by rintro rfl; simp at hne
      have h3 := h3 (by simp [hs])
      rw [List.dropLast_append_of_ne_nil hs] at h3
      exact h (lt_of_lt_of_le h3 (count_anti (List.prefix_append _ _)))

/-- All nodes, in depth-first order. -/
def allP (g : Cfg) (codes : List Nat) : List Path := [] :: desc g codes []

theorem mem_allP (hn : codes ≠ []) {q : Path} : q ∈ allP g codes ↔ IsNode g.d g.cb g.maxLeaf codes q := by
  unfold allP
  rw [List.mem_cons, mem_desc (by simp)]
  constructor
  · rintro (rfl | h)
    · exact ⟨by simp, by rw [count_nil]; exact List.length_pos_iff.2 hn, by simp⟩
    · exact h.2
  · intro h
    by_cases hq : q = []
    · exact Or.inl hq
    · exact Or.inr ⟨⟨List.nil_prefix, fun h => hq h.symm⟩, h⟩

/-! ### Order -/

theorem before_append {p : Path} {s t : Path} (h : Path.Before s t) : Path.Before (p ++ s) (p ++ t) :=
  List.Lex.append_left _ h p

theorem before_prefix {p s : Path} (hs : s ≠ []) : Path.Before p (p ++ s) := by
  have : Path.Before [] s := by
    cases s with
    | nil => exact absurd rfl hs
    | cons i s => exact List.Lex.nil
  simpa using before_append (p := p) this

theorem before_sib {p s t : Path} {i j : Nat} (h : i < j) : Path.Before (p ++ i :: s) (p ++ j :: t) :=
  before_append (List.Lex.rel h)

theorem kidsP_sorted (k : Nat) (p : Path) : (kidsP g codes k p).Pairwise Path.Before := by
  induction k generalizing p with
  | zero => simp [kidsP]
  | succ k ih =>
    simp only [kidsP]
    rw [List.pairwise_flatMap]
    refine ⟨?_, ?_⟩
    · intro i _
      split
      · rw [List.pairwise_cons]
        refine ⟨?_, ?_⟩
        · intro q hq
          split at hq
          · obtain ⟨s, hs, rfl, _⟩ := mem_kidsP.1 hq
            exact before_prefix hs
          · simp at hq
        · split
          · exact ih _
          · simp
      · simp
    · refine List.Pairwise.imp ?_ List.pairwise_lt_range
      intro i j hij a ha b hb
      have key : ∀ i, ∀ a, a ∈ (if 0 < g.cnt codes (p ++ [i]) then
          (p ++ [i]) :: (if g.maxLeaf < g.cnt codes (p ++ [i]) then kidsP g codes k (p ++ [i]) else [])
          else []) → ∃ s, a = p ++ i :: s := by
        intro i a ha
        split at ha
        · rcases List.mem_cons.1 ha with rfl | ha
          · exact ⟨[], rfl⟩
          · split at ha
            · obtain ⟨s, _, rfl, _⟩ := mem_kidsP.1 ha
              exact ⟨s, by simp⟩
            · simp at ha
        · simp at ha
      obtain ⟨s, rfl⟩ := key i a ha
      obtain ⟨t, rfl⟩ := key j b hb
      exact before_sib hij

theorem desc_sorted (p : Path) : (desc g codes p).Pairwise Path.Before := by
  unfold desc; split
  · exact kidsP_sorted _ _
  · simp

theorem allP_sorted : (allP g codes).Pairwise Path.Before := by
  unfold allP
  rw [List.pairwise_cons]
  refine ⟨?_, desc_sorted _⟩
  intro q hq
  rw [mem_desc (by simp)] at hq
  cases q with
  | nil => exact absurd rfl hq.1.2
  | cons i q => exact List.Lex.nil

theorem before_irrefl (p : Path) : ¬ Path.Before p p := lt_irrefl (a := p)

theorem before_trans {p q r : Path} (h : Path.Before p q) (h' : Path.Before q r) : Path.Before p r :=
  lt_trans (a := p) h h'

theorem before_asymm {p q : Path} (h : Path.Before p q) : ¬ Path.Before q p :=
  lt_asymm (a := p) h

theorem before_total (p q : Path) : Path.Before p q ∨ p = q ∨ Path.Before q p := lt_trichotomy p q

/-! ### Contiguity of subtrees -/

/-- Each node is followed by its descendants. -/
theorem kidsP_split {k : Nat} {p q : Path} (hk : p.length + k = g.cb) (h : q ∈ kidsP g codes k p) :
    ∃ pre post, kidsP g codes k p = pre ++ q :: desc g codes q ++ post := by
  induction k generalizing p with
  | zero => simp [kidsP] at h
  | succ k ih =>
    simp only [kidsP, List.mem_flatMap, List.mem_range] at h
    obtain ⟨i, hi, h⟩ := h
    have hr : List.range (2 ^ g.d) = List.range i ++ i :: (List.range (2 ^ g.d - (i + 1))).map (i + 1 + ·) := by
      have h1 : 2 ^ g.d = i + (2 ^ g.d - i) := by omega
      have h2 : 2 ^ g.d - i = (2 ^ g.d - (i + 1)) + 1 := by omega
      conv_lhs => rw [h1, List.range_add, h2, List.range_succ_eq_map]
      simp [Function.comp_def, Nat.add_assoc, Nat.add_comm 1]
    set F := fun i => if 0 < g.cnt codes (p ++ [i]) then
        (p ++ [i]) :: (if g.maxLeaf < g.cnt codes (p ++ [i]) then kidsP g codes k (p ++ [i]) else [])
      else [] with hF
    have e : kidsP g codes (k + 1) p = (List.range (2 ^ g.d)).flatMap F := rfl
    have hl : (p ++ [i]).length + k = g.cb := by simp; omega
    have hk' : g.cb - (p ++ [i]).length = k := by omega
    by_cases hc : 0 < g.cnt codes (p ++ [i])
    · rw [if_pos hc, List.mem_cons] at h
      have hFi : F i = (p ++ [i]) :: desc g codes (p ++ [i]) := by
        simp only [hF, desc]; rw [if_pos hc, hk']
      rw [e, hr, List.flatMap_append, List.flatMap_cons, hFi]
      rcases h with rfl | h
      · exact ⟨_, _, by simp; rfl⟩
      · by_cases hm : g.maxLeaf < g.cnt codes (p ++ [i])
        · rw [if_pos hm] at h
          obtain ⟨pre, post, h'⟩ := ih hl h
          have : desc g codes (p ++ [i]) = pre ++ q :: desc g codes q ++ post := by
            unfold desc; rw [if_pos hm, hk', h']; rfl
          rw [this]
          exact ⟨(List.range i).flatMap F ++ (p ++ [i]) :: pre, post ++ List.flatMap F _, by simp; rfl⟩
        · rw [if_neg hm] at h; simp at h
    · rw [if_neg hc] at h; simp at h

theorem allP_split {q : Path} (h : q ∈ allP g codes) :
    ∃ pre post, allP g codes = pre ++ q :: desc g codes q ++ post := by
  unfold allP at h ⊢
  rcases List.mem_cons.1 h with rfl | h
  · exact ⟨[], [], by simp⟩
  · have hm : g.maxLeaf < g.cnt codes [] := by
      by_contra hc; unfold desc at h; rw [if_neg hc] at h; simp at h
    have e : desc g codes [] = kidsP g codes g.cb [] := by unfold desc; rw [if_pos hm]; rfl
    rw [e] at h ⊢
    obtain ⟨pre, post, h'⟩ := kidsP_split (by simp) h
    exact ⟨[] :: pre, post, by rw [h']; simp⟩

/-! ### Number of nodes -/

theorem sum_children (H : Hyp g codes) {p : Path} (hp : Path.Ok g.d p) (hl : p.length < g.cb) (m : Nat) (hm : m ≤ 2 ^ g.d) :
    ((List.range m).map fun i => g.cnt codes (p ++ [i])).sum = lo g.d g.cb codes (p ++ [m]) - lo g.d g.cb codes p := by
  induction m with
  | zero => simp [lo_first _ _ _ _ hl]
  | succ m ih =>
    rw [List.range_succ, List.map_append, List.sum_append, ih (by omega)]
    simp only [List.map_cons, List.map_nil, List.sum_cons, List.sum_nil, Nat.add_zero]
    rw [Cfg.cnt, count_eq H.hd H.bound (ok_snoc.2 ⟨hp, by omega⟩) (by simp; omega), hi_next]
    have h1 := lo_snoc_mono g.d g.cb codes p (show m ≤ m + 1 by omega)
    have h2 := (child_range g.d g.cb codes p hl (i := m) (by omega)).1
    omega

theorem sum_children_all (H : Hyp g codes) {p : Path} (hp : Path.Ok g.d p) (hl : p.length < g.cb) :
    ((List.range (2 ^ g.d)).map fun i => g.cnt codes (p ++ [i])).sum = g.cnt codes p := by
  rw [sum_children H hp hl _ le_rfl, lo_end _ _ _ _ hl, Cfg.cnt, count_eq H.hd H.bound hp (by omega)]

theorem kidsP_length_le (H : Hyp g codes) (k : Nat) {p : Path} (hp : Path.Ok g.d p) (hl : p.length + k ≤ g.cb) :
    (kidsP g codes k p).length ≤ g.cnt codes p * k := by
  induction k generalizing p with
  | zero => simp [kidsP]
  | succ k ih =>
    simp only [kidsP, List.length_flatMap]
    rw [← sum_children_all H hp (by omega), ← List.sum_map_mul_right]
    apply List.sum_le_sum
    intro i hi
    rw [List.mem_range] at hi
    split
    · rename_i hc
      simp only [List.length_cons]
      have : (if g.maxLeaf < g.cnt codes (p ++ [i]) then kidsP g codes k (p ++ [i]) else []).length ≤
          g.cnt codes (p ++ [i]) * k := by
        split
        · exact ih (ok_snoc.2 ⟨hp, hi⟩) (by simp; omega)
        · simp
      rw [Nat.mul_succ]; omega
    · simp

theorem desc_length_le (H : Hyp g codes) {p : Path} (hp : Path.Ok g.d p) (hl : p.length ≤ g.cb) :
    (desc g codes p).length ≤ g.cnt codes p * (g.cb - p.length) := by
  unfold desc
  split
  · exact kidsP_length_le H _ hp (by omega)
  · simp

/-! ### Critical nodes tile the particles -/

/-- The ranges of the listed nodes follow each other without gaps from `a` to `b`, none empty. -/
def Tiles (g : Cfg) (codes : List Nat) : Nat → Nat → List Path → Prop
  | a, b, [] => a = b
  | a, b, p :: ps => lo g.d g.cb codes p = a ∧ a < hi g.d g.cb codes p ∧ Tiles g codes (hi g.d g.cb codes p) b ps

theorem tiles_append {a b c : Nat} {l m : List Path} (h1 : Tiles g codes a b l) (h2 : Tiles g codes b c m) :
    Tiles g codes a c (l ++ m) := by
  induction l generalizing a with
  | nil => simp only [Tiles] at h1; subst h1; exact h2
  | cons p l ih => exact ⟨h1.1, h1.2.1, ih h1.2.2⟩

theorem critP_true (k : Nat) (p : Path) : critP g codes k p true = [] := by
  induction k generalizing p with
  | zero => rfl
  | succ k ih =>
    simp only [critP, List.flatMap_eq_nil_iff]
    intro i _
    split
    · have : isCrit g true (g.cnt codes (p ++ [i])) (p.length + 1) = false := by simp [isCrit]
      simp [this, ih]
    · rfl

theorem critP_tiles (H : Hyp g codes) (k : Nat) {p : Path} (hp : Path.Ok g.d p) (hl : p.length + (k + 1) = g.cb) :
    Tiles g codes (lo g.d g.cb codes p) (hi g.d g.cb codes p) (critP g codes (k + 1) p false) := by
  induction k generalizing p with
  | zero =>
    rw [← lo_end _ _ _ _ (by omega), ← lo_first _ _ _ _ (by omega)]
    simp only [critP]
    have : ∀ m, m ≤ 2 ^ g.d → Tiles g codes (lo g.d g.cb codes (p ++ [0])) (lo g.d g.cb codes (p ++ [m]))
        ((List.range m).flatMap fun i => if 0 < g.cnt codes (p ++ [i]) then
        (if isCrit g false (g.cnt codes (p ++ [i])) (p.length + 1) then [p ++ [i]] else []) ++
        (if g.maxLeaf < g.cnt codes (p ++ [i]) then [] else [])
      else []) := by
      intro m hm
      induction m with
      | zero => simp [Tiles]
      | succ m ihm =>
        rw [List.range_succ, List.flatMap_append]
        refine tiles_append (ihm (by omega)) ?_
        rw [List.flatMap_singleton, ← hi_next]
        have hcnt : g.cnt codes (p ++ [m]) = _ := count_eq H.hd H.bound (ok_snoc.2 ⟨hp, by omega⟩) (by simp; omega)
        have hle := lo_le_hi g.d g.cb codes (p ++ [m])
        have hcr : isCrit g false (g.cnt codes (p ++ [m])) (p.length + 1) = true := by
          simp [isCrit]; right; omega
        by_cases hc : 0 < g.cnt codes (p ++ [m])
        · rw [if_pos hc, if_pos hcr, ite_self, List.append_nil]
          exact ⟨rfl, by omega, rfl⟩
        · rw [if_neg hc]; simp only [Tiles]; omega
    exact this _ le_rfl
  | succ k ih =>
    rw [← lo_end _ _ _ _ (by omega), ← lo_first _ _ _ _ (by omega)]
    rw [critP]
    have : ∀ m, m ≤ 2 ^ g.d → Tiles g codes (lo g.d g.cb codes (p ++ [0])) (lo g.d g.cb codes (p ++ [m]))
        ((List.range m).flatMap fun i => if 0 < g.cnt codes (p ++ [i]) then
        (if isCrit g false (g.cnt codes (p ++ [i])) (p.length + 1) then [p ++ [i]] else []) ++
        (if g.maxLeaf < g.cnt codes (p ++ [i]) then
          critP g codes (k + 1) (p ++ [i]) (isCrit g false (g.cnt codes (p ++ [i])) (p.length + 1) || false) else [])
      else []) := by
      intro m hm
      induction m with
      | zero => simp [Tiles]
      | succ m ihm =>
        rw [List.range_succ, List.flatMap_append]
        refine tiles_append (ihm (by omega)) ?_
        rw [List.flatMap_singleton, ← hi_next]
        have hok : Path.Ok g.d (p ++ [m]) := ok_snoc.2 ⟨hp, by omega⟩
        have hcnt : g.cnt codes (p ++ [m]) = _ := count_eq H.hd H.bound hok (by simp; omega)
        have hle := lo_le_hi g.d g.cb codes (p ++ [m])
        split
        · by_cases hcr : isCrit g false (g.cnt codes (p ++ [m])) (p.length + 1) = true
          · simp only [hcr, if_true, Bool.true_or, critP_true, ite_self, List.append_nil]
            simp [Tiles]; omega
          · rw [Bool.not_eq_true] at hcr
            have hm' : g.maxLeaf < g.cnt codes (p ++ [m]) := by
              simp [isCrit] at hcr; omega
            rw [if_pos hm']
            simp only [hcr, Bool.false_or]
            exact ih hok (by simp; omega)
        · simp only [Tiles]; omega
    exact this _ le_rfl

end Rakau
