import Verif.Model.Trav
import Verif.Props.Build
import Mathlib.Data.List.Induction

/-! The traversal of a depth-first node list. -/
namespace Rakau
open Spec

/-! ### Depth-first node lists -/

/-- First particle of node `i`, or `n` past the end of the list. -/
def start (tree : List Node) (n i : Nat) : Nat := match tree[i]? with
  | some nd => nd.beg
  | none => n

/-- Index-level description of a depth-first list of nodes over `n` particles. -/
structure Dfs (n : Nat) (tree : List Node) : Prop where
  sub : ∀ i (hi : i < tree.length), i + tree[i].nChildren < tree.length
  nest : ∀ i j (hi : i < tree.length) (hj : j < tree.length), i < j → j ≤ i + tree[i].nChildren →
    j + tree[j].nChildren ≤ i + tree[i].nChildren
  range : ∀ i (hi : i < tree.length), tree[i].beg < tree[i].fin ∧ tree[i].fin ≤ n
  first : start tree n 0 = 0
  kid : ∀ i (hi : i < tree.length), tree[i].nChildren ≠ 0 → start tree n (i + 1) = tree[i].beg
  next : ∀ i (hi : i < tree.length), start tree n (i + tree[i].nChildren + 1) = tree[i].fin

theorem start_eq {tree : List Node} {n i : Nat} (hi : i < tree.length) : start tree n i = tree[i].beg := by
  unfold start; rw [List.getElem?_eq_getElem hi]

theorem start_end {tree : List Node} {n i : Nat} (hi : tree.length ≤ i) : start tree n i = n := by
  unfold start; rw [List.getElem?_eq_none hi]

/-- Paths in depth-first order that are not nested have their particles in order. -/
theorem before_codes {d cb : Nat} (hd : 0 < d) {p q : Path} (hp : Path.Ok d p) (hq : Path.Ok d q) (h : Path.Before p q) (hn : ¬ p <+: q)
    (hlp : p.length ≤ cb) (hlq : q.length ≤ cb) {c c' : Nat} (hc : c < 2 ^ (cb * d)) (hc' : c' < 2 ^ (cb * d))
    (h1 : InNode d cb p c) (h2 : InNode d cb q c') : c < c' := by
  obtain ⟨r, a, b, s, t, hab, rfl, rfl⟩ : ∃ (r : Path) (a b : Nat) (s t : Path), a < b ∧ p = r ++ a :: s ∧ q = r ++ b :: t := by
    clear hp hq hlp hlq h1 h2
    induction h with
    | nil => exact absurd List.nil_prefix hn
    | @rel a s b t h => exact ⟨[], a, b, s, t, h, rfl, rfl⟩
    | @cons a s t h ih =>
      obtain ⟨r, x, y, s', t', h1, h2, h3⟩ := ih (fun h' => hn (by simpa using h'))
      exact ⟨a :: r, x, y, s', t', h1, by rw [h2]; rfl, by rw [h3]; rfl⟩
  have e1 : r ++ a :: s = (r ++ [a]) ++ s := by simp
  have e2 : r ++ b :: t = (r ++ [b]) ++ t := by simp
  have k1 : InNode d cb (r ++ [a]) c := (List.prefix_append _ s).trans (by rw [← e1]; exact h1)
  have k2 : InNode d cb (r ++ [b]) c' := (List.prefix_append _ t).trans (by rw [← e2]; exact h2)
  rw [e1, ok_append] at hp
  rw [e2, ok_append] at hq
  simp only [List.length_append, List.length_cons] at hlp hlq
  rw [inNode_iff hd hp.1 (by simp; omega) hc, pv_snoc] at k1
  rw [inNode_iff hd hq.1 (by simp; omega) hc', pv_snoc] at k2
  by_contra hle
  rw [not_lt] at hle
  have := Nat.div_le_div_right (c := 2 ^ ((cb - (r ++ [a]).length) * d)) hle
  rw [k1] at this
  simp only [List.length_append, List.length_cons, List.length_nil] at this k2
  rw [k2] at this
  omega

variable {g : Cfg} {codes : List Nat}

/-- Nodes of a built tree that are not nested have their particles in order. -/
theorem build_order (I : BuildInput g codes) {split : Nat} {tree : List Node} {crit : List CNode}
    (h : IsBuild g codes split (.ok (tree, crit))) {i j : Nat} (hi : i < tree.length) (hj : j < tree.length)
    (hij : i + tree[i].nChildren < j) : tree[i].fin ≤ tree[j].beg := by
  obtain ⟨ps, hlen, -, hsort, hmem, hall⟩ := C11_depth_first I h
  obtain ⟨_, _, ri, ri2, mi, _, di⟩ := hall i hi
  obtain ⟨_, _, rj, rj2, mj, _, _⟩ := hall j hj
  have n1 := (hmem _).1 (List.getElem_mem (by omega : i < ps.length))
  have n2 := (hmem _).1 (List.getElem_mem (by omega : j < ps.length))
  have hb : Path.Before ps[i] ps[j] := List.pairwise_iff_getElem.1 hsort i j _ _ (by omega)
  have hn : ¬ ps[i] <+: ps[j] := by
    intro hp
    have := (di j hj).2 ⟨hp, fun he => by rw [he] at hb; exact before_irrefl _ hb⟩
    omega
  have hlt := before_codes I.dim.1 (isNode_ok (g := g) n1) (isNode_ok (g := g) n2) hb hn n1.1 n2.1
    (I.bound _ (List.getElem_mem (by omega : tree[i].fin - 1 < codes.length)))
    (I.bound _ (List.getElem_mem (by omega : tree[j].beg < codes.length)))
    ((mi _ (by omega)).1 ⟨by omega, by omega⟩) ((mj _ (by omega)).1 ⟨le_rfl, rj⟩)
  by_contra hov
  have : codes[tree[j].beg] ≤ codes[tree[i].fin - 1] := by
    rcases Nat.lt_or_ge tree[j].beg (tree[i].fin - 1) with h | h
    · exact List.pairwise_iff_getElem.1 I.sorted _ _ _ _ h
    · have : tree[j].beg = tree[i].fin - 1 := by omega
      simp [this]
  omega

/-- Nested nodes have nested particle ranges. -/
theorem build_nested (I : BuildInput g codes) {split : Nat} {tree : List Node} {crit : List CNode}
    (h : IsBuild g codes split (.ok (tree, crit))) {i j : Nat} (hi : i < tree.length) (hj : j < tree.length)
    (hij : i ≤ j) (hji : j ≤ i + tree[i].nChildren) : tree[i].beg ≤ tree[j].beg ∧ tree[j].fin ≤ tree[i].fin := by
  rcases Nat.eq_or_lt_of_le hij with rfl | hlt
  · exact ⟨le_rfl, le_rfl⟩
  obtain ⟨ps, hlen, -, hsort, hmem, hall⟩ := C11_depth_first I h
  obtain ⟨_, _, ri, ri2, mi, _, di⟩ := hall i hi
  obtain ⟨_, _, rj, rj2, mj, _, _⟩ := hall j hj
  have hp := ((di j hj).1 ⟨hlt, hji⟩).1
  have key : ∀ k (hk : k < codes.length), tree[j].beg ≤ k → k < tree[j].fin → tree[i].beg ≤ k ∧ k < tree[i].fin := by
    intro k hk h1 h2
    rw [mi k hk]
    exact hp.trans ((mj k hk).1 ⟨h1, h2⟩)
  have k1 := key tree[j].beg (by omega) le_rfl rj
  have k2 := key (tree[j].fin - 1) (by omega) (by omega) (by omega)
  omega

theorem build_dfs (I : BuildInput g codes) {split : Nat} {tree : List Node} {crit : List CNode}
    (h : IsBuild g codes split (.ok (tree, crit))) : Dfs codes.length tree := by
  obtain ⟨ps, hlen, hroot, hsort, hmem, hall⟩ := C11_depth_first I h
  have h0 : 0 < tree.length := by
    rw [← hlen]
    cases ps with
    | nil => simp at hroot
    | cons => simp
  have hps0 : ps[0]'(by omega) = [] := by
    cases ps with
    | nil => simp at hroot
    | cons => simpa using hroot
  -- particles after a node are in later leaves
  have hlate : ∀ i (hi : i < tree.length), tree[i].fin < codes.length →
      ∃ l, ∃ hl : l < tree.length, i + tree[i].nChildren < l ∧ tree[l].beg ≤ tree[i].fin := by
    intro i hi hk
    obtain ⟨l, ⟨hl, hleaf, l1, l2⟩, _⟩ := C12_one_leaf I h tree[i].fin hk
    have ri := (hall i hi).2.2.1
    refine ⟨l, hl, ?_, l1⟩
    by_contra hle
    rw [not_lt] at hle
    rcases Nat.lt_or_ge l i with hli | hli
    · have := build_order I h hl hi (by omega)
      omega
    · have := build_nested I h hi hl hli hle
      omega
  constructor
  · intro i hi; exact (hall i hi).2.2.2.2.2.1
  · intro i j hi hj hij hji
    have h1 := ((hall i hi).2.2.2.2.2.2 j hj).1 ⟨hij, hji⟩
    rcases Nat.eq_zero_or_pos tree[j].nChildren with hz | hz
    · omega
    · have hs := (hall j hj).2.2.2.2.2.1
      have h2 := ((hall j hj).2.2.2.2.2.2 _ hs).1 ⟨by omega, le_rfl⟩
      have h3 := ((hall i hi).2.2.2.2.2.2 _ hs).2 ⟨h1.1.trans h2.1, fun he => by
        have e1 := h1.1.length_le; have e2 := h2.1.length_le
        rw [← he] at e2
        exact h1.2 (h1.1.eq_of_length (le_antisymm e1 e2))⟩
      exact h3.2
  · intro i hi; exact ⟨(hall i hi).2.2.1, (hall i hi).2.2.2.1⟩
  · rw [start_eq h0]
    have hn := List.length_pos_iff.2 I.nonempty
    have := ((hall 0 h0).2.2.2.2.1 0 hn).2 (by rw [hps0]; exact List.nil_prefix)
    omega
  · intro i hi hnc
    have hs := (hall i hi).2.2.2.2.2.1
    have h1 : i + 1 < tree.length := by omega
    rw [start_eq h1]
    have r1 := (hall _ h1).2.2.1
    have nst := build_nested I h hi h1 (by omega) (by omega)
    have ri := (hall i hi).2.2.1
    obtain ⟨j, ⟨⟨_, hlt, hle, hlev⟩, hj, j1, j2⟩, _⟩ := (C11_children I h i hi).2.2 hnc tree[i].beg le_rfl ri
    by_contra hne
    have hj1 : i + 1 + tree[i + 1].nChildren < j := by
      by_contra hc
      rcases Nat.eq_or_lt_of_le (Nat.succ_le_of_lt hlt) with he | hl
      · rw [Nat.succ_eq_add_one] at he
        subst he; omega
      · obtain ⟨q1, q2⟩ := ((hall _ h1).2.2.2.2.2.2 j hj).1 ⟨hl, by omega⟩
        have l1 := (hall _ h1).2.1
        have l2 := (hall _ hj).2.1
        have l3 := (hall _ hi).2.1
        obtain ⟨p1, p2⟩ := ((hall i hi).2.2.2.2.2.2 (i + 1) h1).1 ⟨by omega, by omega⟩
        have e1 : ps[i].length < ps[i + 1].length := by
          rcases Nat.lt_or_ge ps[i].length ps[i + 1].length with h | h
          · exact h
          · exact absurd (p1.eq_of_length (le_antisymm p1.length_le h)) p2
        exact q2 (q1.eq_of_length (le_antisymm q1.length_le (by omega)))
    have := build_order I h h1 hj hj1
    omega
  · intro i hi
    have hr := hall i hi
    by_cases hj : i + tree[i].nChildren + 1 < tree.length
    · rw [start_eq hj]
      have h1 := build_order I h hi hj (by omega)
      have rj := (hall _ hj).2.2.1
      have rj2 := (hall _ hj).2.2.2.1
      by_contra hne
      obtain ⟨l, hl, l1, l2⟩ := hlate i hi (by omega)
      rcases Nat.lt_or_ge (i + tree[i].nChildren + 1 + tree[i + tree[i].nChildren + 1].nChildren) l with hc | hc
      · have := build_order I h hj hl hc
        omega
      · have := build_nested I h hj hl (by omega) hc
        omega
    · rw [start_end (by omega)]
      by_contra hne
      obtain ⟨l, hl, l1, l2⟩ := hlate i hi (by omega)
      omega

namespace Dfs

variable {n : Nat} {tree : List Node} (D : Dfs n tree)
include D

theorem start_succ {i : Nat} (hi : i < tree.length) : start tree n i ≤ start tree n (i + 1) := by
  have hr := D.range i hi
  by_cases hnc : tree[i].nChildren = 0
  · have := D.next i hi
    rw [hnc] at this
    rw [start_eq hi]
    have : start tree n (i + 1) = tree[i].fin := this
    omega
  · rw [start_eq hi, D.kid i hi hnc]

theorem start_mono {i j : Nat} (hij : i ≤ j) : start tree n i ≤ start tree n j := by
  induction j, hij using Nat.le_induction with
  | base => exact le_rfl
  | succ j hj ih =>
    refine le_trans ih ?_
    rcases Nat.lt_or_ge j tree.length with h | h
    · exact D.start_succ h
    · rw [start_end h, start_end (by omega)]

theorem start_le {i : Nat} : start tree n i ≤ n := by
  have := D.start_mono (Nat.le_max_left i tree.length)
  rwa [start_end (i := max i tree.length) (Nat.le_max_right _ _)] at this

end Dfs

/-! ### The comparison of codes -/

/-- A code shifted down by whole levels is the code of the ancestor. -/
theorem code_shiftRight {d : Nat} {p : Path} (hp : Path.Ok d p) {l : Nat} (hl : l ≤ p.length) :
    Path.code d p >>> ((p.length - l) * d) = Path.code d (p.take l) := by
  induction p using List.reverseRecOn with
  | nil => simp at hl; subst hl; simp
  | append_singleton p a ih =>
    rw [ok_snoc] at hp
    simp only [List.length_append, List.length_cons, List.length_nil] at hl ⊢
    rcases Nat.eq_or_lt_of_le hl with rfl | hlt
    · rw [Nat.sub_self, Nat.zero_mul, Nat.shiftRight_zero, List.take_of_length_le (by simp)]
    · have e : (p.length + (0 + 1) - l) * d = d + (p.length - l) * d := by
        have : p.length + (0 + 1) - l = (p.length - l) + 1 := by omega
        rw [this, Nat.succ_mul, Nat.add_comm]
      rw [e, Nat.shiftRight_add, code_append, Nat.shiftRight_eq_div_pow _ d]
      have : (Path.code d p * 2 ^ d + a) / 2 ^ d = Path.code d p := by
        rw [Nat.mul_comm, Nat.mul_add_div (Nat.two_pow_pos d), Nat.div_eq_of_lt hp.2, Nat.add_zero]
      rw [this, ih hp.1 (by omega), List.take_append_of_le_length (by omega)]

/-- An over-wide shift never produces the code of a deeper node. -/
def Overshift.Small (over : Overshift) : Prop := ∀ x s, ∃ y ≤ x, over x s = some y

theorem maskedShift_small (w : Nat) : (maskedShift w).Small := fun x _ => ⟨_, Nat.shiftRight_le x _, rfl⟩

theorem shiftAmount {w d a b : Nat} (hd : 0 < d) (hw : d < w) (hw64 : w ≤ 64) (ha : a ≤ cbits w d) (hb : b ≤ cbits w d) :
    (b ≤ a → mulSz (subW w a b) d = (a - b) * d ∧ (a - b) * d < w) ∧ (w = 32 ∨ w = 64 → d = 2 ∨ d = 3 → a < b → w ≤ mulSz (subW w a b) d) := by
  have hc := cbits_mul_lt hd hw
  have hcw : cbits w d < 2 ^ w := by
    have h1 : cbits w d ≤ cbits w d * d := Nat.le_mul_of_pos_right _ hd
    exact lt_of_le_of_lt (by omega) Nat.lt_two_pow_self
  constructor
  · intro h
    have hm : (a - b) * d ≤ cbits w d * d := Nat.mul_le_mul_right _ (by omega)
    have : subW w a b = a - b := by
      unfold subW
      have : a + 2 ^ w - b = 2 ^ w + (a - b) := by omega
      rw [this, Nat.add_mod_left, Nat.mod_eq_of_lt (by omega)]
    rw [this, mulSz_eq (by omega)]
    exact ⟨rfl, by omega⟩
  · rintro hw' hd' h
    have h64 : cbits w d < 64 := by
      have h1 : cbits w d ≤ cbits w d * d := Nat.le_mul_of_pos_right _ hd
      omega
    unfold subW mulSz
    obtain ⟨k, rfl⟩ := Nat.exists_eq_add_of_lt h
    have hb' : a + k + 1 < 64 := by omega
    rcases hw' with rfl | rfl <;> rcases hd' with rfl | rfl <;> norm_num
    · have : a + 4294967296 - (a + k + 1) = 4294967295 - k := by omega
      rw [this]; omega
    · have : a + 4294967296 - (a + k + 1) = 4294967295 - k := by omega
      rw [this, Nat.mod_eq_of_lt (by omega), Nat.mod_eq_of_lt (by omega)]; omega
    · have : a + 18446744073709551616 - (a + k + 1) = 18446744073709551615 - k := by omega
      rw [this]; omega
    · have : a + 18446744073709551616 - (a + k + 1) = 18446744073709551615 - k := by omega
      have e : (18446744073709551615 - k) * 3 = (18446744073709551613 - 3 * k) + 18446744073709551616 * 2 := by omega
      rw [this, e, Nat.add_mul_mod_self_left, Nat.mod_eq_of_lt (by omega)]; omega

/-! ### Traversal -/

/-- The particles that a contribution stands for. -/
def Ev.particles (tree : List Node) : Ev → List Nat
  | .com i => match tree[i]? with
    | some nd => List.range' nd.beg (nd.fin - nd.beg)
    | none => []
  | .leaf i => match tree[i]? with
    | some nd => List.range' nd.beg (nd.fin - nd.beg)
    | none => []

theorem Ev.particles_com {tree : List Node} {i : Nat} (hi : i < tree.length) :
    (Ev.com i).particles tree = List.range' tree[i].beg (tree[i].fin - tree[i].beg) := by
  unfold Ev.particles; simp only; rw [List.getElem?_eq_getElem hi]

theorem Ev.particles_leaf {tree : List Node} {i : Nat} (hi : i < tree.length) :
    (Ev.leaf i).particles tree = List.range' tree[i].beg (tree[i].fin - tree[i].beg) := by
  unfold Ev.particles; simp only; rw [List.getElem?_eq_getElem hi]

/-- The particles of a list of visits. -/
def sources (tree : List Node) (vs : List Visit) : List Nat := vs.flatMap (fun v => match v.ev with
  | some e => e.particles tree
  | none => [])

/-- What a step does, with the comparison of codes replaced by its meaning. -/
def specStep (t : Nat) (acc : Nat → Bool) (i : Nat) (nd : Node) : Nat × Option Ev :=
  if i ≤ t ∧ t ≤ i + nd.nChildren then (i + (1 + (if i = t then nd.nChildren else 0)), none) else macStep acc i nd

theorem range'_append' {a b c : Nat} (h1 : a ≤ b) (h2 : b ≤ c) :
    List.range' a (b - a) ++ List.range' b (c - b) = List.range' a (c - a) := by
  have := List.range'_append (s := a) (m := b - a) (n := c - b) (step := 1)
  rw [one_mul, Nat.add_sub_cancel' h1] at this
  rw [this]; congr 1; omega

/-- Visited node `i`: what it may contribute, given that `t` is the target. -/
structure Visit.Ok (tree : List Node) (acc : Nat → Bool) (t : Nat) (v : Visit) : Prop where
  idx : v.idx < tree.length
  com : ∀ i, v.ev = some (.com i) → i = v.idx ∧ acc i = true
  leaf : ∀ i, v.ev = some (.leaf i) → i = v.idx ∧ acc i = false ∧ ∀ hi : i < tree.length, tree[i].nChildren = 0
  apart : v.ev ≠ none → (∀ hi : v.idx < tree.length, v.idx + tree[v.idx].nChildren < t) ∨
    ∀ ht : t < tree.length, t + tree[t].nChildren < v.idx

/-- The traversal finishes, visits increasing indices, and collects every particle outside the target, in order. -/
theorem trav_spec {n : Nat} {tree : List Node} (D : Dfs n tree) {over : Overshift} {w d tgtCode : Nat} {acc : Nat → Bool} {t : Nat}
    (ht : t < tree.length)
    (hstep : ∀ i (hi : i < tree.length), travStep over w d tgtCode acc i tree[i] = .ok (specStep t acc i tree[i]))
    (fuel i : Nat) (hf : tree.length ≤ i + fuel) (hi : i ≤ t ∨ t + tree[t].nChildren < i) :
    ∃ vs, travGo over w d tree tgtCode acc fuel i = some (.ok vs) ∧
      vs.Pairwise (fun a b => a.idx < b.idx) ∧ (∀ v ∈ vs, i ≤ v.idx ∧ v.Ok tree acc t) ∧
      sources tree vs = (if i ≤ t then List.range' (start tree n i) (tree[t].beg - start tree n i) ++
        List.range' tree[t].fin (n - tree[t].fin) else List.range' (start tree n i) (n - start tree n i)) := by
  induction fuel generalizing i with
  | zero =>
    refine ⟨[], ?_, by simp, by simp, ?_⟩
    · unfold travGo; rw [List.getElem?_eq_none (by omega)]
    · rw [if_neg (by omega), start_end (by omega)]; simp [sources]
  | succ fuel ih =>
    rcases Nat.lt_or_ge i tree.length with hil | hil
    swap
    · refine ⟨[], ?_, by simp, by simp, ?_⟩
      · unfold travGo; rw [List.getElem?_eq_none (by omega)]
      · rw [if_neg (by omega), start_end (by omega)]; simp [sources]
    have hgo : ∀ j ev, specStep t acc i tree[i] = (j, ev) → travGo over w d tree tgtCode acc (fuel + 1) i =
        (travGo over w d tree tgtCode acc fuel j).map (fun r => r.map (⟨i, ev⟩ :: ·)) := by
      intro j ev he
      rw [travGo, List.getElem?_eq_getElem hil]
      simp only
      rw [hstep i hil, he]
    have hsub := D.sub i hil
    have hrng := D.range i hil
    have hrt := D.range t ht
    have hst : start tree n t = tree[t].beg := start_eq ht
    have hsi : start tree n i = tree[i].beg := start_eq hil
    by_cases ha : i ≤ t ∧ t ≤ i + tree[i].nChildren
    · by_cases hit : i = t
      · -- the target itself
        subst hit
        have he : specStep i acc i tree[i] = (i + (1 + tree[i].nChildren), none) := by
          unfold specStep; rw [if_pos ha, if_pos rfl]
        obtain ⟨vs, v1, v2, v3, v4⟩ := ih (i + (1 + tree[i].nChildren)) (by omega) (by right; omega)
        refine ⟨⟨i, none⟩ :: vs, by rw [hgo _ _ he, v1]; rfl, ?_, ?_, ?_⟩
        · exact List.pairwise_cons.2 ⟨fun v hv => by have := (v3 v hv).1; simp only; omega, v2⟩
        · intro v hv
          rcases List.mem_cons.1 hv with rfl | hv
          · exact ⟨le_rfl, hil, by simp, by simp, by simp⟩
          · exact ⟨by have := (v3 v hv).1; omega, (v3 v hv).2⟩
        · have hnx := D.next i hil
          have e : i + (1 + tree[i].nChildren) = i + tree[i].nChildren + 1 := by omega
          rw [if_neg (by omega), e, hnx] at v4
          rw [if_pos le_rfl, hsi, Nat.sub_self]
          simp only [sources, List.flatMap_cons] at v4 ⊢
          rw [v4]; simp
      · -- a proper ancestor
        have he : specStep t acc i tree[i] = (i + (1 + 0), none) := by
          unfold specStep; rw [if_pos ha, if_neg hit]
        have hnc : tree[i].nChildren ≠ 0 := by omega
        obtain ⟨vs, v1, v2, v3, v4⟩ := ih (i + (1 + 0)) (by omega) (by left; omega)
        refine ⟨⟨i, none⟩ :: vs, by rw [hgo _ _ he, v1]; rfl, ?_, ?_, ?_⟩
        · exact List.pairwise_cons.2 ⟨fun v hv => by have := (v3 v hv).1; simp only; omega, v2⟩
        · intro v hv
          rcases List.mem_cons.1 hv with rfl | hv
          · exact ⟨le_rfl, hil, by simp, by simp, by simp⟩
          · exact ⟨by have := (v3 v hv).1; omega, (v3 v hv).2⟩
        · have hk := D.kid i hil hnc
          rw [if_pos (by omega)] at v4
          rw [if_pos ha.1, hsi]
          have e : i + (1 + 0) = i + 1 := by omega
          rw [e, hk] at v4
          simp only [sources, List.flatMap_cons] at v4 ⊢
          rw [v4]; simp
    · have he : specStep t acc i tree[i] = macStep acc i tree[i] := by
        unfold specStep; rw [if_neg ha]
      have hap : (∀ hi : i < tree.length, i + tree[i].nChildren < t) ∨ ∀ ht : t < tree.length, t + tree[t].nChildren < i := by
        rcases hi with h | h
        · left; intro _; omega
        · right; intro _; exact h
      by_cases hacc : acc i = true
      · -- accepted
        have he2 : specStep t acc i tree[i] = (i + tree[i].nChildren + 1, some (.com i)) := by
          rw [he]; unfold macStep; rw [if_pos hacc]
        obtain ⟨vs, v1, v2, v3, v4⟩ := ih (i + tree[i].nChildren + 1) (by omega) (by omega)
        refine ⟨⟨i, some (.com i)⟩ :: vs, by rw [hgo _ _ he2, v1]; rfl, ?_, ?_, ?_⟩
        · exact List.pairwise_cons.2 ⟨fun v hv => by have := (v3 v hv).1; simp only; omega, v2⟩
        · intro v hv
          rcases List.mem_cons.1 hv with rfl | hv
          · exact ⟨le_rfl, hil, fun j hj => by simp at hj; subst hj; exact ⟨rfl, hacc⟩, by simp, fun _ => hap⟩
          · exact ⟨by have := (v3 v hv).1; omega, (v3 v hv).2⟩
        · have hnx := D.next i hil
          rw [hnx] at v4
          simp only [sources, List.flatMap_cons] at v4 ⊢
          rw [v4, Ev.particles_com hil, hsi]
          by_cases hit : i ≤ t
          · have hle := D.start_mono (n := n) (show i + tree[i].nChildren + 1 ≤ t by omega)
            rw [if_pos (by omega), if_pos hit, ← List.append_assoc, range'_append' (by omega) (by omega)]
          · rw [if_neg (by omega), if_neg hit, range'_append' (by omega) (by omega)]
      · rw [Bool.not_eq_true] at hacc
        by_cases hnc : tree[i].nChildren = 0
        · -- opened leaf
          have he2 : specStep t acc i tree[i] = (i + 1, some (.leaf i)) := by
            rw [he]; unfold macStep; rw [if_neg (by simp [hacc]), if_pos hnc]
          obtain ⟨vs, v1, v2, v3, v4⟩ := ih (i + 1) (by omega) (by omega)
          refine ⟨⟨i, some (.leaf i)⟩ :: vs, by rw [hgo _ _ he2, v1]; rfl, ?_, ?_, ?_⟩
          · exact List.pairwise_cons.2 ⟨fun v hv => by have := (v3 v hv).1; simp only; omega, v2⟩
          · intro v hv
            rcases List.mem_cons.1 hv with rfl | hv
            · exact ⟨le_rfl, hil, by simp, fun j hj => by simp at hj; subst hj; exact ⟨rfl, hacc, fun _ => hnc⟩, fun _ => hap⟩
            · exact ⟨by have := (v3 v hv).1; omega, (v3 v hv).2⟩
          · have hnx := D.next i hil
            rw [hnc, Nat.add_zero] at hnx
            rw [hnx] at v4
            simp only [sources, List.flatMap_cons] at v4 ⊢
            rw [v4, Ev.particles_leaf hil, hsi]
            by_cases hit : i ≤ t
            · have hle := D.start_mono (n := n) (show i + 1 ≤ t by omega)
              rw [if_pos (by omega), if_pos hit, ← List.append_assoc, range'_append' (by omega) (by omega)]
            · rw [if_neg (by omega), if_neg hit, range'_append' (by omega) (by omega)]
        · -- opened internal node
          have he2 : specStep t acc i tree[i] = (i + 1, none) := by
            rw [he]; unfold macStep; rw [if_neg (by simp [hacc]), if_neg hnc]
          obtain ⟨vs, v1, v2, v3, v4⟩ := ih (i + 1) (by omega) (by omega)
          refine ⟨⟨i, none⟩ :: vs, by rw [hgo _ _ he2, v1]; rfl, ?_, ?_, ?_⟩
          · exact List.pairwise_cons.2 ⟨fun v hv => by have := (v3 v hv).1; simp only; omega, v2⟩
          · intro v hv
            rcases List.mem_cons.1 hv with rfl | hv
            · exact ⟨le_rfl, hil, by simp, by simp, by simp⟩
            · exact ⟨by have := (v3 v hv).1; omega, (v3 v hv).2⟩
          · have hk := D.kid i hil hnc
            rw [hk] at v4
            simp only [sources, List.flatMap_cons] at v4 ⊢
            rw [v4, hsi]
            by_cases hit : i ≤ t
            · rw [if_pos (by omega), if_pos hit]; simp
            · rw [if_neg (by omega), if_neg hit]; simp

/-- The comparison of codes decides whether the source node is the target or an ancestor of it. -/
theorem travStep_spec (I : BuildInput g codes) {split : Nat} {tree : List Node} {crit : List CNode}
    (h : IsBuild g codes split (.ok (tree, crit))) {over : Overshift} (ho : over.Small) (acc : Nat → Bool) {t : Nat} (ht : t < tree.length)
    (i : Nat) (hi : i < tree.length) :
    travStep over g.w g.d tree[t].code acc i tree[i] = .ok (specStep t acc i tree[i]) := by
  obtain ⟨ps, hlen, -, hsort, hmem, hall⟩ := C11_depth_first I h
  obtain ⟨ci, li, ri, ri2, mi, si, di⟩ := hall i hi
  obtain ⟨ct, lt, rt, rt2, mt, st, dt⟩ := hall t ht
  have n1 := (hmem _).1 (List.getElem_mem (by omega : i < ps.length))
  have n2 := (hmem _).1 (List.getElem_mem (by omega : t < ps.length))
  have o1 := isNode_ok (g := g) n1
  have o2 := isNode_ok (g := g) n2
  have hnd := before_nodup hsort
  have hanc : (i ≤ t ∧ t ≤ i + tree[i].nChildren) ↔ ps[i] <+: ps[t] := by
    constructor
    · rintro ⟨h1, h2⟩
      rcases Nat.eq_or_lt_of_le h1 with rfl | h1
      · exact List.prefix_rfl
      · exact ((di t ht).1 ⟨h1, h2⟩).1
    · intro hp
      by_cases he : ps[i] = ps[t]
      · have := (hnd.getElem_inj_iff).1 he
        omega
      · have := (di t ht).2 ⟨hp, he⟩
        omega
  have heq : tree[i].code = tree[t].code ↔ i = t := by
    rw [ci, ct]
    constructor
    · intro he
      exact (hnd.getElem_inj_iff).1 (code_inj g.d I.dim.1 _ _ o1 o2 he)
    · rintro rfl; rfl
  have hlev : treeLevel g.w g.d tree[t].code = ps[t].length := by
    rw [ct]; exact treeLevel_code I.dim.1 I.dim.2.1 _ o2 n2.1
  have hsh : ∃ s, shrO over g.w tree[t].code (mulSz (subW g.w (treeLevel g.w g.d tree[t].code) tree[i].level) g.d) = some s ∧
      (s = tree[i].code ↔ ps[i] <+: ps[t]) := by
    rw [hlev, li]
    rcases Nat.lt_or_ge ps[t].length ps[i].length with hl | hl
    · have hnp : ¬ ps[i] <+: ps[t] := fun hp => by have := hp.length_le; omega
      have hlt : tree[t].code < tree[i].code := by
        rw [ct, ci]
        have e1 := code_lt g.d ps[t] o2
        have e2 := code_eq g.d ps[i]
        have e3 : 2 ^ (ps[t].length * g.d + 1) ≤ 2 ^ (ps[i].length * g.d) := by
          apply Nat.pow_le_pow_right (by norm_num)
          have : (ps[t].length + 1) * g.d ≤ ps[i].length * g.d := Nat.mul_le_mul_right _ hl
          rw [Nat.succ_mul] at this
          have := I.dim.1
          omega
        omega
      have hy : ∃ y ≤ tree[t].code, shrO over g.w tree[t].code (mulSz (subW g.w ps[t].length ps[i].length) g.d) = some y := by
        unfold shrO
        split
        · exact ⟨_, Nat.shiftRight_le _ _, rfl⟩
        · exact ho _ _
      obtain ⟨y, hy1, hy2⟩ := hy
      exact ⟨y, hy2, by constructor
                        · intro h; omega
                        · intro h; exact absurd h hnp⟩
    · obtain ⟨e1, e2⟩ := (shiftAmount I.dim.1 I.dim.2.1 I.dim.2.2 n2.1 n1.1).1 hl
      rw [e1]
      refine ⟨tree[t].code >>> ((ps[t].length - ps[i].length) * g.d), by unfold shrO; rw [if_pos e2], ?_⟩
      rw [ct, code_shiftRight o2 hl, ci]
      constructor
      · intro he
        have ok' : Path.Ok g.d (ps[t].take ps[i].length) := fun x hx => o2 x (List.mem_of_mem_take hx)
        have := code_inj g.d I.dim.1 _ _ ok' o1 he
        rw [← this]; exact List.take_prefix _ _
      · intro hp
        rw [← List.prefix_iff_eq_take.1 hp]
  obtain ⟨s, hs1, hs2⟩ := hsh
  unfold travStep specStep
  rw [hs1]
  simp only [ofUB, bind, Except.bind]
  by_cases ha : ps[i] <+: ps[t]
  · rw [if_pos (hs2.2 ha), if_pos (hanc.2 ha)]
    by_cases hit : i = t
    · rw [if_pos (heq.2 hit), if_pos hit]
    · rw [if_neg (fun e => hit (heq.1 e)), if_neg hit]
  · rw [if_neg (fun e => ha (hs2.1 e)), if_neg (fun e => ha (hanc.1 e))]

end Rakau
