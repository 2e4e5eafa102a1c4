import Verif.Spec.Builder
import Verif.Spec.Regions
import Verif.Proof.Canon

/-! Programs with objects of their own: no task touches what another one owns, and what all tasks leave together does not depend on the interleaving. -/
namespace Rakau
namespace Builder
open Spec

/-- The cells of a list with their numbers. -/
def cells {α : Type} (l : List α) : List (Nat × α) := (List.range l.length).zip l

section cells
variable {α : Type} {l : List α}

theorem cells_append (a : α) : (cells (l ++ [a])).Perm ((l.length, a) :: cells l) := by
  unfold cells
  rw [List.length_append, List.length_singleton, List.range_succ, List.zip_append (by simp)]
  exact List.perm_append_comm

theorem mem_cells {r : Nat} {a : α} : (r, a) ∈ cells l ↔ l[r]? = some a := by
  unfold cells
  rw [List.mem_iff_getElem?]
  constructor
  · rintro ⟨i, hi⟩
    rw [List.getElem?_zip_eq_some] at hi
    obtain ⟨h1, h2⟩ := hi
    obtain ⟨h3, h4⟩ := List.getElem?_eq_some_iff.1 h1
    rw [List.getElem_range] at h4
    simp only at h4 h2
    rw [← h4]; exact h2
  · intro h
    refine ⟨r, ?_⟩
    rw [List.getElem?_zip_eq_some]
    obtain ⟨h1, _⟩ := List.getElem?_eq_some_iff.1 h
    exact ⟨by rw [List.getElem?_range h1], h⟩

theorem cells_keys : (cells l).map Prod.fst = List.range l.length := by
  unfold cells
  rw [List.map_fst_zip]
  simp

theorem cells_nodup : ((cells l).map Prod.fst).Nodup := by rw [cells_keys]; exact List.nodup_range

theorem cells_vals : (cells l).map Prod.snd = l := by
  unfold cells
  rw [List.map_snd_zip]
  simp

theorem cells_set {r : Nat} {a b : α} {rest : List (Nat × α)} (h : (cells l).Perm ((r, a) :: rest)) : (cells (l.set r b)).Perm ((r, b) :: rest) := by
  have h1 : l[r]? = some a := mem_cells.1 (h.symm.subset List.mem_cons_self)
  have hf : ∀ x ∈ cells l, (if x.1 = r then (r, b) else x) = if x.1 = r then (r, b) else x := fun _ _ => rfl
  have e : cells (l.set r b) = (cells l).map (fun x => if x.1 = r then (r, b) else x) := by
    apply List.ext_getElem?
    intro i
    unfold cells
    rw [List.getElem?_map, List.length_set]
    by_cases hi : i < l.length
    · rw [(List.getElem?_zip_eq_some (z := (i, (l.set r b)[i]'(by simpa using hi)))).2 ⟨by rw [List.getElem?_range hi], by rw [List.getElem?_eq_getElem]⟩,
        (List.getElem?_zip_eq_some (z := (i, l[i]))).2 ⟨by rw [List.getElem?_range hi], by rw [List.getElem?_eq_getElem]⟩]
      by_cases hir : i = r
      · subst hir; simp
      · have hir' : r ≠ i := fun h => hir h.symm
        simp [hir, hir']
    · rw [List.getElem?_eq_none (by simpa using hi), List.getElem?_eq_none (by simpa using hi)]
      rfl
  rw [e]
  refine (h.map _).trans ?_
  rw [List.map_cons, if_pos rfl]
  have hn : ((r, a) :: rest).map Prod.fst |>.Nodup := (h.map Prod.fst).nodup_iff.1 cells_nodup
  rw [List.map_cons, List.nodup_cons] at hn
  rw [show rest.map (fun x => if x.1 = r then (r, b) else x) = rest from ?_]
  conv_rhs => rw [← List.map_id rest]
  refine List.map_congr_left (fun x hx => ?_)
  rw [if_neg]
  · rfl
  · intro hxr
    have hm : x.1 ∈ rest.map Prod.fst := List.mem_map_of_mem hx
    rw [hxr] at hm
    exact hn.1 hm

end cells

/-- The programs that, with objects `m` and counters `c` of their own, finally own objects with contents `R`, and add `a i` to the counter `i` of somebody else. -/
def Sp : B → List (Nat × Obj) → List (Nat × Nat) → List Obj → (Nat → Nat) → Prop
  | .skip, m, _, R, a => R.Perm (m.map Prod.snd) ∧ ∀ i, a i = 0
  | .throw _, _, _, _, _ => False
  | .push o k, m, c, R, a => ∀ r, Sp (k r) ((r, o) :: m) c R a
  | .get r k, m, c, R, a => ∃ o rest, m.Perm ((r, o) :: rest) ∧ Sp (k o) m c R a
  | .set r o p, m, c, R, a => ∃ o' rest, m.Perm ((r, o') :: rest) ∧ Sp p ((r, o) :: rest) c R a
  | .newCtr k, m, c, R, a => ∀ r, a r = 0 → Sp (k r) m ((r, 0) :: c) R a
  | .add r x k, m, c, R, a => 0 < a r ∧ ∃ a', (∀ i, a i = a' i + if i = r then x else 0) ∧ ∀ prev, prev + x < 2 ^ 64 → Sp (k prev) m c R a'
  | .load r k, m, c, R, a => ∃ v rest, c.Perm ((r, v) :: rest) ∧ Sp (k v) m c R a
  | .seq p q, m, c, R, a => ∃ m0 m1 c0 c1 R1 R2 a1 a2, m.Perm (m0 ++ m1) ∧ c.Perm (c0 ++ c1) ∧ R.Perm (R1 ++ R2) ∧ Sp p m1 c1 R1 a1 ∧
      Sp q m0 (c0.map (fun x => (x.1, x.2 + a1 x.1))) R2 a2 ∧ (∀ x ∈ c0, 0 < a1 x.1 → x.2 + a1 x.1 < 2 ^ 64) ∧ (∀ x ∈ c1, a1 x.1 = 0) ∧ (∀ x ∈ c0 ++ c1, a2 x.1 = 0) ∧
      (∀ i, (∀ x ∈ c0, x.1 ≠ i) → a i = a1 i + a2 i)
  | .par p q, m, c, R, a => ∃ m1 m2 c1 c2 R1 R2 a1 a2, m.Perm (m1 ++ m2) ∧ c.Perm (c1 ++ c2) ∧ R.Perm (R1 ++ R2) ∧ Sp p m1 c1 R1 a1 ∧ Sp q m2 c2 R2 a2 ∧
      (∀ x ∈ c1 ++ c2, a1 x.1 = 0 ∧ a2 x.1 = 0) ∧ (∀ i, a i = a1 i + a2 i)

/-- What is left of a finished program. -/
theorem Sp.done {p : B} (hp : p.fin = true) {m : List (Nat × Obj)} {c : List (Nat × Nat)} {R : List Obj} {a : Nat → Nat} (h : Sp p m c R a) (ha : ∀ x ∈ c, a x.1 = 0) :
    R.Perm (m.map Prod.snd) ∧ ∀ i, a i = 0 := by
  induction p generalizing m c R a with
  | skip => exact h
  | throw | push | get | set | newCtr | add | load => simp [B.fin] at hp
  | seq p q ihp ihq =>
    simp only [B.fin, Bool.and_eq_true] at hp
    obtain ⟨m0, m1, c0, c1, R1, R2, a1, a2, h1, h2, h3, h4, h5, _, h7, h8, h9⟩ := h
    obtain ⟨p1, p2⟩ := ihp hp.1 h4 h7
    obtain ⟨q1, q2⟩ := ihq hp.2 h5 (by
      intro x hx
      obtain ⟨y, hy, rfl⟩ := List.mem_map.1 hx
      exact h8 y (List.mem_append_left _ hy))
    refine ⟨h3.trans ((p1.append q1).trans ?_), fun i => ?_⟩
    · rw [← List.map_append]
      exact (List.perm_append_comm.trans h1.symm).map _
    · by_cases hi : ∃ x ∈ c0, x.1 = i
      · obtain ⟨x, hx, rfl⟩ := hi
        exact ha x (h2.symm.subset (List.mem_append_left _ hx))
      · rw [h9 i (fun x hx he => hi ⟨x, hx, he⟩), p2, q2]
  | par p q ihp ihq =>
    simp only [B.fin, Bool.and_eq_true] at hp
    obtain ⟨m1, m2, c1, c2, R1, R2, a1, a2, h1, h2, h3, h4, h5, h6, h7⟩ := h
    obtain ⟨p1, p2⟩ := ihp hp.1 h4 (fun x hx => (h6 x (List.mem_append_left _ hx)).1)
    obtain ⟨q1, q2⟩ := ihq hp.2 h5 (fun x hx => (h6 x (List.mem_append_right _ hx)).2)
    refine ⟨h3.trans ((p1.append q1).trans ?_), fun i => by rw [h7, p2, q2]⟩
    rw [← List.map_append]
    exact h1.symm.map _

/-- The heap `h` consists of the own objects and counters and those of others, and there is room in the counters of others. -/
structure Owns (h : Heap) (m : List (Nat × Obj)) (c : List (Nat × Nat)) (fm : List (Nat × Obj)) (fc : List (Nat × Nat)) (a : Nat → Nat) : Prop where
  objs : (cells h.objs).Perm (m ++ fm)
  ctrs : (cells h.ctrs).Perm (c ++ fc)
  own : ∀ x ∈ c, a x.1 = 0
  old : ∀ i, h.ctrs.length ≤ i → a i = 0
  room : ∀ x ∈ fc, 0 < a x.1 → x.2 + a x.1 < 2 ^ 64

/-- Counters after some additions: `a` was still to be added, now `a'` is. -/
def bump (a a' : Nat → Nat) (fc : List (Nat × Nat)) : List (Nat × Nat) := fc.map (fun x => (x.1, x.2 + (a x.1 - a' x.1)))

theorem bump_same {a a' : Nat → Nat} {fc : List (Nat × Nat)} (h : ∀ x ∈ fc, a x.1 = a' x.1) : bump a a' fc = fc := by
  unfold bump
  conv_rhs => rw [← List.map_id fc]
  exact List.map_congr_left (fun x hx => by simp [h x hx])

theorem bump_append {a a' : Nat → Nat} (l l' : List (Nat × Nat)) : bump a a' (l ++ l') = bump a a' l ++ bump a a' l' := List.map_append

theorem bump_congr {a a' b b' : Nat → Nat} {l : List (Nat × Nat)} (h : ∀ x ∈ l, a x.1 - a' x.1 = b x.1 - b' x.1) : bump a a' l = bump b b' l :=
  List.map_congr_left (fun x hx => by rw [h x hx])

theorem key_lt {α : Type} {l : List α} {k fk : List (Nat × α)} (h : (cells l).Perm (k ++ fk)) {x : Nat × α} (hx : x ∈ k ++ fk) : x.1 < l.length := by
  have := h.symm.subset hx
  obtain ⟨r, a⟩ := x
  exact (List.getElem?_eq_some_iff.1 (mem_cells.1 this)).1

theorem key_ne {α : Type} {l : List α} {k fk : List (Nat × α)} (h : (cells l).Perm (k ++ fk)) {x y : Nat × α} (hx : x ∈ k) (hy : y ∈ fk) : x.1 ≠ y.1 := by
  have hn : ((k ++ fk).map Prod.fst).Nodup := (h.map Prod.fst).nodup_iff.1 cells_nodup
  rw [List.map_append, List.nodup_append] at hn
  exact hn.2.2 _ (List.mem_map_of_mem hx) _ (List.mem_map_of_mem hy)

theorem bump_keys {a a' : Nat → Nat} {l : List (Nat × Nat)} {i : Nat} : (∃ x ∈ bump a a' l, x.1 = i) ↔ ∃ x ∈ l, x.1 = i := by
  unfold bump
  constructor
  · rintro ⟨x, hx, rfl⟩
    obtain ⟨y, hy, rfl⟩ := List.mem_map.1 hx
    exact ⟨y, hy, rfl⟩
  · rintro ⟨x, hx, rfl⟩
    exact ⟨_, List.mem_map_of_mem hx, rfl⟩

/-- The counters that a program owns after an operation are those it owned before, and new ones. -/
theorem Owns.keys {h h' : Heap} {m m' fm : List (Nat × Obj)} {c c' fc : List (Nat × Nat)} {a a' : Nat → Nat} (O : Owns h m c fm fc a) (O' : Owns h' m' c' fm (bump a a' fc) a')
    {x : Nat × Nat} (hx : x ∈ c') (hl : x.1 < h.ctrs.length) : ∃ y ∈ c, y.1 = x.1 := by
  have hm : (x.1, h.ctrs[x.1]) ∈ c ++ fc := O.ctrs.subset (mem_cells.2 (List.getElem?_eq_getElem hl))
  rcases List.mem_append.1 hm with hy | hy
  · exact ⟨_, hy, rfl⟩
  · obtain ⟨z, hz, he⟩ := bump_keys (a := a) (a' := a').2 ⟨_, hy, rfl⟩
    exact absurd (show x.1 = z.1 from he.symm) (key_ne O'.ctrs hx hz)

/-- Every operation keeps the plan: the contents that the program finally owns, and what it adds to the counters of others. -/
theorem Sp.step {p : B} {m : List (Nat × Obj)} {c : List (Nat × Nat)} {R : List Obj} {a : Nat → Nat} (hS : Sp p m c R a) {h : Heap} {fm : List (Nat × Obj)} {fc : List (Nat × Nat)}
    (O : Owns h m c fm fc a) {s : Option (Nat × Bool) × Heap × B} (hs : s ∈ p.steps h) :
    ∃ m' c' a', Sp s.2.2 m' c' R a' ∧ Owns s.2.1 m' c' fm (bump a a' fc) a' ∧ (∀ i, a' i ≤ a i) ∧ h.ctrs.length ≤ s.2.1.ctrs.length := by
  induction p generalizing m c R a fm fc s with
  | skip => simp [B.steps] at hs
  | throw e => exact hS.elim
  | push o k ih =>
    simp only [B.steps, List.mem_singleton] at hs
    subst hs
    refine ⟨(h.objs.length, o) :: m, c, a, hS _, ⟨(cells_append o).trans (O.objs.cons _), by rw [bump_same (fun _ _ => rfl)]; exact O.ctrs, O.own, O.old, ?_⟩, fun _ => le_rfl, le_rfl⟩
    rw [bump_same (fun _ _ => rfl)]; exact O.room
  | get r k ih =>
    simp only [B.steps, List.mem_singleton] at hs
    subst hs
    obtain ⟨o, rest, h1, h2⟩ := hS
    have : h.objs[r]? = some o := mem_cells.1 (O.objs.symm.subset (List.mem_append_left _ (h1.symm.subset List.mem_cons_self)))
    refine ⟨m, c, a, ?_, ?_, fun _ => le_rfl, le_rfl⟩
    · simp only [this]; exact h2
    · rw [bump_same (fun _ _ => rfl)]; exact O
  | set r o p ih =>
    simp only [B.steps, List.mem_singleton] at hs
    subst hs
    obtain ⟨o', rest, h1, h2⟩ := hS
    have hp : (cells h.objs).Perm ((r, o') :: (rest ++ fm)) := O.objs.trans (h1.append_right fm)
    have : h.objs[r]? = some o' := mem_cells.1 (hp.symm.subset List.mem_cons_self)
    obtain ⟨hr, _⟩ := List.getElem?_eq_some_iff.1 this
    refine ⟨(r, o) :: rest, c, a, ?_, ⟨cells_set hp, ?_, O.own, O.old, ?_⟩, fun _ => le_rfl, le_rfl⟩
    · simp only [hr, if_true]; exact h2
    · rw [bump_same (fun _ _ => rfl)]; exact O.ctrs
    · rw [bump_same (fun _ _ => rfl)]; exact O.room
  | newCtr k ih =>
    simp only [B.steps, List.mem_singleton] at hs
    subst hs
    have h0 := O.old _ le_rfl
    refine ⟨m, (h.ctrs.length, 0) :: c, a, hS _ h0, ⟨O.objs, ?_, ?_, ?_, ?_⟩, fun _ => le_rfl, by simp⟩
    · rw [bump_same (fun _ _ => rfl)]; exact (cells_append 0).trans (O.ctrs.cons _)
    · intro x hx
      rcases List.mem_cons.1 hx with rfl | hx
      · exact h0
      · exact O.own x hx
    · intro i hi
      exact O.old i (by simp at hi; omega)
    · rw [bump_same (fun _ _ => rfl)]; exact O.room
  | add r x k ih =>
    simp only [B.steps, List.mem_singleton] at hs
    subst hs
    obtain ⟨h0, a', h1, h2⟩ := hS
    have hr : r < h.ctrs.length := by
      by_contra hc
      have := O.old r (by omega)
      omega
    have hmem : (r, h.ctrs[r]) ∈ c ++ fc := O.ctrs.subset (mem_cells.2 (List.getElem?_eq_getElem hr))
    have hfc : (r, h.ctrs[r]) ∈ fc := by
      rcases List.mem_append.1 hmem with hx | hx
      · have := O.own _ hx
        simp only at this
        omega
      · exact hx
    have hroom : h.ctrs[r] + a r < 2 ^ 64 := O.room _ hfc h0
    have har := h1 r
    rw [if_pos rfl] at har
    have hne : ∀ i, i ≠ r → a i = a' i := fun i hi => by rw [h1 i, if_neg hi]; rfl
    obtain ⟨f0, hf0⟩ : ∃ f0, fc.Perm ((r, h.ctrs[r]) :: f0) := ⟨_, List.perm_cons_erase hfc⟩
    have hp : (cells h.ctrs).Perm ((r, h.ctrs[r]) :: (c ++ f0)) := O.ctrs.trans ((hf0.append_left c).trans List.perm_middle)
    have hnd : ((r, h.ctrs[r]) :: (c ++ f0)).map Prod.fst |>.Nodup := (hp.map Prod.fst).nodup_iff.1 cells_nodup
    rw [List.map_cons, List.nodup_cons] at hnd
    have hkey : ∀ y ∈ c ++ f0, y.1 ≠ r := by
      intro y hy he
      have hm : y.1 ∈ (c ++ f0).map Prod.fst := List.mem_map_of_mem hy
      rw [he] at hm
      exact hnd.1 hm
    have hb : (bump a a' fc).Perm ((r, h.ctrs[r] + x) :: f0) := by
      refine (hf0.map _).trans ?_
      rw [List.map_cons]
      have : f0.map (fun y => (y.1, y.2 + (a y.1 - a' y.1))) = f0 := bump_same (fun y hy => hne _ (hkey y (List.mem_append_right _ hy)))
      rw [this]
      have e2 : a r - a' r = x := by omega
      simp only [e2]
      exact List.Perm.refl _
    have hset : h.ctrs.modify r (fun v => (v + x) % 2 ^ 64) = h.ctrs.set r (h.ctrs[r] + x) := by
      apply List.ext_getElem?
      intro i
      rw [List.getElem?_modify, List.getElem?_set]
      by_cases hi : r = i
      · subst hi
        rw [if_pos rfl, if_pos hr, List.getElem?_eq_getElem hr]
        simp only [if_true, Option.map_eq_map, Option.map_some]
        rw [Nat.mod_eq_of_lt (by omega)]
      · rw [if_neg hi]
        simp [hi]
    refine ⟨m, c, a', ?_, ⟨O.objs, ?_, ?_, ?_, ?_⟩, ?_, by simp⟩
    · simp only [List.getElem?_eq_getElem hr]
      exact h2 _ (by omega)
    · show (cells (h.ctrs.modify r (fun v => (v + x) % 2 ^ 64))).Perm _
      rw [hset]
      exact (cells_set hp).trans (List.perm_middle.symm.trans (hb.symm.append_left c))
    · intro y hy
      rw [← hne _ (hkey y (List.mem_append_left _ hy))]
      exact O.own y hy
    · intro i hi
      rw [List.length_modify] at hi
      have := O.old i hi
      have := h1 i
      omega
    · intro y hy hpos
      rcases List.mem_cons.1 (hb.subset hy) with rfl | hy
      · show h.ctrs[r] + x + a' r < 2 ^ 64
        omega
      · rw [← hne _ (hkey y (List.mem_append_right _ hy))] at hpos ⊢
        exact O.room y (hf0.symm.subset (List.mem_cons_of_mem _ hy)) hpos
    · intro i
      rw [h1 i]; omega
  | load r k ih =>
    simp only [B.steps, List.mem_singleton] at hs
    subst hs
    obtain ⟨v, rest, h1, h2⟩ := hS
    have : h.ctrs[r]? = some v := mem_cells.1 (O.ctrs.symm.subset (List.mem_append_left _ (h1.symm.subset List.mem_cons_self)))
    refine ⟨m, c, a, ?_, ?_, fun _ => le_rfl, le_rfl⟩
    · simp only [this]; exact h2
    · rw [bump_same (fun _ _ => rfl)]; exact O
  | seq p q ihp ihq =>
    obtain ⟨m0, m1, c0, c1, R1, R2, a1, a2, h1, h2, h3, h4, h5, h6, h7, h8, h9⟩ := hS
    have hk0 : ∀ x ∈ fc, ∀ y ∈ c0, y.1 ≠ x.1 := fun x hx y hy => key_ne O.ctrs (h2.symm.subset (List.mem_append_left _ hy)) hx
    have hfc : ∀ x ∈ fc, a x.1 = a1 x.1 + a2 x.1 := fun x hx => h9 _ (hk0 x hx)
    have hold : ∀ i, h.ctrs.length ≤ i → a1 i = 0 ∧ a2 i = 0 := by
      intro i hi
      have := h9 i (fun x hx he => by
        have := key_lt O.ctrs (List.mem_append_left fc (h2.symm.subset (List.mem_append_left _ hx)))
        omega)
      rw [O.old i hi] at this
      omega
    by_cases hf : p.fin = true
    · simp only [B.steps, hf, if_true, List.mem_map] at hs
      obtain ⟨t, ht, rfl⟩ := hs
      obtain ⟨d1, d2⟩ := h4.done hf h7
      have e0 : c0.map (fun x => (x.1, x.2 + a1 x.1)) = c0 := by
        conv_rhs => rw [← List.map_id c0]
        exact List.map_congr_left (fun x _ => by simp [d2])
      rw [e0] at h5
      have O2 : Owns h m0 c0 (m1 ++ fm) (c1 ++ fc) a2 :=
        ⟨O.objs.trans ((h1.append_right fm).trans (by rw [List.append_assoc])), O.ctrs.trans ((h2.append_right fc).trans (by rw [List.append_assoc])),
          fun x hx => h8 x (List.mem_append_left _ hx), fun i hi => (hold i hi).2, by
            intro x hx hpos
            rcases List.mem_append.1 hx with hx | hx
            · rw [h8 x (List.mem_append_right _ hx)] at hpos; omega
            · have := hfc x hx
              have := O.room x hx (by omega)
              omega⟩
      obtain ⟨m', c', a', i1, i2, i3, i4⟩ := ihq h5 O2 ht
      have hc1 : ∀ x ∈ c1, a' x.1 = 0 := fun x hx => by
        have := h8 x (List.mem_append_right _ hx)
        have := i3 x.1
        omega
      have hb : bump a2 a' (c1 ++ fc) = c1 ++ bump a a' fc := by
        rw [bump_append, bump_same (fun x hx => by rw [h8 x (List.mem_append_right _ hx), hc1 x hx])]
        congr 1
        exact bump_congr (fun x hx => by rw [hfc x hx, d2]; omega)
      have hown : ∀ x ∈ c' ++ c1, a' x.1 = 0 := by
        intro x hx
        rcases List.mem_append.1 hx with hx | hx
        · exact i2.own x hx
        · exact hc1 x hx
      refine ⟨m' ++ m1, c' ++ c1, a', ⟨m', m1, c', c1, R1, R2, a1, a', .refl _, .refl _, h3, h4, ?_, fun x _ hpos => by rw [d2] at hpos; omega, h7, hown, fun i _ => by rw [d2]; omega⟩,
        ⟨?_, ?_, hown, i2.old, ?_⟩, ?_, i4⟩
      · rw [show c'.map (fun x => (x.1, x.2 + a1 x.1)) = c' from ?_]
        · exact i1
        · conv_rhs => rw [← List.map_id c']
          exact List.map_congr_left (fun x _ => by simp [d2])
      · rw [List.append_assoc]; exact i2.objs
      · rw [List.append_assoc, ← hb]; exact i2.ctrs
      · intro x hx hpos
        exact i2.room x (by rw [hb]; exact List.mem_append_right _ hx) hpos
      · intro i
        by_cases hi : ∃ x ∈ c0, x.1 = i
        · obtain ⟨x, hx, rfl⟩ := hi
          have := h8 x (List.mem_append_left _ hx)
          have := i3 x.1
          omega
        · rw [h9 i (fun x hx he => hi ⟨x, hx, he⟩), d2]
          have := i3 i
          omega
    · rw [Bool.not_eq_true] at hf
      simp only [B.steps, hf, Bool.false_eq_true, if_false, List.mem_map] at hs
      obtain ⟨t, ht, rfl⟩ := hs
      have O2 : Owns h m1 c1 (m0 ++ fm) (c0 ++ fc) a1 :=
        ⟨O.objs.trans (((h1.trans List.perm_append_comm).append_right fm).trans (by rw [List.append_assoc])),
          O.ctrs.trans (((h2.trans List.perm_append_comm).append_right fc).trans (by rw [List.append_assoc])), h7, fun i hi => (hold i hi).1, by
            intro x hx hpos
            rcases List.mem_append.1 hx with hx | hx
            · exact h6 x hx hpos
            · have := hfc x hx
              have := O.room x hx (by omega)
              omega⟩
      obtain ⟨m', c', a1', i1, i2, i3, i4⟩ := ihp h4 O2 ht
      classical
      set b : Nat → Nat := fun i => if ∃ x ∈ c0, x.1 = i then a i else a1' i + a2 i with hbdef
      have hbfc : ∀ x ∈ fc, b x.1 = a1' x.1 + a2 x.1 := fun x hx => by
        simp only [hbdef]
        rw [if_neg]
        rintro ⟨y, hy, he⟩
        exact hk0 x hx y hy he
      have hb : bump a1 a1' fc = bump a b fc := bump_congr (fun x hx => by rw [hbfc x hx, hfc x hx]; omega)
      have hc' : ∀ x ∈ c', a2 x.1 = 0 := by
        intro x hx
        by_cases hl : x.1 < h.ctrs.length
        · obtain ⟨y, hy, he⟩ := O2.keys i2 hx hl
          rw [← he]
          exact h8 y (List.mem_append_right _ hy)
        · exact (hold x.1 (by omega)).2
      have hle : ∀ i, b i ≤ a i := by
        intro i
        simp only [hbdef]
        split
        · exact le_rfl
        · rename_i hn
          rw [h9 i (fun x hx he => hn ⟨x, hx, he⟩)]
          have := i3 i
          omega
      refine ⟨m0 ++ m', bump a1 a1' c0 ++ c', b, ⟨m0, m', bump a1 a1' c0, c', R1, R2, a1', a2, .refl _, .refl _, h3, i1, ?_, ?_, i2.own, ?_, ?_⟩, ⟨?_, ?_, ?_, ?_, ?_⟩, hle, i4⟩
      · rw [show (bump a1 a1' c0).map (fun x => (x.1, x.2 + a1' x.1)) = c0.map (fun x => (x.1, x.2 + a1 x.1)) from ?_]
        · exact h5
        · unfold bump
          rw [List.map_map]
          refine List.map_congr_left (fun x _ => ?_)
          have := i3 x.1
          simp only [Function.comp]
          congr 1
          omega
      · intro x hx hpos
        obtain ⟨y, hy, rfl⟩ := List.mem_map.1 hx
        have := i3 y.1
        simp only at hpos
        have := h6 y hy (by omega)
        simp only
        omega
      · intro x hx
        rcases List.mem_append.1 hx with hx | hx
        · obtain ⟨y, hy, rfl⟩ := List.mem_map.1 hx
          exact h8 y (List.mem_append_left _ hy)
        · exact hc' x hx
      · intro i hi
        simp only [hbdef]
        rw [if_neg]
        intro he
        obtain ⟨x, hx, he⟩ := bump_keys.2 he
        exact hi x hx he
      · refine i2.objs.trans ?_
        rw [← List.append_assoc]
        exact List.perm_append_comm.append_right fm
      · refine i2.ctrs.trans ?_
        rw [bump_append, ← List.append_assoc, hb]
        exact List.perm_append_comm.append_right _
      · intro x hx
        rcases List.mem_append.1 hx with hx | hx
        · obtain ⟨y, hy, he⟩ := bump_keys.1 ⟨x, hx, rfl⟩
          have h1 : a x.1 = 0 := by rw [← he]; exact O.own y (h2.symm.subset (List.mem_append_left _ hy))
          have := hle x.1
          omega
        · simp only [hbdef]
          split
          · rename_i hn
            obtain ⟨y, hy, he⟩ := hn
            rw [← he]
            exact O.own y (h2.symm.subset (List.mem_append_left _ hy))
          · rw [i2.own x hx, hc' x hx]
      · intro i hi
        have := O.old i (by simp only at i4 hi; omega)
        have := hle i
        omega
      · intro x hx hpos
        obtain ⟨y, hy, rfl⟩ := List.mem_map.1 hx
        have := hle y.1
        simp only at hpos
        have := O.room y hy (by omega)
        simp only
        omega
  | par p q ihp ihq =>
    obtain ⟨m1, m2, c1, c2, R1, R2, a1, a2, h1, h2, h3, h4, h5, h6, h7⟩ := hS
    have hold : ∀ i, h.ctrs.length ≤ i → a1 i = 0 ∧ a2 i = 0 := by
      intro i hi
      have := h7 i
      rw [O.old i hi] at this
      omega
    simp only [B.steps, List.mem_append, List.mem_map] at hs
    rcases hs with ⟨t, ht, rfl⟩ | ⟨t, ht, rfl⟩
    · have O2 : Owns h m1 c1 (m2 ++ fm) (c2 ++ fc) a1 :=
        ⟨O.objs.trans ((h1.append_right fm).trans (by rw [List.append_assoc])), O.ctrs.trans ((h2.append_right fc).trans (by rw [List.append_assoc])),
          fun x hx => (h6 x (List.mem_append_left _ hx)).1, fun i hi => (hold i hi).1, by
            intro x hx hpos
            rcases List.mem_append.1 hx with hx | hx
            · rw [(h6 x (List.mem_append_right _ hx)).1] at hpos; omega
            · have := h7 x.1
              have := O.room x hx (by omega)
              omega⟩
      obtain ⟨m', c', a', i1, i2, i3, i4⟩ := ihp h4 O2 ht
      have hb : bump a1 a' (c2 ++ fc) = c2 ++ bump a (fun i => a' i + a2 i) fc := by
        rw [bump_append, bump_same (fun x hx => by
          have := (h6 x (List.mem_append_right _ hx)).1
          have := i3 x.1
          omega)]
        congr 1
        exact bump_congr (fun x hx => by rw [h7]; omega)
      have hown : ∀ x ∈ c' ++ c2, a' x.1 = 0 ∧ a2 x.1 = 0 := by
        intro x hx
        rcases List.mem_append.1 hx with hx | hx
        · refine ⟨i2.own x hx, ?_⟩
          by_cases hl : x.1 < h.ctrs.length
          · obtain ⟨y, hy, he⟩ := O2.keys i2 hx hl
            rw [← he]
            exact (h6 y (List.mem_append_left _ hy)).2
          · exact (hold x.1 (by omega)).2
        · obtain ⟨e1, e2⟩ := h6 x (List.mem_append_right _ hx)
          have := i3 x.1
          exact ⟨by omega, e2⟩
      refine ⟨m' ++ m2, c' ++ c2, fun i => a' i + a2 i, ⟨m', m2, c', c2, R1, R2, a', a2, .refl _, .refl _, h3, i1, h5, hown, fun _ => rfl⟩, ⟨?_, ?_, ?_, ?_, ?_⟩, ?_, i4⟩
      · rw [List.append_assoc]; exact i2.objs
      · rw [List.append_assoc, ← hb]; exact i2.ctrs
      · intro x hx
        obtain ⟨e1, e2⟩ := hown x hx
        simp only [e1, e2]
      · intro i hi
        have e1 := i2.old i hi
        have e2 := (hold i (by simp only at i4 hi; omega)).2
        simp only [e1, e2]
      · intro x hx hpos
        obtain ⟨y, hy, rfl⟩ := List.mem_map.1 hx
        have := i3 y.1
        have := h7 y.1
        simp only at hpos
        have := O.room y hy (by omega)
        simp only
        omega
      · intro i
        have := i3 i
        have := h7 i
        simp only
        omega
    · have O2 : Owns h m2 c2 (m1 ++ fm) (c1 ++ fc) a2 :=
        ⟨O.objs.trans (((h1.trans List.perm_append_comm).append_right fm).trans (by rw [List.append_assoc])),
          O.ctrs.trans (((h2.trans List.perm_append_comm).append_right fc).trans (by rw [List.append_assoc])),
          fun x hx => (h6 x (List.mem_append_right _ hx)).2, fun i hi => (hold i hi).2, by
            intro x hx hpos
            rcases List.mem_append.1 hx with hx | hx
            · rw [(h6 x (List.mem_append_left _ hx)).2] at hpos; omega
            · have := h7 x.1
              have := O.room x hx (by omega)
              omega⟩
      obtain ⟨m', c', a', i1, i2, i3, i4⟩ := ihq h5 O2 ht
      have hb : bump a2 a' (c1 ++ fc) = c1 ++ bump a (fun i => a1 i + a' i) fc := by
        rw [bump_append, bump_same (fun x hx => by
          have := (h6 x (List.mem_append_left _ hx)).2
          have := i3 x.1
          omega)]
        congr 1
        exact bump_congr (fun x hx => by rw [h7]; omega)
      have hown : ∀ x ∈ c1 ++ c', a1 x.1 = 0 ∧ a' x.1 = 0 := by
        intro x hx
        rcases List.mem_append.1 hx with hx | hx
        · obtain ⟨e1, e2⟩ := h6 x (List.mem_append_left _ hx)
          have := i3 x.1
          exact ⟨e1, by omega⟩
        · refine ⟨?_, i2.own x hx⟩
          by_cases hl : x.1 < h.ctrs.length
          · obtain ⟨y, hy, he⟩ := O2.keys i2 hx hl
            rw [← he]
            exact (h6 y (List.mem_append_right _ hy)).1
          · exact (hold x.1 (by omega)).1
      refine ⟨m1 ++ m', c1 ++ c', fun i => a1 i + a' i, ⟨m1, m', c1, c', R1, R2, a1, a', .refl _, .refl _, h3, h4, i1, hown, fun _ => rfl⟩, ⟨?_, ?_, ?_, ?_, ?_⟩, ?_, i4⟩
      · refine i2.objs.trans ?_
        rw [← List.append_assoc]
        exact List.perm_append_comm.append_right fm
      · refine i2.ctrs.trans ?_
        rw [hb, ← List.append_assoc]
        exact List.perm_append_comm.append_right _
      · intro x hx
        obtain ⟨e1, e2⟩ := hown x hx
        simp only [e1, e2]
      · intro i hi
        have e1 := i2.old i hi
        have e2 := (hold i (by simp only at i4 hi; omega)).1
        simp only [e1, e2]
      · intro x hx hpos
        obtain ⟨y, hy, rfl⟩ := List.mem_map.1 hx
        have := i3 y.1
        have := h7 y.1
        simp only at hpos
        have := O.room y hy (by omega)
        simp only
        omega
      · intro i
        have := i3 i
        have := h7 i
        simp only
        omega

theorem fin_iff {p : B} : p.fin = true ↔ Finished p := by
  induction p with
  | skip => exact ⟨fun _ => .skip, fun _ => rfl⟩
  | seq p q ihp ihq =>
    simp only [B.fin, Bool.and_eq_true, ihp, ihq]
    exact ⟨fun h => .seq h.1 h.2, fun h => by cases h with | seq a b => exact ⟨a, b⟩⟩
  | par p q ihp ihq =>
    simp only [B.fin, Bool.and_eq_true, ihp, ihq]
    exact ⟨fun h => .par h.1 h.2, fun h => by cases h with | par a b => exact ⟨a, b⟩⟩
  | throw | push | get | set | newCtr | add | load => exact ⟨fun h => by simp [B.fin] at h, fun h => by cases h⟩

/-- No exceptions. -/
theorem Sp.quiet {p : B} {m : List (Nat × Obj)} {c : List (Nat × Nat)} {R : List Obj} {a : Nat → Nat} (h : Sp p m c R a) {e : Err} : ¬ Throws e p := by
  induction p generalizing m c R a with
  | throw => exact h.elim
  | seq p q ihp ihq =>
    obtain ⟨m0, m1, c0, c1, R1, R2, a1, a2, _, _, _, h4, h5, _⟩ := h
    intro ht
    cases ht with
    | first ht => exact ihp h4 ht
    | second _ ht => exact ihq h5 ht
  | par p q ihp ihq =>
    obtain ⟨m1, m2, c1, c2, R1, R2, a1, a2, _, _, _, h4, h5, _⟩ := h
    intro ht
    cases ht with
    | left ht => exact ihp h4 ht
    | right ht => exact ihq h5 ht
  | skip | push | get | set | newCtr | add | load => intro ht; cases ht

/-- Programs without a next operation have finished or are at an exception. -/
theorem steps_nil {p : B} {h : Heap} (hs : p.steps h = []) : Finished p ∨ ∃ e, Throws e p := by
  induction p with
  | skip => exact .inl .skip
  | throw e => exact .inr ⟨e, .throw⟩
  | seq p q ihp ihq =>
    simp only [B.steps] at hs
    by_cases hf : p.fin = true
    · rw [if_pos hf, List.map_eq_nil_iff] at hs
      rcases ihq hs with h | ⟨e, h⟩
      · exact .inl (.seq (fin_iff.1 hf) h)
      · exact .inr ⟨e, .second (fin_iff.1 hf) h⟩
    · rw [if_neg hf, List.map_eq_nil_iff] at hs
      rcases ihp hs with h | ⟨e, h⟩
      · exact absurd (fin_iff.2 h) hf
      · exact .inr ⟨e, .first h⟩
  | par p q ihp ihq =>
    simp only [B.steps, List.append_eq_nil_iff, List.map_eq_nil_iff] at hs
    rcases ihp hs.1 with h1 | ⟨e, h⟩
    · rcases ihq hs.2 with h2 | ⟨e, h⟩
      · exact .inl (.par h1 h2)
      · exact .inr ⟨e, .right h⟩
    · exact .inr ⟨e, .left h⟩
  | push | get | set | newCtr | add | load => simp [B.steps] at hs

/-- Objects that are accessed are owned. -/
theorem Sp.access {p : B} {m : List (Nat × Obj)} {c : List (Nat × Nat)} {R : List Obj} {a : Nat → Nat} (h : Sp p m c R a) {hp : Heap} {s : Option (Nat × Bool) × Heap × B}
    (hs : s ∈ p.steps hp) {r : Nat} {u : Bool} (he : s.1 = some (r, u)) : r ∈ m.map Prod.fst := by
  induction p generalizing m c R a s with
  | skip => simp [B.steps] at hs
  | throw => exact h.elim
  | push | newCtr | add | load =>
    simp only [B.steps, List.mem_singleton] at hs
    subst hs
    simp at he
  | get q k ih =>
    simp only [B.steps, List.mem_singleton] at hs
    subst hs
    obtain ⟨o, rest, h1, _⟩ := h
    simp only [Option.some.injEq, Prod.mk.injEq] at he
    rw [← he.1]
    exact (h1.map Prod.fst).symm.subset (by simp)
  | set q o p ih =>
    simp only [B.steps, List.mem_singleton] at hs
    subst hs
    obtain ⟨o, rest, h1, _⟩ := h
    simp only [Option.some.injEq, Prod.mk.injEq] at he
    rw [← he.1]
    exact (h1.map Prod.fst).symm.subset (by simp)
  | seq p q ihp ihq =>
    obtain ⟨m0, m1, c0, c1, R1, R2, a1, a2, h1, _, _, h4, h5, _⟩ := h
    refine (h1.map Prod.fst).symm.subset ?_
    rw [List.map_append, List.mem_append]
    by_cases hf : p.fin = true
    · simp only [B.steps, hf, if_true, List.mem_map] at hs
      obtain ⟨t, ht, rfl⟩ := hs
      exact .inl (ihq h5 ht he)
    · rw [Bool.not_eq_true] at hf
      simp only [B.steps, hf, Bool.false_eq_true, if_false, List.mem_map] at hs
      obtain ⟨t, ht, rfl⟩ := hs
      exact .inr (ihp h4 ht he)
  | par p q ihp ihq =>
    obtain ⟨m1, m2, c1, c2, R1, R2, a1, a2, h1, _, _, h4, h5, _⟩ := h
    refine (h1.map Prod.fst).symm.subset ?_
    rw [List.map_append, List.mem_append]
    simp only [B.steps, List.mem_append, List.mem_map] at hs
    rcases hs with ⟨t, ht, rfl⟩ | ⟨t, ht, rfl⟩
    · exact .inl (ihp h4 ht he)
    · exact .inr (ihq h5 ht he)

/-- Different tasks access different objects. -/
theorem Sp.apart {p : B} {m : List (Nat × Obj)} {c : List (Nat × Nat)} {R : List Obj} {a : Nat → Nat} (h : Sp p m c R a) (hm : (m.map Prod.fst).Nodup) (hp : Heap) :
    (p.steps hp).Pairwise (fun s t => ∀ r u v, s.1 = some (r, u) → t.1 ≠ some (r, v)) := by
  induction p generalizing m c R a with
  | skip => simp [B.steps]
  | throw => exact h.elim
  | push | newCtr | add | load | get | set => exact List.pairwise_singleton _ _
  | seq p q ihp ihq =>
    obtain ⟨m0, m1, c0, c1, R1, R2, a1, a2, h1, _, _, h4, h5, _⟩ := h
    have hn := (h1.map Prod.fst).nodup_iff.1 hm
    rw [List.map_append, List.nodup_append] at hn
    simp only [B.steps]
    split
    · rw [List.pairwise_map]; exact ihq h5 hn.1
    · rw [List.pairwise_map]; exact ihp h4 hn.2.1
  | par p q ihp ihq =>
    obtain ⟨m1, m2, c1, c2, R1, R2, a1, a2, h1, _, _, h4, h5, _⟩ := h
    have hn := (h1.map Prod.fst).nodup_iff.1 hm
    rw [List.map_append, List.nodup_append] at hn
    simp only [B.steps]
    rw [List.pairwise_append, List.pairwise_map, List.pairwise_map]
    refine ⟨ihp h4 hn.1, ihq h5 hn.2.1, ?_⟩
    intro s hs t ht r u v h1 h2
    obtain ⟨s', hs', rfl⟩ := List.mem_map.1 hs
    obtain ⟨t', ht', rfl⟩ := List.mem_map.1 ht
    exact hn.2.2 r (h4.access hs' h1) r (h5.access ht' h2) rfl

theorem no_conflict {p : B} {h : Heap} (hp : (p.steps h).Pairwise (fun s t => ∀ r u v, s.1 = some (r, u) → t.1 ≠ some (r, v))) : ¬ Conflict p h := by
  rintro ⟨i, j, a, b, r, u, v, hij, hi, hj, ha, hb, _⟩
  rw [List.pairwise_iff_getElem] at hp
  obtain ⟨hi1, hi2⟩ := List.getElem?_eq_some_iff.1 hi
  obtain ⟨hj1, hj2⟩ := List.getElem?_eq_some_iff.1 hj
  have := hp i j hi1 hj1 hij r u v
  rw [hi2, hj2] at this
  exact this ha hb

/-- Whole executions, from a heap that is owned entirely. -/
theorem Sp.exec {n : Nat} {p q : B} {h h' : Heap} (he : Exec n p h q h') {m : List (Nat × Obj)} {c : List (Nat × Nat)} {R : List Obj} (hS : Sp p m c R (fun _ => 0))
    (O : Owns h m c [] [] (fun _ => 0)) : ∃ m' c', Sp q m' c' R (fun _ => 0) ∧ Owns h' m' c' [] [] (fun _ => 0) := by
  induction he generalizing m c with
  | refl => exact ⟨m, c, hS, O⟩
  | step hs _ ih =>
    obtain ⟨m', c', a', h1, h2, h3, _⟩ := hS.step O hs
    have : a' = fun _ => 0 := funext (fun i => by have := h3 i; omega)
    subst this
    exact ih h1 h2

/-- Programs that do at most the given number of operations. -/
def Bd : B → Nat → Prop
  | .skip, _ => True
  | .throw _, _ => True
  | .push _ k, n => ∃ n', n = n' + 1 ∧ ∀ r, Bd (k r) n'
  | .get _ k, n => ∃ n', n = n' + 1 ∧ ∀ o, Bd (k o) n'
  | .set _ _ p, n => ∃ n', n = n' + 1 ∧ Bd p n'
  | .newCtr k, n => ∃ n', n = n' + 1 ∧ ∀ r, Bd (k r) n'
  | .add _ _ k, n => ∃ n', n = n' + 1 ∧ ∀ v, Bd (k v) n'
  | .load _ k, n => ∃ n', n = n' + 1 ∧ ∀ v, Bd (k v) n'
  | .seq p q, n => ∃ a b, n = a + b ∧ Bd p a ∧ Bd q b
  | .par p q, n => ∃ a b, n = a + b ∧ Bd p a ∧ Bd q b

theorem Bd.mono {p : B} {n : Nat} (h : Bd p n) {n' : Nat} (hn : n ≤ n') : Bd p n' := by
  induction p generalizing n n' with
  | skip | throw => trivial
  | push _ _ ih | get _ _ ih | newCtr _ ih | add _ _ _ ih | load _ _ ih =>
    obtain ⟨i, rfl, h⟩ := h
    exact ⟨n' - 1, by omega, fun r => ih r (h r) (by omega)⟩
  | set _ _ _ ih =>
    obtain ⟨i, rfl, h⟩ := h
    exact ⟨n' - 1, by omega, ih h (by omega)⟩
  | seq _ _ ihp ihq | par _ _ ihp ihq =>
    obtain ⟨a, b, rfl, h1, h2⟩ := h
    exact ⟨a, n' - a, by omega, h1, ihq h2 (by omega)⟩

theorem Bd.step {p : B} {n : Nat} (h : Bd p n) {hp : Heap} {s : Option (Nat × Bool) × Heap × B} (hs : s ∈ p.steps hp) : ∃ n', n' + 1 ≤ n ∧ Bd s.2.2 n' := by
  induction p generalizing n s with
  | skip | throw => simp [B.steps] at hs
  | push | newCtr =>
    obtain ⟨i, rfl, h⟩ := h
    simp only [B.steps, List.mem_singleton] at hs
    subst hs
    exact ⟨i, le_rfl, h _⟩
  | get | add | load =>
    obtain ⟨i, rfl, h⟩ := h
    simp only [B.steps, List.mem_singleton] at hs
    subst hs
    refine ⟨i, le_rfl, ?_⟩
    simp only
    split
    · exact h _
    · trivial
  | set =>
    obtain ⟨i, rfl, h⟩ := h
    simp only [B.steps, List.mem_singleton] at hs
    subst hs
    refine ⟨i, le_rfl, ?_⟩
    simp only
    split
    · exact h
    · trivial
  | seq p q ihp ihq =>
    obtain ⟨a, b, rfl, h1, h2⟩ := h
    simp only [B.steps] at hs
    split at hs
    · obtain ⟨t, ht, rfl⟩ := List.mem_map.1 hs
      obtain ⟨n', e1, e2⟩ := ihq h2 ht
      exact ⟨a + n', by omega, a, n', rfl, h1, e2⟩
    · obtain ⟨t, ht, rfl⟩ := List.mem_map.1 hs
      obtain ⟨n', e1, e2⟩ := ihp h1 ht
      exact ⟨n' + b, by omega, n', b, rfl, e2, h2⟩
  | par p q ihp ihq =>
    obtain ⟨a, b, rfl, h1, h2⟩ := h
    simp only [B.steps, List.mem_append, List.mem_map] at hs
    rcases hs with ⟨t, ht, rfl⟩ | ⟨t, ht, rfl⟩
    · obtain ⟨n', e1, e2⟩ := ihp h1 ht
      exact ⟨n' + b, by omega, n', b, rfl, e2, h2⟩
    · obtain ⟨n', e1, e2⟩ := ihq h2 ht
      exact ⟨a + n', by omega, a, n', rfl, h1, e2⟩

theorem Bd.exec {k : Nat} {p q : B} {h h' : Heap} (he : Exec k p h q h') {n : Nat} (hb : Bd p n) : k ≤ n := by
  induction he generalizing n with
  | refl => omega
  | step hs _ ih =>
    obtain ⟨n', h1, h2⟩ := hb.step hs
    have := ih h2
    omega

/-- An execution up to the end exists. -/
theorem Bd.run {n : Nat} {p : B} (hb : Bd p n) (h : Heap) : ∃ k q h', Exec k p h q h' ∧ q.steps h' = [] := by
  induction n using Nat.strong_induction_on generalizing p h with
  | _ n ih =>
    cases hs : p.steps h with
    | nil => exact ⟨0, p, h, .refl _ _, hs⟩
    | cons s l =>
      have hm : s ∈ p.steps h := by rw [hs]; exact List.mem_cons_self
      obtain ⟨n', h1, h2⟩ := hb.step hm
      obtain ⟨k, q, h', e1, e2⟩ := ih n' (by omega) h2 s.2.1
      exact ⟨k + 1, q, h', .step hm e1, e2⟩

/-! ### The builder -/

theorem Sp.permR {p : B} {m : List (Nat × Obj)} {c : List (Nat × Nat)} {R R' : List Obj} {a : Nat → Nat} (h : Sp p m c R a) (hR : R.Perm R') : Sp p m c R' a := by
  induction p generalizing m c a with
  | skip => exact ⟨hR.symm.trans h.1, h.2⟩
  | throw => exact h.elim
  | push o k ih => exact fun r => ih r (h r)
  | get r k ih => obtain ⟨o, rest, h1, h2⟩ := h; exact ⟨o, rest, h1, ih o h2⟩
  | set r o p ih => obtain ⟨o, rest, h1, h2⟩ := h; exact ⟨o, rest, h1, ih h2⟩
  | newCtr k ih => exact fun r hr => ih r (h r hr)
  | add r x k ih => obtain ⟨h0, a', h1, h2⟩ := h; exact ⟨h0, a', h1, fun prev hp => ih prev (h2 prev hp)⟩
  | load r k ih => obtain ⟨v, rest, h1, h2⟩ := h; exact ⟨v, rest, h1, ih v h2⟩
  | seq p q ihp ihq =>
    obtain ⟨m0, m1, c0, c1, R1, R2, a1, a2, h1, h2, h3, h4⟩ := h
    exact ⟨m0, m1, c0, c1, R1, R2, a1, a2, h1, h2, hR.symm.trans h3, h4⟩
  | par p q ihp ihq =>
    obtain ⟨m1, m2, c1, c2, R1, R2, a1, a2, h1, h2, h3, h4⟩ := h
    exact ⟨m1, m2, c1, c2, R1, R2, a1, a2, h1, h2, hR.symm.trans h3, h4⟩

/-- Additions to one counter only. -/
def single (r n : Nat) : Nat → Nat := fun i => if i = r then n else 0

theorem single_add (r n n' i : Nat) : single r (n + n') i = single r n i + single r n' i := by unfold single; split <;> simp

theorem single_zero (r i : Nat) : single r 0 i = 0 := by unfold single; split <;> rfl

theorem loop_sp {body : Nat → B} {Rf : Nat → List Obj} {nf : Nat → Nat} {r : Nat} {l : List Nat} (h : ∀ i ∈ l, Sp (body i) [] [] (Rf i) (single r (nf i))) :
    Sp (B.loop body l) [] [] (l.flatMap Rf) (single r (l.map nf).sum) := by
  induction l with
  | nil => exact ⟨.refl _, single_zero r⟩
  | cons i l ih =>
    refine ⟨[], [], [], [], Rf i, l.flatMap Rf, single r (nf i), single r (l.map nf).sum, .refl _, .refl _, .refl _, h i List.mem_cons_self,
      ih (fun j hj => h j (List.mem_cons_of_mem _ hj)), by simp, by simp, by simp, fun j _ => ?_⟩
    rw [List.map_cons, List.sum_cons, single_add]

theorem pfor_sp {body : Nat → B} {Rf : Nat → List Obj} {nf : Nat → Nat} {r : Nat} {bl : List (List Nat)} (h : ∀ i ∈ bl.flatten, Sp (body i) [] [] (Rf i) (single r (nf i))) :
    Sp (B.pfor bl body) [] [] (bl.flatten.flatMap Rf) (single r (bl.flatten.map nf).sum) := by
  induction bl with
  | nil => exact ⟨.refl _, single_zero r⟩
  | cons l bl ih =>
    refine ⟨[], [], [], [], l.flatMap Rf, bl.flatten.flatMap Rf, single r (l.map nf).sum, single r (bl.flatten.map nf).sum, .refl _, .refl _, by simp,
      loop_sp (fun i hi => h i (by simp [hi])), ih (fun i hi => h i (by rw [List.flatten_cons]; exact List.mem_append_right _ hi)), by simp, fun j => ?_⟩
    rw [List.flatten_cons, List.map_append, List.sum_append, single_add]

theorem pfor_split {body : Nat → B} {Rf : Nat → List Obj} {nf : Nat → Nat} {r n : Nat} {bl : List (List Nat)} (hb : Split n bl)
    (h : ∀ i < n, Sp (body i) [] [] (Rf i) (single r (nf i))) : Sp (B.pfor bl body) [] [] ((List.range n).flatMap Rf) (single r ((List.range n).map nf).sum) := by
  have := pfor_sp (bl := bl) (body := body) (Rf := Rf) (nf := nf) (r := r) (fun i hi => h i (List.mem_range.1 (hb.subset hi)))
  rw [(hb.map nf).sum_eq] at this
  exact this.permR (hb.flatMap_right Rf)

theorem getT_sp {r : Nat} {k : List Node → B} {t : List Node} {m rest : List (Nat × Obj)} {c : List (Nat × Nat)} {R : List Obj} {a : Nat → Nat} (hm : m.Perm ((r, .tree t) :: rest))
    (h : Sp (k t) m c R a) : Sp (getT r k) m c R a := ⟨_, rest, hm, h⟩

theorem getC_sp {r : Nat} {k : List CNode → B} {t : List CNode} {m rest : List (Nat × Obj)} {c : List (Nat × Nat)} {R : List Obj} {a : Nat → Nat} (hm : m.Perm ((r, .crit t) :: rest))
    (h : Sp (k t) m c R a) : Sp (getC r k) m c R a := ⟨_, rest, hm, h⟩

theorem incP_sp {r x n : Nat} {p : B} {m : List (Nat × Obj)} {c : List (Nat × Nat)} {R : List Obj} (hn : 0 < x + n) (h : Sp p m c R (single r n)) : Sp (incP r x p) m c R (single r (x + n)) := by
  refine ⟨by simp [single]; omega, single r n, fun i => ?_, fun prev hp => ?_⟩
  · rw [Nat.add_comm, single_add]; rfl
  · have : ¬ prev > szMax - x := by unfold szMax; omega
    simp only [this, if_false]
    exact h

theorem countP_sp {c r : Nat} {t : List Node} {n : Node} {m rest : List (Nat × Obj)} {cs : List (Nat × Nat)} {R : List Obj} (hm : m.Perm ((r, .tree (n :: t)) :: rest))
    (hR : R.Perm (m.map Prod.snd)) : Sp (countP c r) m cs R (single c (n.nChildren + 1)) :=
  getT_sp hm (incP_sp (by omega) (incP_sp (n := 0) (by omega) ⟨hR, single_zero c⟩))

theorem setCount_sp {r cc : Nat} {t : List Node} {n : Node} {m rest : List (Nat × Obj)} {cs : List (Nat × Nat)} {R : List Obj} {a : Nat → Nat} {p : B}
    (hm : m.Perm ((r, .tree (n :: t)) :: rest)) (h : Sp p ((r, .tree ({ n with nChildren := cc } :: t)) :: rest) cs R a) : Sp (setCount r cc p) m cs R a :=
  getT_sp hm ⟨_, rest, hm, h⟩

variable {g : Cfg} {codes : List Nat}

/-- Pieces of the tree and of the list of critical nodes as objects. -/
def pieces (g : Cfg) (codes : List Nat) (ts cs : List (List Path)) : List Obj :=
  ts.map (fun t => Obj.tree (t.map (nodeOf g codes))) ++ cs.map (fun t => Obj.crit (t.map (cnodeOf g codes)))

theorem pieces_flatMap (l : List Nat) (f f' : Nat → List (List Path)) :
    (l.flatMap (fun i => pieces g codes (f i) (f' i))).Perm (pieces g codes (l.flatMap f) (l.flatMap f')) := by
  induction l with
  | nil => exact .refl _
  | cons i l ih =>
    simp only [List.flatMap_cons, pieces, List.map_append] at ih ⊢
    refine (ih.append_left _).trans ?_
    simp only [List.append_assoc]
    refine List.Perm.append_left _ ?_
    rw [← List.append_assoc, ← List.append_assoc]
    exact List.perm_append_comm.append_right _

theorem buildP_sp (H : Hyp g codes) (hsz : codes.length * g.cb ≤ szMax) (split : Nat) {blocks : Nat → List (List Nat)} (hbl : ∀ pc, Split (2 ^ g.d) (blocks pc)) (k : Nat) {p : Path}
    (hp : Path.Ok g.d p) (hl : p.length + k = g.cb) (ca : Bool) {cont : Nat → B} {m : List (Nat × Obj)} {R : List Obj} {a : Nat → Nat}
    (hcont : ∀ cs, Sp (cont (kidsP g codes k p).length) m cs R a) :
    Sp (buildP g codes split blocks k (Path.code g.d p) (lo g.d g.cb codes p) (hi g.d g.cb codes p) ca cont) m []
      (pieces g codes (parT g codes split k p) (parC g codes split k p ca) ++ R) a := by
  induction k generalizing p ca cont m R a with
  | zero =>
    simp only [buildP, kidsP, parT, parC, pieces, List.map_nil, List.nil_append] at hcont ⊢
    exact hcont []
  | succ k ih =>
    obtain ⟨a1, a2, a3, a4, a5, a6, a7, a8, a9⟩ := level_arith H hp hl
    unfold buildP
    simp only [a1, a2, a3, a4, orUB, not_le.2 a5, if_false, a6, a7]
    intro r hr
    have hn : (kidsP g codes (k + 1) p).length ≤ szMax := kidsP_le_szMax H hsz (k := k + 1) hp (by omega)
    have hlen : (kidsP g codes (k + 1) p).length = ((List.range (2 ^ g.d)).map (fun i => (kidA g codes k p i).length)).sum := by
      rw [kidsP_succ, List.length_flatMap]
    refine ⟨m, [], [(r, 0)], [], pieces g codes (parT g codes split (k + 1) p) (parC g codes split (k + 1) p ca), R, single r (kidsP g codes (k + 1) p).length, a, by simp, .refl _, .refl _,
      ?_, ⟨(kidsP g codes (k + 1) p).length, [], ?_, hcont _⟩, ?_, by simp, by simpa using hr, ?_⟩
    · rw [parT_succ, parC_succ, hlen]
      refine Sp.permR (pfor_split (hbl _) (Rf := fun i => pieces g codes (parTA g codes split k p i) (parCA g codes split k p ca i)) (fun i hi => ?_)) (pieces_flatMap _ _ _)
      have hq : Path.Ok g.d (p ++ [i]) := ok_snoc.2 ⟨hp, hi⟩
      have hql : (p ++ [i]).length + k = g.cb := by simp; omega
      have hcnt : g.cnt codes (p ++ [i]) = _ := count_eq H.hd H.bound hq (by omega)
      have hk' : g.cb - (p ++ [i]).length = k := by omega
      simp only [a8 i hi, a9 i hi, equalRange_child H hl hi, ← hcnt]
      by_cases hc : 0 < g.cnt codes (p ++ [i])
      · have hc' : g.cnt codes (p ++ [i]) ≠ 0 := by omega
        simp only [hc', ne_eq, not_false_eq_true, if_true]
        intro r1
        refine getT_sp (.refl _) ⟨_, _, .refl _, getT_sp (.refl _) ?_⟩
        simp only [List.nil_append, List.getElem?_cons_zero]
        intro q1
        beta_reduce
        by_cases hm : g.maxLeaf < g.cnt codes (p ++ [i])
        · have hA : kidA g codes k p i = (p ++ [i]) :: kidsP g codes k (p ++ [i]) := by
            unfold kidA; rw [if_pos hc, if_pos hm]
          have hN : nodeOf g codes (p ++ [i]) = ⟨lo g.d g.cb codes (p ++ [i]), Rakau.hi g.d g.cb codes (p ++ [i]),
              (kidsP g codes k (p ++ [i])).length, Path.code g.d (p ++ [i]), p.length + 1⟩ := by
            unfold nodeOf desc; rw [if_pos hm, hk']; simp
          rw [hA, List.length_cons]
          by_cases hs : g.cnt codes (p ++ [i]) < split
          · have hT : parTA g codes split k p i = [(p ++ [i]) :: kidsP g codes k (p ++ [i])] := by
              unfold parTA; rw [if_pos hc, if_pos hm, if_pos hs]
            have hC : parCA g codes split k p ca i = [(if isCrit g ca (g.cnt codes (p ++ [i])) (p.length + 1) then [p ++ [i]] else []) ++
                critP g codes k (p ++ [i]) (isCrit g ca (g.cnt codes (p ++ [i])) (p.length + 1) || ca)] := by
              unfold parCA; rw [if_pos hc, if_pos hm, if_pos hs]
            rw [if_pos hm, if_pos hs, hT, hC]
            refine getT_sp (List.Perm.swap _ _ _) (getC_sp (.refl _) ?_)
            rw [buildSer_eq H hsz k hq hql]
            simp only [List.singleton_append]
            refine ⟨_, _, List.Perm.swap _ _ _, ⟨_, _, List.Perm.swap _ _ _, setCount_sp (List.Perm.swap _ _ _) (countP_sp (.refl _) ?_)⟩⟩
            simp only [pieces, List.map_cons, List.map_nil, List.singleton_append, hN]
            cases isCrit g ca (g.cnt codes (p ++ [i])) (p.length + 1) <;> simp [cnodeOf]
          · have hT : parTA g codes split k p i = [p ++ [i]] :: parT g codes split k (p ++ [i]) := by
              unfold parTA; rw [if_pos hc, if_pos hm, if_neg hs]
            have hC : parCA g codes split k p ca i = (if isCrit g ca (g.cnt codes (p ++ [i])) (p.length + 1) then [p ++ [i]] else []) ::
                parC g codes split k (p ++ [i]) (isCrit g ca (g.cnt codes (p ++ [i])) (p.length + 1) || ca) := by
              unfold parCA; rw [if_pos hc, if_pos hm, if_neg hs]
            rw [if_pos hm, if_neg hs, hT, hC]
            refine Sp.permR (ih hq hql _ (R := [Obj.tree [nodeOf g codes (p ++ [i])],
              Obj.crit ((if isCrit g ca (g.cnt codes (p ++ [i])) (p.length + 1) then [p ++ [i]] else []).map (cnodeOf g codes))]) (fun cs => ?_)) ?_
            · refine setCount_sp (List.Perm.swap _ _ _) (countP_sp (.refl _) ?_)
              rw [hN]
              cases isCrit g ca (g.cnt codes (p ++ [i])) (p.length + 1) <;> simp [cnodeOf]
            · simp only [pieces, List.map_cons, List.cons_append, List.map_nil]
              refine List.perm_append_comm.trans ?_
              simp only [List.cons_append, List.nil_append]
              refine List.Perm.cons _ ?_
              exact List.perm_middle.symm
        · have hA : kidA g codes k p i = [p ++ [i]] := by
            unfold kidA; rw [if_pos hc, if_neg hm]
          have hN : nodeOf g codes (p ++ [i]) = ⟨lo g.d g.cb codes (p ++ [i]), Rakau.hi g.d g.cb codes (p ++ [i]),
              0, Path.code g.d (p ++ [i]), p.length + 1⟩ := by
            unfold nodeOf desc; rw [if_neg hm]; simp
          have hT : parTA g codes split k p i = [[p ++ [i]]] := by
            unfold parTA; rw [if_pos hc, if_neg hm]
          have hC : parCA g codes split k p ca i = [if isCrit g ca (g.cnt codes (p ++ [i])) (p.length + 1) then [p ++ [i]] else []] := by
            unfold parCA; rw [if_pos hc, if_neg hm]
          rw [hA, List.length_singleton, if_neg hm, hT, hC]
          refine countP_sp (List.Perm.swap _ _ _) ?_
          simp only [pieces, List.map_cons, List.map_nil, List.singleton_append, hN]
          cases isCrit g ca (g.cnt codes (p ++ [i])) (p.length + 1) <;> simp [cnodeOf, List.Perm.swap]
      · have hc' : g.cnt codes (p ++ [i]) = 0 := by omega
        have hA : kidA g codes k p i = [] := by unfold kidA; rw [if_neg hc]
        have hT : parTA g codes split k p i = [] := by unfold parTA; rw [if_neg hc]
        have hC : parCA g codes split k p ca i = [] := by unfold parCA; rw [if_neg hc]
        simp only [hc', ne_eq, not_true_eq_false, if_false, hA, hT, hC]
        exact ⟨.refl _, single_zero r⟩
    · simp [single]
    · intro x hx _
      rw [List.mem_singleton] at hx
      subst hx
      simp only [single, if_true, szMax] at hn ⊢
      omega
    · intro i hi
      have : i ≠ r := fun he => hi (r, 0) (by simp) he.symm
      simp [single, this]

theorem loop_bd {body : Nat → B} {M : Nat} (h : ∀ i, Bd (body i) M) (l : List Nat) : Bd (B.loop body l) (l.length * M) := by
  induction l with
  | nil => trivial
  | cons i l ih => exact ⟨M, l.length * M, by rw [List.length_cons]; ring, h i, ih⟩

theorem pfor_bd {body : Nat → B} {M : Nat} (h : ∀ i, Bd (body i) M) (bl : List (List Nat)) : Bd (B.pfor bl body) (bl.flatten.length * M) := by
  induction bl with
  | nil => trivial
  | cons l bl ih => exact ⟨l.length * M, bl.flatten.length * M, by rw [List.flatten_cons, List.length_append]; ring, loop_bd h l, ih⟩

theorem orUB_bd {α : Type} {o : Option α} {k : α → B} {n : Nat} (h : ∀ a, Bd (k a) n) : Bd (orUB o k) n := by
  unfold orUB
  split
  · exact h _
  · trivial

theorem getT_bd {r : Nat} {k : List Node → B} {n : Nat} (h : ∀ t, Bd (k t) n) : Bd (getT r k) (n + 1) := by
  refine ⟨n, rfl, fun o => ?_⟩
  cases o with
  | tree t => exact h t
  | root | crit => trivial

theorem getC_bd {r : Nat} {k : List CNode → B} {n : Nat} (h : ∀ t, Bd (k t) n) : Bd (getC r k) (n + 1) := by
  refine ⟨n, rfl, fun o => ?_⟩
  cases o with
  | crit t => exact h t
  | root | tree => trivial

theorem incP_bd {c x : Nat} {p : B} {n : Nat} (h : Bd p n) : Bd (incP c x p) (n + 1) := by
  refine ⟨n, rfl, fun v => ?_⟩
  beta_reduce
  split
  · trivial
  · exact h

theorem countP_bd (c r : Nat) : Bd (countP c r) 3 := getT_bd (fun _ => orUB_bd (fun _ => incP_bd (incP_bd (n := 0) trivial)))

theorem setCount_bd {r cc : Nat} {p : B} {n : Nat} (h : Bd p n) : Bd (setCount r cc p) (n + 2) := getT_bd (fun _ => ⟨n, rfl, h⟩)

theorem buildP_bd (split : Nat) {blocks : Nat → List (List Nat)} (hbl : ∀ pc, Split (2 ^ g.d) (blocks pc)) (k : Nat) :
    ∃ N, ∀ pc b e ca cont m, (∀ cc, Bd (cont cc) m) → Bd (buildP g codes split blocks k pc b e ca cont) (N + m) := by
  induction k with
  | zero => exact ⟨0, fun pc b e ca cont m h => (h 0).mono (by omega)⟩
  | succ k ih =>
    obtain ⟨N, hN⟩ := ih
    refine ⟨1 + 2 ^ g.d * (N + 14) + 1, fun pc b e ca cont m h => ?_⟩
    unfold buildP
    refine orUB_bd (fun one => ?_)
    simp only
    split
    · trivial
    · refine ⟨2 ^ g.d * (N + 14) + (m + 1), by omega, fun c => ⟨2 ^ g.d * (N + 14), m + 1, rfl, ?_, m, rfl, h⟩⟩
      have := pfor_bd (M := N + 14) (bl := blocks pc) (body := fun i =>
        orUB (shl g.w (subW g.w pc one) g.d) fun pre =>
        let (s, t) := equalRange codes (mulSz (g.cb - (g.cb - (k + 1)) - 1) g.d) ((pre + i) % 2 ^ g.w) b e
        let npart := t - s
        if npart ≠ 0 then
          orUB (shl g.w pc g.d) fun up =>
          let cur := (up + i) % 2 ^ g.w
          .push (.tree []) fun r => getT r fun t0 => .set r (.tree (t0 ++ [⟨s, t, 0, cur, g.cb - (k + 1) + 1⟩])) <|
          let crit := isCrit g ca npart (g.cb - (k + 1) + 1)
          getT r fun t1 => orUB t1[0]? fun n0 => .push (.crit (if crit then [⟨n0.code, n0.beg, n0.fin⟩] else [])) fun q =>
          if npart > g.maxLeaf then
            if npart < split then
              getT r fun t2 => getC q fun c2 =>
              match buildSer g codes k cur s t (crit || ca) ⟨t2, c2⟩ with
              | .error er => .throw er
              | .ok (st, cc) => .set r (.tree st.tree) <| .set q (.crit st.crit) <| setCount r cc <| countP c r
            else buildP g codes split blocks k cur s t (crit || ca) (fun cc => setCount r cc (countP c r))
          else countP c r
        else .skip) (fun i => ?_)
      · rw [(hbl pc).length_eq, List.length_range] at this
        exact this
      · refine orUB_bd (fun pre => ?_)
        simp only
        split
        · refine orUB_bd (fun up => ⟨N + 13, rfl, fun r => getT_bd (fun t0 => ⟨N + 11, rfl, getT_bd (fun t1 => orUB_bd (fun n0 => ⟨N + 9, rfl, fun q => ?_⟩))⟩)⟩)
          beta_reduce
          split
          · split
            · refine (getT_bd (n := 8) (fun t2 => getC_bd (n := 7) (fun c2 => ?_))).mono (by omega)
              split
              · trivial
              · exact ⟨6, rfl, 5, rfl, setCount_bd (countP_bd c r)⟩
            · exact (hN _ _ _ _ _ 5 (fun cc => setCount_bd (countP_bd c r))).mono (by omega)
          · exact (countP_bd c r).mono (by omega)
        · trivial

theorem setRoot_bd (cc : Nat) : Bd (setRoot cc) 2 := by
  refine ⟨1, rfl, fun o => ?_⟩
  cases o with
  | root n => exact ⟨0, rfl, trivial⟩
  | tree | crit => trivial

theorem rootP_bd (split : Nat) {blocks : Nat → List (List Nat)} (hbl : ∀ pc, Split (2 ^ g.d) (blocks pc)) : ∃ N, Bd (rootP g codes split blocks) N := by
  obtain ⟨N, hN⟩ := buildP_bd (g := g) (codes := codes) split hbl g.cb
  refine ⟨N + 2, ?_⟩
  unfold rootP
  split
  · exact hN _ _ _ _ _ 2 setRoot_bd
  · trivial

/-- What the tasks leave: the root, the entry for the root, and the pieces of the tree and of the list of critical nodes. -/
def left (g : Cfg) (codes : List Nat) (split : Nat) : List Obj :=
  (if codes.length > g.maxLeaf then pieces g codes (parT g codes split g.cb []) (parC g codes split g.cb [] (rootCrit g codes)) else []) ++
    (.root ⟨0, codes.length, if codes.length > g.maxLeaf then (kidsP g codes g.cb []).length else 0, 1, 0⟩ :: (if rootCrit g codes then [.crit [⟨1, 0, codes.length⟩]] else []))

theorem rootP_sp (H : Hyp g codes) (hsz : codes.length * g.cb ≤ szMax) (split : Nat) {blocks : Nat → List (List Nat)} (hbl : ∀ pc, Split (2 ^ g.d) (blocks pc)) :
    Sp (rootP g codes split blocks) (cells (start g codes).objs) [] (left g codes split) (fun _ => 0) := by
  obtain ⟨hr1, hr2, hr3⟩ := root_lo_hi H
  unfold rootP left
  split
  · have := buildP_sp H hsz split hbl g.cb (ok_nil g.d) (by simp) (rootCrit g codes) (cont := setRoot) (m := cells (start g codes).objs) (a := fun _ => 0)
      (R := .root ⟨0, codes.length, (kidsP g codes g.cb []).length, 1, 0⟩ :: (if rootCrit g codes then [.crit [⟨1, 0, codes.length⟩]] else [])) (fun cs => ?_)
    · rw [hr1, hr2, hr3] at this
      exact this
    · obtain ⟨rest, hrest⟩ : ∃ rest, cells (start g codes).objs = (0, .root ⟨0, codes.length, 0, 1, 0⟩) :: rest ∧ rest.map Prod.snd = if rootCrit g codes then [.crit [⟨1, 0, codes.length⟩]] else [] := by
        unfold start cells
        cases rootCrit g codes
        · exact ⟨[], rfl, rfl⟩
        · exact ⟨[(1, .crit [⟨1, 0, codes.length⟩])], rfl, rfl⟩
      rw [hrest.1]
      refine ⟨_, rest, .refl _, _, rest, .refl _, ?_, fun _ => rfl⟩
      rw [List.map_cons, hrest.2]
  · refine ⟨?_, fun _ => rfl⟩
    rw [cells_vals]
    exact .refl _

theorem start_owns (g : Cfg) (codes : List Nat) : Owns (start g codes) (cells (start g codes).objs) [] [] [] (fun _ => 0) :=
  ⟨by simp, by simp [start, cells], by simp, by simp, by simp⟩

/-- The objects at the end, in some order. -/
theorem exec_left (H : Hyp g codes) (hsz : codes.length * g.cb ≤ szMax) (split : Nat) {blocks : Nat → List (List Nat)} (hbl : ∀ pc, Split (2 ^ g.d) (blocks pc))
    {n : Nat} {p : B} {h : Heap} (he : Exec n (rootP g codes split blocks) (start g codes) p h) (hf : Finished p) : h.objs.Perm (left g codes split) := by
  obtain ⟨m', c', h1, h2⟩ := (rootP_sp H hsz split hbl).exec he (start_owns g codes)
  obtain ⟨h3, _⟩ := h1.done (fin_iff.2 hf) (fun _ _ => rfl)
  have h4 := h2.objs.map Prod.snd
  rw [cells_vals, List.append_nil] at h4
  exact h4.trans h3.symm

/-- What is left are the pieces that `buildPar` gives, in some order. -/
theorem left_pieces (H : Hyp g codes) (hsz : codes.length * g.cb ≤ szMax) (split : Nat) {h : Heap} (hl : h.objs.Perm (left g codes split)) :
    ∃ ps cc, rootChildren g codes split = .ok (ps, cc) ∧ h.trees.Perm ps.trees ∧ h.crits.Perm ((if rootCrit g codes then [[⟨1, 0, codes.length⟩]] else []) ++ ps.crits) ∧
      ∀ nd, .root nd ∈ h.objs ↔ nd = ⟨0, codes.length, cc, 1, 0⟩ := by
  obtain ⟨hr1, hr2, hr3⟩ := root_lo_hi H
  refine ⟨⟨if codes.length > g.maxLeaf then (parT g codes split g.cb []).map (List.map (nodeOf g codes)) else [],
    if codes.length > g.maxLeaf then (parC g codes split g.cb [] (rootCrit g codes)).map (List.map (cnodeOf g codes)) else []⟩,
    if codes.length > g.maxLeaf then (kidsP g codes g.cb []).length else 0, ?_, ?_, ?_, fun nd => ?_⟩
  · unfold rootChildren
    have := buildPar_eq H hsz split g.cb (ok_nil g.d) (by simp) (rootCrit g codes)
    rw [hr1, hr2, hr3] at this
    rw [this]
    split <;> rfl
  · refine (hl.filterMap _).trans ?_
    unfold left
    cases rootCrit g codes <;> split <;> simp [pieces]
  · refine (hl.filterMap _).trans ?_
    unfold left
    rw [List.filterMap_append]
    refine List.perm_append_comm.trans ?_
    cases rootCrit g codes <;> split <;> simp [pieces]
  · rw [hl.mem_iff]
    unfold left
    cases rootCrit g codes <;> split <;> simp [pieces]

/-- The runs of the interleaved tasks are runs of `IsBuild`. -/
theorem runs_isBuild (H : Hyp g codes) (hsz : codes.length * g.cb ≤ szMax) (hn : codes ≠ []) (split : Nat) {blocks : Nat → List (List Nat)} (hbl : ∀ pc, Split (2 ^ g.d) (blocks pc))
    {r : Except Err (List Node × List CNode)} (h : Runs g codes split blocks r) : IsBuild g codes split r := by
  cases h with
  | error he ht =>
    obtain ⟨m', c', h1, h2⟩ := (rootP_sp H hsz split hbl).exec he (start_owns g codes)
    exact absurd ht h1.quiet
  | @ok n p h nd trees crits he hf hr ht hc =>
    obtain ⟨ps, cc, h1, h2, h3, h4⟩ := left_pieces H hsz split (exec_left H hsz split hbl he hf)
    rw [(h4 nd).1 hr]
    exact .run _ _ trees crits hn h1 ⟨ht.1.trans h2, ht.2⟩ ⟨hc.1.trans h3, hc.2⟩

end Builder
end Rakau
