import Verif.Model.State
import Mathlib.Data.List.Basic
import Mathlib.Data.List.Forall2
import Mathlib.Data.List.Nodup

/-! Invariant of the tree state over arbitrary histories. -/
namespace Rakau

/-! ### `mapM` -/

theorem mapM_some_iff {α β : Type} {f : α → Option β} {l : List α} {w : List β} :
    l.mapM f = some w ↔ List.Forall₂ (fun a b => f a = some b) l w := by
  induction l generalizing w with
  | nil => simp [eq_comm]
  | cons a l ih =>
    rw [List.mapM_cons]
    constructor
    · intro h
      simp only [Option.bind_eq_bind, Option.bind_eq_some_iff, Option.pure_def, Option.some.injEq] at h
      obtain ⟨b, hb, bs, hbs, rfl⟩ := h
      exact .cons hb (ih.1 hbs)
    · intro h
      cases h with
      | cons h1 h2 => simp [h1, ih.2 h2]

theorem mapM_ok_iff {α β : Type} {f : α → Except Err β} {l : List α} {w : List β} :
    l.mapM f = .ok w ↔ List.Forall₂ (fun a b => f a = .ok b) l w := by
  induction l generalizing w with
  | nil => simp [pure, Except.pure, eq_comm]
  | cons a l ih =>
    rw [List.mapM_cons]
    constructor
    · intro h
      cases ha : f a with
      | error e => rw [ha] at h; simp [bind, Except.bind] at h
      | ok b =>
        cases hl : l.mapM f with
        | error e => rw [ha, hl] at h; simp [bind, Except.bind] at h
        | ok bs =>
          rw [ha, hl] at h
          simp only [bind, Except.bind, pure, Except.pure, Except.ok.injEq] at h
          subst h
          exact .cons ha (ih.1 hl)
    · intro h
      cases h with
      | cons h1 h2 => rw [h1, ih.2 h2]; rfl

theorem forall₂_getElem {α β : Type} {R : α → β → Prop} {l : List α} {w : List β} (h : List.Forall₂ R l w) :
    l.length = w.length ∧ ∀ i (h1 : i < l.length) (h2 : i < w.length), R l[i] w[i] := by
  refine ⟨h.length_eq, ?_⟩
  induction h with
  | nil => intro i h1; simp at h1
  | cons hr _ ih =>
    intro i h1 h2
    cases i with
    | zero => exact hr
    | succ i => exact ih i (by simpa using h1) (by simpa using h2)

theorem forall₂_of_getElem {α β : Type} {R : α → β → Prop} {l : List α} {w : List β} (hl : l.length = w.length)
    (h : ∀ i (h1 : i < l.length) (h2 : i < w.length), R l[i] w[i]) : List.Forall₂ R l w := by
  induction l generalizing w with
  | nil => cases w with
    | nil => exact .nil
    | cons => simp at hl
  | cons a l ih => cases w with
    | nil => simp at hl
    | cons b w =>
      refine .cons (h 0 (by simp) (by simp)) (ih (by simpa using hl) ?_)
      intro i h1 h2
      exact h (i + 1) (by simpa using h1) (by simpa using h2)

theorem mapM_ok_of {α β : Type} {f : α → Except Err β} {l : List α} (h : ∀ a ∈ l, ∃ b, f a = .ok b) :
    ∃ w, l.mapM f = .ok w := by
  induction l with
  | nil => exact ⟨[], rfl⟩
  | cons a l ih =>
    obtain ⟨b, hb⟩ := h a List.mem_cons_self
    obtain ⟨w, hw⟩ := ih (fun a ha => h a (List.mem_cons_of_mem _ ha))
    exact ⟨b :: w, by rw [List.mapM_cons, hb, hw]; rfl⟩

theorem mapM_some_of {α β : Type} {f : α → Option β} {l : List α} (h : ∀ a ∈ l, ∃ b, f a = some b) :
    ∃ w, l.mapM f = some w := by
  induction l with
  | nil => exact ⟨[], rfl⟩
  | cons a l ih =>
    obtain ⟨b, hb⟩ := h a List.mem_cons_self
    obtain ⟨w, hw⟩ := ih (fun a ha => h a (List.mem_cons_of_mem _ ha))
    exact ⟨b :: w, by rw [List.mapM_cons, hb, hw]; rfl⟩

/-! ### Permutations -/

theorem perm_lt {n : Nat} {l : List Nat} (h : l.Perm (List.range n)) {x : Nat} (hx : x ∈ l) : x < n :=
  List.mem_range.1 (h.mem_iff.1 hx)

theorem perm_length {n : Nat} {l : List Nat} (h : l.Perm (List.range n)) : l.length = n := by simpa using h.length_eq

theorem perm_nodup {n : Nat} {l : List Nat} (h : l.Perm (List.range n)) : l.Nodup := h.nodup_iff.2 List.nodup_range

theorem applyIsort_spec {α : Type} {v w : List α} {srt : List Nat} (h : applyIsort v srt = some w) :
    w.length = srt.length ∧ ∀ i (hi : i < srt.length), w[i]? = v[srt[i]]? := by
  obtain ⟨h1, h2⟩ := forall₂_getElem (mapM_some_iff.1 h)
  refine ⟨h1.symm, fun i hi => ?_⟩
  rw [h2 i hi (by omega), List.getElem?_eq_getElem]

theorem applyIsort_exists {α : Type} {v : List α} {srt : List Nat} {n : Nat} (hp : srt.Perm (List.range n))
    (hv : v.length = n) : ∃ w, applyIsort v srt = some w := by
  apply mapM_some_of
  intro k hk
  have := perm_lt hp hk
  exact ⟨v[k]'(by omega), List.getElem?_eq_getElem _⟩

theorem applyIsort_of {α : Type} {v w : List α} {srt : List Nat} (hl : w.length = srt.length)
    (h : ∀ i (hi : i < srt.length), w[i]? = v[srt[i]]?) : applyIsort v srt = some w := by
  apply mapM_some_iff.2
  apply forall₂_of_getElem hl.symm
  intro i h1 h2
  rw [← h i h1, List.getElem?_eq_getElem]

theorem applyIsort_perm {n : Nat} {v w srt : List Nat} (hp : srt.Perm (List.range n)) (hv : v.Perm (List.range n))
    (h : applyIsort v srt = some w) : w.Perm (List.range n) := by
  obtain ⟨hl, hw⟩ := applyIsort_spec h
  have hvl := perm_length hv
  have : w = srt.map (fun k => v.getD k 0) := by
    apply List.ext_getElem? 
    intro i
    by_cases hi : i < srt.length
    · rw [hw i hi, List.getElem?_map, List.getElem?_eq_getElem hi]
      have := perm_lt hp (List.getElem_mem hi)
      simp [List.getElem?_eq_getElem (by omega : srt[i] < v.length)]
    · rw [List.getElem?_eq_none (by omega), List.getElem?_eq_none (by simp; omega)]
  rw [this]
  refine (hp.map _).trans ?_
  have : (List.range n).map (fun k => v.getD k 0) = v := by
    apply List.ext_getElem (by simp [hvl])
    intro i h1 h2
    simp [List.getElem?_eq_getElem h2]
  rw [this]
  exact hv

/-- `perm_to_inv_perm` yields the inverse, whatever the order of the writes. -/
theorem permToInv_spec {n : Nat} {ord perm inv0 : List Nat} (hp : perm.Perm (List.range n)) (ho : ord.Perm (List.range n))
    (hi : inv0.length = n) :
    ∃ inv, permToInv ord perm inv0 = some inv ∧ inv.length = n ∧ ∀ i p : Nat, perm[i]? = some p → inv[p]? = some i := by
  have key : ∀ (o : List Nat) (a : List Nat), (∀ i ∈ o, i < n) → o.Nodup → a.length = n →
      ∃ r, permToInv o perm a = some r ∧ r.length = n ∧ (∀ i ∈ o, ∀ p, perm[i]? = some p → r[p]? = some i) ∧
        ∀ p, (∀ i ∈ o, perm[i]? ≠ some p) → r[p]? = a[p]? := by
    intro o
    induction o with
    | nil => intro a _ _ ha; exact ⟨a, rfl, ha, by simp, by simp⟩
    | cons i o ih =>
      intro a hlt hnd ha
      have hil : i < perm.length := by rw [perm_length hp]; exact hlt i List.mem_cons_self
      have hpl : perm[i] < n := perm_lt hp (List.getElem_mem hil)
      obtain ⟨r, h1, h2, h3, h4⟩ := ih (a.set perm[i] i) (fun x hx => hlt x (List.mem_cons_of_mem _ hx))
        (List.nodup_cons.1 hnd).2 (by simpa using ha)
      refine ⟨r, ?_, h2, ?_, ?_⟩
      · unfold permToInv at h1 ⊢
        rw [List.foldlM_cons]
        simp only [List.getElem?_eq_getElem hil, Option.bind_eq_bind, Option.bind_some]
        rw [if_pos (by omega)]
        simpa using h1
      · intro x hx p hxp
        rcases List.mem_cons.1 hx with rfl | hx
        · rw [List.getElem?_eq_getElem hil, Option.some.injEq] at hxp
          subst hxp
          rw [h4]
          · rw [List.getElem?_set_self (by omega)]
          · intro y hy hyp
            have hyl := hlt y (List.mem_cons_of_mem _ hy)
            have hyl' : y < perm.length := by rw [perm_length hp]; exact hyl
            rw [List.getElem?_eq_getElem hyl', Option.some.injEq] at hyp
            have := (perm_nodup hp).getElem_inj_iff.1 hyp
            subst this
            exact (List.nodup_cons.1 hnd).1 hy
        · exact h3 x hx p hxp
      · intro p hp'
        rw [h4 p (fun y hy => hp' y (List.mem_cons_of_mem _ hy))]
        have := hp' i List.mem_cons_self
        rw [List.getElem?_eq_getElem hil] at this
        rw [List.getElem?_set_ne]
        intro h; exact this (by rw [h])
  obtain ⟨r, h1, h2, h3, _⟩ := key ord inv0 (fun i hi => perm_lt ho hi) (perm_nodup ho) hi
  refine ⟨r, h1, h2, fun i p hip => h3 i ?_ p hip⟩
  have hil : i < perm.length := by
    by_contra h
    rw [List.getElem?_eq_none (by omega)] at hip; simp at hip
  rw [ho.mem_iff, List.mem_range, ← perm_length hp]; exact hil

/-! ### Particle arrays -/

/-- `a'` is the arrays `a` reordered by `srt`. -/
theorem mapM_isort_exists {F : Type} {a : List (List F)} {srt : List Nat} {n : Nat} (hp : srt.Perm (List.range n))
    (ha : ∀ v ∈ a, v.length = n) : ∃ b, a.mapM (fun v => applyIsort v srt) = some b :=
  mapM_some_of (fun v hv => applyIsort_exists hp (ha v hv))

theorem mapM_isort_spec {F : Type} {a b : List (List F)} {srt : List Nat} (h : a.mapM (fun v => applyIsort v srt) = some b) :
    a.length = b.length ∧ (∀ v ∈ b, v.length = srt.length) ∧
    ∀ j (h1 : j < a.length) (h2 : j < b.length) i (hi : i < srt.length), (b[j])[i]? = (a[j])[srt[i]]? := by
  obtain ⟨h1, h2⟩ := forall₂_getElem (mapM_some_iff.1 h)
  refine ⟨h1, ?_, ?_⟩
  · intro v hv
    obtain ⟨j, hj, rfl⟩ := List.getElem_of_mem hv
    exact (applyIsort_spec (h2 j (by omega) hj)).1
  · intro j hj1 hj2 i hi
    exact (applyIsort_spec (h2 j hj1 hj2)).2 i hi

theorem coordsAt_isort {F : Type} {a b : List (List F)} {srt : List Nat} (h : a.mapM (fun v => applyIsort v srt) = some b)
    (d i : Nat) (hi : i < srt.length) : coordsAt d b i = coordsAt d a srt[i] := by
  obtain ⟨h1, _, h3⟩ := mapM_isort_spec h
  unfold coordsAt
  have e : ∀ (x y : List (List F)) (i' k' : Nat), x.length = y.length →
      (∀ j (h1 : j < x.length) (h2 : j < y.length), (x[j])[i']? = (y[j])[k']?) →
      x.mapM (fun v => v[i']?) = y.mapM (fun v => v[k']?) := by
    intro x
    induction x with
    | nil => intro y i' k' hl _; cases y with
      | nil => rfl
      | cons => simp at hl
    | cons v x ih => intro y i' k' hl hh; cases y with
      | nil => simp at hl
      | cons u y =>
        rw [List.mapM_cons, List.mapM_cons, ih y i' k' (by simpa using hl) (fun j h1 h2 => hh (j + 1) (by simpa using h1) (by simpa using h2))]
        have := hh 0 (by simp) (by simp)
        simp only [List.getElem_cons_zero] at this
        rw [this]
  apply e
  · simp [h1]
  · intro j hj1 hj2
    rw [List.getElem_take, List.getElem_take]
    exact h3 j _ _ i hi

theorem headD_length {F : Type} {a : List (List F)} {n : Nat} (h : ∀ v ∈ a, v.length = n) (ha : a ≠ []) :
    (a.headD []).length = n := by
  cases a with
  | nil => exact absurd rfl ha
  | cons v a => exact h v List.mem_cons_self

theorem rawCodes_spec {env : Env} {box : env.F} {parts : List (List env.F)} {n : Nat} {raw : List Nat} :
    rawCodes env box parts n = .ok raw ↔ raw.length = n ∧
      ∀ i (hi : i < raw.length), (do env.code box (← ofUB (coordsAt env.d parts i))) = .ok raw[i] := by
  unfold rawCodes
  rw [mapM_ok_iff]
  constructor
  · intro h
    obtain ⟨h1, h2⟩ := forall₂_getElem h
    refine ⟨by simpa using h1.symm, fun i hi => ?_⟩
    have := h2 i (by rw [h1]; exact hi) hi
    simpa using this
  · rintro ⟨h1, h2⟩
    apply forall₂_of_getElem (by simp [h1])
    intro i hi1 hi2
    simpa using h2 i hi2

/-- Codes of the reordered particles are the reordered codes. -/
theorem rawCodes_isort {env : Env} {box : env.F} {a b : List (List env.F)} {n : Nat} {raw codes srt : List Nat}
    (hr : rawCodes env box a n = .ok raw) (hp : srt.Perm (List.range n)) (hab : a.mapM (fun v => applyIsort v srt) = some b)
    (hc : applyIsort raw srt = some codes) : rawCodes env box b n = .ok codes := by
  rw [rawCodes_spec] at hr ⊢
  obtain ⟨hl, hw⟩ := applyIsort_spec hc
  have hsl := perm_length hp
  refine ⟨by omega, fun i hi => ?_⟩
  have hi' : i < srt.length := by omega
  have hlt := perm_lt hp (List.getElem_mem hi')
  rw [coordsAt_isort hab env.d i hi', hr.2 srt[i] (by omega)]
  have := hw i hi'
  rw [List.getElem?_eq_getElem hi, List.getElem?_eq_getElem (by omega : srt[i] < raw.length), Option.some.injEq] at this
  rw [this]

theorem codes_sorted {raw codes srt : List Nat} (hs : IsSortOf (codeLt raw) (List.range raw.length) srt)
    (hc : applyIsort raw srt = some codes) : codes.Pairwise (· ≤ ·) := by
  obtain ⟨hl, hw⟩ := applyIsort_spec hc
  rw [List.pairwise_iff_getElem]
  intro i j hi hj hij
  have h1 := List.pairwise_iff_getElem.1 hs.2 i j (by omega) (by omega) hij
  have hi' := perm_lt hs.1 (List.getElem_mem (by omega : i < srt.length))
  have hj' := perm_lt hs.1 (List.getElem_mem (by omega : j < srt.length))
  have e1 := hw i (by omega)
  have e2 := hw j (by omega)
  rw [List.getElem?_eq_getElem hi, List.getElem?_eq_getElem hi', Option.some.injEq] at e1
  rw [List.getElem?_eq_getElem hj, List.getElem?_eq_getElem hj', Option.some.injEq] at e2
  simp only [codeLt, cAt, decide_eq_false_iff_not, Nat.not_lt, List.getD_eq_getElem?_getD] at h1
  rw [List.getElem?_eq_getElem hi', List.getElem?_eq_getElem hj'] at h1
  simpa [e1, e2] using h1

/-! ### Callbacks -/

theorem run_shape {F : Type} (tr : Nat → Option Nat) (f : Prog F) {a b : List (List F)} (h : f.run tr a = .ok b) :
    b.map List.length = a.map List.length := by
  induction f generalizing a with
  | done => simp only [Prog.run, Except.ok.injEq] at h; rw [h]
  | throw => simp [Prog.run] at h
  | read j k cont ih =>
    simp only [Prog.run] at h
    cases hv : ofUB (do let v ← a[j]?; v[(← tr k)]?) with
    | error e => rw [hv] at h; simp [bind, Except.bind] at h
    | ok v => rw [hv] at h; exact ih v h
  | write j k v cont ih =>
    simp only [Prog.run] at h
    cases hv : ofUB (do
        let old ← a[j]?
        let i ← tr k
        if i < old.length then some (a.set j (old.set i v)) else none) with
    | error e => rw [hv] at h; simp [bind, Except.bind] at h
    | ok a' =>
      rw [hv] at h
      rw [ih h]
      unfold ofUB at hv
      split at hv
      · rename_i x hx
        simp only [Except.ok.injEq] at hv
        subst hv
        simp only [Option.bind_eq_bind, Option.bind_eq_some_iff] at hx
        obtain ⟨old, ho, i, _, hx⟩ := hx
        split at hx
        · simp only [Option.some.injEq] at hx
          subst hx
          rw [List.map_set]
          apply List.ext_getElem?
          intro m
          by_cases hm : j = m
          · subst hm
            by_cases hj : j < a.length
            · rw [List.getElem?_eq_getElem hj, Option.some.injEq] at ho
              simp [hj, ho]
            · rw [List.getElem?_eq_none (by omega)] at ho; simp at ho
          · simp [List.getElem?_set_ne hm]
        · simp at hx
      · simp at hv

theorem lengths_of_shape {F : Type} {a b : List (List F)} (h : b.map List.length = a.map List.length) :
    b.length = a.length ∧ ∀ n, (∀ v ∈ a, v.length = n) → ∀ v ∈ b, v.length = n := by
  refine ⟨by simpa using congrArg List.length h, fun n hn v hv => ?_⟩
  have : v.length ∈ b.map List.length := List.mem_map.2 ⟨v, hv, rfl⟩
  rw [h] at this
  obtain ⟨u, hu, he⟩ := List.mem_map.1 this
  rw [← he]; exact hn u hu

/-! ### The invariant -/

/-- What holds in every state of a tree. -/
structure TInv {env : Env} (s : TS env) : Prop where
  arr : s.parts.length = env.d + 1
  len : ∀ v ∈ s.parts, v.length = s.n
  perm : s.perm.Perm (List.range s.n)
  lastPerm : s.lastPerm.Perm (List.range s.n)
  invLen : s.invPerm.length = s.n
  inv : ∀ i p : Nat, s.perm[i]? = some p → s.invPerm[p]? = some i
  codes : rawCodes env s.box s.parts s.n = .ok s.codes
  sorted : s.codes.Pairwise (· ≤ ·)
  built : ∃ split, IsBuild s.cfg s.codes split (.ok (s.tree, s.crit))
  props : s.tree.mapM (fun nd => env.props s.box nd s.parts) = .ok s.props

variable {env : Env}

theorem inv_default : TInv (TS.default env) where
  arr := by simp [TS.default]
  len := by intro v hv; simp [TS.default] at hv; simp [TS.default, TS.n, hv, List.replicate_succ]
  perm := by simp [TS.default, TS.n, List.replicate_succ]
  lastPerm := by simp [TS.default, TS.n, List.replicate_succ]
  invLen := by simp [TS.default, TS.n, List.replicate_succ]
  inv := by simp [TS.default]
  codes := by simp [TS.default, TS.n, List.replicate_succ, rawCodes, pure, Except.pure]
  sorted := by simp [TS.default]
  built := ⟨0, .empty rfl⟩
  props := by simp [TS.default, pure, Except.pure]

theorem clear_eq_default (s : TS env) (h : s.parts.length = env.d + 1) : s.clear = TS.default env := by
  simp only [TS.clear, TS.default]
  congr 1
  rw [← h]
  apply List.ext_getElem (by simp)
  intros; simp

/-- Unfolding of a successful construction. -/
theorem construct_ok {inp : Input env} {s : TS env} (h : Construct inp (.ok s)) :
    ∃ raw ord split, inp.check = .ok () ∧ boxFor env inp.box inp.parts = .ok s.box ∧
      rawCodes env s.box inp.parts (inp.parts.headD []).length = .ok raw ∧
      IsSortOf (codeLt raw) (List.range raw.length) s.perm ∧ ord.Perm (List.range raw.length) ∧
      applyIsort raw s.perm = some s.codes ∧ inp.parts.mapM (fun v => applyIsort v s.perm) = some s.parts ∧
      permToInv ord s.perm (List.replicate s.perm.length 0) = some s.invPerm ∧
      IsBuild ⟨env.w, env.d, inp.maxLeaf, inp.ncrit⟩ s.codes split (.ok (s.tree, s.crit)) ∧
      s.tree.mapM (fun nd => env.props s.box nd s.parts) = .ok s.props ∧
      s.lastPerm = s.perm ∧ s.deduced = inp.box.isNone ∧ s.maxLeaf = inp.maxLeaf ∧ s.ncrit = inp.ncrit := by
  generalize hr : (Except.ok s : Except Err (TS env)) = r at h
  cases h with
  | early e h => simp at hr
  | run box raw srt ord codes split r h1 h2 h3 h4 h5 =>
    unfold Input.prepare at h1
    cases hc : inp.check with
    | error e => rw [hc] at h1; simp [bind, Except.bind] at h1
    | ok u =>
      cases hb : boxFor env inp.box inp.parts with
      | error e => rw [hc, hb] at h1; simp [bind, Except.bind] at h1
      | ok b =>
        cases hw : rawCodes env b inp.parts (inp.parts.headD []).length with
        | error e => rw [hc, hb] at h1; simp only [bind, Except.bind, hw] at h1; simp at h1
        | ok rw' =>
          rw [hc, hb] at h1
          simp only [bind, Except.bind, hw, pure, Except.pure, Except.ok.injEq, Prod.mk.injEq] at h1
          obtain ⟨rfl, rfl⟩ := h1
          unfold Input.finish at hr
          rw [h4] at hr
          cases hp : inp.parts.mapM (fun v => applyIsort v srt) with
          | none => rw [hp] at hr; simp [ofUB, bind, Except.bind] at hr
          | some parts =>
            cases hi : permToInv ord srt (List.replicate srt.length 0) with
            | none => rw [hp, hi] at hr; simp [ofUB, bind, Except.bind] at hr
            | some inv =>
              cases r with
              | error e => rw [hp, hi] at hr; simp [ofUB, bind, Except.bind] at hr
              | ok tc =>
                obtain ⟨tree, crit⟩ := tc
                cases hm : tree.mapM (fun nd => env.props b nd parts) with
                | error e => rw [hp, hi] at hr; simp [ofUB, bind, Except.bind, hm] at hr
                | ok props =>
                  rw [hp, hi] at hr
                  simp only [ofUB, bind, Except.bind, hm, pure, Except.pure, Except.ok.injEq] at hr
                  subst hr
                  exact ⟨rw', ord, split, rfl, rfl, hw, h2, h3, h4, hp, hi, h5, hm, rfl, rfl, rfl, rfl⟩

theorem check_lengths {inp : Input env} (h : inp.check = .ok ()) :
    ∀ v ∈ inp.parts, v.length = (inp.parts.headD []).length := by
  unfold Input.check at h
  split at h
  · simp at h
  · rename_i h'
    intro v hv
    simp only [List.any_eq_true, not_exists, not_and] at h'
    simpa using h' v hv

theorem inv_construct {inp : Input env} (hd : inp.parts.length = env.d + 1) {s : TS env} (h : Construct inp (.ok s)) : TInv s := by
  obtain ⟨raw, ord, split, hc, hb, hw, hs, ho, ha, hp, hi, hbd, hpr, hlp, _, hml, hnc⟩ := construct_ok h
  have hlen := check_lengths hc
  obtain ⟨hrl, _⟩ := rawCodes_spec.1 hw
  set n := (inp.parts.headD []).length with hn
  rw [hrl] at hs ho
  obtain ⟨q1, q2, q3⟩ := mapM_isort_spec hp
  have hsl := perm_length hs.1
  have hne : s.parts ≠ [] := by
    intro h0; rw [h0] at q1; simp at q1; rw [q1] at hd; simp at hd
  have hsn : s.n = n := by
    unfold TS.n
    exact headD_length (fun v hv => (q2 v hv).trans hsl) hne
  obtain ⟨inv, i1, i2, i3⟩ := permToInv_spec (inv0 := List.replicate s.perm.length 0) hs.1 ho (by simpa using hsl)
  rw [hi, Option.some.injEq] at i1
  subst i1
  exact {
    arr := by rw [← q1, hd]
    len := fun v hv => by rw [hsn]; exact (q2 v hv).trans hsl
    perm := by rw [hsn]; exact hs.1
    lastPerm := by rw [hsn, hlp]; exact hs.1
    invLen := by rw [hsn]; exact i2
    inv := i3
    codes := by rw [hsn]; exact rawCodes_isort hw hs.1 hp ha
    sorted := codes_sorted (by rw [hrl]; exact hs) ha
    built := ⟨split, by unfold TS.cfg; rw [hml, hnc]; exact hbd⟩
    props := hpr }

/-- Unfolding of a successful `sync`. -/
theorem sync_ok {t s : TS env} (h : Sync t (.ok s)) :
    ∃ raw ord split, boxFor env (if t.deduced then none else some t.box) t.parts = .ok s.box ∧
      rawCodes env s.box t.parts t.n = .ok raw ∧
      IsSortOf (codeLt raw) (List.range raw.length) s.lastPerm ∧ ord.Perm (List.range raw.length) ∧
      applyIsort raw s.lastPerm = some s.codes ∧ t.parts.mapM (fun v => applyIsort v s.lastPerm) = some s.parts ∧
      applyIsort t.perm s.lastPerm = some s.perm ∧ permToInv ord s.perm t.invPerm = some s.invPerm ∧
      IsBuild t.cfg s.codes split (.ok (s.tree, s.crit)) ∧
      s.tree.mapM (fun nd => env.props s.box nd s.parts) = .ok s.props ∧
      s.deduced = t.deduced ∧ s.maxLeaf = t.maxLeaf ∧ s.ncrit = t.ncrit := by
  generalize hr : (Except.ok s : Except Err (TS env)) = r at h
  cases h with
  | early e h => simp at hr
  | run box raw srt ord codes split r h1 h2 h3 h4 h5 =>
    unfold TS.syncPrepare at h1
    cases hb : boxFor env (if t.deduced then none else some t.box) t.parts with
    | error e => rw [hb] at h1; simp [bind, Except.bind] at h1
    | ok b =>
      cases hw : rawCodes env b t.parts t.n with
      | error e => rw [hb] at h1; simp only [bind, Except.bind, hw] at h1; simp at h1
      | ok rw' =>
        rw [hb] at h1
        simp only [bind, Except.bind, hw, pure, Except.pure, Except.ok.injEq, Prod.mk.injEq] at h1
        obtain ⟨rfl, rfl⟩ := h1
        unfold TS.syncFinish at hr
        rw [h4] at hr
        cases hp : t.parts.mapM (fun v => applyIsort v srt) with
        | none => rw [hp] at hr; simp [ofUB, bind, Except.bind] at hr
        | some parts =>
          cases hq : applyIsort t.perm srt with
          | none => rw [hp, hq] at hr; simp [ofUB, bind, Except.bind] at hr
          | some perm =>
            cases hi : permToInv ord perm t.invPerm with
            | none => rw [hp, hq] at hr; simp [ofUB, bind, Except.bind, hi] at hr
            | some inv =>
              cases r with
              | error e => rw [hp, hq] at hr; simp [ofUB, bind, Except.bind, hi] at hr
              | ok tc =>
                obtain ⟨tree, crit⟩ := tc
                cases hm : tree.mapM (fun nd => env.props b nd parts) with
                | error e => rw [hp, hq] at hr; simp [ofUB, bind, Except.bind, hm, hi] at hr
                | ok props =>
                  rw [hp, hq] at hr
                  simp only [ofUB, bind, Except.bind, hm, hi, pure, Except.pure, Except.ok.injEq] at hr
                  subst hr
                  exact ⟨rw', ord, split, rfl, hw, h2, h3, h4, hp, hq, hi, h5, hm, rfl, rfl, rfl⟩

/-- The part of the invariant that `sync` relies on (the particle data may have been edited). -/
structure PreSync (t : TS env) : Prop where
  arr : t.parts.length = env.d + 1
  len : ∀ v ∈ t.parts, v.length = t.n
  perm : t.perm.Perm (List.range t.n)
  invLen : t.invPerm.length = t.n

theorem TInv.n_ne {s : TS env} (h : TInv s) : s.parts ≠ [] := by
  intro h0; have := h.arr; rw [h0] at this; simp at this

theorem inv_sync {t s : TS env} (ht : PreSync t) (h : Sync t (.ok s)) : TInv s ∧ s.n = t.n := by
  obtain ⟨raw, ord, split, hb, hw, hs, ho, ha, hp, hq, hi, hbd, hpr, _, hml, hnc⟩ := sync_ok h
  obtain ⟨hrl, _⟩ := rawCodes_spec.1 hw
  rw [hrl] at hs ho
  obtain ⟨q1, q2, q3⟩ := mapM_isort_spec hp
  have hsl := perm_length hs.1
  have hne : s.parts ≠ [] := by
    intro h0; have := ht.arr; rw [h0] at q1; simp at q1; rw [q1] at this; simp at this
  have hsn : s.n = t.n := by
    unfold TS.n
    exact headD_length (fun v hv => (q2 v hv).trans hsl) hne
  have hperm := applyIsort_perm hs.1 ht.perm hq
  obtain ⟨inv, i1, i2, i3⟩ := permToInv_spec (inv0 := t.invPerm) hperm ho ht.invLen
  rw [hi, Option.some.injEq] at i1
  subst i1
  refine ⟨{
    arr := by rw [← q1, ht.arr]
    len := fun v hv => by rw [hsn]; exact (q2 v hv).trans hsl
    perm := by rw [hsn]; exact hperm
    lastPerm := by rw [hsn]; exact hs.1
    invLen := by rw [hsn]; exact i2
    inv := i3
    codes := by rw [hsn]; exact rawCodes_isort hw hs.1 hp ha
    sorted := codes_sorted (by rw [hrl]; exact hs) ha
    built := ⟨split, by unfold TS.cfg at hbd ⊢; rw [hml, hnc]; exact hbd⟩
    props := hpr }, hsn⟩

theorem preSync_of_run {s : TS env} (hs : TInv s) {ordered : Bool} {f : Prog env.F} {parts : List (List env.F)}
    (h : f.run (s.tr ordered) s.parts = .ok parts) : PreSync ({ s with parts := parts } : TS env) := by
  have hsh := lengths_of_shape (run_shape _ f h)
  have hlen := hsh.2 _ hs.len
  have hne : parts ≠ [] := by
    intro h0; have h1 := hs.arr; have h2 := hsh.1; rw [h0] at h2; simp at h2; omega
  have hn : ({ s with parts := parts } : TS env).n = s.n := by
    unfold TS.n; exact headD_length hlen hne
  exact ⟨by rw [← hs.arr]; exact hsh.1, fun v hv => by rw [hn]; exact hlen v hv, by rw [hn]; exact hs.perm,
    by rw [hn]; exact hs.invLen⟩

/-- Unfolding of a successful particle update. -/
theorem update_ok {s s' : TS env} {ordered : Bool} {f : Prog env.F} (h : UpdateParticles s ordered f (.ok s')) :
    ∃ parts, f.run (s.tr ordered) s.parts = .ok parts ∧ Sync { s with parts := parts } (.ok s') := by
  generalize hr : (Out.ok s') = r at h
  cases h with
  | callback e h => cases e <;> simp [guard] at hr
  | sync parts r h1 h2 =>
    cases r with
    | error e => cases e <;> simp [guard] at hr
    | ok t => simp only [guard, Out.ok.injEq] at hr; subst hr; exact ⟨parts, h1, h2⟩

theorem inv_update {s s' : TS env} (hs : TInv s) {ordered : Bool} {f : Prog env.F}
    (h : UpdateParticles s ordered f (.ok s')) : TInv s' ∧ s'.n = s.n := by
  obtain ⟨parts, h1, h2⟩ := update_ok h
  obtain ⟨i, e⟩ := inv_sync (preSync_of_run hs h1) h2
  refine ⟨i, e.trans ?_⟩
  have hsh := lengths_of_shape (run_shape _ f h1)
  have hne : parts ≠ [] := by
    intro h0; have h1 := hs.arr; have h2 := hsh.1; rw [h0] at h2; simp at h2; omega
  unfold TS.n; exact headD_length (hsh.2 _ hs.len) hne

theorem update_threw {s s' : TS env} (hs : TInv s) {ordered : Bool} {f : Prog env.F} {e : Err}
    (h : UpdateParticles s ordered f (.threw e s')) : s' = TS.default env := by
  generalize hr : (Out.threw e s') = r at h
  cases h with
  | callback e h =>
    cases e <;> simp [guard] at hr <;> (rw [hr.2]; exact clear_eq_default _ hs.arr)
  | sync parts r h1 h2 =>
    have := (lengths_of_shape (run_shape _ f h1)).1
    have ha := hs.arr
    cases r with
    | error e => cases e <;> simp [guard] at hr <;> (rw [hr.2]; exact clear_eq_default _ (by simp; omega))
    | ok t => simp [guard] at hr

/-- Unfolding of a successful mass update. -/
theorem masses_ok {s s' : TS env} {ordered : Bool} {f : Prog env.F} (h : updateMasses s ordered f = .ok s') :
    ∃ m, f.run (s.tr ordered) (s.parts.drop env.d) = .ok m ∧
      s.tree.mapM (fun nd => env.props s.box nd (s.parts.take env.d ++ m)) = .ok s'.props ∧
      s' = { s with parts := s.parts.take env.d ++ m, props := s'.props } := by
  unfold updateMasses at h
  cases hm : f.run (s.tr ordered) (s.parts.drop env.d) with
  | error e => rw [hm] at h; cases e <;> simp [guard, bind, Except.bind] at h
  | ok m =>
    cases hp : s.tree.mapM (fun nd => env.props s.box nd (s.parts.take env.d ++ m)) with
    | error e => rw [hm] at h; cases e <;> simp [guard, bind, Except.bind, hp] at h
    | ok props =>
      rw [hm] at h
      simp only [guard, bind, Except.bind, hp, pure, Except.pure, Out.ok.injEq] at h
      subst h
      exact ⟨m, rfl, hp, rfl⟩

theorem masses_threw {s s' : TS env} (hs : TInv s) {ordered : Bool} {f : Prog env.F} {e : Err}
    (h : updateMasses s ordered f = .threw e s') : s' = TS.default env := by
  unfold updateMasses guard at h
  split at h
  · simp at h
  · simp at h
  · simp only [Out.threw.injEq] at h
    rw [← h.2]; exact clear_eq_default _ hs.arr

theorem inv_masses {s s' : TS env} (hs : TInv s) {ordered : Bool} {f : Prog env.F} (h : updateMasses s ordered f = .ok s') :
    TInv s' ∧ s'.n = s.n := by
  obtain ⟨m, h1, h2, h3⟩ := masses_ok h
  have hsh := lengths_of_shape (run_shape _ f h1)
  have hmlen := hsh.2 s.n (fun v hv => hs.len v (List.mem_of_mem_drop hv))
  have hl : (s.parts.take env.d ++ m).length = env.d + 1 := by
    have := hs.arr; have := hsh.1; simp at this ⊢; omega
  have hlen : ∀ v ∈ s.parts.take env.d ++ m, v.length = s.n := by
    intro v hv
    rcases List.mem_append.1 hv with hv | hv
    · exact hs.len v (List.mem_of_mem_take hv)
    · exact hmlen v hv
  have hn : s'.n = s.n := by
    rw [h3]; unfold TS.n
    exact headD_length hlen (fun h0 => by have h0 : s.parts.take env.d ++ m = [] := h0; rw [h0] at hl; simp at hl)
  have hparts : s'.parts = s.parts.take env.d ++ m := by rw [h3]
  have hco : ∀ i, coordsAt env.d s'.parts i = coordsAt env.d s.parts i := by
    intro i
    unfold coordsAt
    rw [hparts, List.take_append_of_le_length (by have := hs.arr; simp; omega), List.take_take, Nat.min_self]
  refine ⟨?_, hn⟩
  have e1 : s'.perm = s.perm := by rw [h3]
  have e2 : s'.lastPerm = s.lastPerm := by rw [h3]
  have e3 : s'.invPerm = s.invPerm := by rw [h3]
  have e4 : s'.codes = s.codes := by rw [h3]
  have e5 : s'.tree = s.tree := by rw [h3]
  have e6 : s'.crit = s.crit := by rw [h3]
  have e7 : s'.box = s.box := by rw [h3]
  have e8 : s'.cfg = s.cfg := by rw [h3]; rfl
  exact {
    arr := by rw [hparts, hl]
    len := fun v hv => by rw [hn]; rw [hparts] at hv; exact hlen v hv
    perm := by rw [hn, e1]; exact hs.perm
    lastPerm := by rw [hn, e2]; exact hs.lastPerm
    invLen := by rw [hn, e3]; exact hs.invLen
    inv := by rw [e1, e3]; exact hs.inv
    codes := by
      rw [hn, e4, e7, rawCodes_spec]
      have := rawCodes_spec.1 hs.codes
      refine ⟨this.1, fun i hi => ?_⟩
      rw [hco]; exact this.2 i hi
    sorted := by rw [e4]; exact hs.sorted
    built := by rw [e4, e5, e6, e8]; exact hs.built
    props := by rw [e5, e7, hparts]; exact h2 }

theorem copyAssign_cases {t o s : TS env} {same : Bool} {fail : Option Nat} (h : copyAssign t o same fail = .ok s) :
    s = t ∧ same = true ∨ s = o ∧ same = false := by
  unfold copyAssign at h
  cases same with
  | true => simp at h; left; exact ⟨h.symm, rfl⟩
  | false =>
    right
    refine ⟨?_, rfl⟩
    cases fail with
    | none => simp at h; exact h.symm
    | some k =>
      simp only [Bool.false_eq_true, if_false] at h
      split at h
      · simp at h
      · simp at h; exact h.symm

theorem copyAssign_threw {t o s : TS env} {same : Bool} {fail : Option Nat} {e : Err} (ht : t.parts.length = env.d + 1)
    (ho : o.parts.length = env.d + 1) (h : copyAssign t o same fail = .threw e s) : s = TS.default env := by
  unfold copyAssign at h
  cases same with
  | true => simp at h
  | false =>
    cases fail with
    | none => simp at h
    | some k =>
      simp only [Bool.false_eq_true, if_false] at h
      split at h
      · simp only [Out.threw.injEq] at h
        rw [← h.2]
        apply clear_eq_default
        rename_i hk
        have hk' : k < 11 := by simpa using hk
        have : k = 0 ∨ k = 1 ∨ k = 2 ∨ k = 3 ∨ k = 4 ∨ k = 5 ∨ k = 6 ∨ k = 7 ∨ k = 8 ∨ k = 9 ∨ k = 10 := by omega
        rcases this with rfl | rfl | rfl | rfl | rfl | rfl | rfl | rfl | rfl | rfl | rfl <;> simp [ht, ho]
      · simp at h

/-- Every reachable state satisfies the invariant. -/
theorem reach_inv {s : TS env} (h : Reach env s) : TInv s := by
  induction h with
  | default => exact inv_default
  | construct inp s hd h => exact inv_construct hd h
  | particles s s' o f _ h ih => exact (inv_update ih h).1
  | particlesFail s s' o f e _ h ih => rw [update_threw ih h]; exact inv_default
  | masses s s' o f _ h ih => exact (inv_masses ih h).1
  | massesFail s s' o f e _ h ih => rw [masses_threw ih h]; exact inv_default
  | copy s _ ih => exact ih
  | moveTo s junk _ _ ih => exact ih
  | moveFrom s junk _ hj ih => rw [show (moveCtor s junk).2 = junk.clear from rfl, clear_eq_default _ hj]; exact inv_default
  | copyAssign t o s same fail _ _ h iht iho =>
    rcases copyAssign_cases h with ⟨rfl, _⟩ | ⟨rfl, _⟩
    · exact iht
    · exact iho
  | copyAssignFail t o s same fail e _ _ h iht iho => rw [copyAssign_threw iht.arr iho.arr h]; exact inv_default
  | moveAssignTo t o junk same _ _ _ iht iho =>
    cases same
    · exact iho
    · exact iht
  | moveAssignFrom t o junk same _ _ hj iht iho =>
    cases same
    · rw [show (moveAssign t o junk false).2 = junk.clear from rfl, clear_eq_default _ hj]; exact inv_default
    · exact iht
  | clear s _ ih => rw [clear_eq_default _ ih.arr]; exact inv_default

end Rakau
