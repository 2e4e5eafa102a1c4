import Verif.Spec.Cuda
import Mathlib.Data.List.Perm.Basic
import Mathlib.Data.List.Nodup
import Mathlib.Data.List.Basic
import Mathlib.Tactic.Linarith

/-! The host side of the CUDA computation: rules for the sequence of its calls. -/
namespace Rakau.Cuda
open Spec Cu

variable {α β γ : Type} {g : Nat}

theorem run_append (g : Nat) (r : Held) (l l' : List Ev) : run g r (l ++ l') = (run g r l).bind (fun r => run g r l') := by
  induction l generalizing r with
  | nil => rfl
  | cons e l ih =>
    show (step g r e).bind _ = ((step g r e).bind _).bind _
    cases step g r e with
    | none => rfl
    | some r' => exact ih r'

/-- `P` after a normal end, `T` after an exception. -/
def Post (P : α → Nat → Held → Prop) (T : Held → Prop) : CuOut α → Nat → Held → Prop
  | .ok a, k, r => P a k r
  | .throw _, _, r => T r
  | .terminate, _, _ => True

/-- From the resources `r`, after `k` calls, the calls of `m` are legal, and it ends as `Q` says. -/
def Trip (g : Nat) (m : Cu α) (r : Held) (k : Nat) (Q : CuOut α → Nat → Held → Prop) : Prop :=
  ∀ rt, ∃ r', run g r (m rt k).evs = some r' ∧ k ≤ (m rt k).k ∧ Q (m rt k).out (m rt k).k r'

theorem Trip.conseq {m : Cu α} {r : Held} {k : Nat} {P P' : α → Nat → Held → Prop} {T T' : Held → Prop} (h : Trip g m r k (Post P T))
    (h1 : ∀ a k' r', k ≤ k' → P a k' r' → P' a k' r') (h2 : ∀ r', T r' → T' r') : Trip g m r k (Post P' T') := by
  intro rt
  obtain ⟨r', e, hk, hq⟩ := h rt
  refine ⟨r', e, hk, ?_⟩
  cases ho : (m rt k).out with
  | ok a => rw [ho] at hq; exact h1 _ _ _ hk hq
  | throw e => rw [ho] at hq; exact h2 _ hq
  | terminate => trivial

theorem Trip.pure {a : α} {r : Held} {k : Nat} {P : α → Nat → Held → Prop} {T : Held → Prop} (h : P a k r) : Trip g (Cu.pure a) r k (Post P T) :=
  fun _ => ⟨r, rfl, le_refl _, h⟩

theorem Trip.throw {e : CuExc} {r : Held} {k : Nat} {P : α → Nat → Held → Prop} {T : Held → Prop} (h : T r) : Trip g (Cu.throw e) r k (Post P T) :=
  fun _ => ⟨r, rfl, le_refl _, h⟩

theorem Trip.call {e : Nat → Rc → Ev} {r : Held} {k : Nat} {P : Nat × Rc → Nat → Held → Prop} {T : Held → Prop}
    (h : ∀ rc, ∃ r', step g r (e k rc) = some r' ∧ P (k, rc) (k + 1) r') : Trip g (Cu.call e) r k (Post P T) := by
  intro rt
  obtain ⟨r', h1, h2⟩ := h (rt k)
  refine ⟨r', ?_, Nat.le_succ k, h2⟩
  show (step g r (e k (rt k))).bind _ = _
  rw [h1]; rfl

theorem Trip.bind {m : Cu α} {f : α → Cu β} {r : Held} {k : Nat} {P : α → Nat → Held → Prop} {P' : β → Nat → Held → Prop} {T : Held → Prop}
    (h : Trip g m r k (Post P T)) (hf : ∀ a k' r', k ≤ k' → P a k' r' → Trip g (f a) r' k' (Post P' T)) : Trip g (Cu.bind m f) r k (Post P' T) := by
  intro rt
  obtain ⟨r', e, hk, hq⟩ := h rt
  cases ho : (m rt k).out with
  | ok a =>
    rw [ho] at hq
    obtain ⟨r'', e2, hk2, hq2⟩ := hf a _ r' hk hq rt
    refine ⟨r'', ?_, ?_, ?_⟩
    · simp only [Cu.bind, ho]; rw [run_append, e]; exact e2
    · simp only [Cu.bind, ho]; exact le_trans hk hk2
    · simp only [Cu.bind, ho]; exact hq2
  | throw x =>
    rw [ho] at hq
    exact ⟨r', by simp only [Cu.bind, ho]; exact e, by simp only [Cu.bind, ho]; exact hk, by simp only [Cu.bind, ho]; exact hq⟩
  | terminate => exact ⟨r', by simp only [Cu.bind, ho]; exact e, by simp only [Cu.bind, ho]; exact hk, by simp only [Cu.bind, ho]; trivial⟩

theorem Trip.within {m : Cu α} {cl : Cu Unit} {r : Held} {k : Nat} {P P' : α → Nat → Held → Prop} {T T' : Held → Prop} (h : Trip g m r k (Post P T))
    (h1 : ∀ a k' r', P a k' r' → Trip g cl r' k' (Post (fun _ k'' r'' => P' a k'' r'') (fun _ => True)))
    (h2 : ∀ k' r', T r' → Trip g cl r' k' (Post (fun _ _ r'' => T' r'') (fun _ => True))) : Trip g (Cu.within cl m) r k (Post P' T') := by
  intro rt
  obtain ⟨r', e, hk, hq⟩ := h rt
  cases ho : (m rt k).out with
  | ok a =>
    rw [ho] at hq
    obtain ⟨r'', e2, hk2, hq2⟩ := h1 a _ r' hq rt
    cases hc : (cl rt (m rt k).k).out with
    | ok u =>
      rw [hc] at hq2
      exact ⟨r'', by simp only [Cu.within, ho, hc]; rw [run_append, e]; exact e2, by simp only [Cu.within, ho, hc]; exact le_trans hk hk2,
        by simp only [Cu.within, ho, hc]; exact hq2⟩
    | throw x => exact ⟨r'', by simp only [Cu.within, ho, hc]; rw [run_append, e]; exact e2, by simp only [Cu.within, ho, hc]; exact le_trans hk hk2,
        by simp only [Cu.within, ho, hc]; trivial⟩
    | terminate => exact ⟨r'', by simp only [Cu.within, ho, hc]; rw [run_append, e]; exact e2, by simp only [Cu.within, ho, hc]; exact le_trans hk hk2,
        by simp only [Cu.within, ho, hc]; trivial⟩
  | throw x =>
    rw [ho] at hq
    obtain ⟨r'', e2, hk2, hq2⟩ := h2 _ r' hq rt
    cases hc : (cl rt (m rt k).k).out with
    | ok u =>
      rw [hc] at hq2
      exact ⟨r'', by simp only [Cu.within, ho, hc]; rw [run_append, e]; exact e2, by simp only [Cu.within, ho, hc]; exact le_trans hk hk2,
        by simp only [Cu.within, ho, hc]; exact hq2⟩
    | throw x => exact ⟨r'', by simp only [Cu.within, ho, hc]; rw [run_append, e]; exact e2, by simp only [Cu.within, ho, hc]; exact le_trans hk hk2,
        by simp only [Cu.within, ho, hc]; trivial⟩
    | terminate => exact ⟨r'', by simp only [Cu.within, ho, hc]; rw [run_append, e]; exact e2, by simp only [Cu.within, ho, hc]; exact le_trans hk hk2,
        by simp only [Cu.within, ho, hc]; trivial⟩
  | terminate => exact ⟨r', by simp only [Cu.within, ho]; exact e, by simp only [Cu.within, ho]; exact hk, by simp only [Cu.within, ho]; trivial⟩

theorem Trip.onThrow {m : Cu α} {cl : Cu Unit} {r : Held} {k : Nat} {P : α → Nat → Held → Prop} {T T' : Held → Prop} (h : Trip g m r k (Post P T))
    (h2 : ∀ k' r', T r' → Trip g cl r' k' (Post (fun _ _ r'' => T' r'') (fun _ => True))) : Trip g (Cu.onThrow cl m) r k (Post P T') := by
  intro rt
  obtain ⟨r', e, hk, hq⟩ := h rt
  cases ho : (m rt k).out with
  | ok a =>
    rw [ho] at hq
    exact ⟨r', by simp only [Cu.onThrow, ho]; exact e, by simp only [Cu.onThrow, ho]; exact hk, by simp only [Cu.onThrow, ho]; exact hq⟩
  | throw x =>
    rw [ho] at hq
    obtain ⟨r'', e2, hk2, hq2⟩ := h2 _ r' hq rt
    cases hc : (cl rt (m rt k).k).out with
    | ok u =>
      rw [hc] at hq2
      exact ⟨r'', by simp only [Cu.onThrow, ho, hc]; rw [run_append, e]; exact e2, by simp only [Cu.onThrow, ho, hc]; exact le_trans hk hk2,
        by simp only [Cu.onThrow, ho, hc]; exact hq2⟩
    | throw x => exact ⟨r'', by simp only [Cu.onThrow, ho, hc]; rw [run_append, e]; exact e2, by simp only [Cu.onThrow, ho, hc]; exact le_trans hk hk2,
        by simp only [Cu.onThrow, ho, hc]; trivial⟩
    | terminate => exact ⟨r'', by simp only [Cu.onThrow, ho, hc]; rw [run_append, e]; exact e2, by simp only [Cu.onThrow, ho, hc]; exact le_trans hk hk2,
        by simp only [Cu.onThrow, ho, hc]; trivial⟩
  | terminate => exact ⟨r', by simp only [Cu.onThrow, ho]; exact e, by simp only [Cu.onThrow, ho]; exact hk, by simp only [Cu.onThrow, ho]; trivial⟩

/-- A loop keeps an invariant. -/
theorem Trip.each {f : γ → Cu Unit} {l : List γ} {I T : Held → Prop}
    (hf : ∀ a ∈ l, ∀ k r, I r → Trip g (f a) r k (Post (fun _ _ r' => I r') T)) {r : Held} {k : Nat} (h : I r) :
    Trip g (Cu.each f l) r k (Post (fun _ _ r' => I r') T) := by
  induction l generalizing r k with
  | nil => exact .pure h
  | cons a l ih => exact .bind (hf a (by simp) k r h) fun _ k' r' _ h' => ih (fun b hb => hf b (List.mem_cons_of_mem _ hb)) h'

/-! ### The single calls -/

/-- The same resources, perhaps with another current device. -/
structure Sim (r r' : Held) : Prop where
  pinned : r'.pinned = r.pinned
  arrs : r'.arrs = r.arrs
  streams : r'.streams = r.streams

theorem Sim.refl (r : Held) : Sim r r := ⟨rfl, rfl, rfl⟩

theorem Sim.trans {r r' r'' : Held} (h : Sim r r') (h' : Sim r' r'') : Sim r r'' :=
  ⟨h'.pinned.trans h.pinned, h'.arrs.trans h.arrs, h'.streams.trans h.streams⟩

theorem trip_setDevice {i : Nat} (hi : i < g) (r : Held) (k : Nat) :
    Trip g (setDevice i) r k (Post (fun _ _ r' => Sim r r' ∧ r'.dev = i) (fun r' => Sim r r')) := by
  refine .bind (P := fun x _ r' => Sim r r' ∧ (x.2 = .success → r'.dev = i)) (.call fun rc => ?_) ?_
  · simp only [step]
    rw [if_pos hi]
    refine ⟨_, rfl, ?_, ?_⟩
    · split <;> exact ⟨rfl, rfl, rfl⟩
    · intro (h : rc = .success)
      rw [if_pos h]
  · rintro ⟨_, rc⟩ k' r' _ ⟨h1, h2⟩
    show Trip g (if rc = .success then _ else _) _ _ _
    split
    · rename_i hr; exact .pure ⟨h1, h2 hr⟩
    · exact .throw h1

theorem trip_copyIn {h : Nat} {a : Area} {len : Nat} {r : Held} (hh : r.has h len = true) (k : Nat) :
    Trip g (copyIn h a len) r k (Post (fun _ _ r' => r' = r) (fun r' => r' = r)) := by
  refine .bind (P := fun _ _ r' => r' = r) (.call fun rc => ⟨r, by rw [step, if_pos hh], rfl⟩) ?_
  rintro ⟨_, rc⟩ k' r' _ rfl
  show Trip g (if rc = .success then _ else _) _ _ _
  split
  · exact .pure rfl
  · exact .throw rfl

theorem trip_adviseAll {h n : Nat} {r : Held} (hh : r.has h 0 = true) (hn : n ≤ g) (k : Nat) :
    Trip g (adviseAll h n) r k (Post (fun _ _ r' => r' = r) (fun r' => r' = r)) := by
  refine .each (I := fun r' => r' = r) ?_ rfl
  rintro i hi k r' rfl
  refine .bind (P := fun _ _ x => x = r') (.call fun rc => ⟨r', by rw [step, if_pos ⟨hh, by have := List.mem_range.1 hi; omega⟩], rfl⟩) ?_
  rintro ⟨_, rc⟩ k' r'' _ rfl
  show Trip g (if rc = .failure then _ else _) _ _ _
  split
  · exact .throw rfl
  · exact .pure rfl

/-- All handles of arrays are below `k`. -/
def Fresh (r : Held) (k : Nat) : Prop := ∀ a ∈ r.arrs, a.1 < k

theorem Fresh.mono {r : Held} {k k' : Nat} (h : Fresh r k) (hk : k ≤ k') : Fresh r k' := fun a ha => lt_of_lt_of_le (h a ha) hk

theorem Fresh.sim {r r' : Held} {k : Nat} (h : Fresh r k) (hs : Sim r r') : Fresh r' k := by unfold Fresh; rw [hs.arrs]; exact h

theorem trip_makeArray {m : Bool} {sz len : Nat} {r : Held} {k : Nat} (hf : Fresh r k) :
    Trip g (makeArray m sz len) r k (Post (fun h k' r' => h < k' ∧ k ≤ h ∧ r' = { r with arrs := (h, (if m then none else some r.dev), len) :: r.arrs }) (fun r' => r' = r)) := by
  unfold makeArray
  split
  · exact .throw rfl
  · refine .bind (P := fun x k' r' => k ≤ x.1 ∧ x.1 < k' ∧
      r' = if x.2 = .success then { r with arrs := (x.1, (if m then none else some r.dev), len) :: r.arrs } else r) (.call fun rc => ?_) ?_
    · simp only [step]
      have hn : r.arrs.any (fun a => a.1 == k) = false := by
        rw [List.any_eq_false]
        intro a ha
        have := hf a ha
        simp; omega
      rw [hn]
      by_cases hr : rc = .success
      · refine ⟨_, by rw [if_pos hr]; rfl, le_refl _, Nat.lt_succ_self _, ?_⟩
        exact (if_pos hr).symm
      · refine ⟨_, by rw [if_neg hr], le_refl _, Nat.lt_succ_self _, ?_⟩
        exact (if_neg hr).symm
    · rintro ⟨x, rc⟩ k' r' _ ⟨h0, h1, h2⟩
      simp only at h0 h1 h2
      show Trip g (if rc = .success then _ else _) _ _ _
      by_cases hr : rc = .success
      · rw [if_pos hr] at h2 ⊢
        exact .pure ⟨h1, h0, h2⟩
      · rw [if_neg hr] at h2 ⊢
        exact .throw h2

/-! ### Arrays -/

/-- `r` has the arrays `L` and those of `r0`, which may be used by nothing, as there are no streams. -/
structure Own (r0 : Held) (L : List Nat) (r : Held) : Prop where
  pinned : r.pinned = r0.pinned
  streams : r.streams = []
  split : ∃ X, r.arrs = X ++ r0.arrs ∧ (X.map (·.1)).Perm L
  nodup : (r.arrs.map (·.1)).Nodup

theorem Own.sim {r0 r r' : Held} {L : List Nat} (h : Own r0 L r) (hs : Sim r r') : Own r0 L r' :=
  ⟨hs.pinned.trans h.pinned, hs.streams.trans h.streams, by rw [hs.arrs]; exact h.split, by rw [hs.arrs]; exact h.nodup⟩

theorem Own.base {r0 r0' r : Held} {L : List Nat} (h : Own r0 L r) (hs : Sim r0 r0') : Own r0' L r :=
  ⟨h.pinned.trans hs.pinned.symm, h.streams, by rw [hs.arrs]; exact h.split, h.nodup⟩

theorem Own.perm {r0 r : Held} {L L' : List Nat} (h : Own r0 L r) (hp : L.Perm L') : Own r0 L' r :=
  ⟨h.pinned, h.streams, by obtain ⟨X, h1, h2⟩ := h.split; exact ⟨X, h1, h2.trans hp⟩, h.nodup⟩

theorem Own.start {r : Held} (h1 : r.streams = []) (h2 : (r.arrs.map (·.1)).Nodup) : Own r [] r := ⟨rfl, h1, ⟨[], rfl, .refl _⟩, h2⟩

theorem Own.nil {r0 r : Held} (h : Own r0 [] r) (h0 : r0.streams = []) : Sim r0 r := by
  obtain ⟨X, h1, h2⟩ := h.split
  have : X = [] := by simpa using h2.eq_nil
  subst this
  exact ⟨h.pinned, h1, by rw [h.streams, h0]⟩

theorem Own.add {r0 r : Held} {L : List Nat} (h : Own r0 L r) {x : Nat} {dev : Option Nat} {len : Nat} (hf : Fresh r x) :
    Own r0 (L ++ [x]) { r with arrs := (x, dev, len) :: r.arrs } := by
  obtain ⟨X, h1, h2⟩ := h.split
  refine ⟨h.pinned, h.streams, ⟨(x, dev, len) :: X, by simp [h1], ?_⟩, ?_⟩
  · rw [List.map_cons]
    exact (List.Perm.cons x h2).trans (List.perm_append_singleton x L).symm
  · rw [List.map_cons, List.nodup_cons]
    refine ⟨?_, h.nodup⟩
    intro hm
    obtain ⟨a, ha, e⟩ := List.mem_map.1 hm
    have := hf a ha
    omega

theorem Own.fresh_add {r : Held} {x k : Nat} {dev : Option Nat} {len : Nat} (hf : Fresh r x) (hk : x < k) : Fresh { r with arrs := (x, dev, len) :: r.arrs } k := by
  intro a ha
  rcases List.mem_cons.1 ha with rfl | ha
  · exact hk
  · exact lt_trans (hf a ha) hk

theorem Own.free {r0 r : Held} {L : List Nat} {h : Nat} (ho : Own r0 (h :: L) r) : ∃ r', step g r (.free h) = some r' ∧ Own r0 L r' := by
  obtain ⟨X, h1, h2⟩ := ho.split
  have hm : h ∈ X.map (·.1) := h2.mem_iff.2 (by simp)
  obtain ⟨a, ha, e⟩ := List.mem_map.1 hm
  have hnd := ho.nodup
  rw [h1, List.map_append, List.nodup_append] at hnd
  have hb : r0.arrs.filter (fun a => a.1 != h) = r0.arrs := by
    rw [List.filter_eq_self]
    intro b hb
    have := hnd.2.2 h hm b.1 (List.mem_map_of_mem hb)
    simpa using Ne.symm this
  have hhas : r.has h 0 = true := by
    unfold Held.has
    rw [List.any_eq_true]
    exact ⟨a, by rw [h1]; exact List.mem_append_left _ ha, by simp [e]⟩
  refine ⟨{ r with arrs := r.arrs.filter (fun a => a.1 != h) }, by rw [step, if_pos ⟨hhas, by rw [ho.streams]; simp⟩], ho.pinned, ho.streams,
    ⟨X.filter (fun a => a.1 != h), ?_, ?_⟩, ?_⟩
  · show r.arrs.filter _ = _
    rw [h1, List.filter_append, hb]
  · have e1 : (X.filter (fun a => a.1 != h)).map (·.1) = (X.map (·.1)).filter (· != h) := by rw [List.filter_map]; rfl
    rw [e1]
    have h3 := h2.filter (· != h)
    have h4 : (h :: L).Nodup := h2.nodup_iff.1 hnd.1
    rw [List.nodup_cons] at h4
    have h5 : L.filter (· != h) = L := by
      rw [List.filter_eq_self]
      intro b hbL
      simp only [bne_iff_ne, ne_eq]
      rintro rfl
      exact h4.1 hbL
    rw [List.filter_cons_of_neg (by simp), h5] at h3
    exact h3
  · show ((r.arrs.filter _).map (·.1)).Nodup
    exact ho.nodup.sublist (List.filter_sublist.map _)

theorem trip_freeAll {r0 r : Held} {L : List Nat} {l : List Nat} (hp : L.Perm l) (h : Own r0 L r) (k : Nat) {T : Held → Prop} :
    Trip g (freeAll l) r k (Post (fun _ _ r' => Own r0 [] r') T) := by
  replace h := h.perm hp
  clear hp
  induction l generalizing r k with
  | nil => exact .pure h
  | cons x l ih =>
    refine .bind (P := fun _ _ r' => Own r0 l r') ?_ fun _ k' r' _ h' => ih k' h'
    refine .bind (P := fun _ _ r' => Own r0 l r') (.call fun rc => h.free) fun _ k' r' _ h' => .pure h'

/-- After a normal end or an exception, an array that exists for `m` only is freed. -/
theorem trip_scope {r0 : Held} {L l : List Nat} (hp : L.Perm l) {m : Cu Unit} {r : Held} {k : Nat}
    (h : Trip g m r k (Post (fun _ _ r' => Own r0 L r') (fun r' => Own r0 L r'))) :
    Trip g (Cu.within (freeAll l) m) r k (Post (fun _ _ r' => Own r0 [] r') (fun r' => Own r0 [] r')) :=
  .within h (fun _ k' _ h' => trip_freeAll hp h' k') (fun k' _ h' => trip_freeAll hp h' k')

theorem Own.comp {r0 r r' : Held} {L L' : List Nat} (h : Own r0 L r) (h' : Own r L' r') : Own r0 (L ++ L') r' := by
  obtain ⟨X, h1, h2⟩ := h.split
  obtain ⟨X', h3, h4⟩ := h'.split
  refine ⟨h'.pinned.trans h.pinned, h'.streams, ⟨X' ++ X, by rw [h3, h1, List.append_assoc], ?_⟩, h'.nodup⟩
  rw [List.map_append]
  exact (h4.append h2).trans List.perm_append_comm

theorem Own.mem {r0 r : Held} {L : List Nat} (h : Own r0 L r) {a : Nat × Option Nat × Nat} (ha : a ∈ r0.arrs) : a ∈ r.arrs := by
  obtain ⟨X, h1, _⟩ := h.split
  rw [h1]; exact List.mem_append_right _ ha

theorem has_of_mem {r : Held} {h len n : Nat} {dev : Option Nat} (ha : (h, dev, n) ∈ r.arrs) (hl : len ≤ n) : r.has h len = true := by
  unfold Held.has
  rw [List.any_eq_true]
  exact ⟨_, ha, by simp [hl]⟩

/-- The arrays for the results of one device. -/
theorem trip_tmpArrays {sz len i : Nat} {r0 : Held} (m : Nat) (acc : List Nat) {r : Held} {k : Nat} (ho : Own r0 acc r) (hf : Fresh r k) (hd : r.dev = i)
    (ha : ∀ h ∈ acc, (h, some i, len) ∈ r.arrs) :
    Trip g (tmpArrays sz len m acc) r k
      (Post (fun hs k' r' => Own r0 hs r' ∧ Fresh r' k' ∧ hs.length = acc.length + m ∧ ∀ h ∈ hs, (h, some i, len) ∈ r'.arrs) (fun r' => Own r0 [] r')) := by
  induction m generalizing acc r k with
  | zero => exact .pure ⟨ho, hf, rfl, ha⟩
  | succ m ih =>
    refine .bind (P := fun h k' r' => h < k' ∧ k ≤ h ∧ r' = { r with arrs := (h, some i, len) :: r.arrs }) ?_ ?_
    · refine .onThrow (T := fun r' => r' = r) ?_ ?_
      · have := trip_makeArray (g := g) (m := false) (sz := sz) (len := len) hf
        exact this.conseq (by rintro h k' r' _ ⟨a, b, rfl⟩; exact ⟨a, b, by rw [← hd]; rfl⟩) (fun _ h => h)
      · rintro k' r' rfl
        exact trip_freeAll (List.reverse_perm acc).symm ho k'
    · rintro h k' r' _ ⟨h1, h2, rfl⟩
      refine (ih (acc ++ [h]) (ho.add (hf.mono h2)) (Own.fresh_add (hf.mono h2) h1) hd ?_).conseq ?_ (fun _ h => h)
      · intro x hx
        rcases List.mem_append.1 hx with hx | hx
        · exact List.mem_cons_of_mem _ (ha x hx)
        · rw [List.mem_singleton.1 hx]; exact List.mem_cons_self ..
      · rintro hs k'' r'' _ ⟨a1, a2, a3, a4⟩
        refine ⟨a1, a2, ?_, a4⟩
        rw [a3, List.length_append, List.length_singleton]; omega

/-- The arrays `res` for the results exist, on their devices and with their lengths. -/
structure ResOk (c : CuCall) (res : List (List Nat)) (r : Held) : Prop where
  arr : ∀ i (hi : i < res.length), ∀ h ∈ res[i], (h, some i, subW 64 (c.idx (i + 1)) (c.idx i)) ∈ r.arrs
  len : ∀ l ∈ res, l.length = c.nres

theorem ResOk.mono {c : CuCall} {res : List (List Nat)} {r r' : Held} (h : ResOk c res r) (hr : ∀ a ∈ r.arrs, a ∈ r'.arrs) : ResOk c res r' :=
  ⟨fun i hi x hx => hr _ (h.arr i hi x hx), h.len⟩

theorem flatten_reverse_perm (l : List (List Nat)) : l.flatten.Perm (l.map List.reverse).flatten := by
  induction l with
  | nil => exact .refl _
  | cons a l ih => rw [List.map_cons, List.flatten_cons, List.flatten_cons]; exact (List.reverse_perm a).symm.append ih

theorem trip_withRes {c : CuCall} {r0 : Held} {body : List (List Nat) → Cu Unit}
    (hb : ∀ res r k, res.length = c.ngpus → ResOk c res r → Own r0 res.flatten r → Fresh r k →
      Trip g (body res) r k (Post (fun _ _ r' => Own r0 res.flatten r') (fun r' => Own r0 res.flatten r')))
    (hg : c.ngpus ≤ g) (m : Nat) (acc : List (List Nat)) (hm : acc.length + m = c.ngpus) {r : Held} {k : Nat} (ho : Own r0 acc.flatten r) (hf : Fresh r k) (hr : ResOk c acc r) :
    Trip g (withRes c body (List.range' acc.length m) acc) r k (Post (fun _ _ r' => Own r0 [] r') (fun r' => Own r0 [] r')) := by
  induction m generalizing acc r k with
  | zero => exact trip_scope (flatten_reverse_perm acc) (hb acc r k (by omega) hr ho hf)
  | succ m ih =>
    rw [List.range'_succ]
    refine .bind (P := fun hs k' r' => Own r0 (acc.flatten ++ hs) r' ∧ Fresh r' k' ∧ ResOk c (acc ++ [hs]) r') ?_ ?_
    · refine .onThrow (T := fun r' => Own r0 acc.flatten r') ?_ ?_
      · refine .bind (P := fun _ _ r' => Sim r r' ∧ r'.dev = acc.length) ((trip_setDevice (by omega) r k).conseq (fun _ _ _ _ h => h) fun _ h => ho.sim h) ?_
        rintro _ k' r' hk ⟨hs, hd⟩
        refine (trip_tmpArrays (r0 := r') c.nres [] (.start (hs.streams.trans ho.streams) (by rw [hs.arrs]; exact ho.nodup))
          ((hf.mono hk).sim hs) hd (by simp)).conseq ?_ ?_
        · rintro hs' k'' r'' _ ⟨a1, a2, a3, a4⟩
          refine ⟨(ho.sim hs).comp a1, a2, ?_, ?_⟩
          · intro i hi x hx
            rw [List.length_append, List.length_singleton] at hi
            by_cases hi' : i < acc.length
            · rw [List.getElem_append_left hi'] at hx
              exact a1.mem (by rw [hs.arrs]; exact hr.arr i hi' x hx)
            · have hi'' : i = acc.length := by omega
              subst hi''
              rw [List.getElem_append_right (le_refl _)] at hx
              simp only [Nat.sub_self, List.getElem_cons_zero] at hx
              exact a4 x hx
          · intro l hl
            rcases List.mem_append.1 hl with hl | hl
            · exact hr.len l hl
            · rw [List.mem_singleton.1 hl]; simpa using a3
        · intro r'' h
          exact (ho.sim hs).sim (h.nil (hs.streams.trans ho.streams))
      · intro k' r' h
        exact trip_freeAll (flatten_reverse_perm acc) h k'
    · rintro hs k' r' _ ⟨a1, a2, a3⟩
      have := ih (acc ++ [hs]) (by rw [List.length_append, List.length_singleton]; omega) (r := r') (k := k') (by rw [List.flatten_append]; simpa using a1) a2 a3
      rw [List.length_append, List.length_singleton] at this
      exact this

theorem trip_withParts {c : CuCall} {r0 : Held} {body : List Nat → Cu Unit}
    (hb : ∀ ps r k, (∀ h ∈ ps, (h, none, c.n) ∈ r.arrs) → Own r0 ps r → Fresh r k →
      Trip g (body ps) r k (Post (fun _ _ r' => Own r0 ps r') (fun r' => Own r0 ps r')))
    (hg : c.ngpus ≤ g) (js acc : List Nat) {r : Held} {k : Nat} (ho : Own r0 acc r) (hf : Fresh r k) (hr : ∀ h ∈ acc, (h, none, c.n) ∈ r.arrs) :
    Trip g (withParts c body js acc) r k (Post (fun _ _ r' => Own r0 [] r') (fun r' => Own r0 [] r')) := by
  induction js generalizing acc r k with
  | nil => exact trip_scope (List.reverse_perm acc).symm (hb acc r k hr ho hf)
  | cons j js ih =>
    refine .bind (P := fun h k' r' => h < k' ∧ k ≤ h ∧ r' = { r with arrs := (h, none, c.n) :: r.arrs }) ?_ ?_
    · refine .onThrow (T := fun r' => r' = r) (trip_makeArray (m := true) hf) ?_
      rintro k' r' rfl
      exact trip_freeAll (List.reverse_perm acc).symm ho k'
    · rintro h k' r' _ ⟨h1, h2, rfl⟩
      have ho' := ho.add (dev := none) (len := c.n) (hf.mono h2)
      refine .bind (P := fun _ _ r' => r' = { r with arrs := (h, none, c.n) :: r.arrs }) ?_ ?_
      · refine .onThrow (T := fun r' => r' = { r with arrs := (h, none, c.n) :: r.arrs }) ?_ ?_
        · refine .bind (P := fun _ _ r' => r' = { r with arrs := (h, none, c.n) :: r.arrs }) (trip_copyIn (has_of_mem (List.mem_cons_self ..) (le_refl _)) _) ?_
          rintro _ k'' r'' _ rfl
          exact trip_adviseAll (has_of_mem (List.mem_cons_self ..) (Nat.zero_le _)) hg _
        · rintro k'' r'' rfl
          exact trip_freeAll (List.reverse_perm _).symm ho' k''
      · rintro _ k'' r'' hk rfl
        refine ih (acc ++ [h]) ho' ((Own.fresh_add (hf.mono h2) h1).mono hk) ?_
        intro x hx
        rcases List.mem_append.1 hx with hx | hx
        · exact List.mem_cons_of_mem _ (hr x hx)
        · rw [List.mem_singleton.1 hx]; exact List.mem_cons_self ..

/-! ### Streams -/

/-- `r` has the streams `acc`, number `j` of which is on device `i + j`, and otherwise what `r0` has. -/
structure Str (r0 : Held) (i : Nat) (acc : List Nat) (r : Held) : Prop where
  pinned : r.pinned = r0.pinned
  arrs : r.arrs = r0.arrs
  keys : (r.streams.map (fun s => (s.h, s.dev))).Perm (acc.zipIdx i)
  nodup : acc.Nodup

theorem Str.sim {r0 r r' : Held} {i : Nat} {acc : List Nat} (h : Str r0 i acc r) (hs : Sim r r') : Str r0 i acc r' :=
  ⟨hs.pinned.trans h.pinned, hs.arrs.trans h.arrs, by rw [hs.streams]; exact h.keys, h.nodup⟩

theorem Str.nil {r0 r : Held} {i : Nat} (h : Str r0 i [] r) (h0 : r0.streams = []) : Sim r0 r := by
  refine ⟨h.pinned, h.arrs, ?_⟩
  rw [h0]
  simpa using h.keys.eq_nil

/-- A change of what a stream has in progress. -/
theorem Str.on {r0 r : Held} {i : Nat} {acc : List Nat} (h : Str r0 i acc r) (s : Nat) (f : Stream → Stream) (hf : ∀ x, (f x).h = x.h ∧ (f x).dev = x.dev) :
    Str r0 i acc (r.on s f) := by
  refine ⟨h.pinned, h.arrs, ?_, h.nodup⟩
  have : (r.on s f).streams.map (fun s => (s.h, s.dev)) = r.streams.map (fun s => (s.h, s.dev)) := by
    unfold Held.on
    simp only [List.map_map]
    apply List.map_congr_left
    intro x _
    simp only [Function.comp]
    split
    · rw [(hf x).1, (hf x).2]
    · rfl
  rw [this]
  exact h.keys

theorem Str.find {r0 r : Held} {i : Nat} {acc : List Nat} (h : Str r0 i acc r) {j : Nat} (hj : j < acc.length) : ∃ x ∈ r.streams, x.h = acc[j] ∧ x.dev = i + j := by
  have hm : (acc[j], i + j) ∈ acc.zipIdx i := by rw [List.mk_mem_zipIdx_iff_le_and_getElem?_sub]; exact ⟨by omega, by simp [hj]⟩
  obtain ⟨x, hx, e⟩ := List.mem_map.1 (h.keys.mem_iff.2 hm)
  simp only [Prod.mk.injEq] at e
  exact ⟨x, hx, e.1, e.2⟩

theorem Str.handles {r0 r : Held} {i : Nat} {acc : List Nat} (h : Str r0 i acc r) : (r.streams.map (·.h)).Perm acc := by
  have := h.keys.map Prod.fst
  rw [List.map_map, List.zipIdx_map_fst] at this
  exact this

theorem trip_waitDestroy {r0 : Held} (l : List Nat) (i : Nat) {r : Held} (hg : i + l.length ≤ g) (h : Str r0 i l r) (k : Nat) :
    Trip g (waitDestroy i l) r k (Post (fun _ _ r' => Str r0 (i + l.length) [] r') (fun _ => True)) := by
  induction l generalizing i r k with
  | nil => exact .pure h
  | cons s l ih =>
    rw [List.length_cons] at hg
    refine .bind (P := fun _ _ r' => Str r0 i (s :: l) r') ((trip_setDevice (by omega) r k).conseq (fun _ _ _ _ h' => h.sim h'.1) fun _ _ => trivial) ?_
    intro _ k1 r1 _ h1
    obtain ⟨x, hx, e1, e2⟩ := h1.find (j := 0) (by simp)
    simp only [List.getElem_cons_zero] at e1
    refine .bind (P := fun _ _ r' => r' = r1.on s (fun x => { x with arrs := [], areas := [] })) (.call fun rc => ?_) ?_
    · refine ⟨_, ?_, rfl⟩
      rw [step, if_pos]
      rw [List.any_eq_true]
      exact ⟨x, hx, by simp [e1]⟩
    rintro _ k2 r2 _ rfl
    have h2 : Str r0 i (s :: l) (r1.on s (fun x => { x with arrs := [], areas := [] })) := h1.on s _ (fun _ => ⟨rfl, rfl⟩)
    refine .bind (P := fun _ _ r' => Str r0 (i + 1) l r') (.call fun rc => ?_) ?_
    · refine ⟨{ (r1.on s (fun x => { x with arrs := [], areas := [] })) with
        streams := (r1.on s (fun x => { x with arrs := [], areas := [] })).streams.filter (fun x => x.h != s) }, ?_, h2.pinned, h2.arrs, ?_, (List.nodup_cons.1 h2.nodup).2⟩
      · rw [step, if_pos]
        rw [List.any_eq_true]
        refine ⟨{ x with arrs := [], areas := [] }, ?_, by simp [e1]⟩
        unfold Held.on
        exact List.mem_map.2 ⟨x, hx, by rw [if_pos e1]⟩
      · show (((r1.on s _).streams.filter (fun x => x.h != s)).map (fun s => (s.h, s.dev))).Perm _
        have e3 : ((r1.on s (fun x => { x with arrs := [], areas := [] })).streams.filter (fun x => x.h != s)).map (fun s => (s.h, s.dev)) =
            ((r1.on s (fun x => { x with arrs := [], areas := [] })).streams.map (fun s => (s.h, s.dev))).filter (fun p => p.1 != s) := by
          rw [List.filter_map]; rfl
        rw [e3]
        have h3 := h2.keys.filter (fun p => p.1 != s)
        have h4 : (l.zipIdx (i + 1)).filter (fun p => p.1 != s) = l.zipIdx (i + 1) := by
          rw [List.filter_eq_self]
          intro p hp
          have : p.1 ∈ l := by
            have := List.mem_map_of_mem (f := Prod.fst) hp
            rwa [List.zipIdx_map_fst] at this
          have hn := (List.nodup_cons.1 h2.nodup).1
          simp only [bne_iff_ne, ne_eq]
          rintro rfl
          exact hn this
        rw [List.zipIdx_cons, List.filter_cons_of_neg (by simp), h4] at h3
        exact h3
    intro _ k3 r3 _ h3
    have := ih (i + 1) (r := r3) (by omega) h3 k3
    rw [List.length_cons, show i + (l.length + 1) = i + 1 + l.length by omega]
    exact this

theorem trip_withStreams {r0 : Held} (h0 : r0.streams = []) {n : Nat} (hg : n ≤ g) {body : List Nat → Cu Unit}
    (hb : ∀ ss r k, ss.length = n → Str r0 0 ss r → Trip g (body ss) r k (Post (fun _ _ r' => Str r0 0 ss r') (fun r' => Str r0 0 ss r')))
    (m : Nat) (acc : List Nat) (hm : acc.length + m = n) {r : Held} {k : Nat} (h : Str r0 0 acc r) (hf : ∀ s ∈ acc, s < k) :
    Trip g (withStreams body (List.range' acc.length m) acc) r k (Post (fun _ _ r' => Sim r0 r') (fun r' => Sim r0 r')) := by
  have clean : ∀ (acc : List Nat), acc.length ≤ n → ∀ k r, Str r0 0 acc r → Trip g (waitDestroy 0 acc) r k (Post (fun _ _ r' => Sim r0 r') (fun _ => True)) :=
    fun acc ha k r h => (trip_waitDestroy acc 0 (by omega) h k).conseq (fun _ _ _ _ h => h.nil h0) fun _ h => h
  induction m generalizing acc r k with
  | zero => exact .within (hb acc r k (by omega) h) (fun _ k' r' h' => clean acc (by omega) k' r' h') (fun k' r' h' => clean acc (by omega) k' r' h')
  | succ m ih =>
    rw [List.range'_succ]
    refine .bind (P := fun s k' r' => Str r0 0 (acc ++ [s]) r' ∧ ∀ x ∈ acc ++ [s], x < k') ?_ ?_
    · refine .onThrow (T := fun r' => Str r0 0 acc r') ?_ fun k' r' h' => clean acc (by omega) k' r' h'
      refine .bind (P := fun _ _ r' => Sim r r' ∧ r'.dev = acc.length) ((trip_setDevice (by omega) r k).conseq (fun _ _ _ _ h => h) fun _ h' => h.sim h') ?_
      rintro _ k1 r1 hk ⟨hs, hd⟩
      have h1 := h.sim hs
      have hlt : ∀ x ∈ r1.streams, x.h < k1 := fun x hx => lt_of_lt_of_le (hf _ (h1.handles.mem_iff.1 (List.mem_map_of_mem hx))) hk
      refine .bind (P := fun x k' r' => x.1 = k1 ∧ k1 < k' ∧ r' = if x.2 = .success then { r1 with streams := ⟨k1, acc.length, [], []⟩ :: r1.streams } else r1)
        (.call fun rc => ?_) ?_
      · rw [step]
        have hn : r1.streams.any (fun a => a.h == k1) = false := by
          rw [List.any_eq_false]
          intro a ha
          have := hlt a ha
          simp; omega
        rw [hn, hd]
        by_cases hr : rc = .success
        · refine ⟨_, by rw [if_pos hr]; rfl, rfl, Nat.lt_succ_self _, ?_⟩
          exact (if_pos hr).symm
        · refine ⟨_, by rw [if_neg hr], rfl, Nat.lt_succ_self _, ?_⟩
          exact (if_neg hr).symm
      · rintro ⟨x, rc⟩ k2 r2 _ ⟨a0, a1, a2⟩
        simp only at a0 a2
        subst a0
        show Trip g (if rc = .success then _ else _) _ _ _
        by_cases hr : rc = .success
        · rw [if_pos hr] at a2 ⊢
          subst a2
          refine .pure ⟨⟨h1.pinned, h1.arrs, ?_, ?_⟩, ?_⟩
          · rw [List.map_cons, List.zipIdx_append]
            have : [x].zipIdx (0 + acc.length) = [(x, acc.length)] := by simp
            rw [this]
            exact (List.Perm.cons _ h1.keys).trans (List.perm_append_singleton _ _).symm
          · rw [List.nodup_append]
            refine ⟨h1.nodup, List.nodup_singleton _, ?_⟩
            intro a ha b hb
            rw [List.mem_singleton.1 hb]
            have := hf a ha
            omega
          · intro y hy
            rcases List.mem_append.1 hy with hy | hy
            · have := hf y hy; omega
            · rw [List.mem_singleton.1 hy]; exact a1
        · rw [if_neg hr] at a2 ⊢
          subst a2
          exact .throw h1
    · rintro s k' r' _ ⟨a1, a2⟩
      have := ih (acc ++ [s]) (by rw [List.length_append, List.length_singleton]; omega) (r := r') (k := k') a1 a2
      rw [List.length_append, List.length_singleton] at this
      exact this

theorem getD_lt {l : List α} {i : Nat} {a : α} (h : i < l.length) : l.getD i a = l[i] := by simp [h]

theorem trip_castInt {x : Nat} {r : Held} {k : Nat} {T : Held → Prop} (ht : T r) : Trip g (castInt x) r k (Post (fun _ _ r' => r' = r ∧ x < 2 ^ 31) T) := by
  unfold castInt
  split
  · rename_i h; exact .pure ⟨rfl, h⟩
  · exact .throw ht

theorem sub_le_subW {a b : Nat} (ha : a < 2 ^ 31) (hb : b < 2 ^ 31) : b - a ≤ subW 64 b a := by
  unfold subW
  by_cases h : a ≤ b
  · rw [show b + 2 ^ 64 - a = (b - a) + 2 ^ 64 by omega, Nat.add_mod_right, Nat.mod_eq_of_lt (by omega)]
  · omega

theorem trip_launch {c : CuCall} {r0 r : Held} {res : List (List Nat)} {ins ss : List Nat} (hres : ResOk c res r0) (hins : ∀ h ∈ ins, ∃ n, (h, none, n) ∈ r0.arrs)
    (hs : Str r0 0 ss r) {i : Nat} (hi : i < ss.length) (hi' : i < res.length) (hg : i < g) (k : Nat) :
    Trip g (launch c res ins ss i) r k (Post (fun _ _ r' => Str r0 0 ss r') (fun r' => Str r0 0 ss r')) := by
  refine .bind (P := fun _ _ r' => Str r0 0 ss r' ∧ r'.dev = i) ((trip_setDevice hg r k).conseq (fun _ _ _ _ h => ⟨hs.sim h.1, h.2⟩) fun _ h => hs.sim h) ?_
  rintro _ k1 r1 _ ⟨h1, hd⟩
  split
  · exact .throw h1
  · refine .bind (trip_castInt h1) ?_
    rintro _ k2 r2 _ ⟨rfl, b1⟩
    refine .bind (trip_castInt h1) ?_
    rintro _ k3 r3 _ ⟨rfl, b2⟩
    refine .bind (trip_castInt h1) ?_
    rintro _ k4 r4 _ ⟨rfl, b3⟩
    refine .bind (P := fun _ _ r' => Str r0 0 ss r') (.call fun rc => ?_) fun _ _ _ _ h => .pure h
    rw [step, if_pos]
    · exact ⟨_, rfl, h1.on _ _ (fun _ => ⟨rfl, rfl⟩)⟩
    · obtain ⟨x, hx, e1, e2⟩ := h1.find hi
      refine ⟨?_, ?_, ?_⟩
      · rw [List.any_eq_true]
        refine ⟨x, hx, ?_⟩
        rw [getD_lt hi]
        simp [e1, e2, hd]
      · rw [List.all_eq_true]
        intro h hh
        rw [getD_lt hi'] at hh
        unfold Held.hasOn
        rw [List.any_eq_true]
        refine ⟨_, by rw [h1.arrs]; exact hres.arr i hi' h hh, ?_⟩
        simpa [hd] using sub_le_subW b1 b2
      · rw [List.all_eq_true]
        intro h hh
        obtain ⟨n, hn⟩ := hins h hh
        unfold Held.hasOn
        rw [List.any_eq_true]
        exact ⟨_, by rw [h1.arrs]; exact hn, by simp⟩

theorem trip_copyOut {c : CuCall} {r0 r : Held} {res : List (List Nat)} {ss : List Nat} (hres : ResOk c res r0) (hs : Str r0 0 ss r) {p : Nat × Nat} (hi : p.1 < ss.length)
    (hi' : p.1 < res.length) (hj : p.2 < c.nres) (k : Nat) : Trip g (copyOut c res ss p) r k (Post (fun _ _ r' => Str r0 0 ss r') (fun r' => Str r0 0 ss r')) := by
  refine .bind (P := fun _ _ r' => Str r0 0 ss r') (.call fun rc => ?_) ?_
  · obtain ⟨x, hx, e1, _⟩ := hs.find hi
    rw [step, if_pos]
    · exact ⟨_, rfl, hs.on _ _ (fun _ => ⟨rfl, rfl⟩)⟩
    · refine ⟨?_, ?_⟩
      · rw [List.any_eq_true]
        refine ⟨x, hx, ?_⟩
        rw [getD_lt hi]
        simp [e1]
      · rw [getD_lt hi']
        have hl : p.2 < res[p.1].length := by rw [hres.len _ (List.getElem_mem _)]; exact hj
        rw [getD_lt hl]
        refine has_of_mem (dev := some p.1) ?_ (le_refl _)
        rw [hs.arrs]
        exact hres.arr p.1 hi' _ (List.getElem_mem _)
  · rintro ⟨_, rc⟩ k1 r1 _ h1
    show Trip g (if rc = .success then _ else _) _ _ _
    split
    · exact .pure h1
    · exact .throw h1

theorem trip_body {c : CuCall} {res : List (List Nat)} {r : Held} {k : Nat} (hg : c.ngpus ≤ g) (hl : res.length = c.ngpus) (hres : ResOk c res r) (h0 : r.streams = [])
    (hn : (r.arrs.map (·.1)).Nodup) (hf : Fresh r k) : Trip g (cudaBody c res) r k (Post (fun _ _ r' => Own r [] r') (fun r' => Own r [] r')) := by
  refine .bind ((trip_makeArray (m := true) hf).conseq (fun _ _ _ _ h => h) ?_) ?_
  · rintro r' rfl; exact .start h0 hn
  rintro t k1 r1 _ ⟨a1, a2, e1⟩
  have o1 : Own r [t] r1 := by rw [e1]; exact (Own.start h0 hn).add (hf.mono a2)
  have f1 : Fresh r1 k1 := by rw [e1]; exact Own.fresh_add (hf.mono a2) a1
  have m1 : (t, none, c.nodes) ∈ r1.arrs := by rw [e1]; exact List.mem_cons_self ..
  refine trip_scope (.refl _) ?_
  refine .bind (P := fun _ _ r' => r' = r1) ((trip_copyIn (has_of_mem m1 (le_refl _)) _).conseq (fun _ _ _ _ h => h) (by rintro _ rfl; exact o1)) ?_
  intro _ k2 r' hk2 hr'
  rw [hr']
  clear hr' r'
  refine .bind (P := fun _ _ r' => r' = r1) ((trip_adviseAll (has_of_mem m1 (Nat.zero_le _)) hg _).conseq (fun _ _ _ _ h => h) (by rintro _ rfl; exact o1)) ?_
  intro _ k3 r' hk3 hr'
  rw [hr']
  clear hr' r'
  have s1 := o1.streams
  refine (trip_withParts (r0 := r1) ?_ hg _ [] (.start s1 o1.nodup) ((f1.mono hk2).mono hk3) (by simp)).conseq (fun _ _ _ _ h => o1.sim (h.nil s1)) (fun _ h => o1.sim (h.nil s1))
  intro ps r2 k4 hps o2 f2
  refine .bind ((trip_makeArray (m := true) f2).conseq (fun _ _ _ _ h => h) ?_) ?_
  · rintro _ rfl; exact o2
  rintro co k5 r3 _ ⟨b1, b2, e3⟩
  have s2 := o2.streams
  have o3 : Own r2 [co] r3 := by rw [e3]; exact (Own.start s2 o2.nodup).add (f2.mono b2)
  have m3 : (co, none, c.n) ∈ r3.arrs := by rw [e3]; exact List.mem_cons_self ..
  refine (trip_scope (r0 := r2) (L := [co]) (.refl _) ?_).conseq (fun _ _ _ _ h => o2.sim (h.nil s2)) (fun _ h => o2.sim (h.nil s2))
  refine .bind (P := fun _ _ r' => r' = r3) ((trip_copyIn (has_of_mem m3 (le_refl _)) _).conseq (fun _ _ _ _ h => h) (by rintro _ rfl; exact o3)) ?_
  intro _ k6 r' _ hr'
  rw [hr']
  clear hr' r'
  refine .bind (P := fun _ _ r' => r' = r3) ((trip_adviseAll (has_of_mem m3 (Nat.zero_le _)) hg _).conseq (fun _ _ _ _ h => h) (by rintro _ rfl; exact o3)) ?_
  intro _ k7 r' _ hr'
  rw [hr']
  clear hr' r'
  refine .bind (P := fun _ _ r' => Sim r3 r') (.each (I := fun r' => Sim r3 r') ?_ (.refl _)) ?_
  · intro i hi k8 r4 h4
    refine .bind (P := fun _ _ r' => Sim r3 r') ((trip_setDevice (by have := List.mem_range.1 hi; omega) r4 k8).conseq (fun _ _ _ _ h => h4.trans h.1) fun _ h => o3.sim (h4.trans h)) ?_
    intro _ k9 r5 _ h5
    refine .bind (P := fun _ _ r' => Sim r3 r') (.call fun rc => ⟨r5, rfl, h5⟩) ?_
    rintro ⟨_, rc⟩ k10 r6 _ h6
    show Trip g (if rc = .success then _ else _) _ _ _
    split
    · exact .pure h6
    · exact .throw (o3.sim h6)
  intro _ k8 r4 _ h4
  have s4 : r4.streams = [] := by rw [h4.streams]; exact o3.streams
  have o4 := o3.sim h4
  have hres4 : ResOk c res r4 := hres.mono fun a ha => o4.mem (o2.mem (o1.mem ha))
  have hins : ∀ h ∈ t :: co :: ps, ∃ n, (h, none, n) ∈ r4.arrs := by
    intro h hh
    rcases List.mem_cons.1 hh with rfl | hh
    · exact ⟨_, o4.mem (o2.mem m1)⟩
    · rcases List.mem_cons.1 hh with rfl | hh
      · exact ⟨_, by rw [h4.arrs]; exact m3⟩
      · exact ⟨_, o4.mem (hps h hh)⟩
  have hst : Str r4 0 [] r4 := ⟨rfl, rfl, by rw [s4]; exact .refl _, List.nodup_nil⟩
  have := trip_withStreams (g := g) (r0 := r4) s4 hg (n := c.ngpus) (body := fun streams =>
    Cu.bind (each (launch c res (t :: co :: ps) streams) (List.range c.ngpus)) fun _ =>
    each (copyOut c res streams) ((List.range c.ngpus).flatMap (fun i => (List.range c.nres).map (fun j => (i, j))))) ?_ c.ngpus [] (by simp) (r := r4) (k := k8) hst (by simp)
  · rw [List.length_nil, ← List.range_eq_range'] at this
    exact this.conseq (fun _ _ _ _ h => o4.sim h) (fun _ h => o4.sim h)
  · intro ss r5 k9 hss h5
    refine .bind (P := fun _ _ r' => Str r4 0 ss r') (.each (I := fun r' => Str r4 0 ss r') ?_ h5) ?_
    · intro i hi k10 r6 h6
      have := List.mem_range.1 hi
      exact trip_launch hres4 hins h6 (by omega) (by omega) (by omega) k10
    · intro _ k10 r6 _ h6
      refine .each (I := fun r' => Str r4 0 ss r') ?_ h6
      intro p hp k11 r7 h7
      simp only [List.mem_flatMap, List.mem_map, List.mem_range] at hp
      obtain ⟨i, hi, j, hj, rfl⟩ := hp
      exact trip_copyOut hres4 h7 (by rw [hss]; exact hi) (by rw [hl]; exact hi) hj k11

/-! ### Pinned memory -/

theorem trip_pinAll (l : List (Area × Nat)) (hn : (l.map (·.1)).Nodup) {r : Held} (hd : ∀ a ∈ l, a.1 ∉ r.pinned) (hr : r.streams = []) (k : Nat) {T : Held → Prop} :
    Trip g (pinAll l) r k (Post (fun ps _ r' => r' = { r with pinned := ps.reverse ++ r.pinned } ∧ ps.Sublist (l.map (·.1))) T) := by
  induction l generalizing r k with
  | nil => exact .pure ⟨rfl, List.Sublist.refl _⟩
  | cons x l ih =>
    obtain ⟨a, len⟩ := x
    rw [List.map_cons, List.nodup_cons] at hn
    refine .bind (P := fun x _ r' => r' = if x.2 = .success then { r with pinned := a :: r.pinned } else r) (.call fun rc => ?_) ?_
    · exact ⟨_, by rw [step, if_neg (hd (a, len) (by simp))], rfl⟩
    · rintro ⟨y, rc⟩ k1 r1 _ e1
      simp only at e1
      refine .bind (P := fun ps _ r' => r' = { r1 with pinned := ps.reverse ++ r1.pinned } ∧ ps.Sublist (l.map (·.1))) ?_ ?_
      · apply ih hn.2
        · intro b hb
          rw [e1]
          have hne : b.1 ≠ a := by intro e; have := List.mem_map_of_mem (f := (·.1)) hb; rw [e] at this; exact hn.1 this
          split
          · simp only [List.mem_cons, not_or]; exact ⟨hne, hd b (List.mem_cons_of_mem _ hb)⟩
          · exact hd b (List.mem_cons_of_mem _ hb)
        · rw [e1]; split <;> exact hr
      · rintro ps k2 r2 _ ⟨e2, hs⟩
        refine .pure ⟨?_, ?_⟩
        · by_cases hrc : rc = .success
          · simp only [if_pos hrc] at e1 ⊢
            rw [e2, e1]
            simp
          · simp only [if_neg hrc] at e1 ⊢
            rw [e2, e1]
        · rw [List.map_cons]
          by_cases hrc : rc = .success
          · simp only [if_pos hrc]; exact hs.cons_cons a
          · simp only [if_neg hrc]; exact hs.cons a

theorem trip_unpinAll (l : List Area) {r : Held} (hs : r.streams = []) (ha : r.arrs = []) (hp : r.pinned.Perm l) (k : Nat) {T : Held → Prop} :
    Trip g (unpinAll l) r k (Post (fun _ _ r' => Sim (Held.empty 0) r') T) := by
  induction l generalizing r k with
  | nil => exact .pure ⟨hp.eq_nil, ha, hs⟩
  | cons a l ih =>
    refine .bind (P := fun _ _ r' => r' = { r with pinned := r.pinned.erase a }) ?_ ?_
    · refine .bind (P := fun _ _ r' => r' = { r with pinned := r.pinned.erase a }) (.call fun rc => ⟨_, ?_, rfl⟩) fun _ _ _ _ h => .pure h
      rw [step, if_pos ⟨hp.mem_iff.2 (by simp), by rw [hs]; simp⟩]
    · rintro _ k1 r1 _ rfl
      refine ih (r := { r with pinned := r.pinned.erase a }) hs ha ?_ k1
      have := hp.erase a
      rwa [List.erase_cons_head] at this

theorem areas_nodup (c : CuCall) : (c.areas.map (·.1)).Nodup := by
  unfold CuCall.areas
  simp only [List.map_append, List.map_map, List.map_cons, List.map_nil]
  have e1 : (List.range c.nres).map ((fun x : Area × Nat => x.1) ∘ fun j => (Area.out j, c.n)) = (List.range c.nres).map Area.out := rfl
  have e2 : (List.range (c.d + 1)).map ((fun x : Area × Nat => x.1) ∘ fun j => (Area.part j, c.n)) = (List.range (c.d + 1)).map Area.part := rfl
  rw [e1, e2, List.nodup_append, List.nodup_append]
  refine ⟨⟨List.nodup_range.map (fun a b h => by injection h), by decide, ?_⟩, List.nodup_range.map (fun a b h => by injection h), ?_⟩
  · intro a ha b hb
    obtain ⟨j, _, rfl⟩ := List.mem_map.1 ha
    simp only [List.mem_cons, List.not_mem_nil, or_false] at hb
    rcases hb with rfl | rfl <;> simp
  · intro a ha b hb
    obtain ⟨j, _, rfl⟩ := List.mem_map.1 hb
    rcases List.mem_append.1 ha with ha | ha
    · obtain ⟨j', _, rfl⟩ := List.mem_map.1 ha; simp
    · simp only [List.mem_cons, List.not_mem_nil, or_false] at ha
      rcases ha with rfl | rfl <;> simp

/-- The whole function. -/
theorem trip_cudaHost (c : CuCall) (hg : c.ngpus ≤ g) (dev : Nat) :
    Trip g (cudaHost c) (Held.empty dev) 0 (Post (fun _ _ r' => Sim (Held.empty 0) r') (fun r' => Sim (Held.empty 0) r')) := by
  refine .bind (trip_pinAll c.areas (areas_nodup c) (by simp [Held.empty]) rfl 0) ?_
  rintro ps k r hk ⟨e, _⟩
  have hs : r.streams = [] := by rw [e]; rfl
  have ha : r.arrs = [] := by rw [e]; rfl
  have hp : r.pinned.Perm ps := by rw [e]; simp only [Held.empty, List.append_nil]; exact List.reverse_perm ps
  have hn : (r.arrs.map (·.1)).Nodup := by rw [ha]; exact List.nodup_nil
  have main := trip_withRes (g := g) (c := c) (r0 := r) (body := cudaBody c) ?_ hg c.ngpus [] (by simp) (r := r) (k := k) (.start hs hn) (by intro a h; rw [ha] at h; cases h)
    ⟨by intro i hi; exact absurd hi (by simp), by simp⟩
  · rw [List.length_nil, ← List.range_eq_range'] at main
    have fin : ∀ k' r', Own r [] r' → Trip g (unpinAll ps) r' k' (Post (fun _ _ r'' => Sim (Held.empty 0) r'') (fun _ => True)) := by
      intro k' r' h
      have hsim := h.nil hs
      exact trip_unpinAll ps h.streams (by rw [hsim.arrs, ha]) (by rw [hsim.pinned]; exact hp) k'
    exact .within main (fun _ k' r' h => fin k' r' h) (fun k' r' h => fin k' r' h)
  · intro res r' k' hl hr ho hf
    exact (trip_body hg hl hr ho.streams ho.nodup hf).conseq (fun _ _ _ _ h => ho.sim (h.nil ho.streams)) (fun _ h => ho.sim (h.nil ho.streams))

end Rakau.Cuda
