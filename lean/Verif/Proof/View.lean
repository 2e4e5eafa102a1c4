import Verif.Proof.State
import Verif.Proof.Canon
import Verif.Spec.Plain

/-! The ordered view over histories, and rebuilds. -/
namespace Rakau
open Spec

variable {env : Env}

theorem getElem?_lt {α : Type} {l : List α} {i : Nat} {x : α} (h : l[i]? = some x) : i < l.length := by
  by_contra hc; rw [List.getElem?_eq_none (by omega)] at h; simp at h

/-- `perm` and `inv` (lists) are mutually inverse on `0..n-1`. -/
theorem inv_both {n : Nat} {perm inv : List Nat} (hp : perm.Perm (List.range n)) (hl : inv.length = n)
    (h : ∀ i p : Nat, perm[i]? = some p → inv[p]? = some i) :
    (∀ k < n, ∃ i < n, inv[k]? = some i ∧ perm[i]? = some k) ∧ (∀ k i : Nat, inv[k]? = some i → perm[i]? = some k) := by
  have h1 : ∀ k < n, ∃ i < n, inv[k]? = some i ∧ perm[i]? = some k := by
    intro k hk
    have : k ∈ perm := hp.mem_iff.2 (List.mem_range.2 hk)
    obtain ⟨i, hi, rfl⟩ := List.getElem_of_mem this
    have e : perm[i]? = some perm[i] := List.getElem?_eq_getElem hi
    exact ⟨i, by rw [← perm_length hp]; exact hi, h i _ e, e⟩
  refine ⟨h1, fun k i hki => ?_⟩
  obtain ⟨i', _, h2, h3⟩ := h1 k (by rw [← hl]; exact getElem?_lt hki)
  rw [hki, Option.some.injEq] at h2
  rw [h2]; exact h3

/-- Tables `a` (user order) and `p` (storage order) correspond through `inv`. -/
def Rel {F : Type} (inv : List Nat) (n : Nat) (a p : List (List F)) : Prop :=
  a.length = p.length ∧ (∀ v ∈ a, v.length = n) ∧ (∀ v ∈ p, v.length = n) ∧
  ∀ (j : Nat) (h1 : j < a.length) (h2 : j < p.length) (k i : Nat), inv[k]? = some i → (a[j])[k]? = (p[j])[i]?

theorem rel_shows {s : TS env} (hs : TInv s) {a : List (List env.F)} : Shows s a ↔ Rel s.invPerm s.n a s.parts := by
  obtain ⟨hk, _⟩ := inv_both hs.perm hs.invLen hs.inv
  constructor
  · rintro ⟨h1, h2, h3⟩
    refine ⟨h1, h2, hs.len, fun j hj1 hj2 k i hi => ?_⟩
    have := h3 j k
    unfold ordered at this
    rw [List.getElem?_eq_getElem hj1, List.getElem?_eq_getElem hj2, hi] at this
    simpa using this.symm
  · rintro ⟨h1, h2, _, h3⟩
    refine ⟨h1, h2, fun j k => ?_⟩
    unfold ordered
    by_cases hj : j < s.parts.length
    · have hj' : j < a.length := by omega
      rw [List.getElem?_eq_getElem hj, List.getElem?_eq_getElem hj']
      by_cases hkn : k < s.n
      · obtain ⟨i, _, hi, _⟩ := hk k hkn
        simpa [hi] using (h3 j hj' hj k i hi).symm
      · have e1 : s.invPerm[k]? = none := List.getElem?_eq_none (by rw [hs.invLen]; omega)
        have e2 : (a[j])[k]? = none := List.getElem?_eq_none (by rw [h2 _ (List.getElem_mem hj')]; omega)
        simp [e1, e2]
    · have e1 : s.parts[j]? = none := List.getElem?_eq_none (by omega)
      have e2 : a[j]? = none := List.getElem?_eq_none (by omega)
      rw [e1, e2]; rfl

theorem shows_unique {s : TS env} {a b : List (List env.F)} (ha : Shows s a) (hb : Shows s b) : a = b := by
  apply List.ext_getElem (ha.1.trans hb.1.symm)
  intro j h1 h2
  apply List.ext_getElem?
  intro k
  have := (ha.2.2 j k).symm.trans (hb.2.2 j k)
  rw [List.getElem?_eq_getElem h1, List.getElem?_eq_getElem h2] at this
  simpa using this

theorem shows_exists {s : TS env} (hs : TInv s) : ∃ a, Shows s a ∧ s.parts.mapM (fun v => applyIsort v s.invPerm) = some a := by
  obtain ⟨hk, hk2⟩ := inv_both hs.perm hs.invLen hs.inv
  have hex : ∃ a, s.parts.mapM (fun v => applyIsort v s.invPerm) = some a := by
    apply mapM_some_of
    intro v hv
    apply mapM_some_of
    intro i hi
    obtain ⟨k, hk', rfl⟩ := List.getElem_of_mem hi
    obtain ⟨i, hin, h1, _⟩ := hk k (by rw [← hs.invLen]; exact hk')
    rw [List.getElem?_eq_getElem hk', Option.some.injEq] at h1
    rw [h1]
    exact ⟨v[i]'(by rw [hs.len v hv]; exact hin), List.getElem?_eq_getElem _⟩
  obtain ⟨a, ha⟩ := hex
  refine ⟨a, ?_, ha⟩
  obtain ⟨q1, q2, q3⟩ := mapM_isort_spec ha
  rw [rel_shows hs]
  refine ⟨q1.symm, fun v hv => (q2 v hv).trans hs.invLen, hs.len, fun j h1 h2 k i hi => ?_⟩
  have hkl := getElem?_lt hi
  rw [q3 j h2 h1 k hkl]
  rw [List.getElem?_eq_getElem hkl, Option.some.injEq] at hi
  rw [hi]

/-- Simulation: a callback run in storage order through `tr` does on the user-order table what it does through the
corresponding translation `tr'`. -/
theorem run_sim {F : Type} {inv : List Nat} {n : Nat} (hinj : ∀ k k' i : Nat, inv[k]? = some i → inv[k']? = some i → k = k')
    (hlen : inv.length = n) {tr tr' : Nat → Option Nat} (htr : ∀ k i, tr k = some i → i < n → ∃ m, tr' k = some m ∧ inv[m]? = some i)
    (f : Prog F) {a p p' : List (List F)} (hR : Rel inv n a p) (h : f.run tr p = .ok p') :
    ∃ a', f.run tr' a = .ok a' ∧ Rel inv n a' p' := by
  induction f generalizing a p with
  | done => simp only [Prog.run, Except.ok.injEq] at h; subst h; exact ⟨a, rfl, hR⟩
  | throw => simp [Prog.run] at h
  | read j k cont ih =>
    obtain ⟨r1, r2, r3, r4⟩ := hR
    simp only [Prog.run] at h ⊢
    cases hv : (do let v ← p[j]?; v[(← tr k)]?) with
    | none => rw [hv] at h; simp [ofUB, bind, Except.bind] at h
    | some x =>
      rw [hv] at h
      simp only [Option.bind_eq_bind, Option.bind_eq_some_iff] at hv
      obtain ⟨v, hv1, i, hi, hvi⟩ := hv
      have hj := getElem?_lt hv1
      rw [List.getElem?_eq_getElem hj, Option.some.injEq] at hv1
      have hin : i < n := by rw [← r3 v (by rw [← hv1]; exact List.getElem_mem hj)]; exact getElem?_lt hvi
      obtain ⟨m, hm, hmi⟩ := htr k i hi hin
      have hj' : j < a.length := by omega
      have := r4 j hj' hj m i hmi
      rw [hv1, hvi] at this
      have e : (do let v ← a[j]?; v[(← tr' k)]?) = some x := by
        simp [List.getElem?_eq_getElem hj', hm, this]
      rw [e]
      exact ih x ⟨r1, r2, r3, r4⟩ h
  | write j k v cont ih =>
    obtain ⟨r1, r2, r3, r4⟩ := hR
    simp only [Prog.run] at h ⊢
    cases hv : (do
        let old ← p[j]?
        let i ← tr k
        if i < old.length then some (p.set j (old.set i v)) else none) with
    | none => rw [hv] at h; simp [ofUB, bind, Except.bind] at h
    | some q =>
      rw [hv] at h
      simp only [Option.bind_eq_bind, Option.bind_eq_some_iff] at hv
      obtain ⟨old, ho, i, hi, hif⟩ := hv
      have hj := getElem?_lt ho
      rw [List.getElem?_eq_getElem hj, Option.some.injEq] at ho
      split at hif
      · rename_i hil
        rw [Option.some.injEq] at hif
        have hin : i < n := by rw [← r3 old (by rw [← ho]; exact List.getElem_mem hj)]; exact hil
        obtain ⟨m, hm, hmi⟩ := htr k i hi hin
        have hj' : j < a.length := by omega
        have hmn : m < (a[j]).length := by rw [r2 _ (List.getElem_mem hj'), ← hlen]; exact getElem?_lt hmi
        have e : (do
            let old ← a[j]?
            let i ← tr' k
            if i < old.length then some (a.set j (old.set i v)) else none) = some (a.set j ((a[j]).set m v)) := by
          simp [List.getElem?_eq_getElem hj', hm, hmn]
        rw [e]
        refine ih (a := a.set j ((a[j]).set m v)) (p := q) ?_ h
        subst hif
        refine ⟨by simp [r1], ?_, ?_, ?_⟩
        · intro u hu
          rcases List.mem_or_eq_of_mem_set hu with hu | hu
          · exact r2 u hu
          · rw [hu]; simp [r2 _ (List.getElem_mem hj')]
        · intro u hu
          rcases List.mem_or_eq_of_mem_set hu with hu | hu
          · exact r3 u hu
          · rw [hu, List.length_set, ← ho]; exact r3 _ (List.getElem_mem hj)
        · intro j2 h1 h2 k2 i2 hk2
          by_cases hjj : j = j2
          · subst hjj
            simp only [List.getElem_set_self]
            by_cases hmk : m = k2
            · subst hmk
              rw [hmi, Option.some.injEq] at hk2
              subst hk2
              rw [List.getElem?_set_self hmn, List.getElem?_set_self hil]
            · have : i ≠ i2 := by
                rintro rfl
                exact hmk (hinj _ _ _ hmi hk2)
              rw [List.getElem?_set_ne hmk, List.getElem?_set_ne this, ← ho]
              exact r4 j hj' hj k2 i2 hk2
          · rw [List.getElem_set_ne hjj, List.getElem_set_ne hjj]
            exact r4 j2 _ _ k2 i2 hk2
      · simp at hif

/-- The index translation, in user order, of an update. -/
def userIdx (s : TS env) (o : Bool) : Nat → Option Nat := if o then some else fun k => s.perm[k]?

theorem tr_user {s : TS env} (hs : TInv s) (o : Bool) :
    ∀ k i, s.tr o k = some i → i < s.n → ∃ m, userIdx s o k = some m ∧ s.invPerm[m]? = some i := by
  intro k i h hi
  cases o with
  | true => exact ⟨k, rfl, h⟩
  | false =>
    simp only [TS.tr, Bool.false_eq_true, if_false, Option.some.injEq] at h
    subst h
    have hkl : k < s.perm.length := by rw [perm_length hs.perm]; exact hi
    exact ⟨s.perm[k], by simp [userIdx, List.getElem?_eq_getElem hkl], hs.inv k _ (List.getElem?_eq_getElem hkl)⟩

theorem inv_inj {s : TS env} (hs : TInv s) : ∀ k k' i : Nat, s.invPerm[k]? = some i → s.invPerm[k']? = some i → k = k' := by
  obtain ⟨_, h2⟩ := inv_both hs.perm hs.invLen hs.inv
  intro k k' i h h'
  have := (h2 k i h).symm.trans (h2 k' i h')
  simpa using this

/-- Ordered view after a particle update. -/
theorem shows_update {s s' : TS env} (hs : TInv s) {o : Bool} {f : Prog env.F} (h : UpdateParticles s o f (.ok s'))
    {a : List (List env.F)} (ha : Shows s a) : ∃ a', f.run (userIdx s o) a = .ok a' ∧ Shows s' a' := by
  obtain ⟨parts, h1, h2⟩ := update_ok h
  obtain ⟨hs', hn'⟩ := inv_update hs h
  obtain ⟨a', e1, hR⟩ := run_sim (inv_inj hs) hs.invLen (tr_user hs o) f ((rel_shows hs).1 ha) h1
  refine ⟨a', e1, (rel_shows hs').2 ?_⟩
  obtain ⟨raw, ord, split, hb, hw, hsrt, ho, hc, hp, hq, hi, _⟩ := sync_ok h2
  obtain ⟨r1, r2, r3, r4⟩ := hR
  obtain ⟨q1, q2, q3⟩ := mapM_isort_spec hp
  have q1' : parts.length = s'.parts.length := q1
  obtain ⟨hk, hk2⟩ := inv_both hs.perm hs.invLen hs.inv
  obtain ⟨hk', hk2'⟩ := inv_both hs'.perm hs'.invLen hs'.inv
  refine ⟨r1.trans q1', fun v hv => by rw [hn']; exact r2 v hv, hs'.len, fun j h1 h2 k i hki => ?_⟩
  have hil : i < s'.lastPerm.length := by
    have := getElem?_lt (hk2' k i hki)
    rw [perm_length hs'.perm] at this; rw [perm_length hs'.lastPerm]; exact this
  rw [q3 j (by show j < parts.length; omega) h2 i hil]
  apply r4
  -- perm' [i] = perm [lastPerm' [i]] = k
  have e2 := (applyIsort_spec hq).2 i hil
  rw [hk2' k i hki] at e2
  exact hs.inv _ _ e2.symm

/-- Ordered view after a mass update. -/
theorem shows_masses {s s' : TS env} (hs : TInv s) {o : Bool} {f : Prog env.F} (h : updateMasses s o f = .ok s')
    {a : List (List env.F)} (ha : Shows s a) :
    ∃ m, f.run (userIdx s o) (a.drop env.d) = .ok m ∧ Shows s' (a.take env.d ++ m) := by
  obtain ⟨m, h1, h2, h3⟩ := masses_ok h
  obtain ⟨hs', hn'⟩ := inv_masses hs h
  obtain ⟨r1, r2, r3, r4⟩ := (rel_shows hs).1 ha
  have hsub : Rel s.invPerm s.n (a.drop env.d) (s.parts.drop env.d) := by
    refine ⟨by simp [r1], fun v hv => r2 v (List.mem_of_mem_drop hv), fun v hv => r3 v (List.mem_of_mem_drop hv), ?_⟩
    intro j h1 h2 k i hi
    rw [List.getElem_drop, List.getElem_drop]
    exact r4 _ _ _ k i hi
  obtain ⟨m', e1, t1, t2, t3, t4⟩ := run_sim (inv_inj hs) hs.invLen (tr_user hs o) f hsub h1
  refine ⟨m', e1, (rel_shows hs').2 ?_⟩
  have hparts : s'.parts = s.parts.take env.d ++ m := by rw [h3]
  have hinv : s'.invPerm = s.invPerm := by rw [h3]
  rw [hparts, hinv, hn']
  refine ⟨by simp [r1, t1], ?_, ?_, ?_⟩
  · intro v hv
    rcases List.mem_append.1 hv with hv | hv
    · exact r2 v (List.mem_of_mem_take hv)
    · exact t2 v hv
  · intro v hv
    rcases List.mem_append.1 hv with hv | hv
    · exact r3 v (List.mem_of_mem_take hv)
    · exact t3 v hv
  · intro j h1 h2 k i hi
    by_cases hj : j < (a.take env.d).length
    · have hj' : j < (s.parts.take env.d).length := by simp at hj ⊢; omega
      rw [List.getElem_append_left hj, List.getElem_append_left hj', List.getElem_take, List.getElem_take]
      exact r4 _ _ _ k i hi
    · have hle : (a.take env.d).length = (s.parts.take env.d).length := by simp [r1]
      have hj1 : (a.take env.d).length ≤ j := by omega
      have hj2 : (s.parts.take env.d).length ≤ j := by omega
      rw [List.getElem_append_right hj1, List.getElem_append_right hj2]
      have := t4 (j - (a.take env.d).length) (by simp at h1 hj1 ⊢; omega) (by simp at h2 hj2 hle ⊢; omega) k i hi
      simp only [hle] at this ⊢
      exact this

theorem shows_construct {inp : Input env} (hd : inp.parts.length = env.d + 1) {s : TS env} (h : Construct inp (.ok s)) :
    Shows s inp.parts := by
  have hs := inv_construct hd h
  obtain ⟨raw, ord, split, hc, hb, hw, hsrt, ho, ha, hp, hi, _⟩ := construct_ok h
  obtain ⟨hrl, _⟩ := rawCodes_spec.1 hw
  obtain ⟨q1, q2, q3⟩ := mapM_isort_spec hp
  have hn : (inp.parts.headD []).length = s.n := by
    rw [← hrl, ← perm_length hsrt.1, perm_length hs.perm]
  obtain ⟨_, hk2⟩ := inv_both hs.perm hs.invLen hs.inv
  rw [rel_shows hs]
  refine ⟨q1, fun v hv => (check_lengths hc v hv).trans hn, hs.len, fun j h1 h2 k i hi => ?_⟩
  have e := hk2 k i hi
  have hil := getElem?_lt e
  rw [q3 j h1 h2 i hil]
  rw [List.getElem?_eq_getElem hil, Option.some.injEq] at e
  rw [e]

/-! ### Rebuilding -/

theorem applyIsort_perm_of {α : Type} {n : Nat} {v w : List α} {srt : List Nat} (hp : srt.Perm (List.range n)) (hv : v.length = n)
    (h : applyIsort v srt = some w) : w.Perm v := by
  obtain ⟨hl, hw⟩ := applyIsort_spec h
  have e1 : w.map some = srt.map (fun k => v[k]?) := by
    apply List.ext_getElem? 
    intro i
    by_cases hi : i < srt.length
    · rw [List.getElem?_map, List.getElem?_map, List.getElem?_eq_getElem hi]
      have := hw i hi
      rw [List.getElem?_eq_getElem (by omega : i < w.length)] at this ⊢
      simpa using this
    · rw [List.getElem?_eq_none (by simp; omega), List.getElem?_eq_none (by simp; omega)]
  have e2 : (List.range n).map (fun k => v[k]?) = v.map some := by
    apply List.ext_getElem (by simp [hv])
    intro i h1 h2
    simp only [List.length_map] at h2
    simp [List.getElem?_eq_getElem h2]
  have : (w.map some).Perm (v.map some) := by
    rw [e1, ← e2]; exact hp.map _
  exact (List.map_perm_map_iff (Option.some_injective _)).1 this

/-- A sort of a list of indices by code always exists. -/
theorem sort_exists (raw : List Nat) (l : List Nat) : ∃ srt, IsSortOf (codeLt raw) l srt := by
  refine ⟨l.mergeSort (fun a b => !codeLt raw b a), List.mergeSort_perm _ _, ?_⟩
  have := List.pairwise_mergeSort (le := fun a b => !codeLt raw b a) ?_ ?_ l
  · simpa using this
  · intro a b c; simp [codeLt]; omega
  · intro a b; simp [codeLt]; omega

end Rakau
