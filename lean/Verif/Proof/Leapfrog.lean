import Verif.Model.Leapfrog
import Verif.Props.State
import Verif.Props.Overloads

/-! Lemmas on the leapfrog integrator. -/
set_option linter.unusedSectionVars false
namespace Rakau
open Spec

theorem mapM_range {α : Type} {n : Nat} {f : Nat → Option α} {v : List α} (h : (List.range n).mapM f = some v) :
    v.length = n ∧ ∀ i < n, v[i]? = f i := by
  rw [mapM_some_iff] at h
  refine ⟨by rw [← h.length_eq]; simp, fun i hi => ?_⟩
  have h1 : i < v.length := by rw [← h.length_eq]; simpa using hi
  have := List.forall₂_iff_get.1 h
  have h2 := this.2 i (by simpa using hi) h1
  simp only [List.get_eq_getElem, List.getElem_range] at h2
  rw [List.getElem?_eq_getElem h1, h2]

theorem mapM_range_some {α : Type} {n : Nat} {f : Nat → Option α} (h : ∀ i < n, (f i).isSome = true) : ∃ v, (List.range n).mapM f = some v := by
  induction n with
  | zero => exact ⟨[], rfl⟩
  | succ n ih =>
    obtain ⟨v, hv⟩ := ih (fun i hi => h i (by omega))
    obtain ⟨x, hx⟩ := Option.isSome_iff_exists.1 (h n (by omega))
    exact ⟨v ++ [x], by rw [List.range_succ, List.mapM_append, hv]; simp [hx]⟩

section
variable {F : Type}

/-- A table of `d` vectors of `n` elements. -/
def Tbl (d n : Nat) (a : List (List F)) : Prop := a.length = d ∧ ∀ v ∈ a, v.length = n

theorem Tbl.get {d n : Nat} {a : List (List F)} (h : Tbl d n a) {j i : Nat} (hj : j < d) (hi : i < n) : ∃ x, at2 a j i = some x := by
  have hj' : j < a.length := by rw [h.1]; exact hj
  have hi' : i < a[j].length := by rw [h.2 _ (List.getElem_mem hj')]; exact hi
  exact ⟨a[j][i], by unfold at2; rw [List.getElem?_eq_getElem hj']; exact List.getElem?_eq_getElem hi'⟩

theorem table_spec {d n : Nat} {f : Nat → Nat → Option F} {a : List (List F)} (h : table d n f = some a) :
    Tbl d n a ∧ ∀ j < d, ∀ i < n, at2 a j i = f j i := by
  unfold table at h
  obtain ⟨h1, h2⟩ := mapM_range h
  refine ⟨⟨h1, fun v hv => ?_⟩, fun j hj i hi => ?_⟩
  · obtain ⟨j, hj, rfl⟩ := List.getElem_of_mem hv
    have := h2 j (by omega)
    rw [List.getElem?_eq_getElem hj] at this
    exact (mapM_range this.symm).1
  · have hj' : j < a.length := by omega
    have e := h2 j hj
    rw [List.getElem?_eq_getElem hj'] at e
    unfold at2
    rw [List.getElem?_eq_getElem hj']
    exact (mapM_range e.symm).2 i hi

theorem table_some {d n : Nat} {f : Nat → Nat → Option F} (h : ∀ j < d, ∀ i < n, (f j i).isSome = true) : ∃ a, table d n f = some a := by
  refine mapM_range_some (fun j hj => ?_)
  obtain ⟨v, hv⟩ := mapM_range_some (h j hj)
  rw [hv]; rfl

theorem mem_allElems {d n : Nat} {p : Nat × Nat} : p ∈ allElems d n ↔ p.1 < d ∧ p.2 < n := by
  unfold allElems
  simp only [List.mem_flatMap, List.mem_map, List.mem_range]
  constructor
  · rintro ⟨j, hj, i, hi, rfl⟩; exact ⟨hj, hi⟩
  · rintro ⟨h1, h2⟩; exact ⟨p.1, h1, p.2, h2, rfl⟩

theorem nodup_allElems (d n : Nat) : (allElems d n).Nodup := by
  unfold allElems
  rw [List.nodup_flatMap]
  refine ⟨fun j _ => (List.nodup_range).map (fun a b h => by simpa using h), ?_⟩
  refine (List.pairwise_lt_range).imp ?_
  intro a b hab
  rw [Function.onFun, List.disjoint_left]
  intro x hx hy
  simp only [List.mem_map] at hx hy
  obtain ⟨_, _, rfl⟩ := hx
  obtain ⟨_, _, h⟩ := hy
  simp only [Prod.mk.injEq] at h
  omega

theorem driftArgs_spec {kv : List (List F)} {ord : List (Nat × Nat)} {ms : List (Nat × Nat × F)} (h : driftArgs kv ord = some ms) :
    ms.map (fun m => (m.1, m.2.1)) = ord ∧ ∀ m ∈ ms, at2 kv m.1 m.2.1 = some m.2.2 := by
  unfold driftArgs at h
  rw [mapM_some_iff] at h
  induction h with
  | nil => simp
  | @cons p m l ms h1 _ ih =>
    cases hv : at2 kv p.1 p.2 with
    | none => rw [hv] at h1; cases h1
    | some v =>
      rw [hv] at h1
      simp only [Option.map_some, Option.some.injEq] at h1
      subst h1
      refine ⟨by simp [ih.1], ?_⟩
      intro m hm
      rcases List.mem_cons.1 hm with rfl | hm
      · exact hv
      · exact ih.2 m hm

theorem driftArgs_some {kv : List (List F)} {d n : Nat} (hk : Tbl d n kv) {ord : List (Nat × Nat)} (ho : ∀ p ∈ ord, p.1 < d ∧ p.2 < n) :
    ∃ ms, driftArgs kv ord = some ms := by
  induction ord with
  | nil => exact ⟨[], rfl⟩
  | cons p l ih =>
    obtain ⟨ms, hms⟩ := ih (fun q hq => ho q (List.mem_cons_of_mem _ hq))
    obtain ⟨h1, h2⟩ := ho p List.mem_cons_self
    obtain ⟨v, hv⟩ := hk.get h1 h2
    refine ⟨(p.1, p.2, v) :: ms, ?_⟩
    unfold driftArgs at hms ⊢
    rw [List.mapM_cons, hv, hms]
    rfl

theorem at2_set {a : List (List F)} {j i : Nat} {old : List F} {x : F} (hj : a[j]? = some old) (hi : i < old.length) (j' i' : Nat) :
    at2 (a.set j (old.set i x)) j' i' = if j' = j ∧ i' = i then some x else at2 a j' i' := by
  have hjl : j < a.length := by
    by_contra hh
    rw [List.getElem?_eq_none (by omega)] at hj; cases hj
  unfold at2
  by_cases e : j' = j
  · subst e
    rw [List.getElem?_set_self hjl, hj]
    simp only [bind, Option.bind, true_and]
    by_cases e2 : i' = i
    · subst e2; rw [if_pos rfl, List.getElem?_set_self hi]
    · rw [if_neg e2, List.getElem?_set_ne (by omega)]
  · rw [List.getElem?_set_ne (by omega), if_neg (by tauto)]

/-- What the callback does to a table in which all its elements exist. -/
theorem drift_run (drift : F → F → F) : ∀ (ms : List (Nat × Nat × F)) (a : List (List F)), (ms.map (fun m => (m.1, m.2.1))).Nodup →
    (∀ m ∈ ms, ∃ x, at2 a m.1 m.2.1 = some x) →
    ∃ b, (driftProg drift ms).run (fun k => some k) a = .ok b ∧
      (∀ m ∈ ms, at2 b m.1 m.2.1 = (at2 a m.1 m.2.1).map (drift m.2.2)) ∧
      ∀ j i, (j, i) ∉ ms.map (fun m => (m.1, m.2.1)) → at2 b j i = at2 a j i := by
  intro ms
  induction ms with
  | nil => intro a _ _; exact ⟨a, rfl, by simp, by simp⟩
  | cons m l ih =>
    obtain ⟨j, i, v⟩ := m
    intro a hnd hex
    obtain ⟨x, hx⟩ := hex _ List.mem_cons_self
    simp only at hx
    obtain ⟨old, hold, hxi⟩ : ∃ old, a[j]? = some old ∧ old[i]? = some x := by
      unfold at2 at hx
      cases hj : a[j]? with
      | none => rw [hj] at hx; cases hx
      | some old => rw [hj] at hx; exact ⟨old, rfl, hx⟩
    have hil : i < old.length := by
      by_contra hh
      rw [List.getElem?_eq_none (by omega)] at hxi; cases hxi
    rw [List.map_cons, List.nodup_cons] at hnd
    have hset := at2_set (x := drift v x) hold hil
    obtain ⟨b, b1, b2, b3⟩ := ih (a.set j (old.set i (drift v x))) hnd.2 (by
      intro m hm
      rw [hset]
      split
      · exact ⟨_, rfl⟩
      · exact hex m (List.mem_cons_of_mem _ hm))
    refine ⟨b, ?_, ?_, ?_⟩
    · show Prog.run _ (.read j i _) a = _
      simp only [Prog.run, hold, hxi, ofUB, bind, Except.bind, Option.bind]
      rw [if_pos hil]
      exact b1
    · intro m hm
      rcases List.mem_cons.1 hm with rfl | hm
      · simp only
        rw [b3 j i hnd.1, hset, if_pos ⟨rfl, rfl⟩, hx]
        rfl
      · rw [b2 m hm, hset, if_neg]
        rintro ⟨e1, e2⟩
        exact hnd.1 (List.mem_map.2 ⟨m, hm, by rw [e1, e2]⟩)
    · intro j' i' hn
      rw [List.map_cons, List.mem_cons, not_or] at hn
      rw [b3 j' i' hn.2, hset, if_neg (fun h => hn.1 (by rw [h.1, h.2]))]

end

section
variable {K : Type} [Field K] [LinearOrder K] [IsStrictOrderedRing K] [FloorRing K] {A : Arith K} {simd : Option (Simd K)} {mac : Mac} {w d : Nat}

/-- A successful call has passed the checks. -/
theorem accPot_ok {s : TS (rakauEnv A simd mac w d)} {rsqrt : Option (Fl K → Fl K)} {over : Overshift} {Q : Quant} {o : Bool} {theta G eps : Fl K} {split : List (Fl K)}
    {order : List Nat} {out out' : List (Res K)} (h : s.accPot rsqrt over Q o theta G eps split order out = .ok out') :
    ∃ mv eps2, checkParams A mac theta G eps = .ok (mv, eps2) ∧ checkSplit split = .ok () ∧ (s.force rsqrt over Q mv G eps2).padCoord.isFinite = true := by
  unfold TS.accPot at h
  cases hp : checkParams A mac theta G eps with
  | error e => rw [hp] at h; cases h
  | ok v =>
    obtain ⟨mv, eps2⟩ := v
    rw [hp] at h
    simp only [bind, Except.bind] at h
    cases hsp : checkSplit split with
    | error e => rw [hsp] at h; cases h
    | ok u =>
      rw [hsp] at h
      simp only at h
      refine ⟨mv, eps2, rfl, rfl, ?_⟩
      unfold Force.cpuRun at h
      split at h
      · cases h
      · rename_i hc; simpa using hc


theorem accPot_noUB (hS : SimdPos simd) (hs : Supported w d) {s : TS (rakauEnv A simd mac w d)} (h : Reach _ s) (hz : s.n * cbits w d < 2 ^ 64)
    {rsqrt : Option (Fl K → Fl K)} {over : Overshift} (ho : over.Small) (hr : s.n + (⟨A, simd, rsqrt⟩ : Hw K).pad < 2 ^ 64) (Q : Quant) (o : Bool) (theta G eps : Fl K)
    (split : List (Fl K)) {order : List Nat} {out : List (Res K)} (hord : order.Perm (List.range s.crit.length)) (hout : out.length = s.n) :
    s.accPot rsqrt over Q o theta G eps split order out ≠ .error .ub := by
  intro hu
  have hu' := hu
  unfold TS.accPot at hu
  cases hp : checkParams A mac theta G eps with
  | error e =>
    rw [hp] at hu
    obtain rfl : e = .ub := by simpa [bind, Except.bind] using hu
    clear hu hu'
    unfold checkParams at hp
    cases h1 : computeEps2 A eps with
    | error e =>
      have : e ≠ .ub := by
        rintro rfl
        unfold computeEps2 at h1
        simp only at h1
        repeat' split at h1
        all_goals cases h1
      rw [h1] at hp
      simp only [bind, Except.bind] at hp
      repeat' split at hp
      all_goals simp_all
    | ok e2 =>
      cases h2 : checkG G with
      | error e =>
        have : e ≠ .ub := by
          rintro rfl
          unfold checkG at h2
          repeat' split at h2
          all_goals cases h2
        rw [h1, h2] at hp
        simp only [bind, Except.bind] at hp
        repeat' split at hp
        all_goals simp_all
      | ok u =>
        rw [h1, h2] at hp
        simp only [bind, Except.bind] at hp
        repeat' split at hp
        all_goals simp_all
  | ok v =>
    obtain ⟨mv, eps2⟩ := v
    rw [hp] at hu
    simp only [bind, Except.bind] at hu
    cases hsp : checkSplit split with
    | error e =>
      rw [hsp] at hu
      obtain rfl : e = .ub := by simpa using hu
      unfold checkSplit at hsp
      repeat' split at hsp
      all_goals cases hsp
    | ok u =>
      by_cases hpad : (s.force rsqrt over Q mv G eps2).padCoord.isFinite = true
      · obtain ⟨val, _, hall⟩ := C27_outputs hS hs h hz ho hr Q hp hsp hpad
        obtain ⟨out', e1, _⟩ := hall o order out hord hout
        rw [e1] at hu'; cases hu'
      · rw [hsp] at hu
        simp only at hu
        unfold Force.cpuRun at hu
        rw [if_pos (by simpa using hpad)] at hu
        cases hu

/-- The state of the program between two steps. -/
structure Leap.Good (P : LeapPar K) (rsqrt : Option (Fl K → Fl K)) (over : Overshift) (n : Nat) (σ : Leap A simd mac w d) : Prop where
  reach : Reach _ σ.t
  size : σ.t.n = n
  vel : Tbl d n σ.vel
  acc : ∃ order out, order.Perm (List.range σ.t.crit.length) ∧ out.length = n ∧
    σ.t.accPot rsqrt over P.Q false P.theta (.fin 1) P.eps P.split order out = .ok σ.acc

section
variable {P : LeapPar K} {rsqrt : Option (Fl K → Fl K)} {over : Overshift} {n : Nat} {σ : Leap A simd mac w d}
  (hS : SimdPos simd) (hs : Supported w d) (ho : over.Small) (hz : n * cbits w d < 2 ^ 64) (hr : n + (⟨A, simd, rsqrt⟩ : Hw K).pad < 2 ^ 64) (hQ : P.Q ≠ .pot)
include hS hs ho hz hr hQ

/-- The accelerations in the buffers, and those of the ordered function. -/
theorem Leap.Good.vals (g : σ.Good P rsqrt over n) : ∃ val : Nat → Res K, σ.acc.length = n ∧ (∀ i < n, σ.acc[i]? = some (val i) ∧ (val i).acc.length = d) ∧
    ∀ (o : Bool) (order : List Nat) (out : List (Res K)), order.Perm (List.range σ.t.crit.length) → out.length = n →
      ∃ out', σ.t.accPot rsqrt over P.Q o P.theta (.fin 1) P.eps P.split order out = .ok out' ∧ out'.length = n ∧
        ∀ i < n, ∃ k, (if o then σ.t.perm[i]? else some i) = some k ∧ out'[k]? = some (val i) := by
  obtain ⟨order, out, h1, h2, h3⟩ := g.acc
  obtain ⟨mv, eps2, hp, hsp, hpad⟩ := accPot_ok h3
  have hn := g.size
  obtain ⟨val, hval, hall⟩ := C27_outputs hS hs g.reach (by rw [hn]; exact hz) ho (by rw [hn]; exact hr) P.Q hp hsp hpad
  rw [hn] at hall
  obtain ⟨out', o1, o2, o3⟩ := hall false order out h1 h2
  obtain rfl : out' = σ.acc := by rw [o1] at h3; exact Except.ok.inj h3
  refine ⟨val, o2, fun i hi => ?_, hall⟩
  obtain ⟨k, k1, k2⟩ := o3 i hi
  simp only [Bool.false_eq_true, if_false, Option.some.injEq] at k1
  subst k1
  have := (val_shape hS hs g.reach (by rw [hn]; exact hz) ho (by rw [hn]; exact hr) P.Q hval (by rw [hn]; exact hi)).1
  rw [if_neg hQ] at this
  exact ⟨k2, this⟩

theorem Leap.Good.accAt (g : σ.Good P rsqrt over n) {j i : Nat} (hj : j < d) (hi : i < n) : ∃ a, Rakau.accAt σ.acc j i = some a := by
  obtain ⟨val, _, h, _⟩ := g.vals hS hs ho hz hr hQ
  obtain ⟨h1, h2⟩ := h i hi
  have hj' : j < (val i).acc.length := by omega
  exact ⟨(val i).acc[j], by unfold Rakau.accAt; rw [h1]; exact List.getElem?_eq_getElem hj'⟩

/-- One step of the program. -/
theorem Leap.Good.step (g : σ.Good P rsqrt over n) {r : Except Err (Leap A simd mac w d)} (h : σ.Step P rsqrt over r) : r ≠ .error .ub ∧
    ∀ σ', r = .ok σ' → σ'.Good P rsqrt over n ∧ ∀ i < n, ∃ l < n, σ'.t.perm[i]? = σ.t.perm[l]? ∧ unordered σ'.t d i = unordered σ.t d l ∧
      ∀ j < d, ∃ a v x a', Rakau.accAt σ.acc j l = some a ∧ at2 σ.vel j l = some v ∧ unordered σ.t j l = some x ∧ Rakau.accAt σ'.acc j i = some a' ∧
        unordered σ'.t j i = some (P.drift (P.kick a v) x) ∧ at2 σ'.vel j i = some (P.kick a' (P.kick a v)) := by
  have hn := g.size
  have hI := reach_inv g.reach
  have hkick : ∃ kv, σ.kicked P = some kv := by
    refine table_some (fun j hj i hi => ?_)
    rw [hn] at hi
    obtain ⟨a, ha⟩ := g.accAt hS hs ho hz hr hQ hj hi
    obtain ⟨v, hv⟩ := g.vel.get hj hi
    rw [ha, hv]; rfl
  cases h with
  | kick h => obtain ⟨kv, hk⟩ := hkick; rw [hk] at h; cases h
  | args kv ord h1 h2 h3 =>
    obtain ⟨kt, _⟩ := table_spec h1
    obtain ⟨ms, hms⟩ := driftArgs_some kt (fun p hp => mem_allElems.1 (h2.mem_iff.1 hp))
    rw [hms] at h3; cases h3
  | run kv ord ms o order h1 h2 h3 h4 h5 =>
    obtain ⟨kt, kg⟩ := table_spec h1
    rw [hn] at kt kg h2
    obtain ⟨m1, m2⟩ := driftArgs_spec h3
    have mb : ∀ m ∈ ms, m.1 < d ∧ m.2.1 < n := by
      intro m hm
      have : (m.1, m.2.1) ∈ ord := by rw [← m1]; exact List.mem_map.2 ⟨m, hm, rfl⟩
      exact mem_allElems.1 (h2.mem_iff.1 this)
    have hparts : Tbl (d + 1) n σ.t.parts := ⟨hI.arr, fun v hv => by rw [← hn]; exact hI.len v hv⟩
    have hin : (driftProg P.drift ms).InBounds (d + 1) n := by
      clear h3 m1 m2 h4
      induction ms with
      | nil => trivial
      | cons m l ih =>
        obtain ⟨b1, b2⟩ := mb m List.mem_cons_self
        refine ⟨by omega, b2, fun x => ⟨by omega, b2, ih (fun m hm => mb m (List.mem_cons_of_mem _ hm))⟩⟩
    have hub : o ≠ .ub := by
      rintro rfl
      exact (C37_total (rakauEnv_ok A simd mac hs) (rakauEnv_noUB A simd mac hs) g.reach (by rw [hn]; exact hin) (by rw [hn]; exact hz) false).2 h4
    cases o with
    | ub => exact absurd rfl hub
    | threw e s' =>
      refine ⟨?_, fun σ' h => by cases h⟩
      intro he
      have he' : e = .ub := by simpa [Leap.after] using he
      subst he'
      cases hh : (Out.threw Err.ub s' : Out (rakauEnv A simd mac w d)) with
      | ub => cases hh
      | ok _ => cases hh
      | threw e2 s2 =>
        generalize hx : (Out.threw Err.ub s' : Out (rakauEnv A simd mac w d)) = x at h4
        cases h4 with
        | callback e _ => cases e <;> cases hx
        | sync parts r _ _ => 
          cases r with
          | ok _ => cases hx
          | error e => cases e <;> cases hx
    | ok t =>
      obtain ⟨c1, c2, ⟨parts, c3, c4⟩, c5⟩ := C04_update g.reach h4
      have c1' : t.n = n := c1.trans hn
      have hR : Reach _ t := .particles _ _ _ _ g.reach h4
      obtain ⟨b, b1, b2, b3⟩ := drift_run P.drift ms σ.t.parts (by rw [m1]; exact h2.nodup_iff.2 (nodup_allElems _ _)) (by
        intro m hm
        obtain ⟨q1, q2⟩ := mb m hm
        exact hparts.get (by omega) q2)
      obtain rfl : b = parts := by
        have : (driftProg P.drift ms).run (σ.t.tr false) σ.t.parts = .ok b := b1
        rw [this] at c3
        exact Except.ok.inj c3
      have hlp : t.lastPerm.length = n := by rw [c2.length_eq]; simpa using hn
      have hord := h5 t rfl
      have hacl := (g.vals hS hs ho hz hr hQ).choose_spec.1
      unfold Leap.after
      simp only
      cases ha : t.accPot rsqrt over P.Q false P.theta (.fin 1) P.eps P.split order σ.acc with
      | error e =>
        refine ⟨?_, fun σ' h => by cases h⟩
        intro he
        obtain rfl : e = .ub := by simpa [bind, Except.bind] using he
        exact accPot_noUB hS hs hR (by rw [c1']; exact hz) ho (by rw [c1']; exact hr) P.Q false P.theta _ P.eps P.split hord (by omega) ha
      | ok acc =>
        have gacc : ∃ order out, order.Perm (List.range t.crit.length) ∧ out.length = n ∧
            t.accPot rsqrt over P.Q false P.theta (.fin 1) P.eps P.split order out = .ok acc := ⟨order, σ.acc, hord, hacl, ha⟩
        -- the accelerations of the new state do not depend on the velocities
        have gz : (⟨t, σ.vel, acc⟩ : Leap A simd mac w d).Good P rsqrt over n := ⟨hR, c1', g.vel, gacc⟩
        have hlpi : ∀ i < n, ∃ l < n, t.lastPerm[i]? = some l := by
          intro i hi
          have hi' : i < t.lastPerm.length := by omega
          refine ⟨t.lastPerm[i], ?_, List.getElem?_eq_getElem hi'⟩
          have := c2.mem_iff.1 (List.getElem_mem hi')
          rw [List.mem_range, hn] at this
          exact this
        obtain ⟨vel, hvel⟩ : ∃ vel, newVel P d t.n t.lastPerm kv acc = some vel := by
          refine table_some (fun j hj i hi => ?_)
          rw [c1'] at hi
          obtain ⟨a', ha'⟩ := gz.accAt hS hs ho hz hr hQ hj hi
          obtain ⟨l, l1, l2⟩ := hlpi i hi
          obtain ⟨v, hv⟩ := kt.get hj l1
          simp only at ha'
          rw [ha', l2]
          simp only [bind, Option.bind]
          rw [hv]; rfl
        obtain ⟨vt, vg⟩ := table_spec hvel
        rw [c1'] at vt vg
        simp only [bind, Except.bind, hvel, ofUB]
        refine ⟨by simp [pure, Except.pure], ?_⟩
        intro σ' hσ
        obtain rfl : (⟨t, vel, acc⟩ : Leap A simd mac w d) = σ' := Except.ok.inj hσ
        refine ⟨⟨hR, c1', vt, gacc⟩, ?_⟩
        intro i hi
        obtain ⟨l, l1, l2⟩ := hlpi i hi
        have c4' : ∀ j, unordered t j i = at2 b j l := by
          intro j
          rw [c4, l2]; rfl
        have hun : ∀ j, unordered σ.t j l = at2 σ.t.parts j l := fun _ => rfl
        refine ⟨l, l1, by have := c5 i; rw [l2] at this; exact this, ?_, ?_⟩
        · rw [c4', hun]
          apply b3
          intro hmem
          rw [m1] at hmem
          have := (mem_allElems.1 (h2.mem_iff.1 hmem)).1
          simp at this
        · intro j hj
          obtain ⟨a, ha1⟩ := g.accAt hS hs ho hz hr hQ hj l1
          obtain ⟨v, hv⟩ := g.vel.get hj l1
          obtain ⟨x, hx⟩ := hparts.get (show j < d + 1 by omega) l1
          obtain ⟨a', ha'⟩ := gz.accAt hS hs ho hz hr hQ hj hi
          have hkv : at2 kv j l = some (P.kick a v) := by
            rw [kg j hj l l1, ha1, hv]; rfl
          refine ⟨a, v, x, a', ha1, hv, hx, ha', ?_, ?_⟩
          · rw [c4']
            have : (j, l) ∈ ms.map (fun m => (m.1, m.2.1)) := by
              rw [m1]; exact h2.mem_iff.2 (mem_allElems.2 ⟨hj, l1⟩)
            obtain ⟨m, hm, e⟩ := List.mem_map.1 this
            simp only [Prod.mk.injEq] at e
            obtain ⟨rfl, rfl⟩ := e
            rw [b2 m hm, hx]
            have := m2 m hm
            rw [hkv, Option.some.injEq] at this
            rw [← this]; rfl
          · rw [vg j hj i hi]
            simp only at ha'
            rw [ha', l2]
            simp only [bind, Option.bind]
            rw [hkv]

end

end
end Rakau
