import Verif.Props.Order
import Verif.Props.Gpu
import Verif.Props.Coll
import Verif.Props.Padding

/-!
# C69: bitwise reproducibility

C58 compares the results of two trees over the same particles in exact arithmetic. Here the arithmetic is arbitrary, in particular IEEE
arithmetic: if no two particles share a code, two trees over the same particles are the same bit by bit except for the permutations, and so are
all results. Without that condition this fails.
-/

namespace Rakau
open Spec

/-- The user's particle `i` of `t` is the user's particle `π i` of `s`: every coordinate and the mass agree, bit by bit. -/
structure Spec.Renumbers {env : Env} (π : Nat → Nat) (s t : TS env) : Prop where
  n : t.n = s.n
  lt : ∀ i < s.n, π i < s.n
  inj : ∀ i l, i < s.n → l < s.n → π i = π l → i = l
  view : ∀ j ≤ env.d, ∀ i < s.n, ordered t j i = ordered s j (π i)

/-- The two trees have the same parameters. -/
structure Spec.SameParams {env : Env} (s t : TS env) : Prop where
  box : t.box = s.box
  maxLeaf : t.maxLeaf = s.maxLeaf
  ncrit : t.ncrit = s.ncrit

section State
variable {env : Env} {s t : TS env} {π : Nat → Nat}

/-- C69: two trees over the same particles with the same parameters, however they came about (order of the input, updates, copies and moves, sort,
schedule), without two particles with equal codes: arrays, codes, nodes, node properties and critical nodes are equal, and the permutations differ by the renumbering. -/
theorem C69_state (E : EnvOk env) (h : Reach env s) (h' : Reach env t) (hz : s.n * cbits env.w env.d < 2 ^ 64) (hdist : s.codes.Nodup)
    (hp : SameParams s t) (hr : Renumbers π s t) :
    t = { s with perm := t.perm, invPerm := t.invPerm, lastPerm := t.lastPerm, deduced := t.deduced } ∧
    ∀ k < s.n, ∃ i, i < s.n ∧ t.perm[k]? = some i ∧ s.perm[k]? = some (π i) := by
  have hs := reach_inv h
  have ht := reach_inv h'
  obtain ⟨a, ha, _⟩ := shows_exists hs
  obtain ⟨b, hb, _⟩ := shows_exists ht
  have hal : a.length = env.d + 1 := ha.1.trans hs.arr
  have hbl : b.length = env.d + 1 := hb.1.trans ht.arr
  have hπ : ((List.range s.n).map π).Perm (List.range s.n) := by
    have := map_range'_perm (τ := π) (lo := 0) (l := s.n) (n := s.n) (by omega) hr.inj (fun k _ hk => ⟨by omega, by have := hr.lt k (by omega); omega⟩)
    rwa [← List.range_eq_range'] at this
  have hcell : ∀ j (h1 : j < a.length) (h2 : j < b.length) i, i < s.n → (b[j])[i]? = (a[j])[π i]? := by
    intro j h1 h2 i hi
    have := hr.view j (by omega) i hi
    rw [hb.2.2, ha.2.2, List.getElem?_eq_getElem h1, List.getElem?_eq_getElem h2] at this
    simpa using this
  have hab : a.mapM (fun v => applyIsort v ((List.range s.n).map π)) = some b := by
    rw [mapM_some_iff]
    apply forall₂_of_getElem (by omega)
    intro j h1 h2
    unfold applyIsort
    rw [mapM_some_iff]
    have hl2 := hb.2.1 _ (List.getElem_mem h2)
    apply forall₂_of_getElem (by simp [hl2, hr.n])
    intro i h3 h4
    have hi : i < s.n := by simpa using h3
    have := hcell j h1 h2 i hi
    rw [List.getElem?_eq_getElem h4] at this
    simp [this]
  obtain ⟨c1, c2, c3⟩ := same_view E hs ht ha hb hπ hab hp.box.symm hp.maxLeaf.symm hp.ncrit.symm hz
  obtain ⟨raw, r1, r2, r3, _⟩ := shows_raw hs ha
  obtain ⟨raw', r1', r2', _, _⟩ := shows_raw ht hb
  have hrl := (rawCodes_spec.1 r1).1
  obtain ⟨raw2, hr2⟩ := applyIsort_exists (v := raw) hπ hrl
  have e := rawCodes_isort r1 hπ hab hr2
  rw [hp.box, hr.n, e, Except.ok.injEq] at r1'
  subst r1'
  have hraw : raw.Nodup := r3.nodup_iff.1 hdist
  have l1 := perm_length hs.perm
  have l2 := perm_length ht.perm
  have hn := hr.n
  have hperm : ∀ k < s.n, ∃ i, i < s.n ∧ t.perm[k]? = some i ∧ s.perm[k]? = some (π i) := by
    intro k hk
    have k1 : k < s.perm.length := by omega
    have k2 : k < t.perm.length := by omega
    have x1 := (applyIsort_spec r2).2 k k1
    have x2 := (applyIsort_spec r2').2 k k2
    have hti : t.perm[k] < s.n := by rw [← hn]; exact perm_lt ht.perm (List.getElem_mem k2)
    have hsi : s.perm[k] < s.n := perm_lt hs.perm (List.getElem_mem k1)
    have x3 := (applyIsort_spec hr2).2 t.perm[k] (by simpa using hti)
    simp only [List.getElem_map, List.getElem_range] at x3
    rw [← c1, x1, x3, List.getElem?_eq_getElem (by omega), List.getElem?_eq_getElem (by rw [hrl]; exact hr.lt _ hti), Option.some.injEq,
      hraw.getElem_inj_iff] at x2
    exact ⟨_, hti, List.getElem?_eq_getElem k2, by rw [List.getElem?_eq_getElem k1, x2]⟩
  have hparts : t.parts = s.parts := by
    have ha' := (rel_shows hs).1 ha
    have hb' := (rel_shows ht).1 hb
    apply List.ext_getElem (by rw [ht.arr, hs.arr])
    intro j h1 h2
    have hja : j < a.length := by rw [hal, ← hs.arr]; exact h2
    have hjb : j < b.length := by omega
    apply List.ext_getElem?
    intro k
    by_cases hk : k < s.n
    · obtain ⟨i, i1, i2, i3⟩ := hperm k hk
      rw [← ha'.2.2.2 j hja h2 _ k (hs.inv _ _ i3), ← hb'.2.2.2 j hjb h1 _ k (ht.inv _ _ i2)]
      exact hcell j hja hjb i i1
    · rw [List.getElem?_eq_none (by rw [ht.len _ (List.getElem_mem h1)]; omega),
        List.getElem?_eq_none (by rw [hs.len _ (List.getElem_mem h2)]; omega)]
  have hprops : t.props = s.props := by
    have p1 := ht.props
    rw [← c2, hp.box, hparts, hs.props] at p1
    simpa using p1.symm
  refine ⟨?_, hperm⟩
  have := hp.box
  have := hp.maxLeaf
  have := hp.ncrit
  cases t
  cases s
  simp_all

/-- C69: two constructions with the same parameters, from the same particles in another order, satisfy the conditions of this section, whether the box size is given or deduced. -/
theorem C69_construct (E : EnvOk env) {i1 i2 : Input env} (hd : i1.parts.length = env.d + 1) (hd2 : i2.parts.length = env.d + 1) {n : Nat}
    (hn : (i1.parts.headD []).length = n) (hn2 : (i2.parts.headD []).length = n) (hz : n * cbits env.w env.d < 2 ^ 64)
    (hlt : ∀ i < n, π i < n) (hinj : ∀ i l, i < n → l < n → π i = π l → i = l)
    (hp : ∀ j (h1 : j < i1.parts.length) (h2 : j < i2.parts.length), ∀ i < n, i2.parts[j][i]? = i1.parts[j][π i]?)
    (hb : i1.box = i2.box) (hm : i1.maxLeaf = i2.maxLeaf) (hc : i1.ncrit = i2.ncrit) (h1 : Construct i1 (.ok s)) (h2 : Construct i2 (.ok t)) :
    Reach env s ∧ Reach env t ∧ SameParams s t ∧ Renumbers π s t := by
  obtain ⟨v1, _, v3, _⟩ := C02_views hd h1
  obtain ⟨v1', _, v3', _⟩ := C02_views hd2 h2
  obtain ⟨_, _, _, x1, _, _, _, _, _, _, _, _, _, _, _, m1, n1⟩ := construct_ok h1
  obtain ⟨_, _, _, x2, _, _, _, _, _, _, _, _, _, _, _, m2, n2⟩ := construct_ok h2
  have len1 := check_lengths x1
  have len2 := check_lengths x2
  have hπ : ((List.range n).map π).Perm (List.range n) := by
    have := map_range'_perm (τ := π) (lo := 0) (l := n) (n := n) (by omega) hinj (fun k _ hk => ⟨by omega, by have := hlt k (by omega); omega⟩)
    rwa [← List.range_eq_range'] at this
  have hab : i1.parts.mapM (fun v => applyIsort v ((List.range n).map π)) = some i2.parts := by
    rw [mapM_some_iff]
    apply forall₂_of_getElem (by omega)
    intro j h1 h2
    unfold applyIsort
    rw [mapM_some_iff]
    have hl2 := len2 _ (List.getElem_mem h2)
    apply forall₂_of_getElem (by rw [hl2, hn2]; simp)
    intro i h3 h4
    have hi : i < n := by simpa using h3
    have := hp j h1 h2 i hi
    rw [List.getElem?_eq_getElem h4] at this
    simp [this]
  have c15 := C15_construct E hd (by rw [hn]; exact hπ) hab hb hm hc (by rw [hn]; exact hz) h1 h2
  have hsn : s.n = n := v1.trans hn
  refine ⟨.construct _ _ hd h1, .construct _ _ hd2 h2, ⟨c15.1.symm, m2.trans (hm.symm.trans m1.symm), n2.trans (hc.symm.trans n1.symm)⟩, ?_⟩
  refine ⟨v1'.trans (hn2.trans hsn.symm), by rw [hsn]; exact hlt, by rw [hsn]; exact hinj, ?_⟩
  intro j hj i hi
  rw [hsn] at hi
  rw [v3, v3', List.getElem?_eq_getElem (by omega), List.getElem?_eq_getElem (by omega)]
  exact hp j (by omega) (by omega) i hi

end State

/-- From outputs in the order of the tree to outputs in the user's order. -/
theorem renumbered {α : Type} {env : Env} {s t : TS env} {π : Nat → Nat} (hr : Renumbers π s t) (h' : Reach env t)
    (hperm : ∀ k < s.n, ∃ i, i < s.n ∧ t.perm[k]? = some i ∧ s.perm[k]? = some (π i)) {o o' u : List α} {f f' : Nat → α}
    (ho : ∀ k < s.n, ∃ i, (if true then s.perm[k]? else some k) = some i ∧ o[i]? = some (f k))
    (ho' : ∀ k < s.n, ∃ i, (if true then t.perm[k]? else some k) = some i ∧ o'[i]? = some (f' k))
    (hu : ∀ k < s.n, ∃ i, (if false then s.perm[k]? else some k) = some i ∧ u[i]? = some (f k))
    (hu' : ∀ k < s.n, ∃ i, (if false then t.perm[k]? else some k) = some i ∧ u[i]? = some (f' k)) :
    ∀ i < s.n, ∃ v, o'[i]? = some v ∧ o[π i]? = some v := by
  intro i hi
  obtain ⟨k, hk', hki⟩ : ∃ k < s.n, t.perm[k]? = some i := by
    have I := reach_inv h'
    obtain ⟨k, hk, e⟩ := List.getElem_of_mem (I.perm.mem_iff.2 (List.mem_range.2 (show i < t.n by rw [hr.n]; exact hi)))
    exact ⟨k, by rw [← hr.n, ← perm_length I.perm]; exact hk, by rw [List.getElem?_eq_getElem hk, e]⟩
  obtain ⟨i', _, i2, i3⟩ := hperm k hk'
  rw [hki, Option.some.injEq] at i2
  subst i2
  obtain ⟨j, j1, j2⟩ := ho k hk'
  obtain ⟨j', j1', j2'⟩ := ho' k hk'
  obtain ⟨l, l1, l2⟩ := hu k hk'
  obtain ⟨l', l1', l2'⟩ := hu' k hk'
  simp only [if_true, i3, hki, Option.some.injEq] at j1 j1'
  simp only [Bool.false_eq_true, if_false, Option.some.injEq] at l1 l1'
  subst j1 j1' l1 l1'
  rw [l2, Option.some.injEq] at l2'
  exact ⟨_, j2', by rw [j2, l2']⟩

section Results
variable {K : Type} [Field K] [LinearOrder K] [IsStrictOrderedRing K] [FloorRing K] {A : Arith K} {simd : Option (Simd K)} {mac : Mac} {w d : Nat}
  {s t : TS (rakauEnv A simd mac w d)} {π : Nat → Nat} (hs : Supported w d) (h : Reach (rakauEnv A simd mac w d) s)
  (h' : Reach (rakauEnv A simd mac w d) t) (hz : s.n * cbits w d < 2 ^ 64) (hdist : s.codes.Nodup) (hp : SameParams s t) (hr : Renumbers π s t)
include hs h h' hz hdist hp hr

/-- C69: the unordered functions give identical outcomes (results, exceptions, undefined behaviour): on the CPU, distributed over accelerators, and in the exact functions. -/
theorem C69_unordered (rsqrt : Option (Fl K → Fl K)) (over : Overshift) (Q : Quant) (theta G eps : Fl K) (split : List (Fl K)) :
    (∀ order out, t.accPot rsqrt over Q false theta G eps split order out = s.accPot rsqrt over Q false theta G eps split order out) ∧
    (∀ B D Dv types ptr junk o out, t.accPotDev B D Dv types rsqrt over Q false ptr theta G eps split junk o out =
      s.accPotDev B D Dv types rsqrt over Q false ptr theta G eps split junk o out) ∧
    (∀ k, t.exact Q false G eps k = s.exact Q false G eps k) := by
  obtain ⟨e, _⟩ := C69_state (rakauEnv_ok A simd mac hs) h h' hz hdist hp hr
  rw [e]
  exact ⟨fun _ _ => rfl, fun _ _ _ _ _ _ _ _ => rfl, fun _ => rfl⟩

/-- C69: the ordered exact functions: the outcome for the user's particle `i` of `t` is that for the user's particle `π i` of `s`. -/
theorem C69_exact (Q : Quant) (G eps : Fl K) {i : Nat} (hi : i < s.n) : t.exact Q true G eps i = s.exact Q true G eps (π i) := by
  obtain ⟨e, hperm⟩ := C69_state (rakauEnv_ok A simd mac hs) h h' hz hdist hp hr
  obtain ⟨k, hk, hki⟩ := perm_inv h' (i := i) (by rw [hr.n]; exact hi)
  rw [hr.n] at hk
  obtain ⟨i', _, i2, i3⟩ := hperm k hk
  rw [hki, Option.some.injEq] at i2
  subst i2
  have f1 := (reach_inv h').inv _ _ hki
  have f2 := (reach_inv h).inv _ _ i3
  have hpa : t.parts = s.parts := by rw [e]
  unfold TS.exact
  rw [hr.n, hpa]
  simp only [if_true, f1, f2]

/-- C69: the ordered functions on the CPU: with valid parameters both computations succeed, whatever the schedules, and the result of the user's particle `i` of
`t` is, bit by bit, that of the user's particle `π i` of `s`. -/
theorem C69_ordered (hS : SimdPos simd) {rsqrt : Option (Fl K → Fl K)} {over : Overshift} (ho : over.Small) (hpd : s.n + (⟨A, simd, rsqrt⟩ : Hw K).pad < 2 ^ 64)
    (Q : Quant) {theta G eps mv eps2 : Fl K} {split : List (Fl K)} (hc : checkParams A mac theta G eps = .ok (mv, eps2)) (hsp : checkSplit split = .ok ())
    (hpad : (s.force rsqrt over Q mv G eps2).padCoord.isFinite = true) {order order' : List Nat} {out out' : List (Res K)}
    (hord : order.Perm (List.range s.crit.length)) (hord' : order'.Perm (List.range s.crit.length)) (hl : out.length = s.n) (hl' : out'.length = s.n) :
    ∃ o o', s.accPot rsqrt over Q true theta G eps split order out = .ok o ∧ t.accPot rsqrt over Q true theta G eps split order' out' = .ok o' ∧
      o.length = s.n ∧ o'.length = s.n ∧ ∀ i < s.n, ∃ v, o'[i]? = some v ∧ o[π i]? = some v := by
  obtain ⟨e, hperm⟩ := C69_state (rakauEnv_ok A simd mac hs) h h' hz hdist hp hr
  have hcr : t.crit = s.crit := by rw [e]
  have hf : t.force rsqrt over Q mv G eps2 = s.force rsqrt over Q mv G eps2 := by rw [e]; rfl
  obtain ⟨val, _, hall⟩ := C27_outputs hS hs h hz ho hpd Q hc hsp hpad
  obtain ⟨val', _, hall'⟩ := C27_outputs hS hs h' (by rw [hr.n]; exact hz) ho (by rw [hr.n]; exact hpd) Q hc hsp (by rw [hf]; exact hpad)
  obtain ⟨o, o1, o2, o3⟩ := hall true order out hord hl
  obtain ⟨o', o1', o2', o3'⟩ := hall' true order' out' (by rw [hcr]; exact hord') (by rw [hr.n]; exact hl')
  obtain ⟨u, u1, _, u3⟩ := hall false order out hord hl
  obtain ⟨u', u1', _, u3'⟩ := hall' false order out (by rw [hcr]; exact hord) (by rw [hr.n]; exact hl)
  rw [(C69_unordered hs h h' hz hdist hp hr rsqrt over Q theta G eps split).1, u1, Except.ok.injEq] at u1'
  subst u1'
  exact ⟨o, o', o1, o1', o2, by rw [o2', hr.n], renumbered hr h' hperm o3 (by rwa [hr.n] at o3') u3 (by rwa [hr.n] at u3')⟩

/-- C69: the ordered functions distributed over CPU and accelerators: if the plan divides the particles (`Plan.Good`, see `C29_partial`) both computations succeed, whatever
the schedules, and the result of the user's particle `i` of `t` is, bit by bit, that of the user's particle `π i` of `s`. -/
theorem C69_devices (hS : SimdPos simd) {rsqrt : Option (Fl K → Fl K)} {over : Overshift} (ho : over.Small) (hpd : s.n + (⟨A, simd, rsqrt⟩ : Hw K).pad < 2 ^ 64)
    (hn : s.n < 2 ^ 31) (ht : s.tree.length < 2 ^ 31) {B : Backend} (hB : ∀ p m, B = .rocm p m → 0 < m) (D Dv : Arith K) (types : Bool)
    (Q : Quant) {theta G eps mv eps2 : Fl K} {split : List (Fl K)} (hc : checkParams A mac theta G eps = .ok (mv, eps2))
    (hpad : (s.force rsqrt over Q mv G eps2).padCoord.isFinite = true)
    {plan : Plan} (hplan : splitPlan B D A types s.crit s.n split = .ok plan) {least len : Nat} (hg : plan.Good s.crit s.n least len)
    (ptr ptr' : Bool) (junk junk' : Res K) {sch sch' : Plan → Sched} {out out' : List (Res K)}
    (hcpu : ((sch plan).before ++ (sch plan).after).Perm (List.range plan.cpu)) (hcpu' : ((sch' plan).before ++ (sch' plan).after).Perm (List.range plan.cpu))
    (hdev : (sch plan).dev.Perm (List.range (plan.dev.length - 1))) (hdev' : (sch' plan).dev.Perm (List.range (plan.dev.length - 1)))
    (hl : out.length = s.n) (hl' : out'.length = s.n) :
    ∃ o o', s.accPotDev B D Dv types rsqrt over Q true ptr theta G eps split junk sch out = .ok o ∧
      t.accPotDev B D Dv types rsqrt over Q true ptr' theta G eps split junk' sch' out' = .ok o' ∧
      o.length = s.n ∧ o'.length = s.n ∧ ∀ i < s.n, ∃ v, o'[i]? = some v ∧ o[π i]? = some v := by
  obtain ⟨e, hperm⟩ := C69_state (rakauEnv_ok A simd mac hs) h h' hz hdist hp hr
  have hcr : t.crit = s.crit := by rw [e]
  have htr : t.tree = s.tree := by rw [e]
  have hf : t.force rsqrt over Q mv G eps2 = s.force rsqrt over Q mv G eps2 := by rw [e]; rfl
  obtain ⟨val, V, _, _, hall⟩ := C29_results hs h hz hS ho hpd hn ht hB D Dv types Q hc hpad hplan hg
  obtain ⟨val', V', _, _, hall'⟩ := C29_results hs h' (by rw [hr.n]; exact hz) hS ho (by rw [hr.n]; exact hpd) (by rw [hr.n]; exact hn) (by rw [htr]; exact ht) hB D Dv types Q hc
    (by rw [hf]; exact hpad) (by rw [hcr, hr.n]; exact hplan) (by rw [hcr, hr.n]; exact hg)
  obtain ⟨o, o1, o2, o3⟩ := hall true ptr junk sch out hcpu hdev hl
  obtain ⟨o', o1', o2', o3'⟩ := hall' true ptr' junk' sch' out' hcpu' hdev' (by rw [hr.n]; exact hl')
  obtain ⟨u, u1, _, u3⟩ := hall false ptr junk sch out hcpu hdev hl
  obtain ⟨u', u1', _, u3'⟩ := hall' false ptr junk sch out hcpu hdev (by rw [hr.n]; exact hl)
  rw [(C69_unordered hs h h' hz hdist hp hr rsqrt over Q theta G eps split).2.1, u1, Except.ok.injEq] at u1'
  subst u1'
  exact ⟨o, o', o1, o1', o2, by rw [o2', hr.n], renumbered hr h' hperm o3 (by rwa [hr.n] at o3') u3 (by rwa [hr.n] at u3')⟩

/-- C69: the collision graph of the unordered functions has the same possible outcomes. -/
theorem C69_graph_unordered {over : Overshift} {top : K} {sz : List (Fl K)} {old : List (List Nat)} {r : Except Err (List (List Nat))} :
    Cgraph t over top false sz old r ↔ Cgraph s over top false sz old r := by
  obtain ⟨e, _⟩ := C69_state (rakauEnv_ok A simd mac hs) h h' hz hdist hp hr
  rw [e]
  constructor
  · intro c
    cases c with
    | fail lf p e h1 h2 => exact .fail lf p e h1 h2
    | ub a v lf va sva h1 h2 h3 h4 h5 => exact .ub a v lf va sva h1 h2 h3 h4 h5
    | ok a v sv recs g sg h1 h2 h3 h4 h5 h6 => exact .ok a v sv recs g sg h1 h2 h3 h4 h5 h6
  · intro c
    cases c with
    | fail lf p e h1 h2 => exact .fail lf p e h1 h2
    | ub a v lf va sva h1 h2 h3 h4 h5 => exact .ub a v lf va sva h1 h2 h3 h4 h5
    | ok a v sv recs g sg h1 h2 h3 h4 h5 h6 => exact .ok a v sv recs g sg h1 h2 h3 h4 h5 h6

/-- C69: the ordered collision graphs, for AABB sizes that belong to the same particles: `i` and `j` collide in `t` iff `π i` and `π j` collide in `s`. -/
theorem C69_graph {over : Overshift} {top : K} {sz sz' : List (Fl K)} (hsz : ∀ i < s.n, sz'[i]? = sz[π i]?) {old old' g g' : List (List Nat)}
    (hg : Cgraph s over top true sz old (.ok g)) (hg' : Cgraph t over top true sz' old' (.ok g')) :
    g.length = s.n ∧ g'.length = s.n ∧ ∀ i < s.n, ∀ j < s.n, (∃ l, g'[i]? = some l ∧ j ∈ l) ↔ ∃ l, g[π i]? = some l ∧ π j ∈ l := by
  obtain ⟨e, hperm⟩ := C69_state (rakauEnv_ok A simd mac hs) h h' hz hdist hp hr
  have E := rakauEnv_ok A simd mac hs
  obtain ⟨g1, _⟩ := cgraph_edges hg
  obtain ⟨g1', _⟩ := cgraph_edges hg'
  rw [hr.n] at g1'
  have hsize : ∀ k < s.n, aabbSize t.perm true sz' k = aabbSize s.perm true sz k := by
    intro k hk
    obtain ⟨i, i1, i2, i3⟩ := hperm k hk
    unfold aabbSize
    simp only [if_true, i2, i3]
    exact hsz i i1
  have htree : t.tree = s.tree := by rw [e]
  have hpart : ∀ lf, ∀ k < s.n, collParticle t over top true sz' lf k = collParticle s over top true sz lf k := by
    intro lf k hk
    unfold collParticle
    rw [hsize k hk, e]
  have hin : ∀ l, ∀ k < s.n, InLeaf t over top true sz' l k ↔ InLeaf s over top true sz l k := by
    intro l k hk
    unfold InLeaf
    rw [htree]
    simp only [hpart _ k hk]
  have hlink : ∀ k < s.n, ∀ l < s.n, Linked t true sz' k l ↔ Linked s true sz k l := by
    intro k hk l hl
    unfold Linked
    rw [hsize k hk, hsize l hl, show t.parts = s.parts by rw [e]]
  have hidx : ∀ k < s.n, ∀ i < s.n, graphIdx t.perm t.n true k = some i ↔ graphIdx s.perm s.n true k = some (π i) := by
    intro k hk i hi
    obtain ⟨i', i1, i2, i3⟩ := hperm k hk
    have hπ := hr.lt i' i1
    unfold graphIdx
    rw [hr.n]
    simp only [if_true, i2, i3, Option.bind_some, if_pos i1, if_pos hπ, Option.some.injEq]
    exact ⟨fun h => by rw [h], fun h => hr.inj _ _ i1 hi h⟩
  have hlt : ∀ k i, graphIdx t.perm t.n true k = some i → k < s.n := fun k i hk => by rw [← hr.n]; exact graphIdx_lt h' hk
  refine ⟨g1, g1', fun i hi j hj => ?_⟩
  have hπi := hr.lt i hi
  rw [List.getElem?_eq_getElem (by omega), List.getElem?_eq_getElem (by omega)]
  simp only [Option.some.injEq, exists_eq_left']
  rw [cgraph_iff E h' (by rw [hr.n]; exact hz) hg' (by omega), cgraph_iff E h hz hg (by omega)]
  constructor
  · rintro ⟨l, a, b, x1, x2, x3, x4, x5, x6⟩
    have la := hlt _ _ x4
    have lb := hlt _ _ x5
    exact ⟨l, a, b, (hin l a la).1 x1, (hin l b lb).1 x2, x3, (hidx a la i hi).1 x4, (hidx b lb j hj).1 x5, (hlink a la b lb).1 x6⟩
  · rintro ⟨l, a, b, x1, x2, x3, x4, x5, x6⟩
    have la := graphIdx_lt h x4
    have lb := graphIdx_lt h x5
    exact ⟨l, a, b, (hin l a la).2 x1, (hin l b lb).2 x2, x3, (hidx a la i hi).2 x4, (hidx b lb j hj).2 x5, (hlink a la b lb).2 x6⟩

end Results

/-! ### Concrete cases, in double precision with AVX -/

/-- Four particles at `(x, x, x)` in a box of size 16. -/
def tieInp (x m : List ℚ) : Input (mixEnv (some avx64)) := ⟨some (.fin 16), 3, 3, [x, x, x, m].map (·.map .fin)⟩

def tieS (x m : List ℚ) : TS (mixEnv (some avx64)) := okOr (tieInp x m).exec (TS.default _)

/-- Three particles in the same cell of the grid, one far away; the second list is a permutation of the first. -/
def tieA : TS (mixEnv (some avx64)) := tieS [4, 4 + 1 / 256, 4 + 1 / 128, -4] [2 ^ 53, 1, 1, 1]
def tieB : TS (mixEnv (some avx64)) := tieS [4 + 1 / 256, 4 + 1 / 128, 4, -4] [1, 1, 2 ^ 53, 1]

/-- The same with particles in different cells. -/
def sepA : TS (mixEnv (some avx64)) := tieS [4, 3, 2, -4] [2 ^ 53, 1, 1, 1]
def sepB : TS (mixEnv (some avx64)) := tieS [3, 2, 4, -4] [1, 1, 2 ^ 53, 1]

def rot (i : Nat) : Nat := [1, 2, 0, 3].getD i i

theorem rot_inj : ∀ i l, i < 4 → l < 4 → rot i = rot l → i = l := by
  have : ∀ i < 4, ∀ l < 4, rot i = rot l → i = l := by decide
  exact fun i l hi hl => this i hi l hl

theorem tie_pair : Reach _ tieA ∧ Reach _ tieB ∧ SameParams tieA tieB ∧ Renumbers rot tieA tieB := by
  have n1 : tieA.n = 4 := by decide +kernel
  refine ⟨reach_exec _ rfl (by decide +kernel) (by decide +kernel), reach_exec _ rfl (by decide +kernel) (by decide +kernel),
    ⟨by decide +kernel, by decide +kernel, by decide +kernel⟩, ⟨by decide +kernel, ?_, ?_, ?_⟩⟩
  · rw [n1]; decide
  · rw [n1]; exact rot_inj
  · rw [n1]; show ∀ j ≤ 3, _; decide +kernel

theorem sep_pair : Reach _ sepA ∧ Reach _ sepB ∧ SameParams sepA sepB ∧ Renumbers rot sepA sepB := by
  have n1 : sepA.n = 4 := by decide +kernel
  refine ⟨reach_exec _ rfl (by decide +kernel) (by decide +kernel), reach_exec _ rfl (by decide +kernel) (by decide +kernel),
    ⟨by decide +kernel, by decide +kernel, by decide +kernel⟩, ⟨by decide +kernel, ?_, ?_, ?_⟩⟩
  · rw [n1]; decide
  · rw [n1]; exact rot_inj
  · rw [n1]; show ∀ j ≤ 3, _; decide +kernel

/-- A case of `C69_state`. The permutations do differ. -/
example : sepB = { sepA with perm := sepB.perm, invPerm := sepB.invPerm, lastPerm := sepB.lastPerm, deduced := sepB.deduced } ∧
    sepA.perm = [3, 2, 1, 0] ∧ sepB.perm = [3, 1, 0, 2] :=
  ⟨(C69_state (rakauEnv_ok _ _ _ ⟨.inl rfl, by decide⟩) sep_pair.1 sep_pair.2.1 (by decide +kernel) (by decide +kernel) sep_pair.2.2.1 sep_pair.2.2.2).1,
    by decide +kernel, by decide +kernel⟩

/-- A case of `C69_construct`, with a deduced box size. -/
example {s t : TS (mixEnv (some avx64))} (h1 : Construct ⟨none, 3, 3, (tieInp [4, 3, 2, -4] [2 ^ 53, 1, 1, 1]).parts⟩ (.ok s))
    (h2 : Construct ⟨none, 3, 3, (tieInp [3, 2, 4, -4] [1, 1, 2 ^ 53, 1]).parts⟩ (.ok t)) : SameParams s t ∧ Renumbers rot s t := by
  have := C69_construct (i1 := ⟨none, 3, 3, (tieInp [4, 3, 2, -4] [2 ^ 53, 1, 1, 1]).parts⟩) (i2 := ⟨none, 3, 3, (tieInp [3, 2, 4, -4] [1, 1, 2 ^ 53, 1]).parts⟩)
    (π := rot) (n := 4) (rakauEnv_ok _ _ _ ⟨.inl rfl, by decide⟩) rfl rfl rfl rfl (by decide) (by decide) rot_inj
    (by show ∀ j (_ : j < 4) (_ : j < 4), _; decide +kernel) rfl rfl rfl h1 h2
  exact this.2.2

/-- A case of `C69_unordered`. -/
example (order : List Nat) (out : List (Res ℚ)) :
    sepB.accPot none (maskedShift 32) .both false (.fin (3 / 4)) (.fin 1) (.fin 0) [] order out =
      sepA.accPot none (maskedShift 32) .both false (.fin (3 / 4)) (.fin 1) (.fin 0) [] order out :=
  (C69_unordered ⟨.inl rfl, by decide⟩ sep_pair.1 sep_pair.2.1 (by decide +kernel) (by decide +kernel) sep_pair.2.2.1 sep_pair.2.2.2 ..).1 order out

/-- A case of `C69_exact`. -/
example : sepB.exact .both true (.fin 1) (.fin 0) 2 = sepA.exact .both true (.fin 1) (.fin 0) 0 :=
  C69_exact (i := 2) ⟨.inl rfl, by decide⟩ sep_pair.1 sep_pair.2.1 (by decide +kernel) (by decide +kernel) sep_pair.2.2.1 sep_pair.2.2.2 .both _ _ (by decide +kernel)

/-- A case of `C69_ordered`: the schedules and the previous contents of the outputs differ. -/
example : ∃ o o', sepA.accPot none (maskedShift 32) .both true (.fin (1 / 2)) (.fin 1) (.fin 0) [] [0, 1] (List.replicate 4 ⟨[], []⟩) = .ok o ∧
    sepB.accPot none (maskedShift 32) .both true (.fin (1 / 2)) (.fin 1) (.fin 0) [] [1, 0] (List.replicate 4 ⟨[.nan], []⟩) = .ok o' ∧
    ∃ v, o'[2]? = some v ∧ o[0]? = some v := by
  have n1 : sepA.n = 4 := by decide +kernel
  have c1 : sepA.crit.length = 2 := by decide +kernel
  obtain ⟨o, o', h1, h2, _, _, h3⟩ := C69_ordered (rsqrt := none) (over := maskedShift 32) (order := [0, 1]) (order' := [1, 0]) (out := List.replicate 4 ⟨[], []⟩)
    (out' := List.replicate 4 ⟨[.nan], []⟩) (mv := .fin (4)) ⟨.inl rfl, by decide⟩ sep_pair.1 sep_pair.2.1 (by decide +kernel) (by decide +kernel) sep_pair.2.2.1 sep_pair.2.2.2
    (by intro S hS; cases hS; decide) (maskedShift_small 32) (by decide +kernel) .both (theta := .fin (1 / 2)) (G := .fin 1) (eps := .fin 0) (eps2 := .fin 0) (split := []) (by decide +kernel) rfl
    (by decide +kernel) (by rw [c1]; decide) (by rw [c1]; decide) (by rw [n1]; rfl) (by rw [n1]; rfl)
  exact ⟨o, o', h1, h2, h3 2 (by omega)⟩

/-- A case of `C69_devices`: particle 0 (in the order of the tree) on the CPU, the others on an accelerator; the two runs differ in the kind of output and the schedule. -/
example : ∃ o o', sepA.accPotDev (.rocm true 2) (binary64.ieee true) (binary64.ieee true) true none (maskedShift 32) .both true true (.fin (1 / 2)) (.fin 1) (.fin 0) [.fin 1, .fin 2]
      ⟨[], []⟩ (fun _ => ⟨[0], [], [0]⟩) (List.replicate 4 ⟨[], []⟩) = .ok o ∧
    sepB.accPotDev (.rocm true 2) (binary64.ieee true) (binary64.ieee true) true none (maskedShift 32) .both true false (.fin (1 / 2)) (.fin 1) (.fin 0) [.fin 1, .fin 2]
      ⟨[.nan], []⟩ (fun _ => ⟨[], [0], [0]⟩) (List.replicate 4 ⟨[.nan], []⟩) = .ok o' ∧
    ∃ v, o'[2]? = some v ∧ o[0]? = some v := by
  have n1 : sepA.n = 4 := by decide +kernel
  have t1 : sepA.tree.length < 2 ^ 31 := by decide +kernel
  have hplan : splitPlan (.rocm true 2) (binary64.ieee true) (binary64.ieee true) true sepA.crit sepA.n [.fin 1, .fin 2] = .ok ⟨1, [1, 4]⟩ := by decide +kernel
  obtain ⟨p, h1, h2⟩ := C29_rocm (D := binary64.ieee true) (Format.arith_laws binary64_std.toOk _ _) ⟨.inl rfl, by decide⟩ sep_pair.1 (by decide +kernel) true true 2 (split := [.fin 1, .fin 2])
    ⟨by simp, fun _ => ⟨1, by simp, by norm_num⟩, by decide⟩
    (by
      intro q hq
      simp only [List.mem_cons, Fl.fin.injEq, List.not_mem_nil, or_false] at hq
      rcases hq with rfl | rfl <;> decide +kernel)
  rw [show splitPlan _ _ _ _ _ _ _ = _ from hplan, Except.ok.injEq] at h1
  subst h1
  obtain ⟨o, o', h1, h2, _, _, h3⟩ := C69_devices (rsqrt := none) (over := maskedShift 32) (out := List.replicate 4 ⟨[], []⟩)
    (out' := List.replicate 4 ⟨[.nan], []⟩) (mv := .fin 4) ⟨.inl rfl, by decide⟩ sep_pair.1 sep_pair.2.1 (by decide +kernel) (by decide +kernel) sep_pair.2.2.1 sep_pair.2.2.2
    (by intro S hS; cases hS; decide) (maskedShift_small 32) (by decide +kernel) (by rw [n1]; decide) t1 (B := .rocm true 2) (by intro p m e; cases e; decide)
    (binary64.ieee true) (binary64.ieee true) true .both (theta := .fin (1 / 2)) (G := .fin 1) (eps := .fin 0) (eps2 := .fin 0) (by decide +kernel)
    (by decide +kernel) hplan h2 true false ⟨[], []⟩ ⟨[.nan], []⟩ (sch := fun _ => ⟨[0], [], [0]⟩) (sch' := fun _ => ⟨[], [0], [0]⟩)
    (by decide) (by decide) (by decide) (by decide) (by rw [n1]; rfl) (by rw [n1]; rfl)
  exact ⟨o, o', h1, h2, h3 2 (by omega)⟩

/-- A case of `C69_graph`. -/
example : ∃ g g', Cgraph sepA strictShift 1023 true [.fin 3, .fin 1, .fin 2, .fin 1] [] (.ok g) ∧ Cgraph sepB strictShift 1023 true [.fin 1, .fin 2, .fin 3, .fin 1] [] (.ok g') ∧
    g = [[1, 2], [0, 2], [0, 1], []] ∧ ((∃ l, g'[2]? = some l ∧ 1 ∈ l) ↔ ∃ l, g[0]? = some l ∧ 2 ∈ l) := by
  have h1 := coll_exec sepA strictShift 1023 true [.fin 3, .fin 1, .fin 2, .fin 1] []
  have h2 := coll_exec sepB strictShift 1023 true [.fin 1, .fin 2, .fin 3, .fin 1] []
  rw [eq_okOr (d := []) (x := collExec sepA _ _ _ _) (by decide +kernel)] at h1
  rw [eq_okOr (d := []) (x := collExec sepB _ _ _ _) (by decide +kernel)] at h2
  have n1 : sepA.n = 4 := by decide +kernel
  have := (C69_graph ⟨.inl rfl, by decide⟩ sep_pair.1 sep_pair.2.1 (by decide +kernel) (by decide +kernel) sep_pair.2.2.1 sep_pair.2.2.2
    (by rw [n1]; decide +kernel) h1 h2).2.2 2 (by omega) 1 (by omega)
  exact ⟨_, _, h1, h2, by decide +kernel, this⟩

/-- A case of `C69_graph_unordered`. -/
example (r : Except Err (List (List Nat))) : Cgraph sepB strictShift 1023 false [.fin 3, .fin 1, .fin 2, .fin 1] [] r ↔
    Cgraph sepA strictShift 1023 false [.fin 3, .fin 1, .fin 2, .fin 1] [] r :=
  C69_graph_unordered ⟨.inl rfl, by decide⟩ sep_pair.1 sep_pair.2.1 (by decide +kernel) (by decide +kernel) sep_pair.2.2.1 sep_pair.2.2.2

/-- C69 fails for particles with equal codes, in double precision with positive masses: the two trees hold the same particles (distinct positions), box and parameters are equal, and so are codes, nodes and critical
nodes; but the masses of the cell are added in another order, so that the node properties differ, and with them the acceleration of the particle far away (the user's particle 3 of both). -/
theorem C69_ties_fail : Reach _ tieA ∧ Reach _ tieB ∧ SameParams tieA tieB ∧ Renumbers rot tieA tieB ∧ tieA.codes = tieB.codes ∧ tieA.tree = tieB.tree ∧
    tieA.crit = tieB.crit ∧ tieA.props.map (·.mass) = [.fin (2 ^ 53), .fin 1, .fin (2 ^ 53)] ∧ tieB.props.map (·.mass) = [.fin (2 ^ 53 + 4), .fin 1, .fin (2 ^ 53 + 2)] ∧
    ∃ o o' : List (Res ℚ), tieA.accPot none (maskedShift 32) .acc true (.fin (3 / 4)) (.fin 1) (.fin 0) [] [0, 1] (List.replicate 4 ⟨[], []⟩) = .ok o ∧
      tieB.accPot none (maskedShift 32) .acc true (.fin (3 / 4)) (.fin 1) (.fin 0) [] [0, 1] (List.replicate 4 ⟨[], []⟩) = .ok o' ∧
      o.length = 4 ∧ o'.length = 4 ∧ o'[3]? ≠ o[rot 3]? := by
  refine ⟨tie_pair.1, tie_pair.2.1, tie_pair.2.2.1, tie_pair.2.2.2, by decide +kernel, by decide +kernel, by decide +kernel, by decide +kernel, by decide +kernel,
    okOr (tieA.accPot none (maskedShift 32) .acc true (.fin (3 / 4)) (.fin 1) (.fin 0) [] [0, 1] (List.replicate 4 ⟨[], []⟩)) [],
    okOr (tieB.accPot none (maskedShift 32) .acc true (.fin (3 / 4)) (.fin 1) (.fin 0) [] [0, 1] (List.replicate 4 ⟨[], []⟩)) [],
    eq_okOr (by decide +kernel), eq_okOr (by decide +kernel), by decide +kernel, by decide +kernel, by decide +kernel⟩

end Rakau
