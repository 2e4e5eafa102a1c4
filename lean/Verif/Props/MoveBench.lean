import Verif.Props.Momentum
import Verif.Proof.MoveBench

/-!
# C83: moving all particles together

Newton's accelerations do not change when all particles are moved by the same amount. The tree does change: the box is deduced again from the new positions, so its cells cut the particles differently, and other nodes
are accepted. The program of benchmark/benchmark_move.cpp prints the results before and after the motion for comparison; here is what they have in common.
-/
namespace Rakau
open Spec

section
variable {K : Type} [Field K] [LinearOrder K] [IsStrictOrderedRing K] [FloorRing K] {A : Arith K} {simd : Option (Simd K)} {mac : Mac} {w d : Nat}
  (hS : SimdPos simd) (hs : Supported w d) {rsqrt : Option (Fl K → Fl K)} {over : Overshift} (ho : over.Small) {n : Nat} (hz : n * cbits w d < 2 ^ 64)
  (hr : n + (⟨A, simd, rsqrt⟩ : Hw K).pad < 2 ^ 64) {theta : Fl K} {split : List (Fl K)} {idx : Nat} (hi : idx < n)
include hS hs ho hz hr hi

theorem moveLines_spec {s : TS (rakauEnv A simd mac w d)} (h : Reach _ s) (hn : s.n = n) {order : List Nat} (hord : order.Perm (List.range s.crit.length)) {buf : List (Res K)}
    (hb : buf.length = n) : s.moveLines rsqrt over theta split idx order buf ≠ .error .ub ∧
    ∀ acc v, s.moveLines rsqrt over theta split idx order buf = .ok (acc, v) → acc.length = n := by
  have I := reach_inv h
  obtain ⟨p, p1, p2, _⟩ := (inv_both I.perm I.invLen I.inv).1 idx (by rw [hn]; exact hi)
  unfold TS.moveLines
  cases ha : s.accPot rsqrt over .acc false theta (.fin 1) (.fin 0) split order buf with
  | error e =>
    refine ⟨?_, fun acc v h => by cases h⟩
    intro he
    obtain rfl : e = .ub := by simpa [bind, Except.bind] using he
    exact accPot_noUB hS hs h (by rw [hn]; exact hz) ho (by rw [hn]; exact hr) .acc false theta _ _ split hord (by omega) ha
  | ok acc =>
    obtain ⟨mv, eps2, hp, hsp, hpad⟩ := accPot_ok ha
    obtain ⟨val, _, hall⟩ := C27_outputs hS hs h (by rw [hn]; exact hz) ho (by rw [hn]; exact hr) .acc hp hsp hpad
    obtain ⟨out', o1, o2, _⟩ := hall false order buf hord (by omega)
    obtain rfl : out' = acc := by rw [o1] at ha; exact Except.ok.inj ha
    simp only [p2, ofUB, bind, Except.bind, List.getElem?_eq_getElem (show p < out'.length by omega)]
    cases he : s.exact .acc false (.fin 1) (.fin 0) p with
    | error e =>
      refine ⟨?_, fun acc v h => by cases h⟩
      intro hh
      obtain rfl : e = .ub := by simpa using hh
      exact exact_noUB hS hs h (by rw [hn]; exact hz) .acc 1 _ p1 he
    | ok r =>
      refine ⟨by simp [pure, Except.pure], fun acc v h => ?_⟩
      obtain rfl : out' = acc := congrArg Prod.fst (Except.ok.inj h)
      exact o2.trans hn

variable {inp : Input (rakauEnv A simd mac w d)} (hl : inp.parts.length = d + 1) (hn : (inp.parts.headD []).length = n) {buf : List (Res K)} (hb : buf.length = n) {shift : Fl K → Fl K}
include hl hn hb

/-- C83: the program has an outcome and no undefined behaviour, whatever the arithmetic, the data, the displacement, the parameters, the schedule and the outcome of the sorts. -/
theorem C83_defined : (∃ r, MoveBench inp rsqrt over shift theta split idx buf r) ∧ ¬ MoveBench inp rsqrt over shift theta split idx buf (.error .ub) := by
  have E := rakauEnv_ok A simd mac hs
  have U := rakauEnv_noUB A simd mac hs
  obtain ⟨⟨r, hc⟩, hnc⟩ := C37_construct_total E U (inp := inp) hl (by rw [hn]; exact hz)
  have size : ∀ t, Construct inp (.ok t) → t.n = n := fun t h => (C02_views (env := rakauEnv A simd mac w d) hl h).1.trans hn
  have upd : ∀ t, Construct inp (.ok t) → (∃ out, UpdateParticles t false (moveProg shift (moveElems d t.n)) out) ∧
      ¬ UpdateParticles t false (moveProg shift (moveElems d t.n)) .ub := fun t h =>
    C37_total E U (.construct inp t hl h) (moveProg_bounds shift _ (fun p hp => mem_moveElems.1 hp)) (by rw [size t h]; exact hz) false
  refine ⟨?_, ?_⟩
  · cases r with
    | error e => exact ⟨_, .ctor e hc⟩
    | ok t =>
      cases hm : t.moveLines rsqrt over theta split idx (List.range t.crit.length) buf with
      | error e => exact ⟨_, .before t _ e hc (List.Perm.refl _) hm⟩
      | ok v =>
        obtain ⟨out, hu⟩ := (upd t hc).1
        cases out with
        | ub => exact ⟨_, .ub t hc hu⟩
        | threw e u => exact ⟨_, .moved t e u hc hu⟩
        | ok u => exact ⟨_, .after t u _ _ v.1 v.2 hc (List.Perm.refl _) hm hu (List.Perm.refl _)⟩
  · intro h
    generalize hx : (Except.error Err.ub : Except Err ((Res K × Res K) × Res K × Res K)) = x at h
    cases h with
    | ctor e h => cases hx; exact hnc h
    | before t order e h1 h2 h3 => cases hx; exact (moveLines_spec hS hs ho hz hr hi (.construct inp t hl h1) (size t h1) h2 hb).1 h3
    | ub t h1 h2 => exact (upd t h1).2 h2
    | moved t e u h1 h2 =>
      cases hx
      generalize hy : (Out.threw Err.ub u : Out (rakauEnv A simd mac w d)) = y at h2
      cases h2 with
      | callback e _ => cases e <;> cases hy
      | sync parts r _ _ =>
        cases r with
        | ok _ => cases hy
        | error e => cases e <;> cases hy
    | after t u order order' acc v h1 h2 h3 h4 h5 =>
      have hR : Reach _ t := .construct inp t hl h1
      have hl' := (moveLines_spec hS hs ho hz hr hi hR (size t h1) h2 hb).2 acc v h3
      have := (moveLines_spec (theta := theta) (split := split) hS hs ho hz hr hi (.particles _ _ _ _ hR h4) ((C04_update hR h4).1.trans (size t h1)) h5 hl').1
      cases hm : u.moveLines rsqrt over theta split idx order' acc with
      | error e =>
        rw [hm] at hx this
        cases hx
        exact this rfl
      | ok v => rw [hm] at hx; cases hx

end

/-! ### In exact arithmetic -/

/-- The particles `X`, all coordinates moved by `c`. -/
noncomputable def movedBy (d : Nat) (c : ℝ) (X : Nat → Nat → ℝ) (j k : Nat) : ℝ := if j = d then X d k else X j k + c

theorem sq_moved (d : Nat) (c : ℝ) (X : Nat → Nat → ℝ) (l i : Nat) :
    ∑ j ∈ Finset.range d, (movedBy d c X j l - movedBy d c X j i) ^ 2 = ∑ j ∈ Finset.range d, (X j l - X j i) ^ 2 := by
  refine Finset.sum_congr rfl fun j hj => ?_
  have hj := Finset.mem_range.1 hj
  unfold movedBy
  rw [if_neg (by omega), if_neg (by omega)]
  ring

theorem accel_moved (d : Nat) (e c : ℝ) (X : Nat → Nat → ℝ) (n i : Nat) {j : Nat} (hj : j < d) : accel d e (movedBy d c X) n i j = accel d e X n i j := by
  unfold accel
  refine Finset.sum_congr rfl fun l _ => ?_
  rw [sq_moved]
  unfold movedBy
  rw [if_pos rfl, if_neg (by omega), if_neg (by omega)]
  congr 2
  ring

theorem accSize_moved (d : Nat) (e c : ℝ) (X : Nat → Nat → ℝ) (n i : Nat) : accSize d e (movedBy d c X) n i = accSize d e X n i := by
  unfold accSize
  refine Finset.sum_congr rfl fun l _ => ?_
  rw [sq_moved]
  unfold movedBy
  rw [if_pos rfl]

section
variable {simd : Option (Simd ℝ)} {mac : Mac} {w d : Nat} (hS : ∀ S, simd = some S → S.Ok) (hs : Supported w d) {over : Overshift} (ho : over.Small) {n : Nat}
  (hz : n * cbits w d < 2 ^ 64) (hr : n + (⟨realA, simd, none⟩ : Hw ℝ).pad < 2 ^ 64) {θ κ : ℝ} (hθ : 0 < θ) (h0 : 0 ≤ κ) (h1 : κ < 1) (hκ : d * θ ^ 2 ≤ κ ^ 2)
  {split : List (Fl ℝ)} (hsp : checkSplit split = .ok ()) {idx : Nat} (hi : idx < n)
include hS hs ho hz hr hθ h0 h1 hκ hsp hi

/-- The two lines for a tree with the particles `X`. -/
theorem moveLines_real {s : TS (rakauEnv realA simd mac w d)} (h : Reach _ s) (hn : s.n = n) {X : Nat → Nat → ℝ} (hX : ∀ j ≤ d, ∀ i < n, ordered s j i = some (.fin (X j i)))
    (hm : ∀ i < n, 0 ≤ X d i) (hsep : ∀ i l, i < n → l < n → i ≠ l → 0 < ∑ j ∈ Finset.range d, (X j l - X j i) ^ 2) {order : List Nat}
    (hord : order.Perm (List.range s.crit.length)) {buf : List (Res ℝ)} (hb : buf.length = n) :
    ∃ (acc : List (Res ℝ)) (a : Nat → ℝ), s.moveLines none over (.fin θ) split idx order buf = .ok (acc, ⟨Arr d (fun j => .fin (a j)), []⟩, ⟨Arr d (fun j => .fin (accel d 0 X n idx j)), []⟩) ∧ acc.length = n ∧
      ∀ j < d, |a j - accel d 0 X n idx j| ≤ accErr κ * (1 + κ) ^ 2 * accSize d 0 X n idx := by
  subst hn
  have hS' : SimdPos simd := fun S h => (hS S h).pos
  have hsep' : ∀ i l, i < s.n → l < s.n → i ≠ l → 0 < ∑ j ∈ Finset.range d, (X j l - X j i) ^ 2 + (0 : ℝ) * 0 := fun i l a b c => by
    rw [mul_zero, add_zero]; exact hsep i l a b c
  have I := reach_inv h
  obtain ⟨p, p1, p2, p3⟩ := (inv_both I.perm I.invLen I.inv).1 idx hi
  obtain ⟨out1, q1, _, q3⟩ := C57_user hS hs h hz ho hr (by omega) hX hm hθ le_rfl h0 h1 hκ hsep' .acc 1 hsp hord hb
  obtain ⟨mv, eps2, c1, c2, c3⟩ := accPot_ok q1
  obtain ⟨val, _, hall⟩ := C27_outputs hS' hs h hz ho hr .acc c1 c2 c3
  obtain ⟨out2, r1, _, r3⟩ := hall true order buf hord hb
  obtain rfl : out2 = out1 := by rw [q1] at r1; exact (Except.ok.inj r1).symm
  obtain ⟨out3, t1, t2, t3⟩ := hall false order buf hord hb
  obtain ⟨k, k1, k2⟩ := r3 p p1
  simp only [if_true, p3, Option.some.injEq] at k1
  subst k1
  obtain ⟨k', k3, k4⟩ := t3 p p1
  simp only [Bool.false_eq_true, if_false, Option.some.injEq] at k3
  subst k3
  obtain ⟨a, pt, e1, _, e3⟩ := q3 idx hi
  rw [k2, Option.some.injEq] at e1
  obtain ⟨i', i1, _, i3⟩ := (C40_ordered h .acc (.fin 1) (.fin 0)).1 idx hi
  rw [p2, Option.some.injEq] at i1
  subst i1
  rw [C57_exact hS hs h hz hr hX le_rfl hsep' .acc 1 hi] at i3
  refine ⟨out3, a, ?_, t2, fun j hj => ?_⟩
  · unfold TS.moveLines
    simp only [t1, p2, k4, ← i3, ofUB, bind, Except.bind, e1, mul_zero, one_mul]
    rfl
  · have := e3 j hj
    rwa [one_mul, abs_one, mul_one, mul_zero] at this

variable {inp : Input (rakauEnv realA simd mac w d)} (hl : inp.parts.length = d + 1) (hn : (inp.parts.headD []).length = n) {buf : List (Res ℝ)} (hb : buf.length = n) {shift : Fl ℝ → Fl ℝ}
  {c : ℝ} (hc : ∀ x, shift (.fin x) = .fin (x + c)) {X : Nat → Nat → ℝ} (hX : ∀ j ≤ d, ∀ k < n, at2 inp.parts j k = some (.fin (X j k))) (hm : ∀ k < n, 0 ≤ X d k)
  (hsep : ∀ i l, i < n → l < n → i ≠ l → 0 < ∑ j ∈ Finset.range d, (X j l - X j i) ^ 2)
include hl hn hb hc hX hm hsep

/-- C83, in real numbers, for an opening angle `θ` with `√d θ ≤ κ < 1`, distinct positions and a box deduced from the particles, as in the program: if not all coordinates become zero, the program prints four lines.
The lines of the direct sum, before and after the motion, are the same, Newton's acceleration of the particle; the lines of the tree are within the bound of C55 of it, so within twice the bound of each other. -/
theorem C83_move (hH : HaddNonfin simd) (hbox : inp.box = none) (hvi : ValidInput d inp.box inp.maxLeaf inp.ncrit inp.parts) (hne : ∃ j < d, ∃ k < n, X j k + c ≠ 0)
    {r : Except Err ((Res ℝ × Res ℝ) × Res ℝ × Res ℝ)} (h : MoveBench inp none over shift (.fin θ) split idx buf r) :
    ∃ a b : Nat → ℝ, r = .ok ((⟨Arr d (fun j => .fin (a j)), []⟩, ⟨Arr d (fun j => .fin (accel d 0 X n idx j)), []⟩),
        ⟨Arr d (fun j => .fin (b j)), []⟩, ⟨Arr d (fun j => .fin (accel d 0 X n idx j)), []⟩) ∧
      ∀ j < d, |a j - accel d 0 X n idx j| ≤ accErr κ * (1 + κ) ^ 2 * accSize d 0 X n idx ∧ |b j - accel d 0 X n idx j| ≤ accErr κ * (1 + κ) ^ 2 * accSize d 0 X n idx ∧
        |b j - a j| ≤ 2 * (accErr κ * (1 + κ) ^ 2 * accSize d 0 X n idx) := by
  have hS' : SimdPos simd := fun S h => (hS S h).pos
  -- the tree before
  have T : ∀ t, Construct inp (.ok t) → Reach _ t ∧ t.n = n ∧ t.deduced = true ∧ ∀ j ≤ d, ∀ k < n, ordered t j k = some (.fin (X j k)) := by
    intro t h
    obtain ⟨v1, _, v3, _⟩ := C02_views (env := rakauEnv realA simd mac w d) hl h
    obtain ⟨_, _, _, _, _, _, _, _, _, _, _, _, _, _, e, _⟩ := construct_ok h
    exact ⟨.construct inp t hl h, v1.trans hn, by rw [e, hbox]; rfl, fun j hj k hk => (v3 j k).trans (hX j hj k hk)⟩
  -- the update
  have Up : ∀ t, Construct inp (.ok t) → ∀ o, UpdateParticles t false (moveProg shift (moveElems d t.n)) o →
      ∃ u, o = .ok u ∧ Reach _ u ∧ u.n = n ∧ ∀ j ≤ d, ∀ k < n, ordered u j k = some (.fin (movedBy d c X j k)) := by
    intro t h o hu
    obtain ⟨hR, htn, hded, hT⟩ := T t h
    have hI := reach_inv hR
    have hparts : Tbl (d + 1) n t.parts := ⟨hI.arr, fun v hv => by rw [← htn]; exact hI.len v hv⟩
    rw [htn] at hu
    obtain ⟨b, b1, b2, b3⟩ := move_run shift (.fin 0) hparts
    have hrun : (moveProg shift (moveElems d n)).run (t.tr false) t.parts = .ok b := b1
    have hsh := lengths_of_shape (run_shape _ _ hrun)
    have hbl : b.length = d + 1 := hsh.1.trans hI.arr
    have hbn : ∀ v ∈ b, v.length = n := hsh.2 _ hparts.2
    have hview : ∀ l k, t.perm[l]? = some k → ∀ j, at2 t.parts j l = ordered t j k := by
      intro l k hlk j
      show (do (← t.parts[j]?)[l]?) = (do let v ← t.parts[j]?; let i ← t.invPerm[k]?; v[i]?)
      rw [hI.inv l k hlk]; rfl
    have bval : ∀ l k, l < n → k < n → t.perm[l]? = some k → ∀ j ≤ d, at2 b j l = some (.fin (movedBy d c X j k)) := by
      intro l k hln hk hlk j hj
      by_cases hjd : j = d
      · subst hjd
        rw [b3, hview l k hlk, hT j le_rfl k hk]
        unfold movedBy
        rw [if_pos rfl]
      · rw [b2 j (by omega) l hln, hview l k hlk, hT j hj k hk]
        unfold movedBy
        rw [if_neg hjd, Option.map_some, hc]
    have pm : ∀ l < n, ∃ k < n, t.perm[l]? = some k := by
      intro l hln
      obtain ⟨k, k1, k2, _⟩ := perm_at hR (k := l) (by omega)
      exact ⟨k, by omega, k1⟩
    have bat : ∀ (j : Nat) (hj : j < b.length) (i : Nat) (hi : i < b[j].length), at2 b j i = some b[j][i] := by
      intro j hj i hi
      unfold at2
      rw [List.getElem?_eq_getElem hj]
      exact List.getElem?_eq_getElem hi
    have hvalid : ValidInput d (if t.deduced then none else some t.box) t.maxLeaf t.ncrit b := by
      obtain ⟨p1, p2, _⟩ := reach_params zero_ok hR
      refine ⟨p1, p2, fun v hv u hu => (hbn v hv).trans (hbn u hu).symm, ?_, ?_⟩
      · intro v hv y hy
        obtain ⟨j, hj, rfl⟩ := List.getElem_of_mem hv
        obtain ⟨i, hi, rfl⟩ := List.getElem_of_mem hy
        have hin : i < n := by rw [← hbn _ hv]; exact hi
        obtain ⟨k, k1, k2⟩ := pm i hin
        have := bval i k hin k1 k2 j (by omega)
        rw [bat j hj i hi, Option.some.injEq] at this
        rw [this]; rfl
      · rw [if_pos hded]
        obtain ⟨j, hj, k, hk, hne⟩ := hne
        obtain ⟨l, l1, l2⟩ := perm_inv hR (i := k) (by omega)
        have hj' : j < b.length := by omega
        have hl' : l < b[j].length := by rw [hbn _ (List.getElem_mem hj')]; omega
        refine .inr ⟨b[j], ?_, b[j][l], List.getElem_mem hl', ?_⟩
        · rw [List.mem_take_iff_getElem]
          exact ⟨j, by omega, rfl⟩
        · have := bval l k (by omega) hk l2 j hj.le
          rw [bat j hj' l hl', Option.some.injEq] at this
          rw [this, Ne, Fl.fin.injEq]
          unfold movedBy
          rw [if_neg (by omega)]
          exact hne
    obtain ⟨u, rfl⟩ := (C77_exact realA_exact (fun q _ => rfl) hS hH hs hR (by rw [htn]; exact hz) hrun hu).1 hvalid
    obtain ⟨c1, c2, ⟨parts, c3, c4⟩, c5⟩ := C04_update hR hu
    obtain rfl : b = parts := by rw [hrun] at c3; exact Except.ok.inj c3
    have hRu : Reach _ u := .particles _ _ _ _ hR hu
    have hun : u.n = n := c1.trans htn
    refine ⟨u, rfl, hRu, hun, fun j hj k hk => ?_⟩
    have hIu := reach_inv hRu
    obtain ⟨i, i1, i2, i3⟩ := (inv_both hIu.perm hIu.invLen hIu.inv).1 k (by omega)
    have hlp : u.lastPerm.length = n := by rw [c2.length_eq]; simpa using htn
    have hi' : i < u.lastPerm.length := by omega
    have hln : u.lastPerm[i] < n := by
      have := c2.mem_iff.1 (List.getElem_mem hi')
      rw [List.mem_range, htn] at this
      exact this
    have e5 := c5 i
    rw [i3, List.getElem?_eq_getElem hi'] at e5
    have e4 := c4 j i
    rw [List.getElem?_eq_getElem hi'] at e4
    show (do let v ← u.parts[j]?; let i ← u.invPerm[k]?; v[i]?) = _
    rw [i2]
    exact e4.trans (bval _ k hln hk e5.symm j hj)
  have hsep' : ∀ i l, i < n → l < n → i ≠ l → 0 < ∑ j ∈ Finset.range d, (movedBy d c X j l - movedBy d c X j i) ^ 2 := fun i l a b e => by
    rw [sq_moved]; exact hsep i l a b e
  have hm' : ∀ k < n, 0 ≤ movedBy d c X d k := fun k hk => by unfold movedBy; rw [if_pos rfl]; exact hm k hk
  cases h with
  | ctor e h =>
    obtain ⟨s, hs'⟩ := (C41_exact realA_exact (fun q _ => rfl) hS hH mac hs hl (by rw [hn]; exact hz) h).1 hvi
    cases hs'
  | before t order e g1 g2 g3 =>
    obtain ⟨hR, htn, _, hT⟩ := T t g1
    obtain ⟨acc, a, e1, _⟩ := moveLines_real hS hs ho hz hr hθ h0 h1 hκ hsp hi hR htn hT hm hsep g2 hb
    rw [e1] at g3; cases g3
  | ub t g1 g2 => obtain ⟨u, hu, _⟩ := Up t g1 _ g2; cases hu
  | moved t e u g1 g2 => obtain ⟨u, hu, _⟩ := Up t g1 _ g2; cases hu
  | after t u order order' acc v g1 g2 g3 g4 g5 =>
    obtain ⟨hR, htn, _, hT⟩ := T t g1
    obtain ⟨acc', a, e1, e2, e3⟩ := moveLines_real hS hs ho hz hr hθ h0 h1 hκ hsp hi hR htn hT hm hsep g2 hb
    rw [e1, Except.ok.injEq, Prod.mk.injEq] at g3
    obtain ⟨rfl, rfl⟩ := g3
    obtain ⟨u', hu, hRu, hun, hU⟩ := Up t g1 _ g4
    obtain rfl : u = u' := by injection hu
    obtain ⟨acc2, b, f1, _, f3⟩ := moveLines_real hS hs ho hz hr hθ h0 h1 hκ hsp hi hRu hun hU hm' hsep' g5 e2
    have hac : Arr d (fun j => Fl.fin (accel d 0 (movedBy d c X) n idx j)) = Arr d (fun j => Fl.fin (accel d 0 X n idx j)) := by
      unfold Arr
      refine List.map_congr_left fun j hj => ?_
      rw [accel_moved _ _ _ _ _ _ (List.mem_range.1 hj)]
    refine ⟨a, b, ?_, fun j hj => ?_⟩
    · rw [f1, hac]; rfl
    · have k1 := e3 j hj
      have k2 := f3 j hj
      rw [accSize_moved, accel_moved _ _ _ _ _ _ hj] at k2
      refine ⟨k1, k2, ?_⟩
      rw [show b j - a j = (b j - accel d 0 X n idx j) - (a j - accel d 0 X n idx j) by ring]
      refine (abs_sub _ _).trans ?_
      linarith

end

/-- A displacement of all coordinates by `c`. -/
noncomputable def shiftBy (c : ℝ) : Fl ℝ → Fl ℝ
  | .fin x => .fin (x + c)
  | y => y

/-- Three particles on the diagonal of the plane, in a box deduced from them. -/
example (mac : Mac) (θ : Fl ℝ) (c : ℝ) : (∃ r, MoveBench (leapInp mac diagX) none (maskedShift 64) (shiftBy c) θ [] 1 (List.replicate 3 ⟨[], []⟩) r) ∧
    ¬ MoveBench (leapInp mac diagX) none (maskedShift 64) (shiftBy c) θ [] 1 (List.replicate 3 ⟨[], []⟩) (.error .ub) :=
  C83_defined (by intro S h; cases h) diag_supp (maskedShift_small 64) (n := 3) (by decide) (by decide) (by decide) (by simp [leapInp]) (leap_len mac diagX) (by simp)

example (mac : Mac) {r : Except Err ((Res ℝ × Res ℝ) × Res ℝ × Res ℝ)} (h : MoveBench (leapInp mac diagX) none (maskedShift 64) (shiftBy (1 / 3)) (.fin (1 / 2)) [] 1 (List.replicate 3 ⟨[], []⟩) r) :=
  C83_move (by simp) diag_supp (maskedShift_small 64) (by decide) (by decide) (θ := 1 / 2) (κ := 3 / 4) (by norm_num) (by norm_num) (by norm_num) (by norm_num) (by decide) (by decide)
    (by simp [leapInp]) (leap_len mac diagX) (by simp) (c := 1 / 3) (fun x => rfl) (leap_data mac diagX) (fun k _ => diag_mass k)
    (fun i l _ _ hil => by have := diag_sep hil 0; rwa [mul_zero, add_zero] at this) (by intro S h; cases h) rfl
    (leap_valid mac (k := 1) (by decide) (by simp [diagX])) ⟨0, by decide, 0, by decide, by simp [diagX]⟩ h

/-! ### The lines of the tree are not the same -/

/-- The particles of C82, three on a line, in a box deduced from them. -/
def freeLine (mac : Mac) : Input (rakauEnv squareQ none mac 64 2) := { lineInp mac with box := none }
def freeLineS (mac : Mac) : TS (rakauEnv squareQ none mac 64 2) := okOr (freeLine mac).exec (TS.default _)

/-- A displacement by -6. -/
def back6 : Fl ℚ → Fl ℚ
  | .fin x => .fin (x - 6)
  | y => y

def freeLineS' (mac : Mac) : TS (rakauEnv squareQ none mac 64 2) := ((freeLineS mac).updExec false (moveProg back6 (moveElems 2 (freeLineS mac).n))).state (TS.default _)

/-- C83: the lines of the tree before and after need not agree, even without rounding: particles of mass 1 at -7, 5, 7 on a line, opening angle 1/2. The first particle sees the other two as one body; when all are moved
by -6, the other two are on different sides of the origin and it sees each of them. -/
theorem C83_fails (mac : Mac) : (∀ x, back6 (.fin x) = .fin (x + -6)) ∧ MoveBench (freeLine mac) none (maskedShift 64) back6 (.fin (1 / 2)) [] 0 (List.replicate 3 ⟨[], []⟩)
    (.ok ((⟨[.fin (2 / 169), .fin 0], []⟩, ⟨[.fin (1 / 144 + 1 / 196), .fin 0], []⟩), ⟨[.fin (1 / 144 + 1 / 196), .fin 0], []⟩, ⟨[.fin (1 / 144 + 1 / 196), .fin 0], []⟩)) ∧
    (2 / 169 : ℚ) ≠ 1 / 144 + 1 / 196 := by
  have h1 : Construct (freeLine mac) (.ok (freeLineS mac)) := by
    have h : Construct (freeLine mac) (freeLine mac).exec := construct_exec (by cases mac <;> decide +kernel)
    rwa [eq_okOr (d := TS.default _) (show isOk (freeLine mac).exec = true by cases mac <;> decide +kernel)] at h
  have h2 : UpdateParticles (freeLineS mac) false (moveProg back6 (moveElems 2 (freeLineS mac).n)) (.ok (freeLineS' mac)) := by
    have h := update_exec (s := freeLineS mac) (o := false) (f := moveProg back6 (moveElems 2 (freeLineS mac).n)) (by cases mac <;> decide +kernel)
    rwa [Out.eq_ok (d := TS.default _) (show ((freeLineS mac).updExec false (moveProg back6 (moveElems 2 (freeLineS mac).n))).isOk = true by cases mac <;> decide +kernel)] at h
  refine ⟨fun x => by rw [← sub_eq_add_neg]; rfl, ?_, by norm_num⟩
  have h3 : ∃ acc, (freeLineS mac).moveLines none (maskedShift 64) (.fin (1 / 2)) [] 0 (List.range (freeLineS mac).crit.length) (List.replicate 3 ⟨[], []⟩) =
      .ok (acc, ⟨[.fin (2 / 169), .fin 0], []⟩, ⟨[.fin (1 / 144 + 1 / 196), .fin 0], []⟩) ∧
      ((freeLineS' mac).moveLines none (maskedShift 64) (.fin (1 / 2)) [] 0 (List.range (freeLineS' mac).crit.length) acc).map Prod.snd =
        .ok (⟨[.fin (1 / 144 + 1 / 196), .fin 0], []⟩, ⟨[.fin (1 / 144 + 1 / 196), .fin 0], []⟩) := by
    refine ⟨(okOr ((freeLineS mac).moveLines none (maskedShift 64) (.fin (1 / 2)) [] 0 (List.range (freeLineS mac).crit.length) (List.replicate 3 ⟨[], []⟩)) ([], ⟨[], []⟩, ⟨[], []⟩)).1, ?_, ?_⟩
    · cases mac <;> decide +kernel
    · cases mac <;> decide +kernel
  obtain ⟨acc, h3, h4⟩ := h3
  have := MoveBench.after (shift := back6) (freeLineS mac) (freeLineS' mac) (List.range (freeLineS mac).crit.length) (List.range (freeLineS' mac).crit.length) acc _ h1 (.refl _) h3 h2 (.refl _)
  generalize (freeLineS' mac).moveLines none (maskedShift 64) (.fin (1 / 2)) [] 0 (List.range (freeLineS' mac).crit.length) acc = y at this h4
  cases y with
  | error e => cases h4
  | ok v =>
    simp only [Except.map, Except.ok.injEq] at this h4
    rwa [h4] at this

end Rakau
