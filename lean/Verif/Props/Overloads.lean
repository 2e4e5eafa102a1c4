import Verif.Proof.Overloads

/-!
Property theorems on the overloads of the force functions: C67 (results written to columns given by iterators, vectors or initializer lists).
-/
set_option linter.unusedSectionVars false

namespace Rakau

variable {K : Type}

namespace Spec

/-- What output column `j` holds for a particle with result `r`: the components of the acceleration, then the potential. -/
def component (Q : Quant) (d j : Nat) (r : Res K) : Option (Fl K) :=
  match Q with
  | .acc => r.acc[j]?
  | .pot => if j = 0 then r.pot[0]? else none
  | .both => if j < d then r.acc[j]? else if j = d then r.pot[0]? else none

/-- The number of output columns. -/
def columns (Q : Quant) (d : Nat) : Nat :=
  (match Q with | .pot => 0 | _ => d) + (match Q with | .acc => 0 | _ => 1)

end Spec
open Spec

variable [Field K] [LinearOrder K]

theorem columns_eq (Q : Quant) (d : Nat) : columns Q d = nvecsRes Q d := by
  cases Q <;> simp [columns, nvecsRes]

theorem component_eq {Q : Quant} {d j : Nat} {r : Res K} (h : Shape Q d r) (hj : j < nvecsRes Q d) : component Q d j r = some (r.comps.getD j .nan) := by
  have hl : j < r.comps.length := by rw [h.comps]; exact hj
  have e : r.comps[j]? = some (r.comps.getD j .nan) := by
    rw [List.getD_eq_getElem?_getD, List.getElem?_eq_getElem hl]; rfl
  rw [← e]
  obtain ⟨h1, h2⟩ := h
  unfold Res.comps
  cases Q with
  | acc =>
    simp only [nvecsRes] at hj
    have h1 : r.acc.length = d := h1
    rw [List.getElem?_append_left (by omega)]
    rfl
  | pot =>
    simp only [nvecsRes] at hj
    obtain rfl : j = 0 := by omega
    have h1 : r.acc.length = 0 := h1
    rw [List.getElem?_append_right (by omega), h1]
    rfl
  | both =>
    simp only [nvecsRes] at hj
    have h1 : r.acc.length = d := h1
    unfold component
    simp only
    by_cases hd : j < d
    · rw [if_pos hd, List.getElem?_append_left (by omega)]
    · obtain rfl : j = d := by omega
      rw [if_neg hd, if_pos rfl, List.getElem?_append_right (by omega), h1, Nat.sub_self]

theorem ptr_room {w d n : Nat} (hs : Supported w d) (hz : n * cbits w d < 2 ^ 64) : n ≤ ptrMax := by
  have : 2 ≤ cbits w d := by rcases hs with ⟨rfl | rfl, rfl | rfl⟩ <;> decide
  unfold ptrMax
  have : n * 2 ≤ n * cbits w d := Nat.mul_le_mul_left _ this
  norm_num at hz
  omega

section
variable [IsStrictOrderedRing K] [FloorRing K] {A : Arith K} {simd : Option (Simd K)} {mac : Mac} {w d : Nat} {s : TS (rakauEnv A simd mac w d)}
  (hS : SimdPos simd) (hs : Supported w d) (h : Reach _ s) (hz : s.n * cbits w d < 2 ^ 64)
include hS hs h hz

/-- The results of `C27_outputs` have the shape that was asked for. -/
theorem val_shape {rsqrt : Option (Fl K → Fl K)} {over : Overshift} (ho : over.Small) (hr : s.n + (⟨A, simd, rsqrt⟩ : Hw K).pad < 2 ^ 64)
    (Q : Quant) {mv G eps2 : Fl K} {val : Nat → Res K}
    (hval : ∀ cn ∈ s.crit, (s.force rsqrt over Q mv G eps2).node cn = .ok (Arr (cn.fin - cn.beg) (fun a => val (cn.beg + a)))) {k : Nat} (hk : k < s.n) :
    Shape Q d (val k) := by
  have E := rakauEnv_ok A simd mac hs
  obtain ⟨m, ⟨hm, hk1, hk2⟩, _⟩ := (crit_tiling E h hz).2 k hk
  have hcn := List.getElem_mem hm
  obtain ⟨t, vs, ht, _, t2, t3, hv, hsrc, htr, hnd, _⟩ := node_val hS hs h hz ho hr Q mv G eps2 hcn
  generalize s.crit[m] = cn at *
  have hkv : val k = (s.force rsqrt over Q mv G eps2).scaled ((s.force rsqrt over Q mv G eps2).total cn vs (k - cn.beg)) := by
    have h1 := (hval cn hcn).symm.trans hnd
    rw [Except.ok.injEq] at h1
    have h2 := congrArg (fun l => l[k - cn.beg]?) h1
    rw [arr_get (by omega), arr_get (by omega), Option.some.injEq, show cn.beg + (k - cn.beg) = k by omega] at h2
    exact h2
  rw [hkv]
  exact scaled_shape (total_shape hs h hz Q mv G eps2 hcn hv _)

/-- C67: every particle gets exactly `d` components of the acceleration and one potential, or only those, as asked for. -/
theorem C67_shape {rsqrt : Option (Fl K → Fl K)} {over : Overshift} (ho : over.Small) (hr : s.n + (⟨A, simd, rsqrt⟩ : Hw K).pad < 2 ^ 64)
    (Q : Quant) (ordered : Bool) {theta G eps mv eps2 : Fl K} {split : List (Fl K)} (hp : checkParams A mac theta G eps = .ok (mv, eps2))
    (hsp : checkSplit split = .ok ()) (hpad : (s.force rsqrt over Q mv G eps2).padCoord.isFinite = true) {order : List Nat}
    (hord : order.Perm (List.range s.crit.length)) {out : List (Res K)} (hout : out.length = s.n) :
    ∃ out', s.accPot rsqrt over Q ordered theta G eps split order out = .ok out' ∧ out'.length = s.n ∧
      ∀ r ∈ out', r.acc.length = (if Q = .pot then 0 else d) ∧ r.pot.length = (if Q = .acc then 0 else 1) := by
  obtain ⟨val, hval, hall⟩ := C27_outputs hS hs h hz ho hr Q hp hsp hpad
  obtain ⟨out', o1, o2, o3⟩ := hall ordered order out hord hout
  refine ⟨out', o1, o2, ?_⟩
  intro r hrm
  obtain ⟨i, hi, rfl⟩ := List.getElem_of_mem hrm
  obtain ⟨π, ρ, hix, hρ, hρn, _⟩ := reach_positions h ordered
  obtain ⟨i', e1, e2⟩ := o3 (ρ i) (hρn i (by omega))
  obtain ⟨p1, _, _⟩ := hix (ρ i) (hρn i (by omega))
  obtain rfl : i = i' := by rw [p1, hρ i (by omega), Option.some.injEq] at e1; exact e1
  rw [List.getElem?_eq_getElem hi, Option.some.injEq] at e2
  rw [e2]
  exact val_shape hS hs h hz ho hr Q hval (hρn i (by omega))

/-- The sample tree: the combined results have three components and a potential. -/
example : ∃ out', (gS .bh).accPot none (maskedShift 32) .both true (.fin 1) (.fin 2) (.fin 0) [] [3, 2, 1, 0] (List.replicate 5 ⟨[], []⟩) = .ok out' ∧ out'.length = 5 ∧
    ∀ r ∈ out', r.acc.length = 3 ∧ r.pot.length = 1 := by
  have := C67_shape (mac := .bh) g_simd g_supp (g_reach .bh) (g_size .bh) (over := maskedShift 32) (maskedShift_small _)
    (g_room .bh none) .both true (theta := .fin 1) (G := .fin 2) (eps := .fin 0) (mv := .fin 1) (eps2 := .fin 0) (split := []) (by decide +kernel) rfl (by decide +kernel) (order := [3, 2, 1, 0])
    (by rw [show (gS .bh).crit.length = 4 by decide +kernel]; decide) (out := List.replicate 5 ⟨[], []⟩) (by rw [g_n]; rfl)
  rw [g_n] at this
  exact this

/-- C67: with iterators to columns of at least `n` elements whose difference type is large enough, the first `n` elements of column `j` become component
`j` of the results (those of the other theorems: `accPot`), and nothing else is changed. -/
theorem C67_iterators {rsqrt : Option (Fl K → Fl K)} {over : Overshift} (ho : over.Small) (hr : s.n + (⟨A, simd, rsqrt⟩ : Hw K).pad < 2 ^ 64)
    (Q : Quant) (ordered : Bool) {theta G eps mv eps2 : Fl K} {split : List (Fl K)} (hp : checkParams A mac theta G eps = .ok (mv, eps2))
    (hsp : checkSplit split = .ok ()) (hpad : (s.force rsqrt over Q mv G eps2).padCoord.isFinite = true) {order order' : List Nat}
    (hord : order.Perm (List.range s.crit.length)) (hord' : order'.Perm (List.range s.crit.length)) {out : List (Res K)} (hout : out.length = s.n)
    {dmax : Nat} (hdm : if ordered then s.n ≤ dmax else ∀ cn ∈ s.crit, cn.beg ≤ dmax)
    {cols : List (List (Fl K))} (hcl : cols.length = columns Q d) (hcn : ∀ col ∈ cols, s.n ≤ col.length) :
    ∃ out' cols', s.accPot rsqrt over Q ordered theta G eps split order' out = .ok out' ∧ out'.length = s.n ∧
      s.accPotIts rsqrt over Q ordered dmax theta G eps split order cols = .ok cols' ∧ cols'.length = cols.length ∧
      ∀ j (h1 : j < cols.length) (h2 : j < cols'.length), cols'[j].length = cols[j].length ∧
        (∀ i < s.n, ∃ r v, out'[i]? = some r ∧ component Q d j r = some v ∧ cols'[j][i]? = some v) ∧
        ∀ i ≥ s.n, cols'[j][i]? = cols[j][i]? := by
  have E := rakauEnv_ok A simd mac hs
  obtain ⟨g1, g2⟩ := crit_tiling E h hz
  obtain ⟨val, hval, hall⟩ := C27_outputs hS hs h hz ho hr Q hp hsp hpad
  obtain ⟨out', o1, o2, o3⟩ := hall ordered order' out hord' hout
  have hsh : ∀ k < s.n, Shape Q d (val k) := fun k hk => val_shape hS hs h hz ho hr Q hval hk
  obtain ⟨π, ρ, hix, hρ, hρn, _⟩ := reach_positions h ordered
  have hnn := ptr_room hs hz
  rw [columns_eq] at hcl
  set N : Nat → Nat := fun j => (cols.getD j []).length with hN
  have hgd : ∀ j (hj : j < cols.length), cols.getD j [] = cols[j] := by
    intro j hj
    rw [List.getD_eq_getElem?_getD, List.getElem?_eq_getElem hj]; rfl
  have hcols := cols_arr hcl
  obtain ⟨f, f1, f2⟩ := cpuRunCols_eq (c := s.force rsqrt over Q mv G eps2) (dmax := if ordered then ptrMax else dmax) hpad hix hρ val
    (by
      intro cn hc
      have := g1 cn hc
      refine ⟨by omega, by omega, ?_, hval cn hc⟩
      cases ordered with
      | true => simp only [if_true]; omega
      | false => simpa using (show ∀ cn ∈ s.crit, cn.beg ≤ dmax by simpa using hdm) cn hc)
    (fun k hk => (hsh k hk).comps) order (fun t ht => List.mem_range.1 (hord.mem_iff.1 ht)) (N := N)
    (fun j hj => by
      have hj' : j < cols.length := by rw [hcl]; exact hj
      rw [hN]; simp only; rw [hgd j hj']; exact hcn _ (List.getElem_mem hj'))
    (fun j i => (cols.getD j []).getD i .nan)
  refine ⟨out', Arr (nvecsRes Q d) (fun j => Arr (N j) (f j)), o1, o2, ?_, by simp [hcl], ?_⟩
  · unfold TS.accPotIts
    rw [hp, hsp]
    have hit : (if ordered then itDiffCheck dmax s.n else .ok ()) = .ok () := by
      cases ordered with
      | false => rfl
      | true => simp only [if_true] at hdm ⊢; unfold itDiffCheck; rw [if_neg (by omega)]
    rw [hit]
    conv_lhs => rw [hcols]
    exact f1
  · intro j hj hj2
    have hjn : j < nvecsRes Q d := by omega
    have hget : (Arr (nvecsRes Q d) (fun j => Arr (N j) (f j)))[j] = Arr (N j) (f j) := by
      have := arr_get (g := fun j => Arr (N j) (f j)) hjn
      rw [List.getElem?_eq_getElem hj2, Option.some.injEq] at this
      exact this
    rw [hget]
    have hNj : N j = cols[j].length := by rw [hN]; simp only; rw [hgd j hj]
    have hnN : s.n ≤ N j := by rw [hNj]; exact hcn _ (List.getElem_mem hj)
    refine ⟨by simp [hNj], ?_, ?_⟩
    · intro i hi
      obtain ⟨i', e1, e2⟩ := o3 (ρ i) (hρn i hi)
      obtain ⟨p1, _, _⟩ := hix (ρ i) (hρn i hi)
      obtain rfl : i = i' := by rw [p1, hρ i hi, Option.some.injEq] at e1; exact e1
      refine ⟨_, _, e2, component_eq (hsh _ (hρn i hi)) hjn, ?_⟩
      obtain ⟨m, ⟨hm, hk1⟩, _⟩ := g2 (ρ i) (hρn i hi)
      rw [arr_get (by omega), (f2 j hjn i).1 hi m (hord.mem_iff.2 (List.mem_range.2 hm)) hm hk1]
    · intro i hi
      by_cases hiN : i < N j
      · rw [arr_get hiN, (f2 j hjn i).2 (.inl hi), hgd j hj, List.getD_eq_getElem?_getD, List.getElem?_eq_getElem (by omega)]; rfl
      · rw [List.getElem?_eq_none (by simp; omega), List.getElem?_eq_none (by omega)]

/-- The sample tree: three columns of 7, 5 and 6 elements, unordered, with a difference type up to 3 (the last critical node starts at 3; there are 5 particles). -/
example : ∃ out' cols', (gS .bh).accPot none (maskedShift 32) .acc false (.fin 1) (.fin 2) (.fin 0) [] [3, 2, 1, 0] (List.replicate 5 ⟨[], []⟩) = .ok out' ∧
    (gS .bh).accPotIts none (maskedShift 32) .acc false 3 (.fin 1) (.fin 2) (.fin 0) [] [2, 0, 1, 3]
      [List.replicate 7 (.fin 9), List.replicate 5 .nan, List.replicate 6 (.fin 8)] = .ok cols' ∧ cols'.map List.length = [7, 5, 6] ∧
    ∃ r v, out'[4]? = some r ∧ r.acc[2]? = some v ∧ (cols'.getD 2 [])[4]? = some v ∧ (cols'.getD 2 [])[5]? = some (.fin 8) := by
  obtain ⟨out', cols', o1, _, o2, o3, o4⟩ := C67_iterators (mac := .bh) g_simd g_supp (g_reach .bh) (g_size .bh) (over := maskedShift 32) (maskedShift_small _)
    (g_room .bh none) .acc false (theta := .fin 1) (G := .fin 2) (eps := .fin 0) (mv := .fin 1) (eps2 := .fin 0) (split := []) (by decide +kernel) rfl (by decide +kernel) (order := [2, 0, 1, 3])
    (order' := [3, 2, 1, 0]) (by rw [show (gS .bh).crit.length = 4 by decide +kernel]; decide) (by rw [show (gS .bh).crit.length = 4 by decide +kernel]; decide)
    (out := List.replicate 5 ⟨[], []⟩) (by rw [g_n]; rfl) (dmax := 3) (by simp only [Bool.false_eq_true, if_false]; decide +kernel)
    (cols := [List.replicate 7 (.fin 9), List.replicate 5 .nan, List.replicate 6 (.fin 8)]) rfl (by rw [g_n]; decide +kernel)
  rw [g_n] at o4
  have o3 : cols'.length = 3 := o3
  match cols', o3, o4, o2 with
  | [c0, c1, c2], _, o4, o2 =>
    obtain ⟨r, v, r1, r2, r3⟩ := (o4 2 (by decide) (by simp)).2.1 4 (by norm_num)
    refine ⟨out', [c0, c1, c2], o1, o2, ?_, r, v, r1, r2, r3, (o4 2 (by decide) (by simp)).2.2 5 (by norm_num)⟩
    have l0 := (o4 0 (by decide) (by simp)).1
    have l1 := (o4 1 (by decide) (by simp)).1
    have l2 := (o4 2 (by decide) (by simp)).1
    simp only [List.getElem_cons_zero, List.getElem_cons_succ, List.length_replicate] at l0 l1 l2
    simp [l0, l1, l2]

/-- C67: vectors of any size get exactly `n` elements each, which do not depend on the previous contents: component `j` of the results. -/
theorem C67_vectors {rsqrt : Option (Fl K → Fl K)} {over : Overshift} (ho : over.Small) (hr : s.n + (⟨A, simd, rsqrt⟩ : Hw K).pad < 2 ^ 64)
    (Q : Quant) (ordered : Bool) {theta G eps mv eps2 : Fl K} {split : List (Fl K)} (hp : checkParams A mac theta G eps = .ok (mv, eps2))
    (hsp : checkSplit split = .ok ()) (hpad : (s.force rsqrt over Q mv G eps2).padCoord.isFinite = true) {order order' : List Nat}
    (hord : order.Perm (List.range s.crit.length)) (hord' : order'.Perm (List.range s.crit.length)) {out : List (Res K)} (hout : out.length = s.n)
    {vecs : List (List (Fl K))} (hvl : vecs.length = columns Q d) :
    ∃ out' vecs', s.accPot rsqrt over Q ordered theta G eps split order' out = .ok out' ∧ out'.length = s.n ∧
      s.accPotVecs rsqrt over Q ordered theta G eps split order vecs = (.ok (), vecs') ∧ vecs'.length = columns Q d ∧
      ∀ j (h2 : j < vecs'.length), vecs'[j].length = s.n ∧ ∀ i < s.n, ∃ r v, out'[i]? = some r ∧ component Q d j r = some v ∧ vecs'[j][i]? = some v := by
  have hnn := ptr_room hs hz
  have hg := (crit_tiling (rakauEnv_ok A simd mac hs) h hz).1
  have hlen : ∀ v : List (Fl K), (resizeVec s.n v).length = s.n := by
    intro v
    simp only [resizeVec, List.length_append, List.length_take, List.length_replicate]
    omega
  obtain ⟨out', cols', o1, o2, o3, o4, o5⟩ := C67_iterators hS hs h hz ho hr Q ordered hp hsp hpad hord hord' hout (dmax := ptrMax)
    (by
      cases ordered with
      | true => simpa using hnn
      | false =>
        simp only [Bool.false_eq_true, if_false]
        intro cn hc
        have := hg cn hc
        omega)
    (cols := vecs.map (resizeVec s.n)) (by simpa using hvl)
    (by intro col hc; obtain ⟨v, _, rfl⟩ := List.mem_map.1 hc; exact (hlen v).ge)
  refine ⟨out', cols', o1, o2, ?_, by rw [o4]; simpa using hvl, ?_⟩
  · unfold TS.accPotVecs
    simp only
    rw [o3]
  · intro j hj
    obtain ⟨e1, e2, _⟩ := o5 j (by omega) hj
    refine ⟨?_, e2⟩
    rw [e1, List.getElem_map]
    exact hlen _

/-- The sample tree: an empty vector, a longer one, a shorter one and one of the right size become four vectors of 5 elements; the last holds the potentials. -/
example : ∃ out' vecs', (gS .bh).accPot none (maskedShift 32) .both true (.fin 1) (.fin 2) (.fin 0) [] [3, 2, 1, 0] (List.replicate 5 ⟨[], []⟩) = .ok out' ∧
    (gS .bh).accPotVecs none (maskedShift 32) .both true (.fin 1) (.fin 2) (.fin 0) [] [2, 0, 1, 3]
      [[], List.replicate 7 .nan, [.fin 1], List.replicate 5 (.inf true)] = (.ok (), vecs') ∧ vecs'.map List.length = [5, 5, 5, 5] ∧
    ∃ r v, out'[4]? = some r ∧ r.pot[0]? = some v ∧ (vecs'.getD 3 [])[4]? = some v := by
  obtain ⟨out', vecs', o1, _, o2, o3, o4⟩ := C67_vectors (mac := .bh) g_simd g_supp (g_reach .bh) (g_size .bh) (over := maskedShift 32) (maskedShift_small _)
    (g_room .bh none) .both true (theta := .fin 1) (G := .fin 2) (eps := .fin 0) (mv := .fin 1) (eps2 := .fin 0) (split := []) (by decide +kernel) rfl (by decide +kernel) (order := [2, 0, 1, 3])
    (order' := [3, 2, 1, 0]) (by rw [show (gS .bh).crit.length = 4 by decide +kernel]; decide) (by rw [show (gS .bh).crit.length = 4 by decide +kernel]; decide)
    (out := List.replicate 5 ⟨[], []⟩) (by rw [g_n]; rfl)
    (vecs := [[], List.replicate 7 .nan, [.fin 1], List.replicate 5 (.inf true)]) rfl
  rw [g_n] at o4
  have o3 : vecs'.length = 4 := o3
  match vecs', o3, o4, o2 with
  | [c0, c1, c2, c3], _, o4, o2 =>
    obtain ⟨r, v, r1, r2, r3⟩ := (o4 3 (by simp)).2 4 (by norm_num)
    refine ⟨out', [c0, c1, c2, c3], o1, o2, ?_, r, v, r1, r2, r3⟩
    have l0 := (o4 0 (by simp)).1
    have l1 := (o4 1 (by simp)).1
    have l2 := (o4 2 (by simp)).1
    have l3 := (o4 3 (by simp)).1
    simp only [List.getElem_cons_zero, List.getElem_cons_succ] at l0 l1 l2 l3
    simp [l0, l1, l2, l3]

/-- C67: when the function throws, for whatever reason, the vectors have been resized: each has `n` elements, those it had before among the first `n`, and
zeros. The exception is that of the other theorems (`accPot`). -/
theorem C67_vectors_throw {rsqrt : Option (Fl K → Fl K)} {over : Overshift} (ho : over.Small) (hr : s.n + (⟨A, simd, rsqrt⟩ : Hw K).pad < 2 ^ 64)
    (Q : Quant) (ordered : Bool) {theta G eps : Fl K} {split : List (Fl K)} {order : List Nat} (hord : order.Perm (List.range s.crit.length))
    {out : List (Res K)} (hout : out.length = s.n) {e : Err} (herr : s.accPot rsqrt over Q ordered theta G eps split order out = .error e)
    (vecs : List (List (Fl K))) :
    ∃ vecs', s.accPotVecs rsqrt over Q ordered theta G eps split order vecs = (.error (.err e), vecs') ∧ vecs'.length = vecs.length ∧
      ∀ j (h1 : j < vecs.length) (h2 : j < vecs'.length), vecs'[j].length = s.n ∧ ∀ i < s.n, vecs'[j][i]? = some (vecs[j].getD i (.fin 0)) := by
  have hnn := ptr_room hs hz
  refine ⟨vecs.map (resizeVec s.n), ?_, by simp, ?_⟩
  · suffices hh : s.accPotIts rsqrt over Q ordered ptrMax theta G eps split order (vecs.map (resizeVec s.n)) = .error (.err e) by
      unfold TS.accPotVecs
      simp only
      rw [hh]
    unfold TS.accPotIts
    cases hp : checkParams A mac theta G eps with
    | error e' =>
      unfold TS.accPot at herr
      rw [hp] at herr
      obtain rfl : e' = e := by simpa [bind, Except.bind] using herr
      rfl
    | ok me =>
      obtain ⟨mv, eps2⟩ := me
      have hit : (if ordered then itDiffCheck ptrMax s.n else .ok ()) = .ok () := by
        cases ordered with
        | false => rfl
        | true => simp only [if_true]; unfold itDiffCheck; rw [if_neg (by omega)]
      rw [hit]
      cases hsp : checkSplit split with
      | error e' =>
        unfold TS.accPot at herr
        rw [hp, hsp] at herr
        obtain rfl : e' = e := by simpa [bind, Except.bind] using herr
        rfl
      | ok u =>
        cases hpad : (s.force rsqrt over Q mv G eps2).padCoord.isFinite with
        | true =>
          obtain ⟨val, hval, hall⟩ := C27_outputs hS hs h hz ho hr Q hp hsp hpad
          obtain ⟨out', o1, _⟩ := hall ordered order out hord hout
          rw [o1] at herr
          cases herr
        | false =>
          unfold TS.accPot at herr
          rw [hp, hsp] at herr
          simp only [bind, Except.bind, OutErr.lift] at herr ⊢
          unfold Force.cpuRun at herr
          unfold Force.cpuRunCols
          rw [hpad] at herr ⊢
          simp only [Bool.not_false, if_true, Except.error.injEq] at herr ⊢
          rw [herr]
  · intro j hj hj2
    rw [List.getElem_map]
    generalize vecs[j] = v
    unfold resizeVec
    refine ⟨by simp only [List.length_append, List.length_take, List.length_replicate]; omega, ?_⟩
    intro i hi
    rw [List.getD_eq_getElem?_getD]
    by_cases hv : i < v.length
    · rw [List.getElem?_append_left (by simp; omega), List.getElem?_take_of_lt hi, List.getElem?_eq_getElem hv]; rfl
    · rw [List.getElem?_append_right (by simp; omega), List.getElem?_eq_none (l := v) (by omega), List.getElem?_replicate, if_pos (by simp; omega)]; rfl

/-- The sample tree: a negative softening length, and a vector of 7 elements that loses two. -/
example : (gS .bh).accPotVecs none (maskedShift 32) .pot true (.fin 1) (.fin 2) (.fin (-1)) [] [2, 0, 1, 3] [[.fin 1, .fin 2, .fin 3, .fin 4, .fin 5, .fin 6, .fin 7]] =
    (.error (.err .domain), [[.fin 1, .fin 2, .fin 3, .fin 4, .fin 5]]) ∧
    (gS .bh).accPot none (maskedShift 32) .pot true (.fin 1) (.fin 2) (.fin (-1)) [] [2, 0, 1, 3] (List.replicate 5 ⟨[], []⟩) = .error .domain := by
  have e : (gS .bh).accPot none (maskedShift 32) .pot true (.fin 1) (.fin 2) (.fin (-1)) [] [2, 0, 1, 3] (List.replicate 5 ⟨[], []⟩) = .error .domain := by
    unfold TS.accPot
    rw [show checkParams sqQ .bh (.fin 1) (.fin 2) (.fin (-1)) = .error .domain by decide +kernel]
    rfl
  refine ⟨?_, e⟩
  obtain ⟨v, o1, o2, o3⟩ := C67_vectors_throw (mac := .bh) g_simd g_supp (g_reach .bh) (g_size .bh) (over := maskedShift 32) (maskedShift_small _)
    (g_room .bh none) .pot true (order := [2, 0, 1, 3]) (by rw [show (gS .bh).crit.length = 4 by decide +kernel]; decide)
    (out := List.replicate 5 ⟨[], []⟩) (by rw [g_n]; rfl) e [[.fin 1, .fin 2, .fin 3, .fin 4, .fin 5, .fin 6, .fin 7]]
  rw [o1]
  rw [g_n] at o3
  have o2 : v.length = 1 := o2
  match v, o2, o3 with
  | [c], _, o3 =>
    obtain ⟨l, g⟩ := o3 0 (by decide) (by simp)
    congr 2
    apply List.ext_getElem?
    intro i
    simp only [List.getElem_cons_zero] at l g
    by_cases hi : i < 5
    · rw [g i hi]
      rcases (by omega : i = 0 ∨ i = 1 ∨ i = 2 ∨ i = 3 ∨ i = 4) with rfl | rfl | rfl | rfl | rfl <;> rfl
    · rw [List.getElem?_eq_none (by omega), List.getElem?_eq_none (by simp; omega)]

/-- C67: iterators whose difference type cannot represent the positions. The ordered functions throw `std::overflow_error` if it cannot represent the number of
particles, before anything is written; the unordered ones throw `boost::bad_numeric_cast` if it cannot represent the start of some critical node, and
need no more than that (`C67_iterators`). -/
theorem C67_narrow {rsqrt : Option (Fl K → Fl K)} {over : Overshift} (ho : over.Small) (hr : s.n + (⟨A, simd, rsqrt⟩ : Hw K).pad < 2 ^ 64)
    (Q : Quant) {theta G eps mv eps2 : Fl K} {split : List (Fl K)} (hp : checkParams A mac theta G eps = .ok (mv, eps2)) {dmax : Nat} (order : List Nat)
    (cols : List (List (Fl K))) :
    (s.n > dmax → s.accPotIts rsqrt over Q true dmax theta G eps split order cols = .error (.err .overflow)) ∧
    (checkSplit split = .ok () → (s.force rsqrt over Q mv G eps2).padCoord.isFinite = true → (∃ cn ∈ s.crit, cn.beg > dmax) →
      order.Perm (List.range s.crit.length) → cols.length = columns Q d → (∀ col ∈ cols, s.n ≤ col.length) →
      s.accPotIts rsqrt over Q false dmax theta G eps split order cols = .error .badCast) := by
  constructor
  · intro hd
    unfold TS.accPotIts
    rw [hp]
    simp only [if_true]
    unfold itDiffCheck
    rw [if_pos hd]
    rfl
  · intro hsp hpad hbad hord hcl hcn
    rw [columns_eq] at hcl
    have E := rakauEnv_ok A simd mac hs
    have g1 := (crit_tiling E h hz).1
    obtain ⟨val, hval, _⟩ := C27_outputs hS hs h hz ho hr Q hp hsp hpad
    obtain ⟨π, ρ, hix, hρ, _, _⟩ := reach_positions h false
    have hnv : 0 < nvecsRes Q d := by rcases hs with ⟨_, rfl | rfl⟩ <;> cases Q <;> decide
    unfold TS.accPotIts
    rw [hp, hsp]
    conv_lhs => rw [cols_arr hcl]
    refine cpuRunCols_badCast (c := s.force rsqrt over Q mv G eps2) hpad hix hρ val
      (fun cn hc => ⟨(g1 cn hc).1.le, (g1 cn hc).2, hval cn hc⟩) (fun k hk => (val_shape hS hs h hz ho hr Q hval hk).comps) hnv order
      (fun t ht => List.mem_range.1 (hord.mem_iff.1 ht)) ?_ (fun j hj => ?_) _
    · obtain ⟨cn, hc, hb⟩ := hbad
      obtain ⟨i, hi, rfl⟩ := List.getElem_of_mem hc
      exact ⟨i, hord.mem_iff.2 (List.mem_range.2 hi), hi, hb⟩
    · have hj' : j < cols.length := by rw [hcl]; exact hj
      rw [List.getD_eq_getElem?_getD, List.getElem?_eq_getElem hj']
      exact hcn _ (List.getElem_mem hj')

/-- The sample tree: difference types up to 4 (ordered) and up to 2 (unordered). -/
example : (gS .bh).accPotIts none (maskedShift 32) .pot true 4 (.fin 1) (.fin 2) (.fin 0) [] [2, 0, 1, 3] [List.replicate 5 .nan] = .error (.err .overflow) ∧
    (gS .bh).accPotIts none (maskedShift 32) .pot false 2 (.fin 1) (.fin 2) (.fin 0) [] [2, 0, 1, 3] [List.replicate 5 .nan] = .error .badCast := by
  have h := fun dmax => C67_narrow (mac := .bh) g_simd g_supp (g_reach .bh) (g_size .bh) (over := maskedShift 32) (maskedShift_small _)
    (g_room .bh none) .pot (theta := .fin 1) (G := .fin 2) (eps := .fin 0) (mv := .fin 1) (eps2 := .fin 0) (split := []) (by decide +kernel) (dmax := dmax) [2, 0, 1, 3] [List.replicate 5 .nan]
  exact ⟨(h 4).1 (by rw [g_n]; decide), (h 2).2 rfl (by decide +kernel) (by decide +kernel) (by rw [show (gS .bh).crit.length = 4 by decide +kernel]; decide) rfl
    (by rw [g_n]; decide +kernel)⟩

omit hS hs h hz in
/-- C67: an initializer list of the wrong size is rejected before anything else is checked; of the right size, it is an array of iterators. -/
theorem C67_ilist (rsqrt : Option (Fl K → Fl K)) (over : Overshift) (Q : Quant) (ordered : Bool) (dmax : Nat) (theta G eps : Fl K) (split : List (Fl K))
    (order : List Nat) (cols : List (List (Fl K))) :
    s.accPotIlist rsqrt over Q ordered dmax theta G eps split order cols =
      if cols.length = columns Q d then s.accPotIts rsqrt over Q ordered dmax theta G eps split order cols else .error (.err .invalidArg) := by
  unfold TS.accPotIlist
  rw [columns_eq]
  split <;> simp_all

/-- Three columns for accelerations and potentials in three dimensions, with parameters that would be rejected with another exception. -/
example : (gS .bh).accPotIlist none (maskedShift 32) .both true 4 .nan (.fin 2) (.fin 0) [] [] [[], [], []] = .error (.err .invalidArg) ∧
    (gS .bh).accPotIlist none (maskedShift 32) .both true 4 .nan (.fin 2) (.fin 0) [] [] [[], [], [], []] = .error (.err .domain) := by
  constructor <;> rw [C67_ilist]
  · rfl
  · rw [if_pos (by rfl)]
    unfold TS.accPotIts
    rw [show checkParams sqQ .bh .nan (.fin 2) (.fin 0) = .error .domain by decide +kernel]
    rfl

end
end Rakau
