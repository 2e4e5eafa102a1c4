import Verif.Proof.AccBench
import Verif.Props.Leapfrog

/-!
# C85: the benchmarks for accelerations and potentials

The programs benchmark/benchmark_acc.cpp, benchmark_pot.cpp and benchmark_acc_pot.cpp print the result of the tree and that of the direct sum for one particle. The option `ordered` selects the functions that return
the results in the order of the input; without it the programs look the particle up in `inv_perm()`.
-/
namespace Rakau
open Spec

section
variable {K : Type} [Field K] [LinearOrder K] [IsStrictOrderedRing K] [FloorRing K] {A : Arith K} {simd : Option (Simd K)} {mac : Mac} {w d : Nat}
  (hS : SimdPos simd) (hs : Supported w d) {rsqrt : Option (Fl K → Fl K)} {over : Overshift} (ho : over.Small)

include hS hs ho in
/-- The two lines are the same in both orders, whatever the schedules, and not undefined. -/
theorem accLines_eq {s : TS (rakauEnv A simd mac w d)} (h : Reach _ s) (hz : s.n * cbits w d < 2 ^ 64) (hr : s.n + (⟨A, simd, rsqrt⟩ : Hw K).pad < 2 ^ 64) (Q : Quant) (theta : Fl K)
    (split : List (Fl K)) {idx : Nat} (hi : idx < s.n) {order order' : List Nat} {buf buf' : List (Res K)} (hord : order.Perm (List.range s.crit.length))
    (hord' : order'.Perm (List.range s.crit.length)) (hb : buf.length = s.n) (hb' : buf'.length = s.n) :
    s.accLines rsqrt over Q true theta split idx order buf = s.accLines rsqrt over Q false theta split idx order' buf' ∧
    s.accLines rsqrt over Q false theta split idx order' buf' ≠ .error .ub := by
  have I := reach_inv h
  obtain ⟨p, p1, p2, p3⟩ := (inv_both I.perm I.invLen I.inv).1 idx hi
  unfold TS.accLines
  rw [if_pos rfl, if_neg (by simp)]
  rcases accPot_cases s rsqrt over Q theta (.fin 1) (.fin 0) split with ⟨e, he⟩ | ⟨mv, eps2, c1, c2, c3⟩
  · have hu := accPot_noUB hS hs h hz ho hr Q false theta (.fin 1) (.fin 0) split hord hb
    rw [he, he]
    rw [he] at hu
    refine ⟨rfl, ?_⟩
    simpa [bind, Except.bind] using hu
  · obtain ⟨val, _, hall⟩ := C27_outputs hS hs h hz ho hr Q c1 c2 c3
    obtain ⟨out1, r1, _, r3⟩ := hall true order buf hord hb
    obtain ⟨out2, t1, _, t3⟩ := hall false order' buf' hord' hb'
    obtain ⟨k, k1, k2⟩ := r3 p p1
    simp only [if_true, p3, Option.some.injEq] at k1
    subst k1
    obtain ⟨k', k3, k4⟩ := t3 p p1
    simp only [Bool.false_eq_true, if_false, Option.some.injEq] at k3
    subst k3
    obtain ⟨i', i1, _, i3⟩ := (C40_ordered h Q.shown (.fin 1) (.fin 0)).1 idx hi
    rw [p2, Option.some.injEq] at i1
    subst i1
    simp only [r1, t1, p2, k2, k4, i3, ofUB, bind, Except.bind]
    refine ⟨trivial, ?_⟩
    cases he : s.exact Q.shown false (.fin 1) (.fin 0) p with
    | error e =>
      rintro hh
      obtain rfl : e = .ub := by simpa using hh
      exact exact_noUB hS hs h hz _ 1 _ p1 he
    | ok r => simp [pure, Except.pure]

variable {n maxLeaf ncrit : Nat} {v : List (Fl K)} (hv : v.length = (d + 1) * n) (hz : n * cbits w d < 2 ^ 64) (hr : n + (⟨A, simd, rsqrt⟩ : Hw K).pad < 2 ^ 64) {buf : List (Res K)}
  (hb : buf.length = n)

omit [IsStrictOrderedRing K] in
include hs hv in
theorem bench_reach {t : TS (rakauEnv A simd mac w d)} (h : Construct (benchInp A simd mac w d n maxLeaf ncrit v) (.ok t)) : Reach _ t ∧ t.n = n :=
  ⟨.construct _ t (benchParts_length d n v) h, (C02_views (env := rakauEnv A simd mac w d) (benchParts_length d n v) h).1.trans (benchParts_head hs.dim.1 hv)⟩

include hS hs ho hv hz hr hb in
/-- C85: the programs have an outcome and no undefined behaviour, whatever the arithmetic, the data, the parameters, the index, the schedule and the outcome of the sort: an index too large is rejected. -/
theorem C85_defined (Q : Quant) (ord : Bool) (theta : Fl K) (split : List (Fl K)) (idx : Nat) :
    (∃ r, AccBench v n maxLeaf ncrit A simd mac w d rsqrt over Q ord theta split idx buf r) ∧
    ¬ AccBench v n maxLeaf ncrit A simd mac w d rsqrt over Q ord theta split idx buf (.error .ub) ∧
    (n ≤ idx → ∀ r, AccBench v n maxLeaf ncrit A simd mac w d rsqrt over Q ord theta split idx buf r → r = .error .invalidArg) := by
  have E := rakauEnv_ok A simd mac hs
  have U := rakauEnv_noUB A simd mac hs
  obtain ⟨⟨r, hc⟩, hnc⟩ := C37_construct_total E U (inp := benchInp A simd mac w d n maxLeaf ncrit v) (benchParts_length d n v)
    (by rw [show ((benchInp A simd mac w d n maxLeaf ncrit v).parts.headD []).length = n from benchParts_head hs.dim.1 hv]; exact hz)
  refine ⟨?_, ?_, ?_⟩
  · by_cases h0 : n = 0
    · exact ⟨_, .parts h0⟩
    by_cases hi : n ≤ idx
    · exact ⟨_, .index h0 hi⟩
    cases r with
    | error e => exact ⟨_, .ctor e h0 (by omega) hc⟩
    | ok t => exact ⟨_, .lines t _ h0 (by omega) hc (List.Perm.refl _)⟩
  · intro h
    generalize hx : (Except.error Err.ub : Except Err (Res K × Res K)) = x at h
    cases h with
    | parts _ => cases hx
    | index _ _ => cases hx
    | ctor e _ _ h => cases hx; exact hnc h
    | lines t order _ hi h1 h2 =>
      obtain ⟨hR, rfl⟩ := bench_reach hs hv h1
      obtain ⟨e1, e2⟩ := accLines_eq hS hs ho hR hz hr Q theta split hi h2 h2 hb hb
      cases ord with
      | true => exact e2 (e1.symm.trans hx.symm)
      | false => exact e2 hx.symm
  · intro hi r h
    cases h with
    | parts _ => rfl
    | index _ _ => rfl
    | ctor e _ h _ => omega
    | lines t order _ h _ _ => omega

include hS hs ho hv hz hr hb in
/-- C85: in any arithmetic the option `ordered` makes no difference: the programs print the same lines, or throw the same exceptions, to the last bit. -/
theorem C85_ordered (Q : Quant) (theta : Fl K) (split : List (Fl K)) (idx : Nat) (r : Except Err (Res K × Res K)) :
    AccBench v n maxLeaf ncrit A simd mac w d rsqrt over Q true theta split idx buf r ↔ AccBench v n maxLeaf ncrit A simd mac w d rsqrt over Q false theta split idx buf r := by
  constructor
  · intro h
    cases h with
    | parts h => exact .parts h
    | index h1 h2 => exact .index h1 h2
    | ctor e h1 h2 h3 => exact .ctor e h1 h2 h3
    | lines t order h1 h2 h3 h4 =>
      obtain ⟨hR, rfl⟩ := bench_reach hs hv h3
      rw [(accLines_eq hS hs ho hR hz hr Q theta split h2 h4 h4 hb hb).1]
      exact .lines t order h1 h2 h3 h4
  · intro h
    cases h with
    | parts h => exact .parts h
    | index h1 h2 => exact .index h1 h2
    | ctor e h1 h2 h3 => exact .ctor e h1 h2 h3
    | lines t order h1 h2 h3 h4 =>
      obtain ⟨hR, rfl⟩ := bench_reach hs hv h3
      rw [← (accLines_eq hS hs ho hR hz hr Q theta split h2 h4 h4 hb hb).1]
      exact .lines t order h1 h2 h3 h4

end

/-! ### In exact arithmetic -/

section
variable {simd : Option (Simd ℝ)} {mac : Mac} {w d : Nat}

theorem mkRes_shown (Q : Quant) (v : Val ℝ) : (mkRes Q d v).shown Q = mkRes Q.shown d v := by cases Q <;> rfl

/-- C85, in real numbers, for an opening angle `θ` with `√d θ ≤ κ < 1`, positions that are distinct and not all zero, and masses that are not negative: the programs print two lines. The second is Newton's
acceleration or the potential energy of the particle `idx` of the input, the first is within the bounds of C55 of it. The vector `v` holds the masses, then the coordinates. -/
theorem C85_value (hS : ∀ S, simd = some S → S.Ok) (hH : HaddNonfin simd) (hs : Supported w d) {over : Overshift} (ho : over.Small) {n maxLeaf ncrit : Nat} (hml : maxLeaf ≠ 0) (hnc : ncrit ≠ 0)
    {v : List (Fl ℝ)} (hv : v.length = (d + 1) * n) {X : Nat → Nat → ℝ} (hvm : ∀ k < n, v[k]? = some (.fin (X d k))) (hvx : ∀ j < d, ∀ k < n, v[(j + 1) * n + k]? = some (.fin (X j k)))
    (hm : ∀ k < n, 0 ≤ X d k) (hsep : ∀ i l, i < n → l < n → i ≠ l → 0 < ∑ j ∈ Finset.range d, (X j l - X j i) ^ 2) (hne : ∃ j < d, ∃ k < n, X j k ≠ 0)
    (hz : n * cbits w d < 2 ^ 64) (hr : n + (⟨realA, simd, none⟩ : Hw ℝ).pad < 2 ^ 64) {θ κ : ℝ} (hθ : 0 < θ) (h0 : 0 ≤ κ) (h1 : κ < 1) (hκ : d * θ ^ 2 ≤ κ ^ 2) {split : List (Fl ℝ)}
    (hsp : checkSplit split = .ok ()) {idx : Nat} (hi : idx < n) {buf : List (Res ℝ)} (hb : buf.length = n) (Q : Quant) (ord : Bool) {r : Except Err (Res ℝ × Res ℝ)}
    (h : AccBench v n maxLeaf ncrit realA simd mac w d none over Q ord (.fin θ) split idx buf r) :
    ∃ a p, r = .ok (mkRes Q.shown d (a, p), mkRes Q.shown d (accel d 0 X n idx, energy d 0 X n idx)) ∧ |p - energy d 0 X n idx| ≤ κ ^ 2 / (1 - κ) * |p| ∧
      ∀ j < d, |a j - accel d 0 X n idx j| ≤ accErr κ * (1 + κ) ^ 2 * accSize d 0 X n idx := by
  have hS' : SimdPos simd := fun S h => (hS S h).pos
  have hX : ∀ j ≤ d, ∀ k < n, at2 (benchInp realA simd mac w d n maxLeaf ncrit v).parts j k = some (.fin (X j k)) := by
    intro j hj k hk
    rw [show (benchInp realA simd mac w d n maxLeaf ncrit v).parts = benchParts d n v from rfl, benchParts_at hk hj]
    split
    · rename_i e; rw [e]; exact hvm k hk
    · exact hvx j (by omega) k hk
  have hlen : ∀ u ∈ benchParts d n v, u.length = n := by
    intro u hu
    unfold benchParts at hu
    rcases List.mem_append.1 hu with h | h
    · obtain ⟨j, hj, rfl⟩ := List.mem_map.1 h
      rw [List.mem_range] at hj
      rw [List.length_take, List.length_drop, hv]
      have : (j + 1) * n + n ≤ (d + 1) * n := by
        rw [← Nat.succ_mul]; exact Nat.mul_le_mul_right _ (by omega)
      omega
    · rw [List.mem_singleton.1 h, List.length_take, hv, Nat.succ_mul]
      omega
  have hat : ∀ (j : Nat) (hj : j < (benchParts d n v).length) (k : Nat) (hk : k < (benchParts d n v)[j].length), (benchParts d n v)[j][k] = .fin (X j k) := by
    intro j hj k hk
    have e := hX j (by rw [benchParts_length] at hj; omega) k (by rw [← hlen _ (List.getElem_mem hj)]; exact hk)
    rw [show (benchInp realA simd mac w d n maxLeaf ncrit v).parts = benchParts d n v from rfl] at e
    unfold at2 at e
    rw [List.getElem?_eq_getElem hj] at e
    simp only [Option.bind_eq_bind, Option.bind_some, List.getElem?_eq_getElem hk, Option.some.injEq] at e
    exact e
  have hvi : ValidInput d (benchInp realA simd mac w d n maxLeaf ncrit v).box maxLeaf ncrit (benchInp realA simd mac w d n maxLeaf ncrit v).parts := by
    refine ⟨hml, hnc, fun a ha b hb => (hlen a ha).trans (hlen b hb).symm, ?_, ?_⟩
    · intro a ha y hy
      obtain ⟨j, hj, rfl⟩ := List.getElem_of_mem ha
      obtain ⟨k, hk, rfl⟩ := List.getElem_of_mem hy
      rw [show (benchInp realA simd mac w d n maxLeaf ncrit v).parts[j][k] = _ from hat j hj k hk]; rfl
    · obtain ⟨j, hj, k, hk, hne⟩ := hne
      have hj' : j < (benchParts d n v).length := by rw [benchParts_length]; omega
      have hk' : k < (benchParts d n v)[j].length := by rw [hlen _ (List.getElem_mem hj')]; exact hk
      refine .inr ⟨(benchParts d n v)[j], ?_, (benchParts d n v)[j][k], List.getElem_mem hk', ?_⟩
      · rw [List.mem_take_iff_getElem]
        exact ⟨j, by show j < min d (benchParts d n v).length; omega, rfl⟩
      · rw [hat j hj' k hk', Ne, Fl.fin.injEq]; exact hne
  cases h with
  | parts h => omega
  | index _ h => omega
  | ctor e _ _ h =>
    obtain ⟨s, hs'⟩ := (C41_exact realA_exact (fun q _ => rfl) hS hH mac hs (benchParts_length d n v)
      (by rw [show ((benchInp realA simd mac w d n maxLeaf ncrit v).parts.headD []).length = n from benchParts_head hs.dim.1 hv]; exact hz) h).1 hvi
    cases hs'
  | lines t order _ _ g1 g2 =>
    obtain ⟨hR, rfl⟩ := bench_reach hs hv g1
    have hT : ∀ j ≤ d, ∀ k < t.n, ordered t j k = some (.fin (X j k)) := fun j hj k hk =>
      ((C02_views (env := rakauEnv realA simd mac w d) (benchParts_length d t.n v) g1).2.2.1 j k).trans (hX j hj k hk)
    have hsep' : ∀ i l, i < t.n → l < t.n → i ≠ l → 0 < ∑ j ∈ Finset.range d, (X j l - X j i) ^ 2 + (0 : ℝ) * 0 := fun i l a b c => by
      rw [mul_zero, add_zero]; exact hsep i l a b c
    obtain ⟨out1, q1, _, q3⟩ := C57_user hS hs hR hz ho hr (by omega) hT hm hθ le_rfl h0 h1 hκ hsep' Q 1 hsp g2 hb
    obtain ⟨a, p, e1, e2, e3⟩ := q3 idx hi
    have hx := C57_exact hS hs hR hz hr hT le_rfl hsep' Q.shown 1 hi
    have key : t.accLines none over Q true (.fin θ) split idx order buf = .ok (mkRes Q.shown d (a, p), mkRes Q.shown d (accel d 0 X t.n idx, energy d 0 X t.n idx)) := by
      unfold TS.accLines
      rw [if_pos rfl]
      simp only [q1, e1, hx, ofUB, bind, Except.bind, mul_zero, one_mul, mkRes_shown]
      rfl
    refine ⟨a, p, ?_, by simpa using e2, fun j hj => by simpa using e3 j hj⟩
    cases ord with
    | true => exact key
    | false => rw [← (accLines_eq hS' hs ho hR hz hr Q (.fin θ) split hi g2 g2 hb hb).1]; exact key

end

/-- Three particles on the diagonal of the plane, masses first. -/
noncomputable def diagVec : List (Fl ℝ) := [diagX 2 0, diagX 2 1, diagX 2 2, diagX 0 0, diagX 0 1, diagX 0 2, diagX 1 0, diagX 1 1, diagX 1 2].map .fin

example (mac : Mac) (Q : Quant) (ord : Bool) (θ : Fl ℝ) (idx : Nat) := C85_defined (A := realA) (simd := none) (mac := mac) (by intro S h; cases h) diag_supp (rsqrt := none) (maskedShift_small 64) (n := 3)
  (maxLeaf := 1) (ncrit := 1) (v := diagVec) rfl (by decide) (by decide) (buf := List.replicate 3 ⟨[], []⟩) (by simp) Q ord θ [] idx

example (mac : Mac) (Q : Quant) (θ : Fl ℝ) (r : Except Err (Res ℝ × Res ℝ)) := C85_ordered (A := realA) (simd := none) (mac := mac) (by intro S h; cases h) diag_supp (rsqrt := none) (maskedShift_small 64) (n := 3)
  (maxLeaf := 1) (ncrit := 1) (v := diagVec) rfl (by decide) (by decide) (buf := List.replicate 3 ⟨[], []⟩) (by simp) Q θ [] 1 r

example (mac : Mac) (Q : Quant) (ord : Bool) {r : Except Err (Res ℝ × Res ℝ)}
    (h : AccBench diagVec 3 1 1 realA none mac 64 2 none (maskedShift 64) Q ord (.fin (1 / 2)) [] 1 (List.replicate 3 ⟨[], []⟩) r) :=
  C85_value (by simp) (by intro S h; cases h) diag_supp (maskedShift_small 64) (by decide) (by decide) (v := diagVec) rfl (X := diagX)
    (by intro k hk; interval_cases k <;> rfl) (by intro j hj k hk; interval_cases j <;> interval_cases k <;> rfl) (fun k _ => diag_mass k)
    (fun i l _ _ hil => by have := diag_sep hil 0; rwa [mul_zero, add_zero] at this) ⟨0, by decide, 1, by decide, by simp [diagX]⟩ (by decide) (by decide)
    (θ := 1 / 2) (κ := 3 / 4) (by norm_num) (by norm_num) (by norm_num) (by norm_num) rfl (by decide) (by simp) Q ord h

end Rakau
