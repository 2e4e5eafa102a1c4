import Verif.Proof.ErrPair
import Verif.Proof.NodeProps
import Mathlib.Algebra.Order.BigOperators.Group.Multiset
import Mathlib.Algebra.BigOperators.Group.Multiset.Basic

/-! Rounding errors of the node properties: the sums over the particles of a node, by vector and scalar loops. -/
set_option linter.unusedSectionVars false

namespace Rakau
open Spec

variable {K : Type} [Field K] [LinearOrder K]

/-! ### Sums in any order -/

/-- `v` is the result of `n` additions that combine the values `s`, in some order; zeros may be added. -/
inductive AddsUp (A : Arith K) : Nat → Multiset (Fl K) → Fl K → Prop
  | nil : AddsUp A 0 0 (.fin 0)
  | one (x : Fl K) : AddsUp A 0 {x} x
  | add {m n : Nat} {s t : Multiset (Fl K)} {a b : Fl K} : AddsUp A m s a → AddsUp A n t b → AddsUp A (m + n + 1) (s + t) (A.add a b)

/-- The horizontal sum adds the lanes of a batch in some order, with at most `batch` additions. -/
structure Simd.Adds (A : Arith K) (S : Simd K) : Prop where
  pos : 0 < S.batch
  hadd : ∀ l : List (Fl K), l.length = S.batch → ∃ n ≤ S.batch, AddsUp A n (l : Multiset (Fl K)) (S.hadd l)

theorem addsUp_foldl (A : Arith K) (l : List (Fl K)) : AddsUp A l.length (l : Multiset (Fl K)) (l.foldl A.add (.fin 0)) := by
  induction l using List.reverseRecOn with
  | nil => exact .nil
  | append_singleton l x ih =>
    rw [List.foldl_append, List.length_append]
    have := AddsUp.add ih (.one x)
    rw [← Multiset.coe_add]
    exact this

/-- A relation between results and the terms summed, and the number of additions, that holds through the loops. -/
structure Accum (A : Arith K) (R : Nat × Multiset Nat → Fl K → Prop) : Prop where
  zero : R 0 (.fin 0)
  mono : ∀ {m n : Nat} {s : Multiset Nat} {a : Fl K}, m ≤ n → R (m, s) a → R (n, s) a
  add : ∀ {p q : Nat × Multiset Nat} {a b : Fl K}, R p a → R q b → R (p + q + (1, 0)) (A.add a b)

/-- A step of a loop: the operation `up k` adds the term `k`. -/
def Ups (R : Nat × Multiset Nat → Fl K → Prop) (up : Nat → Fl K → Fl K) : Prop :=
  ∀ (p : Nat × Multiset Nat) (a : Fl K) (k : Nat), R p a → R (p + (1, {k})) (up k a)

section
variable {A : Arith K} {R : Nat × Multiset Nat → Fl K → Prop} (H : Accum A R)
include H

theorem Accum.adds {n : Nat} {s : Multiset (Fl K)} {v : Fl K} (h : AddsUp A n s v) :
    ∀ W : Multiset (Nat × Multiset Nat), Multiset.Rel (fun a p => R p a) s W → R (W.sum + (n, 0)) v := by
  induction h with
  | nil =>
    intro W hW
    rw [Multiset.rel_zero_left] at hW
    subst hW
    exact H.zero
  | one x =>
    intro W hW
    rw [show ({x} : Multiset (Fl K)) = x ::ₘ 0 from rfl, Multiset.rel_cons_left] at hW
    obtain ⟨b, bs, h1, h2, rfl⟩ := hW
    rw [Multiset.rel_zero_left] at h2
    subst h2
    simpa [Prod.mk_zero_zero] using h1
  | add _ _ ih1 ih2 =>
    intro W hW
    obtain ⟨W1, W2, h1, h2, rfl⟩ := Multiset.rel_add_left.1 hW
    have := H.add (ih1 W1 h1) (ih2 W2 h2)
    rename_i m n _ _ _ _ _ _
    rw [Multiset.sum_add, show W1.sum + W2.sum + (m + n + 1, (0 : Multiset Nat)) = W1.sum + (m, 0) + (W2.sum + (n, 0)) + (1, 0) by
      apply Prod.ext
      · simp only [Prod.fst_add]; omega
      · simp only [Prod.snd_add, add_zero]]
    exact this

omit H in
theorem foldlM_vecR {b cnt : Nat} (step : List (Fl K) → Nat → Option (List (Fl K))) (up : Nat → Fl K → Fl K) {beg : Nat} (hup : Ups R up) (h0 : R 0 (.fin 0))
    (h : ∀ t < cnt, ∀ g : Nat → Fl K, step ((List.range b).map g) t = some ((List.range b).map (fun l => up (beg + (t * b + l)) (g l)))) :
    ∃ g : Nat → Fl K, (List.range cnt).foldlM step ((List.range b).map (fun _ => .fin 0)) = some ((List.range b).map g) ∧
      ∀ l < b, R (∑ t ∈ Finset.range cnt, (1, {beg + (t * b + l)})) (g l) := by
  induction cnt with
  | zero => exact ⟨_, rfl, fun l _ => h0⟩
  | succ c ih =>
    obtain ⟨g, hg, hR⟩ := ih (fun t ht => h t (by omega))
    refine ⟨fun l => up (beg + (c * b + l)) (g l), ?_, ?_⟩
    · rw [List.range_succ, List.foldlM_append, hg]
      simp only [Option.bind_eq_bind, Option.bind_some, List.foldlM_cons, List.foldlM_nil]
      rw [h c (by omega)]
      rfl
    · intro l hl
      rw [Finset.sum_range_succ]
      exact hup _ _ _ (hR l hl)

omit H in
theorem foldlM_scalarR {i j beg : Nat} (step : Fl K → Nat → Option (Fl K)) (up : Nat → Fl K → Fl K) (hup : Ups R up)
    (h : ∀ t, i ≤ t → t < j → ∀ a, step a t = some (up (beg + t) a)) (hij : i ≤ j) {p : Nat × Multiset Nat} {a : Fl K} (ha : R p a) :
    ∃ r, (List.range' i (j - i)).foldlM step a = some r ∧ R (p + ∑ t ∈ Finset.Ico i j, (1, {beg + t})) r := by
  obtain ⟨m, rfl⟩ := Nat.exists_eq_add_of_le hij
  rw [Nat.add_sub_cancel_left]
  clear hij
  induction m with
  | zero => exact ⟨a, rfl, by simpa using ha⟩
  | succ c ih =>
    obtain ⟨r, hr, hR⟩ := ih (fun t h1 h2 => h t h1 (by omega))
    refine ⟨up (beg + (i + c)) r, ?_, ?_⟩
    · rw [List.range'_concat, List.foldlM_append, hr]
      simp only [Option.bind_eq_bind, Option.bind_some, List.foldlM_cons, List.foldlM_nil]
      rw [one_mul, h (i + c) (by omega) (by omega)]
      rfl
    · rw [← Nat.add_assoc, Finset.sum_Ico_succ_top (by omega), ← add_assoc]
      exact hup _ _ _ hR

omit [Field K] [LinearOrder K] H in
theorem lanes_sum (beg b cnt : Nat) :
    ∑ l ∈ Finset.range b, ∑ t ∈ Finset.range cnt, ((1, {beg + (t * b + l)}) : Nat × Multiset Nat) = ∑ i ∈ Finset.range (cnt * b), (1, {beg + i}) := by
  rw [Finset.sum_comm]
  induction cnt with
  | zero => simp
  | succ c ih => rw [Finset.sum_range_succ, ih, Nat.succ_mul, Finset.sum_range_add]

omit [Field K] [LinearOrder K] H in
theorem sum_one (beg i j : Nat) : ∑ t ∈ Finset.Ico i j, ((1, {beg + t}) : Nat × Multiset Nat) = (j - i, ∑ t ∈ Finset.Ico i j, {beg + t}) := by
  apply Prod.ext
  · rw [Prod.fst_sum]; simp
  · rw [Prod.snd_sum]

/-- The horizontal sum of the lanes. -/
theorem Accum.hadd {S : Simd K} (hS : S.Adds A) {beg cnt : Nat} {g : Nat → Fl K} (h : ∀ l < S.batch, R (∑ t ∈ Finset.range cnt, (1, {beg + (t * S.batch + l)})) (g l)) :
    R (cnt * S.batch + S.batch, ∑ i ∈ Finset.range (cnt * S.batch), {beg + i}) (S.hadd ((List.range S.batch).map g)) := by
  obtain ⟨n, hn, ha⟩ := hS.hadd ((List.range S.batch).map g) (by simp)
  have := H.adds ha (((List.range S.batch).map (fun l => ∑ t ∈ Finset.range cnt, ((1, {beg + (t * S.batch + l)}) : Nat × Multiset Nat)) : List _) : Multiset _) (by
    rw [← Multiset.map_coe, ← Multiset.map_coe, Multiset.rel_map]
    apply Multiset.rel_refl_of_refl_on
    intro l hl
    exact h l (by simpa using hl))
  rw [Multiset.sum_coe, show ((List.range S.batch).map (fun l => ∑ t ∈ Finset.range cnt, ((1, {beg + (t * S.batch + l)}) : Nat × Multiset Nat))).sum =
    ∑ l ∈ Finset.range S.batch, ∑ t ∈ Finset.range cnt, ((1, {beg + (t * S.batch + l)}) : Nat × Multiset Nat) from rfl, lanes_sum, Finset.range_eq_Ico, sum_one] at this
  refine H.mono (m := cnt * S.batch + n) (by omega) ?_
  rw [Finset.range_eq_Ico]
  simpa using this

end

/-- The number of lanes of the vector loops. -/
def lanes (simd : Option (Simd K)) (d : Nat) : Nat :=
  match simd with
  | some S => if d = 3 then S.batch else 0
  | none => 0

section
variable {A : Arith K} {R : Nat × Multiset Nat → Fl K → Prop} (H : Accum A R)
include H

/-- The two loops, for one accumulator. -/
theorem Accum.loops {simd : Option (Simd K)} (hS : ∀ S, simd = some S → S.Adds A) {d beg size : Nat} {vec : Simd K → Option (List (Fl K))} {upV : Simd K → Nat → Fl K → Fl K}
    (hV : ∀ S, simd = some S → Ups R (upV S)) {up : Nat → Fl K → Fl K} (hup : Ups R up)
    {stepV : Simd K → List (Fl K) → Nat → Option (List (Fl K))} {step : Fl K → Nat → Option (Fl K)}
    (hvec : ∀ S, simd = some S → d = 3 → vec S = (List.range (vecSize simd d size / S.batch)).foldlM (stepV S) (List.replicate S.batch (.fin 0)))
    (hstepV : ∀ S, simd = some S → d = 3 → ∀ t, (t + 1) * S.batch ≤ size → ∀ g : Nat → Fl K,
      stepV S ((List.range S.batch).map g) t = some ((List.range S.batch).map (fun l => upV S (beg + (t * S.batch + l)) (g l))))
    (hstep : ∀ t < size, ∀ a, step a t = some (up (beg + t) a)) :
    ∃ r, (vecStart simd d vec).bind (fun a => (List.range' (vecSize simd d size) (size - vecSize simd d size)).foldlM step a) = some r ∧
      R (size + lanes simd d, ∑ i ∈ Finset.range size, {beg + i}) r := by
  have hvle : vecSize simd d size ≤ size := by
    unfold vecSize; split
    · split <;> omega
    · omega
  have start : ∃ a, vecStart simd d vec = some a ∧ R (vecSize simd d size + lanes simd d, ∑ i ∈ Finset.range (vecSize simd d size), {beg + i}) a := by
    unfold vecStart lanes
    cases simd with
    | none => exact ⟨_, rfl, by simpa [vecSize, Prod.mk_zero_zero] using H.zero⟩
    | some S =>
      by_cases hd : d = 3
      · simp only [if_pos hd]
        have hv : vecSize (some S) d size / S.batch * S.batch = vecSize (some S) d size := by
          simp only [vecSize, if_pos hd]
          exact Nat.div_mul_cancel (Nat.dvd_sub_mod _)
        obtain ⟨g, g1, g2⟩ := foldlM_vecR (b := S.batch) (cnt := vecSize (some S) d size / S.batch) (stepV S) (upV S) (beg := beg) (hV S rfl) H.zero (fun t ht g =>
          hstepV S rfl hd t (by
            have : (t + 1) * S.batch ≤ vecSize (some S) d size / S.batch * S.batch := Nat.mul_le_mul_right _ ht
            omega) g)
        refine ⟨S.hadd ((List.range S.batch).map g), by rw [hvec S rfl hd, replicate_zero, g1]; rfl, ?_⟩
        have := H.hadd (hS S rfl) g2
        rwa [hv] at this
      · simp only [if_neg hd]
        exact ⟨_, rfl, by simpa [vecSize, hd, Prod.mk_zero_zero] using H.zero⟩
  obtain ⟨a, ha, hR⟩ := start
  obtain ⟨r, hr, hR'⟩ := foldlM_scalarR (beg := beg) step up hup (fun t _ h2 a => hstep t h2 a) hvle hR
  refine ⟨r, by rw [ha, Option.bind_some, hr], ?_⟩
  rw [sum_one, Prod.mk_add_mk, Finset.range_eq_Ico, Finset.sum_Ico_consecutive _ (Nat.zero_le _) hvle, ← Finset.range_eq_Ico] at hR'
  exact H.mono (by omega) hR'

end

/-- The sums of a node, if all steps preserve a relation `RM` (masses) or `RC j` (coordinate `j`). -/
theorem nodeSums_accum {A : Arith K} {simd : Option (Simd K)} (hS : ∀ S, simd = some S → S.Adds A) {d n : Nat} {parts : List (List (Fl K))} {x : Nat → Nat → K}
    (hx : IsData d n parts x) {nd : Node} (h1 : nd.beg ≤ nd.fin) (h2 : nd.fin ≤ n) {RM : Nat × Multiset Nat → Fl K → Prop} {RC : Nat → Nat × Multiset Nat → Fl K → Prop}
    (HM : Accum A RM) (uM : Ups RM (fun k a => A.add a (.fin (x d k)))) (HC : ∀ j < d, Accum A (RC j))
    (uC : ∀ j < d, ∀ fu, Ups (RC j) (fun k a => ({ A with fused := fu } : Arith K).fma (.fin (x d k)) (.fin (x j k)) a)) :
    ∃ (c : Nat → Fl K) (M : Fl K), nodeSums A simd d nd parts = some ((List.range d).map c, M) ∧
      RM (nd.fin - nd.beg + lanes simd d, ∑ i ∈ Finset.range (nd.fin - nd.beg), {nd.beg + i}) M ∧
      ∀ j < d, RC j (nd.fin - nd.beg + lanes simd d, ∑ i ∈ Finset.range (nd.fin - nd.beg), {nd.beg + i}) (c j) := by
  obtain ⟨m, hm, hmv⟩ := hx.2 d (le_refl _)
  obtain ⟨M, hM, rM⟩ := HM.loops (simd := simd) hS (d := d) (beg := nd.beg) (size := nd.fin - nd.beg)
    (vec := fun S => massVec A S m nd.beg (vecSize simd d (nd.fin - nd.beg) / S.batch)) (upV := fun _ k a => A.add a (.fin (x d k))) (fun _ _ => uM) uM
    (stepV := fun S acc t => do
      let mv ← load m (nd.beg + t * S.batch) S.batch
      some (List.zipWith A.add acc mv))
    (step := fun acc i => do some (A.add acc (← m[nd.beg + i]?)))
    (fun S _ _ => rfl)
    (by
      intro S _ _ t ht g
      rw [hmv.load (by rw [Nat.succ_mul] at ht; omega)]
      simp only [Option.bind_eq_bind, Option.bind_some, Option.some.injEq]
      apply List.ext_getElem (by simp)
      intro i i1 i2
      simp only [List.getElem_zipWith, List.getElem_map, List.getElem_range, Nat.add_assoc])
    (by
      intro t ht a
      rw [hmv.get (by omega)]
      rfl)
  have hC : ∀ j, ∃ r, j < d → (∀ c, parts[j]? = some c → (vecStart simd d (fun S => comVec A S m c nd.beg (vecSize simd d (nd.fin - nd.beg) / S.batch))).bind
      (fun a => comScalar A m c nd.beg (vecSize simd d (nd.fin - nd.beg)) (nd.fin - nd.beg) a) = some r) ∧
      RC j (nd.fin - nd.beg + lanes simd d, ∑ i ∈ Finset.range (nd.fin - nd.beg), {nd.beg + i}) r := by
    intro j
    by_cases hj : j < d
    · obtain ⟨c, hc, hcv⟩ := hx.2 j (by omega)
      obtain ⟨r, r1, r2⟩ := (HC j hj).loops (simd := simd) hS (d := d) (beg := nd.beg) (size := nd.fin - nd.beg)
        (vec := fun S => comVec A S m c nd.beg (vecSize simd d (nd.fin - nd.beg) / S.batch))
        (upV := fun S k a => ({ A with fused := S.fused } : Arith K).fma (.fin (x d k)) (.fin (x j k)) a) (fun S _ => uC j hj S.fused) (uC j hj A.fused)
        (stepV := fun S acc t => do
          let mv ← load m (nd.beg + t * S.batch) S.batch
          let cv ← load c (nd.beg + t * S.batch) S.batch
          some (List.zipWith (fun p a => ({ A with fused := S.fused } : Arith K).fma p.1 p.2 a) (mv.zip cv) acc))
        (step := fun acc i => do some (A.fma (← m[nd.beg + i]?) (← c[nd.beg + i]?) acc))
        (fun S _ _ => rfl)
        (by
          intro S _ _ t ht g
          rw [hmv.load (by rw [Nat.succ_mul] at ht; omega), hcv.load (by rw [Nat.succ_mul] at ht; omega)]
          simp only [Option.bind_eq_bind, Option.bind_some, Option.some.injEq]
          apply List.ext_getElem (by simp)
          intro i i1 i2
          simp only [List.getElem_zipWith, List.getElem_map, List.getElem_range, List.getElem_zip, Nat.add_assoc])
        (by
          intro t ht a
          rw [hmv.get (by omega), hcv.get (by omega)]
          rfl)
      refine ⟨r, fun _ => ⟨?_, r2⟩⟩
      intro c' hc'
      obtain rfl : c = c' := Option.some.inj (hc.symm.trans hc')
      exact r1
    · exact ⟨.nan, fun h => absurd h hj⟩
  choose r hr using hC
  refine ⟨r, M, ?_, rM, fun j hj => (hr j hj).2⟩
  have hcom : (parts.take d).mapM (fun c => do
      let com0 ← vecStart simd d (fun S => comVec A S m c nd.beg (vecSize simd d (nd.fin - nd.beg) / S.batch))
      comScalar A m c nd.beg (vecSize simd d (nd.fin - nd.beg)) (nd.fin - nd.beg) com0) = some ((List.range d).map r) := by
    rw [mapM_some_iff]
    apply forall₂_of_getElem
    · rw [List.length_take, hx.1]; simp
    · intro j hj hj'
      have hjd : j < d := by simpa using hj'
      obtain ⟨c, hc, hcv⟩ := hx.2 j (by omega)
      have e : (parts.take d)[j] = c := by
        rw [List.getElem_take]
        exact Option.some.inj ((List.getElem?_eq_getElem _).symm.trans hc)
      rw [e]
      have := (hr j hjd).1 c hc
      simpa using this
  unfold nodeSums
  simp only [Option.bind_eq_bind] at hcom ⊢
  rw [hm, Option.bind_some, ← Option.bind_assoc]
  have hM' : ((vecStart simd d fun S => massVec A S m nd.beg (vecSize simd d (nd.fin - nd.beg) / S.batch)).bind
      fun mass0 => massScalar A m nd.beg (vecSize simd d (nd.fin - nd.beg)) (nd.fin - nd.beg) mass0) = some M := hM
  rw [hM', Option.bind_some, hcom, Option.bind_some]

/-! ### Errors -/

section
variable {A : Arith ℚ} {u η lo hi : ℝ}

theorem FlModel.withFused (F : FlModel A u η lo hi) (fu : Bool) : FlModel { A with fused := fu } u η lo hi :=
  ⟨F.u0, F.u1, F.η0, F.ηlo, F.lo0, F.rnd, F.rel, F.zero, F.pos, F.diff, F.sqrt⟩

/-- Ranges for the sums of a node with at most `C` particles, `N` additions, and masses between `1 / b` and `b`, coordinates up to `b`. -/
structure NodeSpan (u η lo hi b : ℝ) (C N : Nat) : Prop where
  b1 : 1 ≤ b
  low : 4 * (C + 1) * lo * b ≤ 1
  high : 32 * (C + 1) * b ^ 3 ≤ hi
  errs : 2 * ((N + 2 : ℕ) * u) ≤ 1

variable {b : ℝ} {C N : Nat}

/-- A mass is zero or in range. -/
def MassOk (b : ℝ) (m : ℝ) : Prop := m = 0 ∨ 1 ≤ b * m ∧ m ≤ b

theorem mass_sum (hb : 1 ≤ b) {s : Multiset ℝ} (h : ∀ m ∈ s, MassOk b m) : 0 ≤ s.sum ∧ (s.sum = 0 ∨ 1 ≤ b * s.sum) ∧ s.sum ≤ s.card * b := by
  induction s using Multiset.induction with
  | empty => simp
  | cons a s ih =>
    obtain ⟨i1, i2, i3⟩ := ih (fun m hm => h m (by simp [hm]))
    rw [Multiset.sum_cons, Multiset.card_cons]
    push_cast
    rcases h a (by simp) with rfl | ⟨a1, a2⟩
    · exact ⟨by linarith, by simpa using i2, by linarith⟩
    · have a0 : 0 ≤ a := by
        by_contra hc
        nlinarith
      exact ⟨by linarith, .inr (by nlinarith), by linarith⟩

/-- The relation for the masses `x`. -/
def MassR (u b : ℝ) (C N : Nat) (x : Nat → ℚ) (p : Nat × Multiset Nat) (a : Fl ℚ) : Prop :=
  p.1 ≤ N → p.2.card ≤ C → (∀ k ∈ p.2, MassOk b (x k)) → ∃ q : ℚ, a = .fin q ∧ Near u p.1 (p.2.map (fun k => (x k : ℝ))).sum q

theorem NodeSpan.low' (F : FlModel A u η lo hi) (G : NodeSpan u η lo hi b C N) : 4 * lo * b ≤ 1 := by
  have h := G.low
  have hb : 0 ≤ b := by have := G.b1; linarith
  have : 0 ≤ (C : ℝ) * (lo * b) := by have := F.lo0; positivity
  nlinarith

theorem NodeSpan.high' (G : NodeSpan u η lo hi b C N) : 32 * ((C : ℝ) + 1) * b ≤ hi ∧ 32 * ((C : ℝ) + 1) * b ^ 2 ≤ hi := by
  have h := G.high
  have hb := G.b1
  have h2 : b ≤ b ^ 2 := by nlinarith
  have h3 : b ^ 2 ≤ b ^ 3 := by nlinarith
  have hC : (0 : ℝ) ≤ 32 * ((C : ℝ) + 1) := by positivity
  exact ⟨(mul_le_mul_of_nonneg_left (h2.trans h3) hC).trans h, (mul_le_mul_of_nonneg_left h3 hC).trans h⟩

theorem errs_le (u0 : 0 ≤ u) (h : 2 * ((N + 2 : ℕ) * u) ≤ 1) {n : Nat} (hn : n ≤ N + 2) : 2 * (n * u) ≤ 1 := by
  have : (n : ℝ) ≤ ((N + 2 : ℕ) : ℝ) := by exact_mod_cast hn
  have := mul_le_mul_of_nonneg_right this u0
  linarith

theorem massR_accum (F : FlModel A u η lo hi) (G : NodeSpan u η lo hi b C N) (x : Nat → ℚ) : Accum A (MassR u b C N x) where
  zero := by
    intro _ _ _
    exact ⟨0, rfl, by simpa using Near.refl F.u0 F.lt1 0 0⟩
  mono := by
    intro m n s a hmn h h1 h2 h3
    obtain ⟨q, e, hq⟩ := h (by simp only at h1 ⊢; omega) h2 h3
    exact ⟨q, e, hq.mono F.u0 F.lt1 hmn⟩
  add := by
    intro p q a c hp hq h1 h2 h3
    simp only [Prod.fst_add, Prod.snd_add, add_zero, Multiset.card_add, Multiset.mem_add] at h1 h2 h3
    obtain ⟨y, rfl, hy⟩ := hp (by omega) (by omega) (fun k hk => h3 k (.inl hk))
    obtain ⟨z, rfl, hz⟩ := hq (by omega) (by omega) (fun k hk => h3 k (.inr hk))
    have s1 := mass_sum (b := b) (s := p.2.map (fun k => (x k : ℝ))) G.b1 (by simpa using fun k hk => h3 k (.inl hk))
    have s2 := mass_sum (b := b) (s := q.2.map (fun k => (x k : ℝ))) G.b1 (by simpa using fun k hk => h3 k (.inr hk))
    have hs := (hy.mono F.u0 F.lt1 (le_max_left p.1 q.1)).add F.lt1 (hz.mono F.u0 F.lt1 (le_max_right p.1 q.1)) s1.1 s2.1
    have s3 := mass_sum (b := b) (s := (p.2 + q.2).map (fun k => (x k : ℝ))) G.b1 (by
      intro m hm
      obtain ⟨k, hk, rfl⟩ := Multiset.mem_map.1 hm
      exact h3 k (Multiset.mem_add.1 hk))
    rw [Multiset.map_add, Multiset.sum_add, Multiset.card_add, Multiset.card_map, Multiset.card_map] at s3
    simp only [Prod.fst_add, Prod.snd_add, add_zero]
    rw [Multiset.map_add, Multiset.sum_add]
    generalize (p.2.map (fun k => (x k : ℝ))).sum + (q.2.map (fun k => (x k : ℝ))).sum = S at *
    have hw := hs.within F.u0 F.lt1 (errs_le F.u0 G.errs (by omega))
    have hS : S ≤ (C : ℝ) * b := s3.2.2.trans (mul_le_mul_of_nonneg_right (by exact_mod_cast h2) (by have := G.b1; linarith))
    have hyz : (0 : ℝ) ≤ y + z := hs.nonneg F.lt1 s3.1
    have hb := G.b1
    obtain ⟨r, e, hr⟩ := F.near (q := y + z) (by
      push_cast
      rw [abs_of_nonneg hyz] at hw ⊢
      rcases s3.2.1 with h0 | h0
      · left
        have : (y : ℝ) + z = 0 := by
          have := hw.2.2
          rw [h0, abs_zero] at this
          linarith
        exact_mod_cast this
      · right
        have := hw.2.1
        rw [abs_of_nonneg s3.1] at this
        have := NodeSpan.low' F G
        have hb0 : 0 < b := by linarith
        apply le_of_mul_le_mul_left _ hb0
        nlinarith) (by
      push_cast
      rw [abs_of_nonneg hyz] at hw ⊢
      have := hw.2.2
      rw [abs_of_nonneg s3.1] at this
      have := G.high'.1
      nlinarith)
    push_cast at hr
    exact ⟨r, e, (hs.trans F.lt1 hr).mono F.u0 F.lt1 (by omega)⟩

theorem massR_up (F : FlModel A u η lo hi) (G : NodeSpan u η lo hi b C N) (x : Nat → ℚ) : Ups (MassR u b C N x) (fun k a => A.add a (.fin (x k))) := by
  intro p a k h
  have : MassR u b C N x (0, {k}) (.fin (x k)) := fun _ _ _ => ⟨x k, rfl, by simpa using Near.refl F.u0 F.lt1 0 (x k : ℝ)⟩
  have := (massR_accum F G x).add h this
  rwa [show p + (0, {k}) + (1, 0) = p + (1, {k}) by
    apply Prod.ext
    · simp
    · simp] at this

theorem pow_le_two (u0 : 0 ≤ u) (u1 : u < 1) {n : Nat} (h : 2 * (n * u) ≤ 1) : (1 + u) ^ n ≤ 2 ∧ (1 + u) ^ n - 1 ≤ 2 * (n * u) := by
  have h1 := Near.half_le u0 u1 h
  have h2 := Near.bern u0 u1 n
  have h3 : (1 + u) ^ n * (1 - u) ^ n ≤ 1 := by
    rw [← mul_pow]
    exact pow_le_one₀ (by nlinarith) (by nlinarith)
  have h4 : 0 < (1 + u) ^ n := by positivity
  have h5 : (1 + u) ^ n ≤ 2 := by nlinarith
  have h6 := (mul_le_mul_of_nonneg_left h2 h4.le).trans h3
  have h7 : (1 + u) ^ n * (n * u) ≤ 2 * (n * u) := mul_le_mul_of_nonneg_right h5 (by positivity)
  exact ⟨h5, by linarith [mul_sub ((1 + u) ^ n) 1 (n * u)]⟩

theorem prod_sum {s : Multiset Nat} {m y : Nat → ℚ} (hb : 1 ≤ b) (h : ∀ k ∈ s, MassOk b (m k) ∧ |(y k : ℝ)| ≤ b) :
    0 ≤ (s.map (fun k => |(m k : ℝ) * y k|)).sum ∧ (s.map (fun k => |(m k : ℝ) * y k|)).sum ≤ s.card * b ^ 2 := by
  induction s using Multiset.induction with
  | empty => simp
  | cons a s ih =>
    obtain ⟨i1, i2⟩ := ih (fun k hk => h k (by simp [hk]))
    rw [Multiset.map_cons, Multiset.sum_cons, Multiset.card_cons]
    push_cast
    have h0 := abs_nonneg ((m a : ℝ) * y a)
    have h1 : |(m a : ℝ) * y a| ≤ b ^ 2 := by
      obtain ⟨h2, h3⟩ := h a (by simp)
      have h4 : |(m a : ℝ)| ≤ b := by
        rcases h2 with h2 | ⟨h2, h4⟩
        · rw [h2, abs_zero]; linarith
        · rw [abs_of_nonneg (by by_contra hc; nlinarith)]; exact h4
      rw [abs_mul, pow_two]
      exact mul_le_mul h4 h3 (abs_nonneg _) (by linarith)
    exact ⟨by linarith, by linarith⟩

/-- The relation for the sums of masses `m` times coordinates `y`. -/
def ComR (u η b : ℝ) (C N : Nat) (m y : Nat → ℚ) (p : Nat × Multiset Nat) (a : Fl ℚ) : Prop :=
  p.1 ≤ N → p.2.card ≤ C → (∀ k ∈ p.2, MassOk b (m k) ∧ |(y k : ℝ)| ≤ b) →
    ∃ q : ℚ, a = .fin q ∧ Summed u η u p.1 (2 * p.1) (p.2.map (fun k => (m k : ℝ) * y k)).sum (p.2.map (fun k => |(m k : ℝ) * y k|)).sum q

theorem NodeSpan.η_le (F : FlModel A u η lo hi) (G : NodeSpan u η lo hi b C N) {n : Nat} (hn : n ≤ N) : (n : ℝ) * η ≤ 1 / 8 ∧ η ≤ 1 / 8 := by
  have h1 := errs_le F.u0 G.errs (n := n) (by omega)
  have h2 := NodeSpan.low' F G
  have h3 : lo ≤ 1 / 4 := by have := F.lo0; have := G.b1; nlinarith
  have h4 := F.ηlo
  have h5 := F.u1
  have hn0 : (0 : ℝ) ≤ n := by positivity
  constructor
  · calc (n : ℝ) * η ≤ n * (u * lo) := mul_le_mul_of_nonneg_left h4 hn0
      _ = (n * u) * lo := by ring
      _ ≤ (1 / 2) * (1 / 4) := mul_le_mul (by linarith) h3 F.lo0.le (by norm_num)
      _ = 1 / 8 := by norm_num
  · have := F.lo0
    have := F.u0
    nlinarith

/-- The size of an intermediate sum. -/
theorem summed_le (F : FlModel A u η lo hi) (G : NodeSpan u η lo hi b C N) {n : Nat} (hn : n ≤ N) {S T a : ℝ} (h : Summed u η u n (2 * n) S T a) (hT0 : 0 ≤ T) :
    |a| ≤ 4 * T + 4 * (n * η) := by
  have h1 := h.size
  have h2 := (pow_le_two F.u0 F.lt1 (errs_le F.u0 G.errs (n := n) (by omega))).1
  have h3 : (0 : ℝ) < (1 + u) ^ n := by have := F.u0; positivity
  have h4 : 0 ≤ (n : ℝ) * η := by have := F.η0; positivity
  have h5 := F.u0
  have h6 := F.u1
  push_cast at h1
  have e1 : (1 + u) ^ n * (1 + u) * T ≤ 4 * T := by
    apply mul_le_mul_of_nonneg_right _ hT0
    nlinarith
  have e2 : 2 * (n : ℝ) * (1 + u) ^ n * η ≤ 4 * (n * η) := by nlinarith
  linarith

theorem comR_accum (F : FlModel A u η lo hi) (G : NodeSpan u η lo hi b C N) (m y : Nat → ℚ) : Accum A (ComR u η b C N m y) where
  zero := by
    intro _ _ _
    exact ⟨0, rfl, by simpa using Summed.zero⟩
  mono := by
    intro k n s a hkn h h1 h2 h3
    obtain ⟨q, e, hq⟩ := h (by simp only at h1 ⊢; omega) h2 h3
    exact ⟨q, e, hq.mono F.u0 F.η0 F.u0 hkn (by simp only; omega)⟩
  add := by
    intro p q a c hp hq h1 h2 h3
    simp only [Prod.fst_add, Prod.snd_add, add_zero, Multiset.card_add, Multiset.mem_add] at h1 h2 h3
    obtain ⟨v, rfl, hv⟩ := hp (by omega) (by omega) (fun k hk => h3 k (.inl hk))
    obtain ⟨z, rfl, hz⟩ := hq (by omega) (by omega) (fun k hk => h3 k (.inr hk))
    have s1 := prod_sum (s := p.2) G.b1 (fun k hk => h3 k (.inl hk))
    have s2 := prod_sum (s := q.2) G.b1 (fun k hk => h3 k (.inr hk))
    have g1 := summed_le F G (by omega) hv s1.1
    have g2 := summed_le F G (by omega) hz s2.1
    have g3 := (NodeSpan.η_le F G (n := p.1 + q.1) (by omega)).1
    push_cast at g3
    have hC : (p.2.card : ℝ) + q.2.card ≤ C := by exact_mod_cast h2
    have hh := G.high'.2
    have hb2 : 1 ≤ b ^ 2 := one_le_pow₀ G.b1
    have hC0 : (0 : ℝ) ≤ C := by positivity
    obtain ⟨r, e, hr⟩ := F.add (a := v) (b := z) (by
      have := abs_add_le (v : ℝ) z
      have e1 : ((p.2.card : ℝ) + q.2.card) * b ^ 2 ≤ C * b ^ 2 := mul_le_mul_of_nonneg_right hC (by positivity)
      nlinarith)
    refine ⟨r, e, ?_⟩
    have k1 := (hv.mono F.u0 F.η0 F.u0 (le_max_left p.1 q.1) le_rfl).add F.u0 F.η0 (hz.mono F.u0 F.η0 F.u0 (le_max_right p.1 q.1) le_rfl) hr
    have k2 := k1.mono F.u0 F.η0 F.u0 (m' := p.1 + q.1 + 1) (N' := 2 * (p.1 + q.1 + 1)) (by omega) (by omega)
    simp only [Prod.fst_add, Prod.snd_add, add_zero, Multiset.map_add, Multiset.sum_add]
    exact k2

theorem comR_up (F : FlModel A u η lo hi) (G : NodeSpan u η lo hi b C N) (m y : Nat → ℚ) (fu : Bool) :
    Ups (ComR u η b C N m y) (fun k a => ({ A with fused := fu } : Arith ℚ).fma (.fin (m k)) (.fin (y k)) a) := by
  intro p a k h h1 h2 h3
  simp only [Prod.fst_add, Prod.snd_add, Multiset.card_add, Multiset.card_singleton, Multiset.mem_add, Multiset.mem_singleton] at h1 h2 h3
  obtain ⟨v, rfl, hv⟩ := h (by omega) (by omega) (fun k hk => h3 k (.inl hk))
  have s1 := prod_sum (s := p.2) G.b1 (fun k hk => h3 k (.inl hk))
  have s2 := prod_sum (s := {k}) (m := m) (y := y) G.b1 (fun l hl => h3 l (.inr (by simpa using hl)))
  simp only [Multiset.map_singleton, Multiset.sum_singleton, Multiset.card_singleton, Nat.cast_one, one_mul] at s2
  have g1 := summed_le F G (by omega) hv s1.1
  obtain ⟨g3, g4⟩ := NodeSpan.η_le F G (n := p.1) (by omega)
  have hC : (p.2.card : ℝ) + 1 ≤ C := by exact_mod_cast h2
  have hh := G.high'.2
  have hb2 : 1 ≤ b ^ 2 := one_le_pow₀ G.b1
  have u1 := F.u1
  have u0 := F.u0
  have hx : (p.2.card : ℝ) * b ^ 2 + b ^ 2 ≤ C * b ^ 2 := by
    have := mul_le_mul_of_nonneg_right hC (show 0 ≤ b ^ 2 by positivity)
    linarith
  have hpb : (0 : ℝ) ≤ p.2.card * b ^ 2 := by positivity
  obtain ⟨r, w, e, w1, w2⟩ := (F.withFused fu).fma (t := m k) (g := y k) (a := v) (by nlinarith) (by nlinarith)
  refine ⟨r, e, ?_⟩
  simp only [Prod.fst_add, Prod.snd_add, Multiset.map_add, Multiset.sum_add, Multiset.map_singleton, Multiset.sum_singleton]
  exact hv.step F.u0 F.η0 F.u0 w1 w2

theorem quot_err {ν n1 a S T I M c : ℝ} (u0 : 0 ≤ u) (u1 : u ≤ 1 / 1024) (η0 : 0 ≤ η) (n0 : 0 ≤ ν) (hn1 : u ≤ n1) (M0 : 0 < M) (hMb : 1 / M ≤ b) (hS : |S| ≤ T)
    (herr : |a - S| ≤ 2 * n1 * T + 4 * (ν * η)) (ha : |a| ≤ 4 * T + 4 * (ν * η)) (I0 : 0 ≤ I) (hI : I ≤ 2 * (1 / M)) (hI2 : |I - 1 / M| ≤ 2 * n1 * (1 / M))
    (hc : |c - a * I| ≤ u * |a * I| + η) : |c - S / M| ≤ 14 * n1 * (T / M) + (9 * (ν * b) + 1) * η := by
  have hT0 : 0 ≤ T := (abs_nonneg S).trans hS
  have m0 : 0 < 1 / M := by positivity
  have hIb : I ≤ 2 * b := by linarith
  have hnη : 0 ≤ ν * η := by positivity
  have hb0 : 0 < b := by linarith
  obtain ⟨Q, hQ⟩ : ∃ Q, Q = T / M := ⟨_, rfl⟩
  obtain ⟨Z, hZ⟩ : ∃ Z, Z = ν * b * η := ⟨_, rfl⟩
  have hQ0 : 0 ≤ Q := by rw [hQ]; positivity
  have hZ0 : 0 ≤ Z := by rw [hZ]; positivity
  have hTI : T * I ≤ 2 * Q := by
    have := mul_le_mul_of_nonneg_left hI hT0
    rw [show T * (2 * (1 / M)) = 2 * (T / M) by ring] at this
    rw [hQ]; exact this
  have hηI : ν * η * I ≤ 2 * Z := by
    have := mul_le_mul_of_nonneg_left hIb hnη
    rw [hZ]; linarith
  have haI : |a * I| ≤ 8 * Q + 8 * Z := by
    rw [abs_mul, abs_of_nonneg I0]
    have := mul_le_mul_of_nonneg_right ha I0
    linarith
  have k1 : |(a - S) * I| ≤ 4 * n1 * Q + 8 * Z := by
    rw [abs_mul, abs_of_nonneg I0]
    have h1 := mul_le_mul_of_nonneg_right herr I0
    have h2 := mul_le_mul_of_nonneg_left hTI (show 0 ≤ 2 * n1 by linarith)
    linarith
  have k2 : |S * (I - 1 / M)| ≤ 2 * n1 * Q := by
    rw [abs_mul, hQ]
    have := mul_le_mul hS hI2 (abs_nonneg _) hT0
    rwa [show T * (2 * n1 * (1 / M)) = 2 * n1 * (T / M) by ring] at this
  have k3 : c - S / M = (c - a * I) + ((a - S) * I + S * (I - 1 / M)) := by ring
  have k4 := mul_le_mul_of_nonneg_left haI u0
  have k5 : u * (8 * Z) ≤ Z := by nlinarith
  have k6 : u * (8 * Q) ≤ 8 * n1 * Q := by nlinarith
  have k7 : |c - S / M| ≤ |c - a * I| + (|(a - S) * I| + |S * (I - 1 / M)|) := by
    rw [k3]
    exact (abs_add_le _ _).trans (add_le_add le_rfl (abs_add_le _ _))
  rw [← hQ, show (9 * (ν * b) + 1) * η = 9 * (ν * b * η) + η by ring, ← hZ]
  linarith

/-- The inverse of a computed mass. -/
theorem inv_near (F : FlModel A u η lo hi) (G : NodeSpan u η lo hi b C N) {M : ℝ} {mq : ℚ} (hM : Near u N M mq) (hM1 : 1 ≤ b * M) (hM2 : M ≤ C * b) :
    0 < mq ∧ ∃ I : ℚ, A.div (.fin 1) (.fin mq) = .fin I ∧ Near u (N + 1) (1 / M) I := by
  have b1 := G.b1
  have M0 : 0 < M := by
    by_contra hc
    nlinarith
  obtain ⟨_, w2, w3⟩ := hM.within F.u0 F.lt1 (errs_le F.u0 G.errs (n := N) (by omega))
  have mq0 : (0 : ℝ) < mq := by
    obtain ⟨t, e, t0, _⟩ := hM.factor F.lt1
    rw [e]; positivity
  rw [abs_of_pos mq0, abs_of_pos M0] at w2 w3
  have hlow := G.low
  have lo0 := F.lo0
  have hh2 := G.high'.1
  have C0 : (0 : ℝ) ≤ C := by positivity
  have i0 : (0 : ℝ) < 1 / mq := by positivity
  have g1 : lo ≤ 1 / (mq : ℝ) := by
    rw [le_div_iff₀ mq0]
    have h1 : (mq : ℝ) ≤ 2 * (C * b) := by linarith
    have h2 := mul_le_mul_of_nonneg_left h1 lo0.le
    have h3 : 0 ≤ lo * b := by positivity
    have h4 : 0 ≤ C * (lo * b) := by positivity
    linarith
  have g2 : 1 / (mq : ℝ) ≤ hi := by
    rw [div_le_iff₀ mq0]
    have h1 := mul_le_mul_of_nonneg_left w2 (show 0 ≤ b by linarith)
    have h3 : 2 * b ≤ hi := by
      have : 0 ≤ (C : ℝ) * b := by positivity
      linarith
    have := mul_le_mul_of_nonneg_right h3 mq0.le
    linarith
  obtain ⟨I, eI, nI⟩ := F.div (a := 1) (b := mq) (by rintro rfl; simp at mq0) (.inr (by push_cast; rw [abs_of_pos i0]; exact g1)) (by push_cast; rw [abs_of_pos i0]; exact g2)
  push_cast at nI
  refine ⟨by exact_mod_cast mq0, I, eI, ?_⟩
  have := ((Near.refl F.u0 F.lt1 0 (1 : ℝ)).div F.lt1 hM).trans F.lt1 nI
  rwa [Nat.zero_add] at this

/-- The quotient of two computed sums. -/
theorem com_near (F : FlModel A u η lo hi) (G : NodeSpan u η lo hi b C N) {M S T : ℝ} {mq a : ℚ} (hM : Near u N M mq) (hM1 : 1 ≤ b * M) (hM2 : M ≤ C * b)
    (ha : Summed u η u N (2 * N) S T a) (hT : T ≤ C * b ^ 2) :
    ∃ c : ℚ, A.mul (.fin a) (A.div (.fin 1) (.fin mq)) = .fin c ∧ |(c : ℝ) - S / M| ≤ 14 * ((N + 1 : ℕ) * u) * (T / M) + (9 * (N * b) + 1) * η := by
  obtain ⟨_, I, eI, nI⟩ := inv_near F G hM hM1 hM2
  have u0 := F.u0
  have b1 := G.b1
  have M0 : 0 < M := by
    by_contra hc
    nlinarith
  have hT0 : 0 ≤ T := (abs_nonneg S).trans ha.abs
  have n1 := errs_le u0 G.errs (n := N + 1) (by omega)
  have n2 := errs_le u0 G.errs (n := N) (by omega)
  obtain ⟨v1, _, v3⟩ := nI.within u0 F.lt1 n1
  have m0 : 0 < 1 / M := by positivity
  have I0 : (0 : ℝ) ≤ I := nI.nonneg F.lt1 m0.le
  rw [abs_of_pos m0] at v1 v3
  rw [abs_of_nonneg I0] at v3
  have hMb : 1 / M ≤ b := by rw [div_le_iff₀ M0]; exact hM1
  have ga := summed_le F G le_rfl ha hT0
  obtain ⟨e1, _⟩ := NodeSpan.η_le F G (n := N) le_rfl
  have hIb : (I : ℝ) ≤ 2 * b := by linarith
  obtain ⟨c, ec, hc⟩ := F.rnd (a * I) (by
    push_cast
    rw [abs_mul, abs_of_nonneg I0]
    have t1 : T * I ≤ (C * b ^ 2) * (2 * b) := mul_le_mul hT hIb I0 (by positivity)
    have t2 : N * η * I ≤ 1 / 8 * (2 * b) := mul_le_mul e1 hIb I0 (by norm_num)
    have t3 := mul_le_mul_of_nonneg_right ga I0
    have hb3 : b ≤ b ^ 3 := by
      have h2 : 1 ≤ b ^ 2 := one_le_pow₀ b1
      have := mul_le_mul_of_nonneg_left h2 (show 0 ≤ b by linarith)
      linarith [show b * b ^ 2 = b ^ 3 by ring]
    have hh := G.high
    have : 0 ≤ (C : ℝ) * b ^ 3 := by positivity
    linarith [show (C * b ^ 2) * (2 * b) = 2 * (C * b ^ 3) by ring])
  refine ⟨c, by rw [eI]; exact ec, ?_⟩
  push_cast at hc
  have p1 := (pow_le_two u0 F.lt1 n1).2
  have p2 := (pow_le_two u0 F.lt1 n2).1
  have hnη : 0 ≤ (N : ℝ) * η := by have := F.η0; positivity
  have herr : |(a : ℝ) - S| ≤ 2 * ((N + 1 : ℕ) * u) * T + 4 * (N * η) := by
    refine ha.err.trans ?_
    rw [pow_succ] at p1
    have h1 := mul_le_mul_of_nonneg_right p1 hT0
    have h2 := mul_le_mul_of_nonneg_right p2 hnη
    push_cast at h1 ⊢
    linarith [show 2 * (N : ℝ) * (1 + u) ^ N * η = 2 * ((1 + u) ^ N * (N * η)) by ring]
  exact quot_err u0 F.u1 F.η0 (by positivity) (by push_cast; have : 0 ≤ (N : ℝ) * u := by positivity
                                                  linarith) M0 hMb ha.abs herr ga I0 v3 v1 hc

end

/-- The mass and centre of mass of a node from its sums. -/
theorem nodeProps_sums [FloorRing K] {A : Arith K} {simd : Option (Simd K)} {mac : Mac} {w d : Nat} {box : Fl K} {nd : Node} {parts : List (List (Fl K))} {p : NProps K}
    (h : nodeProps A simd mac w d box nd parts = .ok p) {c : List (Fl K)} {M : Fl K} (hs : nodeSums A simd d nd parts = some (c, M)) :
    p.mass = M ∧ (M.eq (.fin 0) = false → p.com = c.map (fun a => A.mul a (A.div (.fin 1) M))) := by
  unfold nodeProps at h
  rw [hs] at h
  simp only [ofUB, bind, Except.bind] at h
  cases hM : M.eq (.fin 0) <;> cases mac <;> simp only [hM] at h <;> (repeat' split at h) <;> simp at h <;> (subst h; simp) <;> contradiction

end Rakau
