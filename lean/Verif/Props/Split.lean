import Verif.Proof.Split
import Verif.Proof.Sample
import Verif.Proof.Round
import Verif.Props.Padding
import Mathlib.Tactic.IntervalCases

/-! C29: the distribution of the work over CPU and accelerators. -/
set_option linter.unusedSectionVars false

namespace Rakau
open Spec

variable {K : Type} [Field K] [LinearOrder K] [IsStrictOrderedRing K] [FloorRing K]

/-- The number of accelerators that can be used. -/
def Backend.accelerators (types : Bool) : Backend → Nat
  | .none => 0
  | .rocm present _ => if present && types then 1 else 0
  | .cuda devices => if types then devices else 0

/-- The least number of particles for an accelerator. -/
def Backend.least : Backend → Nat
  | .none => 0
  | .rocm _ m => m
  | .cuda _ => 1000

/-- A valid split: non-negative finite values, not all zero, and not more than there are workers. The empty split stands for the CPU alone. -/
structure SplitOk (workers : Nat) (split : List (Fl K)) : Prop where
  nonneg : ∀ x ∈ split, ∃ q, x = .fin q ∧ 0 ≤ q
  pos : split ≠ [] → ∃ q, Fl.fin q ∈ split ∧ 0 < q
  count : split.length ≤ workers

theorem splitCommon_ok {split : List (Fl K)} (hn : ∀ x ∈ split, ∃ q, x = .fin q ∧ 0 ≤ q) (hp : split ≠ [] → ∃ q, Fl.fin q ∈ split ∧ 0 < q) :
    splitCommon split = .ok () := by
  unfold splitCommon
  rw [if_neg, if_neg, if_neg]
  · intro h
    simp only [Bool.and_eq_true, Bool.not_eq_true', List.isEmpty_eq_false_iff, List.all_eq_true] at h
    obtain ⟨q, hq, h0⟩ := hp h.1
    have := h.2 _ hq
    simp only [Fl.eq, decide_eq_true_eq] at this
    linarith
  · intro h
    obtain ⟨x, hx, hlt⟩ := List.any_eq_true.1 h
    obtain ⟨q, rfl, h0⟩ := hn x hx
    simp only [Fl.lt, decide_eq_true_eq] at hlt
    linarith
  · intro h
    obtain ⟨x, hx, hlt⟩ := List.any_eq_true.1 h
    obtain ⟨q, rfl, h0⟩ := hn x hx
    simp [Fl.isFinite] at hlt

theorem splitCommon_bad {split : List (Fl K)} (h : ¬ ((∀ x ∈ split, ∃ q, x = .fin q ∧ 0 ≤ q) ∧ (split ≠ [] → ∃ q, Fl.fin q ∈ split ∧ 0 < q))) :
    splitCommon split = .error .invalidArg := by
  unfold splitCommon
  by_cases h1 : split.any (fun x => !x.isFinite) = true
  · rw [if_pos h1]
  rw [if_neg h1]
  by_cases h2 : split.any (fun x => x.lt (.fin 0)) = true
  · rw [if_pos h2]
  rw [if_neg h2]
  have hn : ∀ x ∈ split, ∃ q, x = .fin q ∧ 0 ≤ q := by
    intro x hx
    have a1 : ¬ (!x.isFinite) = true := fun e => h1 (List.any_eq_true.2 ⟨x, hx, e⟩)
    have a2 : ¬ x.lt (.fin 0) = true := fun e => h2 (List.any_eq_true.2 ⟨x, hx, e⟩)
    cases x with
    | nan => simp [Fl.isFinite] at a1
    | inf s => simp [Fl.isFinite] at a1
    | fin q => exact ⟨q, rfl, by simpa [Fl.lt] using a2⟩
  rw [if_pos]
  have hp : ¬ (split ≠ [] → ∃ q, Fl.fin q ∈ split ∧ 0 < q) := fun hp => h ⟨hn, hp⟩
  push Not at hp
  obtain ⟨hne, hz⟩ := hp
  simp only [Bool.and_eq_true, Bool.not_eq_true', List.isEmpty_eq_false_iff, List.all_eq_true]
  refine ⟨hne, fun x hx => ?_⟩
  obtain ⟨q, rfl, h0⟩ := hn x hx
  have := hz q hx
  simp only [Fl.eq, decide_eq_true_eq]
  linarith

/-- C29: invalid splits are rejected (no matter what the tree is). -/
theorem C29_rejects (B : Backend) (D A : Arith K) (types : Bool) (crit : List CNode) (np : Nat) {split : List (Fl K)}
    (h : ¬ SplitOk (B.accelerators types + 1) split) : splitPlan B D A types crit np split = .error .invalidArg := by
  unfold splitPlan
  by_cases hc : (∀ x ∈ split, ∃ q, x = .fin q ∧ 0 ≤ q) ∧ (split ≠ [] → ∃ q, Fl.fin q ∈ split ∧ 0 < q)
  · rw [splitCommon_ok hc.1 hc.2]
    have hl : B.accelerators types + 1 < split.length := by
      by_contra hl
      exact h ⟨hc.1, hc.2, by omega⟩
    simp only [bind, Except.bind]
    cases B with
    | none =>
      simp only [Backend.accelerators] at hl ⊢
      rw [if_pos (by omega)]
    | rocm present m =>
      simp only [Backend.accelerators] at hl ⊢
      by_cases h2 : 2 < split.length
      · rw [if_pos h2]
      rw [if_neg h2]
      have hlen : split.length = 2 := by split at hl <;> omega
      cases present with
      | false => rw [if_pos (by simp [hlen])]
      | true =>
        rw [if_neg (by simp)]
        cases types with
        | true => simp at hl; omega
        | false => simp [hlen]
    | cuda devices =>
      simp only [Backend.accelerators] at hl ⊢
      have hne : split ≠ [] := by intro e; rw [e] at hl; simp at hl
      by_cases h2 : devices < split.length - 1
      · rw [if_pos (by simp [hne, h2])]
      rw [if_neg (by simp [h2])]
      cases types with
      | true => simp only [if_true] at hl; omega
      | false =>
        rw [if_neg (by simp), if_pos (by simp at hl; omega)]
  · rw [splitCommon_bad hc]; rfl

/-- The values of a split are values of the format. -/
theorem SplitOk.rep {D : Arith K} {m : Nat} {split : List (Fl K)} (h : SplitOk m split) (hr : ∀ q, Fl.fin q ∈ split → D.rnd q = .fin q) :
    ∀ x ∈ split, NonNeg D x := by
  intro x hx
  obtain ⟨q, rfl, h0⟩ := h.nonneg x hx
  exact ⟨q, rfl, h0, hr q hx⟩

/-- What is said about a plan. -/
structure Plan.Good (p : Plan) (crit : List CNode) (n least len : Nat) : Prop where
  cpu : p.cpu ≤ crit.length
  shares : Shares n ((crit.take p.cpu).map CNode.rng) p.dev
  dev : p.dev = [] ∨ 1 < len ∧ p.dev.length = len
  least : ∀ r ∈ between p.dev, least ≤ r.2 - r.1

theorem Tiled.good_cpu {crit : List CNode} {n : Nat} (T : Tiled crit n) (least len : Nat) : Plan.Good ⟨crit.length, []⟩ crit n least len where
  cpu := le_rfl
  shares := T.shares_cpu
  dev := .inl rfl
  least := by simp [between]

theorem rocmPlan_good {D : Arith K} (L : D.Laws) {crit : List CNode} {n : Nat} (T : Tiled crit n) (hn : n < 2 ^ 63) (m : Nat) {s0 s1 : Fl K}
    (h0 : NonNeg D s0) (h1 : NonNeg D s1) (hp : ∃ q, Fl.fin q ∈ [s0, s1] ∧ 0 < q) :
    ∃ p, rocmPlan D m crit n s0 s1 = .ok p ∧ p.Good crit n m 2 := by
  obtain ⟨idx, hidx⟩ : ∃ idx, castSz (D.mul (D.div s0 (D.add s0 s1)) (D.rnd n)) = .ok idx := by
    have hnn : (n : K) ≤ 2 ^ 63 := by exact_mod_cast hn.le
    obtain ⟨f, f1, f2, f3⟩ := L.between (show (0 : K) ≤ n by positivity) hnn L.zero (L.pow 63 (by omega))
    obtain ⟨a, rfl, ha, haa⟩ := h0
    rcases add_nonneg_cases L ⟨a, rfl, ha, haa⟩ h1 with hi | ⟨hq, hle⟩
    · rw [hi, f1]
      have e : D.div (.fin a) (.inf false) = .fin 0 := rfl
      have e2 : D.mul (.fin 0) (.fin f) = .fin 0 := by
        unfold Arith.mul Arith.mulPre
        simp only [zero_mul]
        exact L.zero
      rw [e, e2, castSz_fin le_rfl (by positivity)]
      exact ⟨_, rfl⟩
    · obtain ⟨c, hc, hc0, _⟩ := hq
      obtain ⟨b, rfl, hb, _⟩ := h1
      obtain ⟨l1, l2⟩ := hle a b c rfl rfl hc
      have hcpos : 0 < c := by
        obtain ⟨q, hq, hq0⟩ := hp
        simp only [List.mem_cons, Fl.fin.injEq, List.not_mem_nil, or_false] at hq
        rcases hq with rfl | rfl <;> linarith
      obtain ⟨q, q1, q2, q3⟩ := proj_le L ha l1 hcpos f2 (L.idem _ _ f1)
      rw [hc, f1, q1, castSz_fin q2 (by
        have : f < 2 ^ 64 := lt_of_le_of_lt f3 (by norm_num)
        linarith)]
      exact ⟨_, rfl⟩
  obtain ⟨c, hc, hb, _, _⟩ := T.boundary_eq idx
  unfold rocmPlan
  rw [hidx]
  simp only [bind, Except.bind]
  rw [hb]
  simp only [ofUB]
  have hle := T.cut_le c
  rw [subW_sorted hle (by omega)]
  by_cases hm : m ≤ n - cut crit n c
  · rw [if_pos hm]
    refine ⟨_, rfl, hc, T.shares hc (by simpa using hle) (by simp), .inr ⟨by omega, rfl⟩, ?_⟩
    simpa [between] using hm
  · rw [if_neg hm]
    exact ⟨_, rfl, T.good_cpu _ _⟩

theorem cudaPlan_good {D A : Arith K} (L : D.Laws) {crit : List CNode} {n : Nat} (T : Tiled crit n) (hn : n < 2 ^ 64) {split : List (Fl K)} {a f : K}
    (hl : 1 < split.length) (hnn : ∀ x ∈ split, NonNeg D x) (hp : ∃ q, Fl.fin q ∈ split ∧ 0 < q) (hsum : split.foldl D.add (.fin 0) = .fin a)
    (hA : A.rnd n = .fin f) (hff : D.rnd f = .fin f) (hf0 : 0 ≤ f) (hf : f ≤ n) :
    ∃ p, cudaPlan D A crit n split = .ok p ∧ p.Good crit n 1000 split.length := by
  match split, hl with
  | x :: y :: rest, _ =>
    have hx := hnn x List.mem_cons_self
    obtain ⟨t, rfl, ht, htt⟩ := hx
    have hrest : ∀ z ∈ y :: rest, NonNeg D z := fun z hz => hnn z (List.mem_cons_of_mem _ hz)
    have hapos : 0 < a := by
      obtain ⟨q, hq, hq0⟩ := hp
      have := (foldl_ge L hnn le_rfl L.zero hsum).2 q hq
      linarith
    have hsum' : (y :: rest).foldl D.add (.fin t) = .fin a := by
      rw [List.foldl_cons] at hsum
      have : D.add (.fin 0) (.fin t) = .fin t := by
        show D.rnd (0 + t) = _
        rw [zero_add, htt]
      rwa [this] at hsum
    obtain ⟨is, q, i1, i2, i3, i4, _, _⟩ := cudaIdx_spec L hn hA hff hf0 hf hapos hrest ht htt hsum'
    unfold cudaPlan
    rw [hsum]
    simp only [List.headD_cons, List.tail_cons, bind, Except.bind]
    rw [i1]
    simp only
    match is, i2 with
    | i0 :: i1' :: is', i2 =>
      obtain ⟨c, hc, hb, _, _⟩ := T.boundary_eq i0
      rw [List.headD_cons, hb]
      simp only [ofUB, List.tail_cons]
      have hsorted := forward_sorted (k := cut crit n c) i4.of_cons
      have hlast : (cut crit n c :: (i1' :: is').map (fun i => if i < cut crit n c then cut crit n c else i)).getLast? = some n := by
        have h1 : (i1' :: is').getLast? = some n := by rw [← i3]; simp
        rw [List.getLast?_cons, List.getLast?_map, h1]
        simp only [Option.map_some, Option.getD_some, Option.some.injEq]
        rw [if_neg (not_lt.2 (T.cut_le c))]
      split_ifs with hall
      · refine ⟨_, rfl, hc, T.shares hc hsorted hlast, .inr ⟨by simp, ?_⟩, ?_⟩
        · simp at i2 ⊢; omega
        · intro r hr
          have h1 := List.all_eq_true.1 hall r hr
          simp only [Bool.not_eq_true', decide_eq_false_iff_not, not_lt] at h1
          obtain ⟨m1, m2, m3⟩ := between_le hsorted hr
          have := le_last hsorted hlast m3
          rw [subW_sorted m1 (by omega)] at h1
          exact h1
      · exact ⟨_, rfl, T.good_cpu _ _⟩

variable {A : Arith K} {simd : Option (Simd K)} {mac : Mac} {w d : Nat}

theorem n_lt {s : TS (rakauEnv A simd mac w d)} (hs : Supported w d) (hz : s.n * cbits w d < 2 ^ 64) : s.n < 2 ^ 63 := by
  have : 2 ≤ cbits w d := by
    rcases hs with ⟨hw | hw, hd | hd⟩ <;> subst hw hd <;> decide
  by_contra hge
  have : 2 ^ 63 * 2 ≤ s.n * cbits w d := Nat.mul_le_mul (by omega) this
  omega

/-- C29: with a valid split, the CPU gets the first critical nodes, the accelerators ranges of at least the least size, and every particle has exactly one worker;
the CPU's share ends where a critical node ends, and the accelerators end at `n`.

What is missing: with CUDA the sum of the split values has to be finite, and the conversion of the number of particles to `F` must not round up; otherwise the
statement is false (`C29_fails_round`, `C29_fails_nan`). Without CUDA nothing is missing (`C29_rocm`, `C29_none`). -/
theorem C29_partial {D : Arith K} (L : D.Laws) (hs : Supported w d) {s : TS (rakauEnv A simd mac w d)} (h : Reach _ s)
    (hz : s.n * cbits w d < 2 ^ 64) {B : Backend} {types : Bool} {split : List (Fl K)} (hv : SplitOk (B.accelerators types + 1) split)
    (hr : ∀ q, Fl.fin q ∈ split → D.rnd q = .fin q)
    (hcuda : ∀ m, B = .cuda m → ∃ a f, split.foldl D.add (.fin 0) = .fin a ∧ A.rnd s.n = .fin f ∧ D.rnd f = .fin f ∧ 0 ≤ f ∧ f ≤ s.n) :
    ∃ p, splitPlan B D A types s.crit s.n split = .ok p ∧ p.Good s.crit s.n B.least split.length := by
  have T := reach_tiled (rakauEnv_ok A simd mac hs) h hz
  have hn := n_lt hs hz
  have hrep := hv.rep hr
  unfold splitPlan
  rw [splitCommon_ok hv.nonneg hv.pos]
  simp only [bind, Except.bind]
  have hc := hv.count
  cases B with
  | none =>
    simp only [Backend.accelerators] at hc ⊢
    rw [if_neg (by omega)]
    exact ⟨_, rfl, T.good_cpu _ _⟩
  | rocm present m =>
    simp only [Backend.accelerators] at hc ⊢
    have h2 : split.length ≤ 2 := by split at hc <;> omega
    rw [if_neg (by omega)]
    by_cases hlen : split.length = 2
    · have hpt : (present && types) = true := by
        by_contra hne
        rw [if_neg hne] at hc; omega
      obtain ⟨rfl, rfl⟩ := Bool.and_eq_true _ _ ▸ hpt
      rw [if_neg (by simp), if_pos rfl]
      match split, hlen with
      | [s0, s1], _ =>
        exact rocmPlan_good L T hn m (hrep _ (by simp)) (hrep _ (by simp)) (hv.pos (by simp))
    · rw [if_neg (by simp [hlen]), if_neg hlen]
      refine ⟨⟨s.crit.length, []⟩, ?_, T.good_cpu _ _⟩
      split
      · split
        · simp at hlen
        · rfl
      · rfl
  | cuda devices =>
    simp only [Backend.accelerators] at hc ⊢
    rw [if_neg (by
      intro hcon
      simp only [Bool.and_eq_true, Bool.not_eq_true', decide_eq_true_eq] at hcon
      have := hcon.2
      split at hc <;> omega)]
    by_cases hlen : 1 < split.length
    · cases types with
      | false => simp at hc; omega
      | true =>
        obtain ⟨a, f, c1, c2, c3, c4, c5⟩ := hcuda devices rfl
        rw [if_pos rfl, if_pos hlen]
        exact cudaPlan_good L T (by omega) hlen hrep (hv.pos (by intro e; rw [e] at hlen; simp at hlen)) c1 c2 c3 c4 c5
    · rw [if_neg hlen, if_neg hlen]
      refine ⟨⟨s.crit.length, []⟩, ?_, T.good_cpu _ _⟩
      split <;> rfl

/-- C29 with ROCm, in full. -/
theorem C29_rocm {D : Arith K} (L : D.Laws) (hs : Supported w d) {s : TS (rakauEnv A simd mac w d)} (h : Reach _ s)
    (hz : s.n * cbits w d < 2 ^ 64) (present types : Bool) (m : Nat) {split : List (Fl K)} (hv : SplitOk ((Backend.rocm present m).accelerators types + 1) split)
    (hr : ∀ q, Fl.fin q ∈ split → D.rnd q = .fin q) :
    ∃ p, splitPlan (.rocm present m) D A types s.crit s.n split = .ok p ∧ p.Good s.crit s.n m split.length :=
  C29_partial L hs h hz hv hr (fun _ e => by cases e)

/-- C29 without accelerators, in full. -/
theorem C29_none {D : Arith K} (L : D.Laws) (hs : Supported w d) {s : TS (rakauEnv A simd mac w d)} (h : Reach _ s)
    (hz : s.n * cbits w d < 2 ^ 64) (types : Bool) {split : List (Fl K)} (hv : SplitOk 1 split) (hr : ∀ q, Fl.fin q ∈ split → D.rnd q = .fin q) :
    ∃ p, splitPlan .none D A types s.crit s.n split = .ok p ∧ p.Good s.crit s.n 0 split.length :=
  C29_partial L hs h hz hv hr (fun _ e => by cases e)

/-! ### Proportions, in exact arithmetic -/

/-- The projection of the first `i + 1` values of a split onto the particle indices. -/
def target (n : Nat) (v : List K) (i : Nat) : Nat := ⌊(v.take (i + 1)).sum / v.sum * n⌋.toNat

theorem sum_fin {D : Arith K} (hD : D.Exact) (v : List K) (t : K) : (v.map Fl.fin).foldl D.add (.fin t) = .fin (t + v.sum) := by
  induction v generalizing t with
  | nil => simp
  | cons x v ih =>
    rw [List.map_cons, List.foldl_cons]
    have : D.add (.fin t) (.fin x) = .fin (t + x) := hD _
    rw [this, ih, List.sum_cons]
    congr 1; ring

theorem cudaIdx_exact {D A : Arith K} (hD : D.Exact) (hA : A.Exact) {n : Nat} (hn : n < 2 ^ 64) {a : K} (ha : 0 < a) {v : List K} (hv : ∀ x ∈ v, 0 ≤ x) {t : K} (ht : 0 ≤ t)
    (hs : t + v.sum = a) :
    ∃ is, cudaIdx D A n (.fin a) (.fin t) (v.map .fin) = .ok is ∧ is.length = v.length + 1 ∧
      ∀ i < v.length, is[i]? = some ⌊(t + (v.take i).sum) / a * n⌋.toNat := by
  induction v generalizing t with
  | nil => exact ⟨[n], rfl, rfl, fun i hi => by simp at hi⟩
  | cons x v ih =>
    have hx := hv x List.mem_cons_self
    have hv' : ∀ y ∈ v, 0 ≤ y := fun y hy => hv y (List.mem_cons_of_mem _ hy)
    have hsv : 0 ≤ v.sum := List.sum_nonneg hv'
    rw [List.sum_cons] at hs
    obtain ⟨is, i1, i2, i3⟩ := ih hv' (add_nonneg ht hx) (by rw [← hs]; ring)
    have hq0 : 0 ≤ t / a * n := by positivity
    have hq1 : t / a * n < 2 ^ 64 := by
      have h1 : t / a ≤ 1 := (div_le_one ha).2 (by linarith)
      have h2 : (n : K) < 2 ^ 64 := by exact_mod_cast hn
      have h3 : t / a * n ≤ n := by
        have : (0 : K) ≤ n := by positivity
        nlinarith
      linarith
    refine ⟨⌊t / a * n⌋.toNat :: is, ?_, by simp [i2], ?_⟩
    · have e1 : D.div (.fin t) (.fin a) = .fin (t / a) := by
        unfold Arith.div; simp only; rw [if_neg ha.ne']; exact hD _
      have e2 : D.mul (.fin (t / a)) (.fin n) = .fin (t / a * n) := hD _
      have e3 : D.add (.fin t) (.fin x) = .fin (t + x) := hD _
      rw [List.map_cons, cudaIdx, hA, e1, e2, castSz_fin hq0 hq1, e3, i1]
      rfl
    · intro i hi
      cases i with
      | zero => simp
      | succ i =>
        rw [List.getElem?_cons_succ, i3 i (by simpa using hi), List.take_succ_cons, List.sum_cons]
        congr 5; ring

/-- C29, in exact arithmetic: the shares are in the proportions asked for. With CUDA, if accelerators are used, their ranges start at the projections of the sums of the
split values, moved forward to the start of the first accelerator's range. This is the start of the first critical node at or after the projection of the first
value (or the end). The critical nodes of every tree tile its particles (`reach_tiled`). -/
theorem C29_proportions {D : Arith K} (hD : D.Exact) (hA : A.Exact) {crit : List CNode} {n : Nat} (T : Tiled crit n) (hn : n < 2 ^ 64) {devices : Nat} {v : List K} (h0 : ∀ x ∈ v, 0 ≤ x) (hp : 0 < v.sum) {p : Plan}
    (hpl : splitPlan (.cuda devices) D A true crit n (v.map .fin) = .ok p) (hdev : p.dev ≠ []) :
    ∃ k, p.dev[0]? = some k ∧ target n v 0 ≤ k ∧ (k = n ∨ ∃ cn ∈ crit, k = cn.beg) ∧ (∀ cn ∈ crit, target n v 0 ≤ cn.beg → k ≤ cn.beg) ∧
      ∀ i, 0 < i → i + 1 < v.length → p.dev[i]? = some (max k (target n v i)) := by
  unfold splitPlan at hpl
  cases hcm : splitCommon (v.map Fl.fin) with
  | error e => rw [hcm] at hpl; cases hpl
  | ok u =>
    rw [hcm] at hpl
    simp only [bind, Except.bind, if_true] at hpl
    split_ifs at hpl with c1 c2
    swap
    · cases hpl; exact absurd rfl hdev
    match v, c2 with
    | x :: y :: rest, _ =>
      have hx := h0 x List.mem_cons_self
      have hv' : ∀ z ∈ y :: rest, 0 ≤ z := fun z hz => h0 z (List.mem_cons_of_mem _ hz)
      obtain ⟨is, i1, i2, i3⟩ := cudaIdx_exact (A := A) hD hA (n := n) hn hp hv' hx (by rw [← List.sum_cons])
      unfold cudaPlan at hpl
      rw [sum_fin hD, zero_add] at hpl
      simp only [List.map_cons, List.headD_cons, List.tail_cons, bind, Except.bind] at hpl i1
      rw [i1] at hpl
      simp only at hpl
      match is, i2 with
      | j0 :: is', i2 =>
        obtain ⟨c, hc, hb, hlo, hhi⟩ := T.boundary_eq j0
        rw [List.headD_cons, hb] at hpl
        simp only [ofUB, List.tail_cons] at hpl
        have hj0 : j0 = target n (x :: y :: rest) 0 := by
          have := i3 0 (by simp)
          simpa [target] using this
        have hk : j0 ≤ cut crit n c := by
          rcases Nat.lt_or_ge c crit.length with hcl | hcl
          · rw [cut_lt hcl]; exact hhi c le_rfl hcl
          · rw [cut_ge hcl, hj0]
            unfold target
            apply floor_le_nat
            have : (List.take (0 + 1) (x :: y :: rest)).sum / (x :: y :: rest).sum ≤ 1 := by
              rw [div_le_one hp]
              have : 0 ≤ (y :: rest).sum := List.sum_nonneg hv'
              simp only [zero_add, List.take_succ_cons, List.take_zero, List.sum_cons, List.sum_nil, add_zero] at this ⊢
              linarith
            have hn0 : (0 : K) ≤ n := by positivity
            nlinarith
        split_ifs at hpl with hall
        swap
        · cases hpl; exact absurd rfl hdev
        cases hpl
        refine ⟨cut crit n c, rfl, hj0 ▸ hk, ?_, ?_, ?_⟩
        · rcases Nat.lt_or_ge c crit.length with hcl | hcl
          · right; exact ⟨crit[c], List.getElem_mem hcl, cut_lt hcl⟩
          · left; exact cut_ge hcl
        · intro cn hcn hle
          obtain ⟨t, ht, rfl⟩ := List.getElem_of_mem hcn
          have htc : c ≤ t := by
            by_contra hlt
            have := hlo t (by omega) ht
            omega
          have := T.cut_mono htc
          rwa [cut_lt ht] at this
        · intro i hi hil
          obtain ⟨i, rfl⟩ := Nat.exists_eq_succ_of_ne_zero (by omega : i ≠ 0)
          have := i3 (i + 1) (by simpa using hil)
          rw [List.getElem?_cons_succ] at this
          rw [List.getElem?_cons_succ, List.getElem?_map, this]
          simp only [Option.map_some, Option.some.injEq]
          have e : ⌊(x + (List.take (i + 1) (y :: rest)).sum) / (x :: y :: rest).sum * n⌋.toNat = target n (x :: y :: rest) i.succ := by
            unfold target
            simp only [Nat.succ_eq_add_one, List.take_succ_cons, List.sum_cons]
          rw [e]
          split <;> omega

/-! ### The formats in use -/

/-- Whole numbers up to `2 ^ prec` are values of a format. -/
theorem Format.rnd_nat {f : Format} (h : f.Ok) (he : f.emin ≤ 0) (hx : (f.prec : ℤ) < f.emax) (fused : Bool) {n : Nat} (hn : n ≤ 2 ^ f.prec) :
    (f.ieee fused).rnd n = .fin n := by
  have h1 : f.near (n : ℚ) = n := by
    have := f.near_repr h.prec (m := n) (e := 0) he (by
      rw [abs_of_nonneg (by positivity)]
      exact_mod_cast hn)
    simpa using this
  show f.rnd n = _
  rw [f.rnd_fin, h1]
  rw [h1, abs_of_nonneg (by positivity)]
  calc (n : ℚ) ≤ 2 ^ f.prec := by exact_mod_cast hn
    _ = 2 ^ (f.prec : ℤ) := by rw [zpow_natCast]
    _ < 2 ^ f.emax := zpow_lt_zpow_right₀ (by norm_num) hx

/-- C29 with CUDA for `double`, up to `2 ^ 53` particles, in full but for splits whose sum overflows. -/
theorem C29_double {fused : Bool} {simd : Option (Simd ℚ)} (hs : Supported w d) {s : TS (rakauEnv (binary64.ieee fused) simd mac w d)} (h : Reach _ s)
    (hz : s.n * cbits w d < 2 ^ 64) (hn : s.n ≤ 2 ^ 53) {B : Backend} {types : Bool} {split : List (Fl ℚ)} (hv : SplitOk (B.accelerators types + 1) split)
    (hr : ∀ q, Fl.fin q ∈ split → binary64.rnd q = .fin q) {a : ℚ} (hsum : split.foldl (binary64.ieee fused).add (.fin 0) = .fin a) :
    ∃ p, splitPlan B (binary64.ieee fused) (binary64.ieee fused) types s.crit s.n split = .ok p ∧ p.Good s.crit s.n B.least split.length := by
  have hf := Format.rnd_nat binary64_ok (by decide) (by decide) fused hn
  exact C29_partial (binary64.arith_laws binary64_ok fused _) hs h hz hv hr (fun _ _ => ⟨a, s.n, hsum, hf, hf, by positivity, le_rfl⟩)

/-- C29 with CUDA for `float`, up to `2 ^ 24` particles, in full but for splits whose sum overflows. -/
theorem C29_float {fused : Bool} {simd : Option (Simd ℚ)} (hs : Supported w d) {s : TS (rakauEnv (binary32.ieee fused) simd mac w d)} (h : Reach _ s)
    (hz : s.n * cbits w d < 2 ^ 64) (hn : s.n ≤ 2 ^ 24) {B : Backend} {types : Bool} {split : List (Fl ℚ)} (hv : SplitOk (B.accelerators types + 1) split)
    (hr : ∀ q, Fl.fin q ∈ split → binary64.rnd q = .fin q) {a : ℚ} (hsum : split.foldl (binary64.ieee fused).add (.fin 0) = .fin a) :
    ∃ p, splitPlan B (binary64.ieee fused) (binary32.ieee fused) types s.crit s.n split = .ok p ∧ p.Good s.crit s.n B.least split.length := by
  have hf := Format.rnd_nat binary32_ok (by decide) (by decide) fused hn
  have hg := Format.rnd_nat binary64_ok (by decide) (by decide) fused (show s.n ≤ 2 ^ binary64.prec from hn.trans (by decide))
  exact C29_partial (binary64.arith_laws binary64_ok fused _) hs h hz hv hr (fun _ _ => ⟨a, s.n, hsum, hf, hg, by positivity, le_rfl⟩)

/-! ### Counterexamples -/

/-- C29 is false in general: for `float` and 16777219 particles, which are rounded to 16777220, the split `{1, 1, 0}` on a CPU and two CUDA devices gives the first device a
particle that does not exist, and the second one a reversed range (whose size wraps around and is therefore large enough), for every tree with a critical
node that starts in the third quarter or a little later. -/
theorem C29_fails_round {crit : List CNode} (T : Tiled crit 16777219) (hc : ∃ cn ∈ crit, 8388610 ≤ cn.beg ∧ cn.beg ≤ 16776220) :
    SplitOk 3 [Fl.fin (1 : ℚ), .fin 1, .fin 0] ∧
    ∃ p, splitPlan (.cuda 2) (binary64.ieee false) (binary32.ieee false) true crit 16777219 [.fin 1, .fin 1, .fin 0] = .ok p ∧
      ¬ p.dev.Pairwise (· ≤ ·) ∧ 16777219 ∈ indices (between p.dev) ∧ ¬ Shares 16777219 ((crit.take p.cpu).map CNode.rng) p.dev := by
  refine ⟨⟨by simp, fun _ => ⟨1, by simp, by norm_num⟩, by simp⟩, ?_⟩
  have hidx : cudaIdx (binary64.ieee false) (binary32.ieee false) 16777219 (.fin 2) (.fin 1) [.fin 1, .fin 0] = .ok [8388610, 16777220, 16777219] := by
    decide +kernel
  obtain ⟨c, hcl, hb, hlo, hhi⟩ := T.boundary_eq 8388610
  obtain ⟨cn, hm, m1, m2⟩ := hc
  obtain ⟨t, ht, rfl⟩ := List.getElem_of_mem hm
  have htc : c ≤ t := by
    by_contra hlt
    have := hlo t (by omega) ht
    omega
  have hk : cut crit 16777219 c ≤ 16776220 := by
    have := T.cut_mono htc
    rw [cut_lt ht] at this
    omega
  have hk0 : 8388610 ≤ cut crit 16777219 c := by rw [cut_lt (by omega)]; exact hhi c le_rfl (by omega)
  refine ⟨⟨c, [cut crit 16777219 c, 16777220, 16777219]⟩, ?_, by simp, ?_, ?_⟩
  · unfold splitPlan
    rw [show splitCommon [Fl.fin (1 : ℚ), .fin 1, .fin 0] = .ok () by decide +kernel]
    simp only [bind, Except.bind]
    rw [if_neg (by decide), if_pos trivial, if_pos (by decide)]
    unfold cudaPlan
    rw [show List.foldl (binary64.ieee false).add (.fin 0) [.fin 1, .fin 1, .fin 0] = .fin 2 by decide +kernel]
    simp only [List.headD_cons, List.tail_cons, bind, Except.bind]
    rw [hidx]
    simp only [List.headD_cons, List.tail_cons]
    rw [hb]
    simp only [ofUB, List.map_cons, List.map_nil]
    rw [show (if 16777220 < cut crit 16777219 c then cut crit 16777219 c else 16777220) = 16777220 from if_neg (by omega),
      show (if 16777219 < cut crit 16777219 c then cut crit 16777219 c else 16777219) = 16777219 from if_neg (by omega), if_pos]
    have h1 : ¬ subW 64 16777220 (cut crit 16777219 c) < 1000 := by rw [subW_sorted (by omega) (by omega)]; omega
    have h2 : ¬ subW 64 16777219 16777220 < 1000 := by decide
    simp [cudaMinSize, h1, h2]
  · simp only [indices, between, List.tail_cons, List.zip_cons_cons, List.zip_nil_right, List.flatMap_cons, List.flatMap_nil, List.append_nil, List.mem_append]
    left
    rw [List.mem_range'_1]
    omega
  · intro hsh
    have := hsh.sorted
    simp at this

/-- C29 is false in general: the sum of the split values may overflow. With three values `2 ^ 1023` an infinity is divided by an infinity, and the conversion of a NaN to
an integer is undefined; for every tree. -/
theorem C29_fails_nan {A : Arith ℚ} (hA : A.Laws) (crit : List CNode) {n : Nat} (hn : n < 2 ^ 64) :
    SplitOk 3 [Fl.fin (2 ^ 1023 : ℚ), .fin (2 ^ 1023), .fin (2 ^ 1023)] ∧
    splitPlan (.cuda 2) (binary64.ieee false) A true crit n [.fin (2 ^ 1023), .fin (2 ^ 1023), .fin (2 ^ 1023)] = .error .ub := by
  refine ⟨⟨?_, fun _ => ⟨2 ^ 1023, by simp, by positivity⟩, by simp⟩, ?_⟩
  · intro x hx
    simp only [List.mem_cons, List.not_mem_nil, or_false] at hx
    refine ⟨2 ^ 1023, by tauto, by positivity⟩
  · obtain ⟨f, f1, _, _⟩ := hA.between (show (0 : ℚ) ≤ n by positivity) (show (n : ℚ) ≤ 2 ^ 64 by exact_mod_cast hn.le) hA.zero (hA.pow 64 le_rfl)
    unfold splitPlan
    rw [show splitCommon [Fl.fin (2 ^ 1023 : ℚ), .fin (2 ^ 1023), .fin (2 ^ 1023)] = .ok () by decide +kernel]
    simp only [bind, Except.bind]
    rw [if_neg (by simp), if_pos trivial, if_pos (by simp)]
    unfold cudaPlan
    rw [show List.foldl (binary64.ieee false).add (.fin 0) [.fin (2 ^ 1023), .fin (2 ^ 1023), .fin (2 ^ 1023)] = .inf false by decide +kernel]
    simp only [List.headD_cons, List.tail_cons, cudaIdx, f1, bind, Except.bind]
    rw [show (binary64.ieee false).div (.fin (2 ^ 1023)) (.inf false) = .fin 0 from rfl,
      show (binary64.ieee false).add (.fin (2 ^ 1023)) (.fin (2 ^ 1023)) = .inf false by decide +kernel]
    have e : (binary64.ieee false).mul (.fin 0) (.fin f) = .fin 0 := by
      unfold Arith.mul Arith.mulPre
      simp only [zero_mul]
      exact (binary64.arith_laws binary64_ok false _).zero
    rw [e, castSz_fin le_rfl (by norm_num)]
    rfl

/-! ### Examples -/

/-- Three critical nodes of 3000 particles, a CPU and two devices with the split `{1, 3, 2}`: the first projection 500 is moved to the start of the second node. -/
def splitCrit : List CNode := [⟨8, 0, 700⟩, ⟨9, 700, 1000⟩, ⟨10, 1000, 3000⟩]

theorem splitCrit_tiled : Tiled splitCrit 3000 := by
  unfold splitCrit
  refine ⟨?_, ?_, ?_, by simp⟩
  · intro i hi; simp only [List.length_cons, List.length_nil] at hi; interval_cases i <;> simp
  · intro i hi; simp only [List.length_cons, List.length_nil] at hi
    have : i < 2 := by omega
    interval_cases i <;> simp
  · intro _; simp

example : splitPlan (.cuda 2) (binary64.ieee false) (binary32.ieee false) true splitCrit 3000 [.fin 1, .fin 3, .fin 2] = .ok ⟨1, [700, 2000, 3000]⟩ := by
  decide +kernel
example : ∃ k, [700, 2000, 3000][0]? = some k ∧ target 3000 [(1 : ℚ), 3, 2] 0 ≤ k ∧ (k = 3000 ∨ ∃ cn ∈ splitCrit, k = cn.beg) ∧
    (∀ cn ∈ splitCrit, target 3000 [(1 : ℚ), 3, 2] 0 ≤ cn.beg → k ≤ cn.beg) ∧
    ∀ i, 0 < i → i + 1 < 3 → [700, 2000, 3000][i]? = some (max k (target 3000 [(1 : ℚ), 3, 2] i)) :=
  C29_proportions (A := sqQ) (D := sqQ) sqQ_exact sqQ_exact splitCrit_tiled (by decide) (devices := 2) (v := [1, 3, 2]) (p := ⟨1, [700, 2000, 3000]⟩)
    (by simp) (by norm_num) (by decide +kernel) (by simp)

/-- Double and single precision. -/
example : ∃ p, splitPlan (.cuda 1) (binary64.ieee true) (binary64.ieee true) true (mixS none).crit (mixS none).n [.fin 1, .fin 2] = .ok p ∧
    p.Good (mixS none).crit (mixS none).n 1000 2 :=
  C29_double ⟨.inl rfl, .inr rfl⟩ mix_reach.2 (by decide +kernel) (by decide +kernel) (B := .cuda 1) (types := true) (split := [.fin 1, .fin 2])
    ⟨by simp, fun _ => ⟨1, by simp, by norm_num⟩, by decide⟩
    (fun q hq => by simp only [List.mem_cons, Fl.fin.injEq, List.not_mem_nil, or_false] at hq; rcases hq with rfl | rfl <;> decide +kernel)
    (a := 3) (by decide +kernel)
example : ∃ p, splitPlan (.cuda 1) (binary64.ieee true) (binary32.ieee true) true ovS.crit ovS.n [.fin 1, .fin 2] = .ok p ∧
    p.Good ovS.crit ovS.n 1000 2 :=
  C29_float ⟨.inl rfl, .inr rfl⟩ ov_reach (by decide +kernel) (by decide +kernel) (B := .cuda 1) (types := true) (split := [.fin 1, .fin 2])
    ⟨by simp, fun _ => ⟨1, by simp, by norm_num⟩, by decide⟩
    (fun q hq => by simp only [List.mem_cons, Fl.fin.injEq, List.not_mem_nil, or_false] at hq; rcases hq with rfl | rfl <;> decide +kernel)
    (a := 3) (by decide +kernel)

/-- Critical nodes as in `C29_fails_round`. -/
example : Tiled [⟨1, 0, 9000000⟩, ⟨1, 9000000, 16777219⟩] 16777219 ∧
    ∃ cn ∈ [(⟨1, 0, 9000000⟩ : CNode), ⟨1, 9000000, 16777219⟩], 8388610 ≤ cn.beg ∧ cn.beg ≤ 16776220 := by
  refine ⟨⟨?_, ?_, ?_, by simp⟩, by simp⟩
  · intro i hi; simp only [List.length_cons, List.length_nil] at hi; interval_cases i <;> simp
  · intro i hi; simp only [List.length_cons, List.length_nil] at hi
    have : i < 1 := by omega
    interval_cases i; simp
  · intro _; simp

/-- The sample tree with five particles, ROCm for at least two of them: the CPU gets two, the accelerator three. -/
example : ∃ p, splitPlan (.rocm true 2) sqQ sqQ true (gS .bh).crit (gS .bh).n [.fin 1, .fin 1] = .ok p ∧ p.Good (gS .bh).crit (gS .bh).n 2 2 :=
  C29_rocm (exact_laws sqQ_exact) g_supp (g_reach .bh) (g_size .bh) true true 2 (split := [.fin 1, .fin 1])
    ⟨by simp, fun _ => ⟨1, by simp, by norm_num⟩, by decide⟩ (fun _ _ => rfl)
example : splitPlan (.rocm true 2) sqQ sqQ true (gS .bh).crit (gS .bh).n [.fin 1, .fin 1] = .ok ⟨2, [2, 5]⟩ := by decide +kernel

/-- The same tree with CUDA: there are not enough particles, all remain on the CPU. -/
example : splitPlan (.cuda 1) sqQ sqQ true (gS .bh).crit (gS .bh).n [.fin 1, .fin 1] = .ok ⟨4, []⟩ := by decide +kernel
example : ∃ p, splitPlan (.cuda 1) sqQ sqQ true (gS .bh).crit (gS .bh).n [.fin 1, .fin 1] = .ok p ∧ p.Good (gS .bh).crit (gS .bh).n 1000 2 :=
  C29_partial (exact_laws sqQ_exact) g_supp (g_reach .bh) (g_size .bh) (B := .cuda 1) (types := true) (split := [.fin 1, .fin 1])
    ⟨by simp, fun _ => ⟨1, by simp, by norm_num⟩, by decide⟩ (fun _ _ => rfl)
    (fun _ _ => ⟨2, 5, by decide +kernel, by decide +kernel, rfl, by norm_num, by rw [g_n]; norm_num⟩)

/-- Invalid splits: a negative value, all zero, an infinity, too many values. -/
example : splitPlan (.cuda 1) sqQ sqQ true (gS .bh).crit (gS .bh).n [.fin 1, .fin (-1)] = .error .invalidArg :=
  C29_rejects _ _ _ _ _ _ (fun h => by
    obtain ⟨q, e, hq⟩ := h.nonneg (.fin (-1)) (by simp)
    cases e; norm_num at hq)
example : splitPlan (.cuda 1) sqQ sqQ true (gS .bh).crit (gS .bh).n [.fin 1, .fin 1, .fin 1] = .error .invalidArg :=
  C29_rejects _ _ _ _ _ _ (fun h => by have := h.count; simp [Backend.accelerators] at this)

end Rakau
