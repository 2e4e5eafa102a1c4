import Verif.Proof.Gpu

/-! The terms of the accelerator kernels: the term of a particle with itself, and the values in exact arithmetic. -/
set_option linter.unusedSectionVars false

namespace Rakau
open Spec

variable {K : Type} [Field K] [LinearOrder K] [IsStrictOrderedRing K] [FloorRing K]

/-! ### The term of a particle with itself -/

/-- Finite values are values of the format. -/
def RepF (A : Arith K) (a : Fl K) : Prop := ∀ q, a = .fin q → A.rnd q = .fin q

/-- The components of a result are values of the format, and there are at most `d` accelerations. -/
structure Rep (A : Arith K) (d : Nat) (r : Res K) : Prop where
  len : r.acc.length ≤ d
  acc : ∀ a ∈ r.acc, RepF A a
  pot : ∀ a ∈ r.pot, RepF A a

/-- Requirement on the square root of the device: not below 1 from 1 on. -/
def SqrtGe (A : Arith K) : Prop := ∀ q, 1 ≤ q → ∃ r, A.sqrt q = .fin r ∧ 1 ≤ r

/-- What is needed of the square root at `e + 1`: the factors for the particle itself are finite. -/
def SelfOk (A : Arith K) (e m : K) : Prop :=
  ∃ t : K, ∃ dist : Fl K, A.fsqrt (A.add (.fin e) (.fin 1)) = dist ∧ A.div (.fin m) (A.mul dist (A.add (.fin e) (.fin 1))) = .fin t ∧
    A.div (.fin 0) dist = .fin 0

section Self
variable {A : Arith K} (L : A.Laws)
include L

theorem repF_rnd (q : K) : RepF A (A.rnd q) := fun r hr => L.idem q r hr

theorem repF_add (a b : Fl K) : RepF A (A.add a b) := by
  intro q hq
  cases a <;> cases b <;> simp only [Arith.add] at hq
  all_goals first
    | exact L.idem _ _ hq
    | (split at hq <;> simp at hq)
    | simp at hq

theorem repF_fma (a b c : Fl K) : RepF A (A.fma a b c) := by
  intro q hq
  unfold Arith.fma at hq
  split at hq
  · cases hm : Arith.mulPre a b <;> rw [hm] at hq <;> cases c <;> simp only at hq
    all_goals first
      | exact L.idem _ _ hq
      | (split at hq <;> simp at hq)
      | simp at hq
  · exact repF_add L _ _ q hq

theorem fma_zero (t : K) {a : Fl K} (ha : RepF A a) : A.fma (.fin 0) (.fin t) a = a := by
  unfold Arith.fma Arith.mul Arith.mulPre
  simp only [zero_mul]
  rw [L.zero]
  cases a with
  | nan => split <;> rfl
  | inf s => split <;> rfl
  | fin q => split <;> simp only [Arith.add, zero_add] <;> exact ha q rfl

theorem sub_zero' {a : Fl K} (ha : RepF A a) : A.sub a (.fin 0) = a := by
  unfold Arith.sub Fl.neg
  cases a with
  | nan => rfl
  | inf s => rfl
  | fin q => simp only [Arith.add, neg_zero, add_zero]; exact ha q rfl

theorem diffs_self {l : List (Fl K)} (h : ∀ a ∈ l, a.isFinite = true) : diffs A l l = List.replicate l.length (.fin 0) := by
  unfold diffs
  induction l with
  | nil => rfl
  | cons a l ih =>
    rw [List.zipWith_cons_cons, ih (fun b hb => h b (List.mem_cons_of_mem _ hb)), List.length_cons, List.replicate_succ]
    congr 1
    have := h a List.mem_cons_self
    cases a with
    | nan => simp [Fl.isFinite] at this
    | inf s => simp [Fl.isFinite] at this
    | fin q => simp only [Arith.sub, Fl.neg, Arith.add, add_neg_cancel]; exact L.zero

theorem devD2_zero {a : Fl K} (ha : RepF A a) (n : Nat) : devD2 A a (List.replicate n (.fin 0)) = a := by
  unfold devD2
  induction n with
  | zero => rfl
  | succ n ih => rw [List.replicate_succ, List.foldl_cons, fma_zero L 0 ha, ih]

theorem zipWith_zero (t : K) (n : Nat) {acc : List (Fl K)} (hl : acc.length ≤ n) (h : ∀ a ∈ acc, RepF A a) :
    List.zipWith (fun t' a => A.fma t' (.fin t) a) (List.replicate n (.fin 0)) acc = acc := by
  induction acc generalizing n with
  | nil => simp
  | cons a acc ih =>
    cases n with
    | zero => simp at hl
    | succ n =>
      rw [List.replicate_succ, List.zipWith_cons_cons, fma_zero L t (h a List.mem_cons_self), ih n (by simpa using hl)
        (fun b hb => h b (List.mem_cons_of_mem _ hb))]

/-- The kernel's factor for the accelerations, for the particle itself, is finite. -/
theorem self_factor (hq : SqrtGe A) {e m : K} (he : 0 ≤ e) (hm : A.rnd m = .fin m) : SelfOk A e m := by
  unfold SelfOk
  have hadd : A.add (.fin e) (.fin 1) = A.rnd (e + 1) := rfl
  rw [hadd]
  rcases L.above (show (1 : K) ≤ e + 1 by linarith) L.one with h | ⟨q, h, h1⟩
  · rw [h]
    exact ⟨0, _, rfl, rfl, rfl⟩
  · obtain ⟨r, r1, r2⟩ := hq q h1
    have hs : A.fsqrt (.fin q) = .fin r := by
      unfold Arith.fsqrt; simp only; rw [if_neg (by linarith), r1]
    rw [h, hs]
    suffices hh : ∃ t : K, A.div (.fin m) (A.rnd (r * q)) = .fin t by
      obtain ⟨t, ht⟩ := hh
      exact ⟨t, .fin r, rfl, ht, by unfold Arith.div; simp only; rw [if_neg (by linarith), zero_div, L.zero]⟩
    rcases L.above (show (1 : K) ≤ r * q by nlinarith) L.one with h' | ⟨y, h', h2⟩
    · rw [h']
      exact ⟨0, rfl⟩
    · rw [h']
      have hd : A.div (.fin m) (.fin y) = A.rnd (m / y) := by
        unfold Arith.div; simp only; rw [if_neg (by linarith)]
      rw [hd]
      have hy : 0 < y := by linarith
      rcases le_total 0 m with h0 | h0
      · obtain ⟨t, t1, _⟩ := L.between (show 0 ≤ m / y by positivity) (show m / y ≤ m from div_le_self h0 h2) L.zero hm
        exact ⟨t, t1⟩
      · have e1 : m ≤ m / y := by rw [le_div_iff₀ hy]; nlinarith
        have e2 : m / y ≤ 0 := div_nonpos_of_nonpos_of_nonneg h0 hy.le
        obtain ⟨t, t1, _⟩ := L.between e1 e2 hm L.zero
        exact ⟨t, t1⟩

theorem devPair_self {e m : K} (hS : SelfOk A e m) {p : Pt K} (hp : ∀ a ∈ p.pos, a.isFinite = true) (hpm : p.mass = .fin m)
    {r : Res K} (hr : Rep A p.pos.length r) : devPair A (.fin e) true p p r = r := by
  obtain ⟨t, dist, d1, d2, d3⟩ := hS
  unfold devPair
  simp only [if_true]
  rw [diffs_self L hp, devD2_zero L (repF_add L _ _), d1, hpm, d2, zipWith_zero L t _ hr.len hr.acc]
  have hz : A.mul (A.mul (.fin 0) (.fin m)) (.fin m) = .fin 0 := by
    unfold Arith.mul Arith.mulPre
    simp only [zero_mul]
    rw [L.zero]
    simp only [zero_mul]
    exact L.zero
  rw [hz, d3]
  congr 1
  conv_rhs => rw [← List.map_id r.pot]
  apply List.map_congr_left
  intro a ha
  exact sub_zero' L (hr.pot a ha)

omit L in
theorem mem_zipWith' {α β γ : Type} {f : α → β → γ} {l : List α} {l' : List β} {c : γ} (h : c ∈ List.zipWith f l l') :
    ∃ a b, c = f a b := by
  induction l generalizing l' with
  | nil => simp at h
  | cons a l ih =>
    cases l' with
    | nil => simp at h
    | cons b l' =>
      rw [List.zipWith_cons_cons, List.mem_cons] at h
      rcases h with rfl | h
      · exact ⟨a, b, rfl⟩
      · exact ih h

theorem rep_pair (eps2 : Fl K) (self : Bool) (p q : Pt K) {d : Nat} {r : Res K} (hr : Rep A d r) : Rep A d (devPair A eps2 self p q r) := by
  unfold devPair
  refine ⟨?_, ?_, ?_⟩
  · have := hr.len
    simp only [List.length_zipWith]
    omega
  · intro a ha
    obtain ⟨_, _, rfl⟩ := mem_zipWith' ha
    exact repF_fma L _ _ _
  · intro a ha
    obtain ⟨_, _, rfl⟩ := List.mem_map.1 ha
    exact repF_add L _ _

theorem rep_com (eps2 : Fl K) (df : List (Fl K)) (dist2 m : Fl K) (p : Pt K) {d : Nat} {r : Res K} (hr : Rep A d r) :
    Rep A d (devCom A eps2 df dist2 m p r) := by
  unfold devCom
  refine ⟨?_, ?_, ?_⟩
  · have := hr.len
    simp only [List.length_zipWith]
    omega
  · intro a ha
    obtain ⟨_, _, rfl⟩ := mem_zipWith' ha
    exact repF_fma L _ _ _
  · intro a ha
    obtain ⟨_, _, rfl⟩ := List.mem_map.1 ha
    exact repF_add L _ _

theorem rep_zero (Q : Quant) (d : Nat) : Rep A d (resZero Q d) := by
  unfold resZero
  refine ⟨by simp only; split <;> simp, ?_, ?_⟩
  · intro a ha q hq
    simp only at ha
    split at ha
    · simp at ha
    · rw [List.mem_replicate] at ha
      rw [ha.2] at hq
      simp only [Fl.fin.injEq] at hq
      rw [← hq]; exact L.zero
  · intro a ha q hq
    simp only at ha
    split at ha
    · simp at ha
    · rw [List.mem_singleton] at ha
      rw [ha] at hq
      simp only [Fl.fin.injEq] at hq
      rw [← hq]; exact L.zero

end Self

namespace Gpu

/-- The effect of a visit on the result of particle `k`, without the term of `k` with itself. -/
def visOthers (c : Gpu K) (k : Nat) (r : Res K) (v : Visit) : Res K :=
  match v.ev with
  | none => r
  | some (.com i) =>
    devCom c.A c.eps2 (diffs c.A (c.pt k).pos (c.pr i).com) (devD2 c.A (.fin 0) (diffs c.A (c.pt k).pos (c.pr i).com)) (c.pr i).mass (c.pt k) r
  | some (.leaf i) => ((c.srcs i).filter (· ≠ k)).foldl (fun r l => devPair c.A c.eps2 false (c.pt k) (c.pt l) r) r

theorem foldl_others {c : Gpu K} (L : c.A.Laws) {e m : K} (hS : SelfOk c.A e m) (hE : c.eps2 = .fin e) {k : Nat}
    (hp : ∀ a ∈ (c.pt k).pos, a.isFinite = true) (hpm : (c.pt k).mass = .fin m) (l : List Nat) {r : Res K} (hr : Rep c.A (c.pt k).pos.length r) :
    l.foldl (fun r l => devPair c.A c.eps2 (decide (k = l)) (c.pt k) (c.pt l) r) r =
        (l.filter (· ≠ k)).foldl (fun r l => devPair c.A c.eps2 false (c.pt k) (c.pt l) r) r ∧
      Rep c.A (c.pt k).pos.length (l.foldl (fun r l => devPair c.A c.eps2 (decide (k = l)) (c.pt k) (c.pt l) r) r) := by
  induction l generalizing r with
  | nil => exact ⟨rfl, hr⟩
  | cons a l ih =>
    rw [List.foldl_cons]
    by_cases hk : k = a
    · subst hk
      rw [hE]
      rw [hE] at ih
      simp only [decide_true]
      rw [devPair_self L hS hp hpm hr, List.filter_cons_of_neg (by simp)]
      exact ih hr
    · rw [List.filter_cons_of_pos (by simpa using Ne.symm hk), List.foldl_cons]
      have h1 := ih (rep_pair L c.eps2 (decide (k = a)) (c.pt k) (c.pt a) hr)
      rw [decide_eq_false hk] at h1 ⊢
      exact h1

theorem total_others {c : Gpu K} (L : c.A.Laws) {e m : K} (hS : SelfOk c.A e m) (hE : c.eps2 = .fin e) {k : Nat}
    (hl : (c.pt k).pos.length = c.d) (hp : ∀ a ∈ (c.pt k).pos, a.isFinite = true) (hpm : (c.pt k).mass = .fin m) (vs : List Visit) :
    c.total vs k = resScale c.A c.G (vs.foldl (c.visOthers k) (resZero c.Q c.d)) := by
  unfold total
  congr 1
  have h0 : Rep c.A (c.pt k).pos.length (resZero c.Q c.d : Res K) := by rw [hl]; exact rep_zero L _ _
  generalize (resZero c.Q c.d : Res K) = r at h0
  induction vs generalizing r with
  | nil => rfl
  | cons v vs ih =>
    rw [List.foldl_cons, List.foldl_cons]
    have key : c.visUpd k r v = c.visOthers k r v ∧ Rep c.A (c.pt k).pos.length (c.visUpd k r v) := by
      unfold visUpd visOthers
      cases hv : v.ev with
      | none => exact ⟨rfl, h0⟩
      | some ev =>
        cases ev with
        | com i => exact ⟨rfl, rep_com L _ _ _ _ _ h0⟩
        | leaf i => exact foldl_others L hS hE hp hpm _ h0
    rw [← key.1]
    exact ih _ key.2

end Gpu

/-! ### Exact arithmetic -/

/-- The kernels of the accelerators: scalar, with the square root of the device. -/
abbrev devMode (A : Arith K) : Mode K := ⟨false, A, none⟩

section Val
variable {A : Arith K} (hA : A.Exact) {d : Nat} {Q : Quant} {e m m' : K} {y z : Nat → K}
include hA

theorem self_exact (hq : SqrtOk A) (he : 0 ≤ e) (m : K) : SelfOk A e m := by
  obtain ⟨r, r1, _, _, r4⟩ := hq (e + 1) (by linarith)
  have hr := (r4 (by linarith)).1
  have hs : A.fsqrt (.fin (e + 1)) = .fin r := by
    unfold Arith.fsqrt; simp only; rw [if_neg (by linarith), r1]
  refine ⟨m / (r * (e + 1)), .fin r, by rw [ex_add hA, hs], ?_, ?_⟩
  · rw [ex_add hA, ex_mul hA, ex_div hA (by positivity)]
  · rw [ex_div hA hr.ne', zero_div]

theorem devCom_eq (hq : SqrtOk A) (h0 : 0 < D2 d e y z) (v : Val K) :
    devCom A (.fin e) (diffs A (mkPt d y m).pos (Arr d (fun j => .fin (z j)))) (devD2 A (.fin 0) (diffs A (mkPt d y m).pos (Arr d (fun j => .fin (z j)))))
      (.fin m') (mkPt d y m) (mkRes Q d v) = mkRes Q d (v + grav (devMode A).inv1 (devMode A).inv3 d e y m z m') := by
  have hi := invAt_mode (M := devMode A) hA hq (fun _ hr => by cases hr) h0
  unfold devCom devD2 mkPt
  simp only
  rw [diffs_eq hA, foldl_fma hA, add_zero, ex_add hA]
  have e1 : A.div (.fin m') (A.mul (A.fsqrt (.fin (∑ j ∈ Finset.range d, (z j - y j) ^ 2 + e))) (.fin (∑ j ∈ Finset.range d, (z j - y j) ^ 2 + e))) =
      .fin (m' * (devMode A).inv3 (D2 d e y z)) := (hi m').2
  have e2 : A.div (.fin (m * m')) (A.fsqrt (.fin (∑ j ∈ Finset.range d, (z j - y j) ^ 2 + e))) =
      .fin (m * m' * (devMode A).inv1 (D2 d e y z)) := (hi (m * m')).1
  rw [e1, ex_mul hA, e2]
  unfold mkRes
  simp only
  rw [accs_eq (M := devMode A) hA (fun h => by cases h)]
  congr 1
  by_cases h : Q = .acc
  · simp [h]
  · simp only [if_neg h, List.map_cons, List.map_nil]
    rw [ex_sub hA]
    show [Fl.fin (v.2 - _)] = [Fl.fin (v.2 + -(m * m' * (devMode A).inv1 (D2 d e y z)))]
    rw [sub_eq_add_neg]

theorem devPair_eq (hq : SqrtOk A) (h0 : 0 < D2 d e y z) (v : Val K) :
    devPair A (.fin e) false (mkPt d y m) (mkPt d z m') (mkRes Q d v) =
      mkRes Q d (v + grav (devMode A).inv1 (devMode A).inv3 d e y m z m') := by
  have hi := invAt_mode (M := devMode A) hA hq (fun _ hr => by cases hr) h0
  unfold devPair devD2 mkPt
  simp only [Bool.false_eq_true, if_false]
  rw [diffs_eq hA, ex_add hA, foldl_fma hA, add_zero]
  have e1 : A.div (.fin m') (A.mul (A.fsqrt (.fin (∑ j ∈ Finset.range d, (z j - y j) ^ 2 + e))) (.fin (∑ j ∈ Finset.range d, (z j - y j) ^ 2 + e))) =
      .fin (m' * (devMode A).inv3 (D2 d e y z)) := (hi m').2
  have e2 : A.div (.fin (m * m')) (A.fsqrt (.fin (∑ j ∈ Finset.range d, (z j - y j) ^ 2 + e))) =
      .fin (m * m' * (devMode A).inv1 (D2 d e y z)) := (hi (m * m')).1
  rw [e1, ex_mul hA, one_mul, ex_mul hA, e2]
  unfold mkRes
  simp only
  rw [accs_eq (M := devMode A) hA (fun h => by cases h)]
  congr 1
  by_cases h : Q = .acc
  · simp [h]
  · simp only [if_neg h, List.map_cons, List.map_nil]
    rw [ex_sub hA]
    show [Fl.fin (v.2 - _)] = [Fl.fin (v.2 + -(m * m' * (devMode A).inv1 (D2 d e y z)))]
    rw [sub_eq_add_neg]

end Val

theorem mul_exact {A B : Arith K} (hA : A.Exact) (hB : B.Exact) (a b : Fl K) : A.mul a b = B.mul a b := by
  unfold Arith.mul
  cases Arith.mulPre a b <;> simp only [hA _, hB _]

theorem add_exact {A B : Arith K} (hA : A.Exact) (hB : B.Exact) (a b : Fl K) : A.add a b = B.add a b := by
  cases a <;> cases b <;> simp only [Arith.add, hA _, hB _]

section Dev
variable {A : Arith K} {simd : Option (Simd K)} {mac : Mac} {w d : Nat} {s : TS (rakauEnv A simd mac w d)}
  {rsqrt : Option (Fl K → Fl K)} {over : Overshift} {x : Nat → Nat → K} {b mv e : K} (H : Sit s rsqrt over x b mv e) {Dv : Arith K}
  (hD : Dv.Exact) (Q : Quant) (g : K)

/-- What the kernels read. -/
abbrev TS.gc (s : TS (rakauEnv A simd mac w d)) (Dv : Arith K) (Q : Quant) (mv g e : K) : Gpu K := s.gpu Dv Q (.fin mv) (.fin g) (.fin e)

/-- What a visit adds to the result of particle `k`. -/
def TS.visOut (s : TS (rakauEnv A simd mac w d)) (M : Mode K) (e : K) (x : Nat → Nat → K) (k : Nat) (v : Visit) : Val K :=
  match v.ev with
  | none => 0
  | some (.com i) => s.cpull M e x k i
  | some (.leaf i) => ((((Ev.leaf i).particles s.tree).filter (· ≠ k)).map (pull M d e x k)).sum

include H

theorem Sit.gpt_eq {k : Nat} (hk : k < s.n) : (s.gc Dv Q mv g e).pt k = mkPt d (fun j => x j k) (x d k) := H.pt_eq Q g hk

include hD in
theorem Sit.glh_eq {i : Nat} (hi : i < s.tree.length) : macLh Dv mac (.fin mv) ((s.gc Dv Q mv g e).pr i) = .fin (s.bound b mv i) := by
  rw [← (H.lh_eq Q g hi).1]
  show macLh Dv mac _ ((s.fc rsqrt over Q mv g e).pr i) = _
  obtain ⟨hp, h1⟩ := H.pr_idx Q g hi
  obtain ⟨_, com, cen, c1, c2, c3, c4, c5, c6⟩ := C19_size H.exact H.batch H.supp H.reach H.size H.box H.data hi
  rw [h1]
  unfold macLh
  cases mac with
  | bh => exact mul_exact hD H.exact _ _
  | bhGeom =>
    obtain ⟨e1, e2⟩ := c6 rfl
    obtain ⟨r, r1, r2, _⟩ := H.sqrt _ (sqDist_nonneg' com cen)
    rw [r1] at e2
    simp only
    rw [e1, e2, ex_fma H.exact, ex_mul H.exact, ex_fma hD, ex_mul hD]

include hD in
/-- The vote of particle `k`. -/
theorem Sit.votes_eq {i : Nat} (hi : i < s.tree.length) {k : Nat} (hk : k < s.n) : (s.gc Dv Q mv g e).votes i k = true ↔
    (k < s.tree[i].beg ∨ s.tree[i].fin ≤ k) ∧ s.bound b mv i < s.cdist2 (fun j => x j k) i := by
  unfold Gpu.votes
  rw [Bool.and_eq_true, decide_eq_true_eq, Gpu.srcs_eq hi, H.gpt_eq Q g hk]
  have h1 := (H.pr_eq Q g hi).1
  have h2 : macLh (s.gc Dv Q mv g e).A (s.gc Dv Q mv g e).mac (s.gc Dv Q mv g e).macVal ((s.gc Dv Q mv g e).pr i) = .fin (s.bound b mv i) := H.glh_eq hD Q g hi
  have h3 : ((s.gc Dv Q mv g e).pr i).com = Arr d (fun j => .fin (s.cx i j)) := h1
  rw [h2, h3]
  unfold mkPt devD2
  simp only
  have hD' : (s.gc Dv Q mv g e).A.Exact := hD
  rw [diffs_eq hD', foldl_fma hD', List.mem_range'_1]
  have hr := reach_range H.supp H.reach H.size (List.getElem_mem hi)
  have e0 : (s.gc Dv Q mv g e).tree[i] = s.tree[i] := rfl
  rw [e0]
  unfold Fl.lt TS.cdist2 D2
  rw [decide_eq_true_eq]
  refine and_congr ?_ Iff.rfl
  omega

include hD in
/-- One visit. -/
theorem Sit.visOthers_eq (hq : SqrtOk Dv) (hsep : ∀ k l, k < s.n → l < s.n → k ≠ l → 0 < D2 d e (fun j => x j k) (fun j => x j l)) {acc : Nat → Bool} {k : Nat}
    (hk : k < s.n) (hacc : ∀ i, i < s.tree.length → acc i = true → s.bound b mv i < s.cdist2 (fun j => x j k) i) {v : Visit} (hv : v.DevOk s.tree acc) (r : Val K) :
    (s.gc Dv Q mv g e).visOthers k (mkRes Q d r) v = mkRes Q d (r + s.visOut (devMode Dv) e x k v) := by
  unfold Gpu.visOthers TS.visOut
  rw [H.gpt_eq Q g hk]
  cases hev : v.ev with
  | none => simp
  | some ev =>
    cases ev with
    | com i =>
      obtain ⟨rfl, h2⟩ := hv.com i hev
      simp only
      have p1 : ((s.gc Dv Q mv g e).pr v.idx).com = _ := (H.pr_eq Q g hv.idx).1
      have p2 : ((s.gc Dv Q mv g e).pr v.idx).mass = _ := (H.pr_eq Q g hv.idx).2
      rw [p1, p2]
      have h3 := hacc _ hv.idx h2
      have h4 := (H.lh_eq Q g hv.idx).2
      have h5 : 0 < D2 d e (fun j => x j k) (s.cx v.idx) := by
        have e1 : D2 d e (fun j => x j k) (s.cx v.idx) = s.cdist2 (fun j => x j k) v.idx + e := by
          unfold TS.cdist2 D2; rw [add_zero]
        rw [e1]
        linarith [H.soft]
      exact devCom_eq hD hq h5 r
    | leaf i =>
      obtain ⟨rfl, _⟩ := hv.leaf i hev
      simp only
      have e1 : (s.gc Dv Q mv g e).srcs v.idx = (Ev.leaf v.idx).particles s.tree := by
        rw [Ev.particles_leaf hv.idx]
        exact Gpu.srcs_eq hv.idx
      rw [e1]
      apply foldl_vals
      intro l hl r
      rw [List.mem_filter, Ev.particles_leaf hv.idx, List.mem_range'_1, decide_eq_true_eq] at hl
      have hr := reach_range H.supp H.reach H.size (List.getElem_mem hv.idx)
      have l1 : l < s.n := by omega
      rw [H.gpt_eq Q g l1]
      exact devPair_eq hD hq (hsep k l hk l1 (Ne.symm hl.2)) r

include hD in
theorem Sit.gtotal_eq (hq : SqrtOk Dv) (hsep : ∀ k l, k < s.n → l < s.n → k ≠ l → 0 < D2 d e (fun j => x j k) (fun j => x j l)) {acc : Nat → Bool} {k : Nat}
    (hk : k < s.n) (hacc : ∀ i, i < s.tree.length → acc i = true → s.bound b mv i < s.cdist2 (fun j => x j k) i) {vs : List Visit}
    (hv : ∀ v ∈ vs, v.DevOk s.tree acc) :
    (s.gc Dv Q mv g e).total vs k = mkRes Q d (Val.smul g (vs.map (s.visOut (devMode Dv) e x k)).sum) := by
  have hpt := H.gpt_eq (Dv := Dv) Q g hk
  rw [Gpu.total_others (c := s.gc Dv Q mv g e) (e := e) (m := x d k) (exact_laws hD) (self_exact hD hq H.soft _) rfl (by rw [hpt]; simp [mkPt]; rfl)
    (by rw [hpt]; intro a ha; simp only [mkPt, Arr, List.mem_map] at ha; obtain ⟨j, _, rfl⟩ := ha; rfl) (by rw [hpt]; rfl)]
  show resScale Dv (.fin g) (vs.foldl ((s.gc Dv Q mv g e).visOthers k) (resZero Q d)) = _
  rw [resZero_eq, foldl_vals (mkRes Q d) _ (s.visOut (devMode Dv) e x k) vs (fun v hv' r => H.visOthers_eq hD Q g hq hsep hk hacc (hv v hv') r), zero_add,
    resScale_eq hD]

end Dev

end Rakau
