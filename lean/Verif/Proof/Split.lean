import Verif.Model.Split
import Verif.Spec.Split
import Verif.Props.AccPot

/-! The distribution of the work over CPU and accelerators. -/
set_option linter.unusedSectionVars false

namespace Rakau
open Spec

/-- The critical nodes tile the particles. -/
structure Tiled (crit : List CNode) (n : Nat) : Prop where
  pos : ∀ i (hi : i < crit.length), crit[i].beg < crit[i].fin
  next : ∀ i (hi : i + 1 < crit.length), crit[i].fin = crit[i + 1].beg
  first : ∀ h0 : 0 < crit.length, crit[0].beg = 0 ∧ crit[crit.length - 1].fin = n
  empty : crit = [] → n = 0

theorem reach_tiled {env : Env} (E : EnvOk env) {s : TS env} (h : Reach env s) (hz : s.n * cbits env.w env.d < 2 ^ 64) : Tiled s.crit s.n := by
  rcases Nat.eq_zero_or_pos s.n with h0 | h0
  · have hc : s.crit = [] := by
      by_contra hne
      obtain ⟨c, hc⟩ := List.exists_mem_of_ne_nil _ hne
      have := crit_pos h hc
      omega
    have e : s.crit.length = 0 := by rw [hc]; rfl
    exact ⟨fun i hi => by omega, fun i hi => by omega, fun h => by omega, fun _ => h0⟩
  · obtain ⟨hcl, B, split, hb⟩ := reach_build E h hz h0
    obtain ⟨t1, t2, t3, t4, _⟩ := C13_tiling B hb
    refine ⟨t3, t4, fun h => by rw [← hcl]; exact t2 h, fun he => ?_⟩
    rw [he] at t1; simp at t1

/-- The first particle after the first `c` critical nodes. -/
def cut (crit : List CNode) (n c : Nat) : Nat :=
  match crit[c]? with
  | some cn => cn.beg
  | none => n

theorem cut_lt {crit : List CNode} {n c : Nat} (hc : c < crit.length) : cut crit n c = crit[c].beg := by
  unfold cut; rw [List.getElem?_eq_getElem hc]

theorem cut_ge {crit : List CNode} {n c : Nat} (hc : crit.length ≤ c) : cut crit n c = n := by
  unfold cut; rw [List.getElem?_eq_none hc]

/-- The range of a critical node. -/
abbrev CNode.rng (cn : CNode) : Nat × Nat := (cn.beg, cn.fin)

namespace Tiled
variable {crit : List CNode} {n : Nat} (T : Tiled crit n)
include T

theorem cut_succ {c : Nat} (hc : c < crit.length) : cut crit n (c + 1) = crit[c].fin := by
  rcases Nat.lt_or_ge (c + 1) crit.length with h | h
  · rw [cut_lt h, T.next c h]
  · rw [cut_ge h]
    have := (T.first (by omega)).2
    rw [← this]
    congr 2; omega

theorem cut_zero : cut crit n 0 = 0 := by
  rcases Nat.eq_zero_or_pos crit.length with h | h
  · rw [cut_ge (by omega)]; exact T.empty (List.eq_nil_of_length_eq_zero h)
  · rw [cut_lt h]; exact (T.first h).1

theorem cut_mono {a b : Nat} (h : a ≤ b) : cut crit n a ≤ cut crit n b := by
  induction b, h using Nat.le_induction with
  | base => exact le_rfl
  | succ b _ ih =>
    refine ih.trans ?_
    rcases Nat.lt_or_ge b crit.length with hb | hb
    · rw [T.cut_succ hb, cut_lt hb]; exact (T.pos b hb).le
    · rw [cut_ge hb, cut_ge (by omega)]

theorem cut_le (c : Nat) : cut crit n c ≤ n := by
  have := T.cut_mono (Nat.le_max_left c crit.length)
  rwa [cut_ge (Nat.le_max_right c crit.length)] at this

theorem take_indices {c : Nat} (hc : c ≤ crit.length) : indices ((crit.take c).map CNode.rng) = List.range (cut crit n c) := by
  induction c with
  | zero => rw [T.cut_zero]; simp [indices]
  | succ c ih =>
    rw [List.take_add_one, List.map_append, List.getElem?_eq_getElem hc]
    unfold indices at ih ⊢
    rw [List.flatMap_append, ih (by omega), T.cut_succ hc, cut_lt hc]
    simp only [Option.toList_some, List.map_cons, List.map_nil, List.flatMap_cons, List.flatMap_nil, List.append_nil]
    have := range'_append' (a := 0) (Nat.zero_le crit[c].beg) (T.pos c hc).le
    simp only [Nat.sub_zero] at this
    rw [List.range_eq_range', List.range_eq_range', this]

theorem begs_sorted {i j : Nat} (hi : i < crit.length) (hj : j < crit.length) (hij : i ≤ j) : crit[i].beg ≤ crit[j].beg := by
  have := T.cut_mono hij
  rwa [cut_lt hi, cut_lt hj] at this

/-- The adjustment to the start of a critical node. -/
theorem boundary_eq (idx : Nat) : ∃ c ≤ crit.length, boundary crit n idx = some (c, cut crit n c) ∧ (∀ i < c, ∀ hi : i < crit.length, crit[i].beg < idx) ∧
    ∀ i, c ≤ i → ∀ hi : i < crit.length, idx ≤ crit[i].beg := by
  set c := (crit.takeWhile (fun cn => decide (cn.beg < idx))).length with hcdef
  have hcl : c ≤ crit.length := (List.takeWhile_sublist _).length_le
  have hlo : ∀ i < c, ∀ hi : i < crit.length, crit[i].beg < idx := by
    intro i hi hil
    have hp := List.takeWhile_prefix (fun cn : CNode => decide (cn.beg < idx)) (l := crit)
    have e := hp.getElem (show i < (crit.takeWhile (fun cn => decide (cn.beg < idx))).length from hi)
    have := List.all_takeWhile (p := fun cn : CNode => decide (cn.beg < idx)) (l := crit)
    rw [List.all_eq_true] at this
    have := this _ (List.getElem_mem (show i < (crit.takeWhile (fun cn => decide (cn.beg < idx))).length from hi))
    rw [e] at this
    simpa using this
  have hat : ∀ hc : c < crit.length, idx ≤ crit[c].beg := by
    intro hc
    have h1 : (crit.dropWhile (fun cn : CNode => decide (cn.beg < idx))).head? = some crit[c] := by
      rw [List.head?_eq_getElem?]
      have h2 : crit.takeWhile (fun cn : CNode => decide (cn.beg < idx)) ++ crit.dropWhile (fun cn : CNode => decide (cn.beg < idx)) = crit :=
        List.takeWhile_append_dropWhile
      have h3 := List.getElem?_append_right (l₁ := crit.takeWhile (fun cn : CNode => decide (cn.beg < idx)))
        (l₂ := crit.dropWhile (fun cn : CNode => decide (cn.beg < idx))) (i := c) (le_of_eq hcdef.symm)
      rw [h2, ← hcdef, Nat.sub_self, List.getElem?_eq_getElem hc] at h3
      exact h3.symm
    have := List.head?_dropWhile_not (fun cn : CNode => decide (cn.beg < idx)) crit
    rw [h1] at this
    simpa using this
  have hhi : ∀ i, c ≤ i → ∀ hi : i < crit.length, idx ≤ crit[i].beg := by
    intro i hci hi
    exact (hat (by omega)).trans (T.begs_sorted (by omega) hi hci)
  refine ⟨c, hcl, ?_, hlo, hhi⟩
  unfold boundary lowerBound
  have : (crit.drop c).all (fun a => !decide (a.beg < idx)) = true := by
    rw [List.all_eq_true]
    intro a ha
    obtain ⟨i, hi, rfl⟩ := List.getElem_of_mem ha
    rw [List.getElem_drop]
    have := hhi (c + i) (by omega) (by rw [List.length_drop] at hi; omega)
    simp; omega
  simp only [← hcdef, this, if_true, Option.bind_eq_bind, Option.bind_some]
  rfl

end Tiled

/-- The ranges between non-decreasing cuts. -/
theorem indices_between {k n : Nat} {l : List Nat} (hs : (k :: l).Pairwise (· ≤ ·)) (hl : (k :: l).getLast? = some n) :
    indices (between (k :: l)) = List.range' k (n - k) := by
  induction l generalizing k with
  | nil => simp at hl; subst hl; simp [indices, between]
  | cons a l ih =>
    have h1 : (a :: l).getLast? = some n := by rw [← hl]; simp
    have h2 := ih hs.of_cons h1
    have hka : k ≤ a := List.rel_of_pairwise_cons hs List.mem_cons_self
    have han : a ≤ n := by
      have hm := List.mem_of_getLast? h1
      rcases List.mem_cons.1 hm with h | h
      · omega
      · exact List.rel_of_pairwise_cons hs.of_cons h
    unfold indices between at h2 ⊢
    rw [List.tail_cons, List.zip_cons_cons, List.flatMap_cons]
    rw [List.tail_cons] at h2
    simp only
    rw [h2, range'_append' hka han]

theorem between_le {l : List Nat} (hs : l.Pairwise (· ≤ ·)) {r : Nat × Nat} (hr : r ∈ between l) : r.1 ≤ r.2 ∧ r.1 ∈ l ∧ r.2 ∈ l := by
  obtain ⟨m1, m2⟩ := List.of_mem_zip (show (r.1, r.2) ∈ _ from hr)
  refine ⟨?_, m1, List.mem_of_mem_tail m2⟩
  obtain ⟨j, hj, hje⟩ := List.getElem_of_mem (show r ∈ l.zip l.tail from hr)
  rw [List.getElem_zip] at hje
  have hj' := hj
  rw [List.length_zip, List.length_tail] at hj'
  have := (List.pairwise_iff_getElem.1 hs) j (j + 1) (by omega) (by omega) (by omega)
  rw [← hje]
  simpa [List.getElem_tail] using this

theorem le_last {l : List Nat} {n : Nat} (hs : l.Pairwise (· ≤ ·)) (hl : l.getLast? = some n) {i : Nat} (hi : i ∈ l) : i ≤ n := by
  obtain ⟨j, hj, rfl⟩ := List.getElem_of_mem hi
  have hne : l ≠ [] := by intro e; rw [e] at hj; simp at hj
  rw [List.getLast?_eq_some_getLast hne, Option.some.injEq, List.getLast_eq_getElem] at hl
  rcases Nat.lt_or_ge j (l.length - 1) with hlt | hge
  · have := (List.pairwise_iff_getElem.1 hs) j (l.length - 1) hj (by omega) hlt
    omega
  · have hjj : j = l.length - 1 := by omega
    subst hjj
    exact le_of_eq hl

/-- A CPU share that ends at a critical node, and non-decreasing cuts from there to `n`. -/
theorem Tiled.shares {crit : List CNode} {n : Nat} (T : Tiled crit n) {c : Nat} (hc : c ≤ crit.length) {l : List Nat}
    (hs : (cut crit n c :: l).Pairwise (· ≤ ·)) (hl : (cut crit n c :: l).getLast? = some n) :
    Shares n ((crit.take c).map CNode.rng) (cut crit n c :: l) where
  once := by
    rw [T.take_indices hc, indices_between hs hl]
    have := range'_append' (a := 0) (Nat.zero_le (cut crit n c)) (T.cut_le c)
    simp only [Nat.sub_zero] at this
    rw [List.range_eq_range', List.range_eq_range', this]
  sorted := hs
  last := by rw [hl]; simp
  cpuPart := by rw [T.take_indices hc]; simp

theorem Tiled.shares_cpu {crit : List CNode} {n : Nat} (T : Tiled crit n) : Shares n ((crit.take crit.length).map CNode.rng) [] where
  once := by rw [T.take_indices le_rfl, cut_ge le_rfl]; simp [indices, between]
  sorted := by simp
  last := by simp
  cpuPart := by rw [T.take_indices le_rfl, cut_ge le_rfl]; simp

/-! ### Arithmetic -/

variable {K : Type} [Field K] [LinearOrder K] [IsStrictOrderedRing K] [FloorRing K]

namespace Arith.Laws
variable {D : Arith K} (L : D.Laws)
include L

theorem le_of {a b a' b' : K} (h : a ≤ b) (ha : D.rnd a = .fin a') (hb : D.rnd b = .fin b') : a' ≤ b' := by
  have := L.mono a b h
  rw [ha, hb] at this
  simpa [Fl.le, Fl.ge, Fl.lt] using this

/-- Values between finite ones round to finite values. -/
theorem between {a b c a' c' : K} (h1 : a ≤ b) (h2 : b ≤ c) (ha : D.rnd a = .fin a') (hc : D.rnd c = .fin c') :
    ∃ b', D.rnd b = .fin b' ∧ a' ≤ b' ∧ b' ≤ c' := by
  cases hb : D.rnd b with
  | nan => exact absurd hb (L.notNan b)
  | inf s =>
    exfalso
    have e1 := L.mono a b h1
    have e2 := L.mono b c h2
    rw [ha, hb] at e1
    rw [hb, hc] at e2
    cases s <;> simp [Fl.le, Fl.ge, Fl.lt] at e1 e2
  | fin b' => exact ⟨b', rfl, L.le_of h1 ha hb, L.le_of h2 hb hc⟩

/-- Larger values round to a larger value or to plus infinity. -/
theorem above {a b a' : K} (h : a ≤ b) (ha : D.rnd a = .fin a') : D.rnd b = .inf false ∨ ∃ b', D.rnd b = .fin b' ∧ a' ≤ b' := by
  cases hb : D.rnd b with
  | nan => exact absurd hb (L.notNan b)
  | inf s =>
    have e1 := L.mono a b h
    rw [ha, hb] at e1
    cases s
    · left; rfl
    · simp [Fl.le, Fl.ge, Fl.lt] at e1
  | fin b' => right; exact ⟨b', rfl, L.le_of h ha hb⟩

theorem one : D.rnd 1 = .fin 1 := by simpa using L.pow 0 (by omega)

end Arith.Laws

/-- A quotient at most 1 times a number of particles. -/
theorem proj_le {D : Arith K} (L : D.Laws) {a t f : K} (ha : 0 ≤ a) (hat : a ≤ t) (ht : 0 < t) (hf : 0 ≤ f) (hff : D.rnd f = .fin f) :
    ∃ q, D.mul (D.div (.fin a) (.fin t)) (.fin f) = .fin q ∧ 0 ≤ q ∧ q ≤ f := by
  obtain ⟨r, r1, r2, r3⟩ := L.between (show (0 : K) ≤ a / t by positivity) ((div_le_one ht).2 hat) L.zero L.one
  have e : D.div (.fin a) (.fin t) = .fin r := by
    unfold Arith.div; simp only; rw [if_neg ht.ne', r1]
  obtain ⟨q, q1, q2, q3⟩ := L.between (show (0 : K) ≤ r * f by positivity) (show r * f ≤ f by nlinarith) L.zero hff
  refine ⟨q, ?_, q2, q3⟩
  rw [e]
  unfold Arith.mul Arith.mulPre
  simp only
  exact q1

theorem proj_mono {D : Arith K} (L : D.Laws) {a b t f qa qb : K} (hab : a ≤ b) (ht : 0 < t) (hf : 0 ≤ f)
    (ha : D.mul (D.div (.fin a) (.fin t)) (.fin f) = .fin qa) (hb : D.mul (D.div (.fin b) (.fin t)) (.fin f) = .fin qb) : qa ≤ qb := by
  unfold Arith.div at ha hb
  simp only at ha hb
  rw [if_neg ht.ne'] at ha hb
  have hdiv : a / t ≤ b / t := by gcongr
  cases h1 : D.rnd (a / t) with
  | nan => exact absurd h1 (L.notNan _)
  | inf s =>
    rw [h1] at ha
    unfold Arith.mul Arith.mulPre at ha
    simp only at ha
    split at ha <;> simp_all
    split at * <;> simp_all
  | fin ra =>
    cases h2 : D.rnd (b / t) with
    | nan => exact absurd h2 (L.notNan _)
    | inf s =>
      rw [h2] at hb
      unfold Arith.mul Arith.mulPre at hb
      simp only at hb
      split at hb <;> simp_all
      split at * <;> simp_all
    | fin rb =>
      have hr := L.le_of hdiv h1 h2
      rw [h1] at ha
      rw [h2] at hb
      exact L.le_of (mul_le_mul_of_nonneg_right hr hf) ha hb

theorem castSz_fin {q : K} (h0 : 0 ≤ q) (h1 : q < 2 ^ 64) : castSz (.fin q) = .ok ⌊q⌋.toNat := by
  unfold castSz
  simp only
  rw [if_neg]
  rintro (h | h)
  · linarith
  · exact absurd h1 (not_lt.2 h)

theorem floor_le_nat {q : K} {n : Nat} (h : q ≤ n) : ⌊q⌋.toNat ≤ n := by
  have : ⌊q⌋ ≤ ⌊(n : K)⌋ := Int.floor_mono h
  rw [Int.floor_natCast] at this
  omega

theorem floor_mono_nat {q r : K} (h : q ≤ r) : ⌊q⌋.toNat ≤ ⌊r⌋.toNat := Int.toNat_le_toNat (Int.floor_mono h)

/-- A non-negative value of a format. -/
def NonNeg (D : Arith K) (x : Fl K) : Prop := ∃ q, x = .fin q ∧ 0 ≤ q ∧ D.rnd q = .fin q

section sums
variable {D : Arith K} (L : D.Laws)
include L

theorem add_nonneg_cases {x y : Fl K} (hx : NonNeg D x) (hy : NonNeg D y) :
    D.add x y = .inf false ∨ (NonNeg D (D.add x y) ∧ ∀ a b c, x = .fin a → y = .fin b → D.add x y = .fin c → a ≤ c ∧ b ≤ c) := by
  obtain ⟨a, rfl, ha, haa⟩ := hx
  obtain ⟨b, rfl, hb, hbb⟩ := hy
  have e : D.add (.fin a) (.fin b) = D.rnd (a + b) := rfl
  rcases L.above (show a ≤ a + b by linarith) haa with h | ⟨c, hc, hac⟩
  · left; rw [e, h]
  · right
    have hbc : b ≤ c := L.le_of (show b ≤ a + b by linarith) hbb hc
    refine ⟨⟨c, by rw [e, hc], ha.trans hac, L.idem _ _ hc⟩, ?_⟩
    intro a' b' c' h1 h2 h3
    cases h1; cases h2
    rw [e, hc] at h3
    cases h3
    exact ⟨hac, hbc⟩

omit L in
theorem foldl_inf {l : List (Fl K)} (hl : ∀ x ∈ l, NonNeg D x) : l.foldl D.add (.inf false) = .inf false := by
  induction l with
  | nil => rfl
  | cons x l ih =>
    obtain ⟨q, rfl, _, _⟩ := hl x List.mem_cons_self
    rw [List.foldl_cons]
    exact ih (fun y hy => hl y (List.mem_cons_of_mem _ hy))

/-- A finite sum of non-negative values is at least each of them. -/
theorem foldl_ge {l : List (Fl K)} {t a : K} (hl : ∀ x ∈ l, NonNeg D x) (ht : 0 ≤ t) (htt : D.rnd t = .fin t)
    (h : l.foldl D.add (.fin t) = .fin a) : t ≤ a ∧ ∀ q, Fl.fin q ∈ l → q ≤ a := by
  induction l generalizing t with
  | nil => simp at h; subst h; simp
  | cons x l ih =>
    have hx := hl x List.mem_cons_self
    have hl' : ∀ y ∈ l, NonNeg D y := fun y hy => hl y (List.mem_cons_of_mem _ hy)
    rw [List.foldl_cons] at h
    rcases add_nonneg_cases L ⟨t, rfl, ht, htt⟩ hx with hi | ⟨hn, hle⟩
    · rw [hi, foldl_inf hl'] at h; simp at h
    · obtain ⟨c, hc, hc0, hcc⟩ := hn
      obtain ⟨b, hxb, _, _⟩ := hx
      obtain ⟨h1, h2⟩ := hle t b c rfl hxb hc
      rw [hc] at h
      obtain ⟨i1, i2⟩ := ih hl' hc0 hcc h
      refine ⟨h1.trans i1, ?_⟩
      intro q hq
      rcases List.mem_cons.1 hq with e | hm
      · rw [hxb] at e; cases e; exact h2.trans i1
      · exact i2 q hm

/-- The projection onto particle indices. -/
theorem cudaIdx_spec {A : Arith K} {np : Nat} {f a : K} (hnp : np < 2 ^ 64) (hA : A.rnd np = .fin f) (hff : D.rnd f = .fin f) (hf0 : 0 ≤ f) (hf : f ≤ np) (ha : 0 < a)
    {l : List (Fl K)} (hl : ∀ x ∈ l, NonNeg D x) {t : K} (ht : 0 ≤ t) (htt : D.rnd t = .fin t) (h : l.foldl D.add (.fin t) = .fin a) :
    ∃ is q, cudaIdx D A np (.fin a) (.fin t) l = .ok is ∧ is.length = l.length + 1 ∧ is.getLast? = some np ∧ is.Pairwise (· ≤ ·) ∧
      D.mul (D.div (.fin t) (.fin a)) (.fin f) = .fin q ∧ ∀ i ∈ is, ⌊q⌋.toNat ≤ i := by
  induction l generalizing t with
  | nil =>
    obtain ⟨q, q1, q2, q3⟩ := proj_le L ht (foldl_ge L (by simp) ht htt h).1 ha hf0 hff
    refine ⟨[np], q, rfl, rfl, rfl, by simp, q1, ?_⟩
    intro i hi
    rw [List.mem_singleton.1 hi]
    exact floor_le_nat (q3.trans hf)
  | cons x l ih =>
    have hx := hl x List.mem_cons_self
    have hl' : ∀ y ∈ l, NonNeg D y := fun y hy => hl y (List.mem_cons_of_mem _ hy)
    obtain ⟨q, q1, q2, q3⟩ := proj_le L ht (foldl_ge L hl ht htt h).1 ha hf0 hff
    rw [List.foldl_cons] at h
    rcases add_nonneg_cases L ⟨t, rfl, ht, htt⟩ hx with hi | ⟨hn, hle⟩
    · rw [hi, foldl_inf hl'] at h; simp at h
    · obtain ⟨c, hc, hc0, hcc⟩ := hn
      obtain ⟨b, hxb, _, _⟩ := hx
      obtain ⟨h1, _⟩ := hle t b c rfl hxb hc
      rw [hc] at h
      obtain ⟨is, q', i1, i2, i3, i4, i5, i6⟩ := ih hl' hc0 hcc h
      have hqq : q ≤ q' := proj_mono L h1 ha hf0 q1 i5
      have hq64 : q < 2 ^ 64 := by
        have : (np : K) < 2 ^ 64 := by exact_mod_cast hnp
        linarith
      refine ⟨⌊q⌋.toNat :: is, q, ?_, by simp [i2], ?_, ?_, q1, ?_⟩
      · rw [cudaIdx, hA, q1, castSz_fin q2 hq64, hc, i1]
        rfl
      · rw [List.getLast?_cons, i3]; rfl
      · rw [List.pairwise_cons]
        exact ⟨fun i hi => (floor_mono_nat hqq).trans (i6 i hi), i4⟩
      · intro i hi
        rcases List.mem_cons.1 hi with rfl | hi
        · exact le_rfl
        · exact (floor_mono_nat hqq).trans (i6 i hi)

end sums

/-- Moving indices forward. -/
theorem forward_sorted {k : Nat} {l : List Nat} (h : l.Pairwise (· ≤ ·)) : (k :: l.map (fun i => if i < k then k else i)).Pairwise (· ≤ ·) := by
  rw [List.pairwise_cons]
  constructor
  · intro i hi
    obtain ⟨j, _, rfl⟩ := List.mem_map.1 hi
    split <;> omega
  · rw [List.pairwise_map]
    refine h.imp ?_
    intro a b hab
    split <;> split <;> omega

theorem subW_sorted {a b : Nat} (h : a ≤ b) (hb : b < 2 ^ 64) : subW 64 b a = b - a := by
  unfold subW; omega

end Rakau
