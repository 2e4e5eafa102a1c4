import Verif.Props.User

/-!
Two trees over the same particles, up to the order, a factor for the lengths and a factor for the masses.
-/
set_option linter.unusedSectionVars false

namespace Rakau
open Spec

/-! ### Maps of an interval into itself -/

theorem map_range'_perm {τ : Nat → Nat} {lo l n : Nat} (hn : lo + l ≤ n) (hinj : ∀ i j, i < n → j < n → τ i = τ j → i = j)
    (hm : ∀ k, lo ≤ k → k < lo + l → lo ≤ τ k ∧ τ k < lo + l) : ((List.range' lo l).map τ).Perm (List.range' lo l) := by
  have hnd : ((List.range' lo l).map τ).Nodup := by
    apply List.Nodup.map_on
    · intro a ha c hc h
      rw [List.mem_range'_1] at ha hc
      exact hinj a c (by omega) (by omega) h
    · exact List.nodup_range'
  apply (List.subperm_of_subset hnd ?_).perm_of_length_le (by simp)
  intro a ha
  obtain ⟨k, hk, rfl⟩ := List.mem_map.1 ha
  rw [List.mem_range'_1] at hk ⊢
  exact hm k hk.1 hk.2

theorem filter_range'_perm {τ : Nat → Nat} {lo l n : Nat} (hn : lo + l ≤ n) (hinj : ∀ i j, i < n → j < n → τ i = τ j → i = j)
    (hm : ∀ k, lo ≤ k → k < lo + l → lo ≤ τ k ∧ τ k < lo + l) {k : Nat} (hk : k < n) :
    (((List.range' lo l).filter (· ≠ k)).map τ).Perm ((List.range' lo l).filter (· ≠ τ k)) := by
  have h1 := (map_range'_perm hn hinj hm).filter (· ≠ τ k)
  rw [List.filter_map] at h1
  have h2 : (List.range' lo l).filter ((fun a => decide (a ≠ τ k)) ∘ τ) = (List.range' lo l).filter (· ≠ k) := by
    apply List.filter_congr
    intro a ha
    rw [List.mem_range'_1] at ha
    simp only [Function.comp, decide_eq_decide, ne_eq, not_iff_not]
    exact ⟨fun h => hinj a k (by omega) hk h, fun h => by rw [h]⟩
  rw [h2] at h1
  exact h1

theorem sum_Ico_map {M : Type} [AddCommMonoid M] {τ : Nat → Nat} {lo hi n : Nat} (hn : hi ≤ n) (hinj : ∀ i j, i < n → j < n → τ i = τ j → i = j)
    (hm : ∀ k, lo ≤ k → k < hi → lo ≤ τ k ∧ τ k < hi) (f : Nat → M) : ∑ k ∈ Finset.Ico lo hi, f (τ k) = ∑ k ∈ Finset.Ico lo hi, f k := by
  have h1 : (Finset.Ico lo hi).image τ = Finset.Ico lo hi := by
    apply Finset.eq_of_subset_of_card_le
    · intro a ha
      obtain ⟨k, hk, rfl⟩ := Finset.mem_image.1 ha
      rw [Finset.mem_Ico] at hk ⊢
      exact hm k hk.1 hk.2
    · rw [Finset.card_image_of_injOn]
      intro a ha c hc h
      rw [Finset.mem_coe, Finset.mem_Ico] at ha hc
      exact hinj a c (by omega) (by omega) h
  conv_rhs => rw [← h1]
  rw [Finset.sum_image]
  intro a ha c hc h
  rw [Finset.mem_coe, Finset.mem_Ico] at ha hc
  exact hinj a c (by omega) (by omega) h

/-- The traversal depends on the outcome of the checks for nodes of the tree only. -/
theorem travGo_congr {over : Overshift} {w d : Nat} {tree : List Node} {c : Nat} {acc acc' : Nat → Bool}
    (h : ∀ i < tree.length, acc i = acc' i) (fuel i : Nat) : travGo over w d tree c acc fuel i = travGo over w d tree c acc' fuel i := by
  induction fuel generalizing i with
  | zero =>
    rw [travGo, travGo]
  | succ fuel ih =>
    rw [travGo, travGo]
    cases hi : tree[i]? with
    | none => rfl
    | some nd =>
      have hil : i < tree.length := (List.getElem?_eq_some_iff.1 hi).1
      have hs : travStep over w d c acc i nd = travStep over w d c acc' i nd := by
        unfold travStep macStep
        rw [h i hil]
      simp only [hs]
      cases travStep over w d c acc' i nd with
      | error e => rfl
      | ok r => simp only [ih]

/-- Multiplication of the acceleration by `p` and of the energy by `q`. -/
def sc {K : Type} [Field K] (p q : K) (v : Val K) : Val K := (fun j => p * v.1 j, q * v.2)

theorem sc_add {K : Type} [Field K] (p q : K) (v v' : Val K) : sc p q (v + v') = sc p q v + sc p q v' := by
  unfold sc
  ext
  · simp [mul_add]
  · simp [mul_add]

theorem sc_zero {K : Type} [Field K] (p q : K) : sc p q (0 : Val K) = 0 := by
  unfold sc
  ext <;> simp

theorem sc_sum {K : Type} [Field K] {α : Type} (p q : K) (L : List α) (f : α → Val K) : (L.map (fun a => sc p q (f a))).sum = sc p q (L.map f).sum := by
  induction L with
  | nil => exact (sc_zero p q).symm
  | cons a L ih => rw [List.map_cons, List.sum_cons, ih, List.map_cons, List.sum_cons, sc_add]

theorem sc_smul {K : Type} [Field K] (p q g : K) (v : Val K) : Val.smul g (sc p q v) = sc p q (Val.smul g v) := by
  unfold Val.smul sc
  ext
  · simp; ring
  · simp; ring

/-- Equal in the components that the code has. -/
def VEq {K : Type} (d : Nat) (v v' : Val K) : Prop := (∀ j < d, v.1 j = v'.1 j) ∧ v.2 = v'.2

theorem VEq.rfl' {K : Type} {d : Nat} (v : Val K) : VEq d v v := ⟨fun _ _ => rfl, rfl⟩

theorem VEq.add {K : Type} [Field K] {d : Nat} {v v' u u' : Val K} (h : VEq d v v') (h' : VEq d u u') : VEq d (v + u) (v' + u') :=
  ⟨fun j hj => by show v.1 j + u.1 j = v'.1 j + u'.1 j; rw [h.1 j hj, h'.1 j hj], by show v.2 + u.2 = v'.2 + u'.2; rw [h.2, h'.2]⟩

theorem VEq.sum {K : Type} [Field K] {α : Type} {d : Nat} {L : List α} {f g : α → Val K} (h : ∀ a ∈ L, VEq d (f a) (g a)) :
    VEq d (L.map f).sum (L.map g).sum := by
  induction L with
  | nil => exact VEq.rfl' _
  | cons a L ih =>
    rw [List.map_cons, List.sum_cons, List.map_cons, List.sum_cons]
    exact (h a (by simp)).add (ih (fun c hc => h c (by simp [hc])))

theorem VEq.mkRes {K : Type} [Field K] {d : Nat} {v v' : Val K} (h : VEq d v v') (Q : Quant) (g : K) :
    mkRes Q d (Val.smul g v) = mkRes Q d (Val.smul g v') := by
  unfold Rakau.mkRes Val.smul
  simp only
  rw [h.2]
  congr 2
  apply arr_ext
  intro j hj
  rw [h.1 j hj]

section
variable {K : Type} [Field K] [LinearOrder K] [FloorRing K] [IsStrictOrderedRing K]

/-- The square root of `r²q` is `r` times that of `q`. -/
def SqrtHom (A : Arith K) (r : K) : Prop := ∀ q y, A.sqrt q = .fin y → A.sqrt (r ^ 2 * q) = .fin (r * y)

/-- The inverse distances of `M'` at `r²q` and of `M` at `q`. -/
def InvHom (M M' : Mode K) (r : K) : Prop := ∀ q, M'.inv1 (r ^ 2 * q) = M.inv1 q / r ∧ M'.inv3 (r ^ 2 * q) = M.inv3 q / r ^ 3

theorem D2_hom {d : Nat} {e r : K} {y z y' z' : Nat → K} (hy : ∀ j < d, y' j = r * y j) (hz : ∀ j < d, z' j = r * z j) :
    D2 d (r ^ 2 * e) y' z' = r ^ 2 * D2 d e y z := by
  unfold D2
  rw [mul_add, Finset.mul_sum]
  congr 1
  apply Finset.sum_congr rfl
  intro j hj
  rw [Finset.mem_range] at hj
  rw [hy j hj, hz j hj]
  ring

/-- The pull of one body on another. -/
theorem grav_hom {d : Nat} {e r μ : K} {M M' : Mode K} (hr : 0 < r) (hi : InvHom M M' r) {y z y' z' : Nat → K} {m m1 m' m1' : K} (hy : ∀ j < d, y' j = r * y j)
    (hz : ∀ j < d, z' j = r * z j) (hm : m' = μ * m) (hm1 : m1' = μ * m1) :
    VEq d (grav M'.inv1 M'.inv3 d (r ^ 2 * e) y' m' z' m1') (sc (μ / r ^ 2) (μ ^ 2 / r) (grav M.inv1 M.inv3 d e y m z m1)) := by
  obtain ⟨i1, i3⟩ := hi (D2 d e y z)
  unfold VEq grav sc
  simp only
  rw [D2_hom hy hz, i1, i3]
  constructor
  · intro j hj
    rw [hy j hj, hz j hj, hm1]
    field_simp
  · rw [hm, hm1]
    field_simp

/-- The code of a particle does not change when coordinates and box are multiplied by the same factor. -/
theorem codeOf_scale {A : Arith K} (hA : A.Exact) (w d : Nat) {b r : K} (hb : 0 < b) (hr : 0 < r) (c : List K) :
    codeOf A w d (.fin (r * b)) (c.map (fun q => .fin (r * q))) = codeOf A w d (.fin b) (c.map .fin) := by
  have hrb : r * b ≠ 0 := (mul_pos hr hb).ne'
  have h1 : ∀ q, discSingle A w (cbits w d) (.fin (r * q)) (invBox A (.fin (r * b))) = discSingle A w (cbits w d) (.fin q) (invBox A (.fin b)) := by
    intro q
    have : discScaled A (cbits w d) (.fin (r * q)) (invBox A (.fin (r * b))) = discScaled A (cbits w d) (.fin q) (invBox A (.fin b)) := by
      unfold discScaled invBox
      rw [ex_div hA hrb, ex_div hA hb.ne', ex_fma hA, ex_fma hA]
      congr 3
      field_simp
    unfold discSingle
    rw [this]
  unfold codeOf
  rw [List.length_map, List.length_map]
  have h2 : (c.map (fun q => Fl.fin (r * q))).mapM (fun x => discSingle A w (cbits w d) x (invBox A (.fin (r * b)))) =
      (c.map Fl.fin).mapM (fun x => discSingle A w (cbits w d) x (invBox A (.fin b))) := by
    rw [List.mapM_map, List.mapM_map]
    congr 1
    funext q
    exact h1 q
  rw [h2]

section Code
variable {A : Arith K} {simd : Option (Simd K)} {mac : Mac} {w d : Nat} {s : TS (rakauEnv A simd mac w d)} {x : Nat → Nat → K} {b : K}

/-- The codes of a reachable tree, from the data. -/
theorem reach_code (h : Reach _ s) (hb : s.box = .fin b) (hx : IsData d s.n s.parts x) :
    s.codes.length = s.n ∧ ∀ k (hk : k < s.codes.length), codeOf A w d (.fin b) (((List.range d).map (fun j => x j k)).map .fin) = .ok s.codes[k] := by
  have I := reach_inv h
  obtain ⟨hcl, hcs⟩ := rawCodes_spec.1 I.codes
  refine ⟨hcl, fun k hkc => ?_⟩
  have hk : k < s.n := by omega
  have hcode := hcs k hkc
  have hco : coordsAt d s.parts k = some (((List.range d).map (fun j => x j k)).map .fin) := by
    unfold coordsAt
    rw [mapM_some_iff]
    apply forall₂_of_getElem
    · rw [List.length_take, hx.1]; simp
    · intro j hj hj'
      have hjd : j < d := by simpa using hj'
      obtain ⟨v, hv, hvv⟩ := hx.2 j (by omega)
      have e : (s.parts.take d)[j] = v := by
        rw [List.getElem_take]
        exact Option.some.inj ((List.getElem?_eq_getElem _).symm.trans hv)
      rw [e, hvv.get hk]; simp
  have h1 : (do codeOf A w d s.box (← ofUB (coordsAt d s.parts k))) = .ok s.codes[k] := hcode
  rw [hco, hb] at h1
  exact h1

end Code

/-- `s'` is a tree over the particles of `s`: particle `k` of `s'` is particle `τ k` of `s`, with coordinates multiplied by `r` and mass
multiplied by `μ`; the trees are equal, and `τ` leaves every code where it is. -/
structure Alike {A : Arith K} {simd simd' : Option (Simd K)} {mac : Mac} {w d : Nat} (s : TS (rakauEnv A simd mac w d))
    (s' : TS (rakauEnv A simd' mac w d)) (x x' : Nat → Nat → K) (r μ : K) (τ : Nat → Nat) : Prop where
  n : s'.n = s.n
  codes : s'.codes = s.codes
  tree : s'.tree = s.tree
  crit : s'.crit = s.crit
  lt : ∀ k < s.n, τ k < s.n
  inj : ∀ k l, k < s.n → l < s.n → τ k = τ l → k = l
  code : ∀ k < s.n, s.codes[τ k]? = s.codes[k]?
  pos : ∀ k < s.n, ∀ j < d, x' j k = r * x j (τ k)
  mass : ∀ k < s.n, x' d k = μ * x d (τ k)

section Pair
variable {A : Arith K} {simd simd' : Option (Simd K)} {mac : Mac} {w d : Nat} {s : TS (rakauEnv A simd mac w d)} {s' : TS (rakauEnv A simd' mac w d)}
  {x x' : Nat → Nat → K} {r μ : K} {τ : Nat → Nat} {b : K}

/-- Two reachable trees with corresponding particles, box sizes and parameters are alike. -/
theorem alike_of (hA : A.Exact) (hs : Supported w d) (h : Reach _ s) (h' : Reach _ s') (hn : s'.n = s.n) (hz : s.n * cbits w d < 2 ^ 64) (hr : 0 < r)
    (hb : s.box = .fin b) (hb' : s'.box = .fin (r * b)) (hb0 : 0 < b) (hx : IsData d s.n s.parts x) (hx' : IsData d s'.n s'.parts x')
    (hml : s'.maxLeaf = s.maxLeaf) (hnc : s'.ncrit = s.ncrit) (lt : ∀ k < s.n, τ k < s.n) (inj : ∀ k l, k < s.n → l < s.n → τ k = τ l → k = l)
    (pos : ∀ k < s.n, ∀ j < d, x' j k = r * x j (τ k)) (mass : ∀ k < s.n, x' d k = μ * x d (τ k)) : Alike s s' x x' r μ τ := by
  have I := reach_inv h
  have I' := reach_inv h'
  obtain ⟨c1, c2⟩ := reach_code h hb hx
  obtain ⟨c1', c2'⟩ := reach_code h' hb' hx'
  have key : ∀ k (hk : k < s.n), s'.codes[k]'(by omega) = s.codes[τ k]'(by have := lt k hk; omega) := by
    intro k hk
    have e1 := c2' k (by omega)
    have e2 := c2 (τ k) (by have := lt k hk; omega)
    have e3 : ((List.range d).map (fun j => x' j k)).map Fl.fin = ((List.range d).map (fun j => x j (τ k))).map (fun q => .fin (r * q)) := by
      rw [List.map_map, List.map_map]
      apply List.map_congr_left
      intro j hj
      rw [List.mem_range] at hj
      simp only [Function.comp, pos k hk j hj]
    rw [e3, codeOf_scale hA w d hb0 hr, e2, Except.ok.injEq] at e1
    exact e1.symm
  have hτ : ((List.range' 0 s.n).map τ).Perm (List.range' 0 s.n) :=
    map_range'_perm (n := s.n) (by omega) inj (fun k _ hk => ⟨by omega, by have := lt k (by omega); omega⟩)
  have hcodes : s'.codes = s.codes := by
    have e1 : s'.codes = ((List.range' 0 s.n).map τ).map (fun k => s.codes.getD k 0) := by
      apply List.ext_getElem
      · simp [c1', hn]
      · intro k k1 k2
        have hk : k < s.n := by omega
        rw [key k hk]
        have := lt k hk
        simp [List.getD, c1, this]
    have e2 : s.codes = (List.range' 0 s.n).map (fun k => s.codes.getD k 0) := by
      apply List.ext_getElem
      · simp [c1]
      · intro k k1 k2
        simp [List.getD, k1]
    have hp : s'.codes.Perm s.codes := by
      conv_rhs => rw [e2]
      rw [e1]
      exact hτ.map _
    exact List.Perm.eq_of_pairwise (fun a b _ _ h1 h2 => le_antisymm h1 h2) I'.sorted I.sorted hp
  have htc : s'.tree = s.tree ∧ s'.crit = s.crit := by
    rcases Nat.eq_zero_or_pos s.n with h0 | h0
    · have n1 : s.codes = [] := List.eq_nil_of_length_eq_zero (by omega)
      have n2 : s'.codes = [] := by rw [hcodes, n1]
      have emp : ∀ {g : Cfg} {sp : Nat} {t : List Node} {c : List CNode}, IsBuild g [] sp (.ok (t, c)) → t = [] ∧ c = [] := by
        intro g sp t c hbd
        generalize hr : (Except.ok (t, c) : Except Err (List Node × List CNode)) = r at hbd
        cases hbd with
        | empty => simpa using hr
        | run _ _ _ _ h => exact absurd rfl h
        | fail _ h => exact absurd rfl h
      obtain ⟨_, b1⟩ := I.built
      obtain ⟨_, b2⟩ := I'.built
      rw [n1] at b1
      rw [n2] at b2
      obtain ⟨t1, t2⟩ := emp b1
      obtain ⟨t3, t4⟩ := emp b2
      rw [t1, t2, t3, t4]
      exact ⟨rfl, rfl⟩
    · obtain ⟨_, B, sp, hbd⟩ := reach_build (rakauEnv_ok A simd mac hs) h hz h0
      obtain ⟨_, _, sp', hbd'⟩ := reach_build (rakauEnv_ok A simd' mac hs) h' (by rw [hn]; exact hz) (by omega)
      have hcfg : s'.cfg = s.cfg := by
        unfold TS.cfg
        rw [hml, hnc]
      rw [hcfg, hcodes] at hbd'
      have := C14_deterministic B hbd' hbd
      simpa using this
  refine ⟨hn, hcodes, htc.1, htc.2, lt, inj, fun k hk => ?_, pos, mass⟩
  have h1 := key k hk
  have h2 := lt k hk
  rw [List.getElem?_eq_getElem (by omega), ← h1, ← hcodes, List.getElem?_eq_getElem]

variable (L : Alike s s' x x' r μ τ)
include L

/-- `τ` maps the particles of a node to particles of the node. -/
theorem Alike.range (hs : Supported w d) (h : Reach _ s) (hz : s.n * cbits w d < 2 ^ 64) {i : Nat} (hi : i < s.tree.length) {k : Nat}
    (h1 : s.tree[i].beg ≤ k) (h2 : k < s.tree[i].fin) : s.tree[i].beg ≤ τ k ∧ τ k < s.tree[i].fin := by
  obtain ⟨hcl, _, _, _, p, _, _, _, _, _, p6, _, p8⟩ := reach_node (rakauEnv_ok A simd mac hs) h hz hi
  have hk : k < s.n := by omega
  have hτ := L.lt k hk
  have hc := L.code k hk
  rw [List.getElem?_eq_getElem (by omega), List.getElem?_eq_getElem (by omega), Option.some.injEq] at hc
  rw [p8 (τ k) (by omega), hc]
  exact (p8 k (by omega)).1 ⟨h1, h2⟩

variable {rsqrt rsqrt' : Option (Fl K → Fl K)} {over : Overshift} {mv e : K} (H : Sit s rsqrt over x b mv e)
  (H' : Sit s' rsqrt' over x' (r * b) mv (r ^ 2 * e)) (hr : 0 < r) (hμ : 0 < μ)
include H H' hr hμ

/-- The data of the nodes. -/
theorem Alike.node (hq : SqrtHom A r) {i : Nat} (hi : i < s.tree.length) :
    s'.cm i = μ * s.cm i ∧ (∀ j < d, s'.cx i j = r * s.cx i j) ∧ (mac = .bhGeom → s'.cdelta i = r * s.cdelta i) := by
  have hi' : i < s'.tree.length := by rw [L.tree]; exact hi
  have ht : s'.tree[i] = s.tree[i] := by
    apply Option.some.inj
    rw [← List.getElem?_eq_getElem hi', ← List.getElem?_eq_getElem hi, L.tree]
  obtain ⟨_, _, _, _, p, p1, p2, p3, p4, p5, p6, _, _⟩ := reach_node (rakauEnv_ok A simd mac H.supp) H.reach H.size hi
  obtain ⟨hp, m1, m2, m3⟩ := C17_exact H.exact H.batch H.supp H.reach H.size H.box H.data hi
  obtain ⟨hp', m1', m2', m3'⟩ := C17_exact H'.exact H'.batch H'.supp H'.reach H'.size H'.box H'.data hi'
  obtain ⟨_, com, cen, c1, c2, c3, c4, c5, c6⟩ := C19_size H.exact H.batch H.supp H.reach H.size H.box H.data hi
  obtain ⟨_, com', cen', c1', c2', c3', c4', c5', c6'⟩ := C19_size H'.exact H'.batch H'.supp H'.reach H'.size H'.box H'.data hi'
  rw [ht] at m1' m2' m3' c4'
  have hrg : ∀ k, s.tree[i].beg ≤ k → k < s.tree[i].fin → s.tree[i].beg ≤ τ k ∧ τ k < s.tree[i].fin :=
    fun k => L.range H.supp H.reach H.size hi
  have hM : ∑ k ∈ Finset.Ico s.tree[i].beg s.tree[i].fin, x' d k = μ * ∑ k ∈ Finset.Ico s.tree[i].beg s.tree[i].fin, x d k := by
    rw [← sum_Ico_map p6 L.inj hrg (x d), Finset.mul_sum]
    apply Finset.sum_congr rfl
    intro k hk
    rw [Finset.mem_Ico] at hk
    exact L.mass k (by omega)
  have hX : ∀ j < d, ∑ k ∈ Finset.Ico s.tree[i].beg s.tree[i].fin, x' d k * x' j k =
      μ * r * ∑ k ∈ Finset.Ico s.tree[i].beg s.tree[i].fin, x d k * x j k := by
    intro j hj
    have e0 := sum_Ico_map p6 L.inj hrg (fun k => x d k * x j k)
    beta_reduce at e0
    rw [← e0, Finset.mul_sum]
    apply Finset.sum_congr rfl
    intro k hk
    rw [Finset.mem_Ico] at hk
    rw [L.mass k (by omega), L.pos k (by omega) j hj]
    ring
  have hinj : Function.Injective (List.map (Fl.fin (K := K))) := List.map_injective_iff.2 (fun a b h => by simpa using h)
  -- the centres of the cubes
  have hcen : cen' = cen.map (r * ·) := by
    have p3 : s.tree[i].code = p.code d := p3
    have p2 : p.length ≤ cbits w d := p2
    obtain ⟨c, a1, _, a3⟩ := nodeCentre_exact H.exact H.supp p1 p2 b
    obtain ⟨c', a1', _, a3'⟩ := nodeCentre_exact H.exact H.supp p1 p2 (r * b)
    have : c' = c := Option.some.inj (a1'.symm.trans a1)
    subst this
    rw [p3, H.box, a3, Except.ok.injEq] at c4
    rw [p3, H'.box, a3', Except.ok.injEq] at c4'
    rw [← hinj c4, ← hinj c4', List.map_map]
    apply List.map_congr_left
    intro q _
    simp only [Function.comp]
    ring
  -- the centres of mass
  have hcom : com' = com.map (r * ·) := by
    by_cases h0 : ∑ k ∈ Finset.Ico s.tree[i].beg s.tree[i].fin, x d k = 0
    · have e1 := m3 h0
      have e2 := m3' (by rw [hM, h0, mul_zero])
      rw [c3, c4, Except.ok.injEq] at e1
      rw [c3', c4', Except.ok.injEq] at e2
      rw [← hinj e1, ← hinj e2, hcen]
    · have e1 := m2 h0
      have e2 := m2' (by rw [hM]; exact mul_ne_zero hμ.ne' h0)
      rw [c3] at e1
      rw [c3'] at e2
      apply hinj
      rw [e2, List.map_map]
      have e3 : com.map (Fl.fin ∘ (r * ·)) = (com.map Fl.fin).map (fun q => match q with | .fin y => .fin (r * y) | q => q) := by
        rw [List.map_map]; rfl
      rw [e3, e1, List.map_map]
      apply List.map_congr_left
      intro j hj
      rw [List.mem_range] at hj
      simp only [Function.comp]
      rw [hM, hX j hj]
      congr 1
      field_simp
  have hcx : ∀ {simd₀ : Option (Simd K)} {t : TS (rakauEnv A simd₀ mac w d)} {cm : List K} (ht : i < t.props.length), t.props[i].com = cm.map .fin →
      ∀ j (hj : j < cm.length), t.cx i j = cm[j] := by
    intro simd₀ t cm ht hc j hj
    unfold TS.cx
    rw [List.getElem?_eq_getElem ht, Option.map_some, Option.getD_some, hc, List.getD_eq_getElem?_getD,
      List.getElem?_eq_getElem (by simpa using hj), Option.getD_some, List.getElem_map]
    rfl
  refine ⟨?_, ?_, ?_⟩
  · unfold TS.cm
    rw [List.getElem?_eq_getElem hp, List.getElem?_eq_getElem hp', Option.map_some, Option.map_some, Option.getD_some, Option.getD_some, m1, m1', hM]
    rfl
  · intro j hj
    rw [hcx hp c3 j (by omega), hcx hp' c3' j (by omega)]
    simp only [hcom, List.getElem_map]
  · intro hg
    have d1 := (c6 hg).2
    have d2 := (c6' hg).2
    obtain ⟨y, y1, _⟩ := H.sqrt _ (sqDist_nonneg' com cen)
    have hsq : ((com'.zip cen').map (fun q => (q.1 - q.2) ^ 2)).sum = r ^ 2 * ((com.zip cen).map (fun q => (q.1 - q.2) ^ 2)).sum := by
      rw [hcom, hcen, List.zip_map, List.map_map, ← List.sum_map_mul_left]
      congr 1
      apply List.map_congr_left
      intro q _
      simp only [Function.comp, Prod.map]
      ring
    rw [hsq, hq _ _ y1] at d2
    rw [y1] at d1
    unfold TS.cdelta
    rw [List.getElem?_eq_getElem hp, List.getElem?_eq_getElem hp', Option.map_some, Option.map_some, Option.getD_some, Option.getD_some, d1, d2]
    rfl

/-- The bounds of the acceptance check, and the squared distances from the centres of mass. -/
theorem Alike.check (hq : SqrtHom A r) {i : Nat} (hi : i < s.tree.length) :
    s'.bound (r * b) mv i = r ^ 2 * s.bound b mv i ∧ ∀ k < s.n, s'.cdist2 (fun j => x' j k) i = r ^ 2 * s.cdist2 (fun j => x j (τ k)) i := by
  obtain ⟨_, h2, h3⟩ := L.node H H' hr hμ hq hi
  have hdim : s'.cdim (r * b) i = r * s.cdim b i := by
    unfold TS.cdim
    rw [L.tree, mul_div_assoc]
  constructor
  · unfold TS.bound
    rw [hdim]
    cases mac with
    | bh => simp only [if_true]; ring
    | bhGeom => simp only [reduceCtorEq, if_false]; rw [h3 rfl]; ring
  · intro k hk
    unfold TS.cdist2
    have := D2_hom (d := d) (e := (0 : K)) (fun j hj => L.pos k hk j hj) h2
    rw [mul_zero] at this
    exact this


/-- The results: particle `k` of `s'` and particle `τ k` of `s`. -/
theorem Alike.value (hq : SqrtHom A r) (hinv : InvHom ((⟨A, simd, rsqrt⟩ : Hw K).mode d) ((⟨A, simd', rsqrt'⟩ : Hw K).mode d) r)
    (hm : ∀ k < s.n, 0 ≤ x d k) (hsep : ∀ k l, k < s.n → l < s.n → k ≠ l → 0 < D2 d e (fun j => x j k) (fun j => x j l)) (Q : Quant) (g : K)
    {val val' : Nat → Res K}
    (hv : ∀ cn ∈ s.crit, (s.fc rsqrt over Q mv g e).node cn = .ok (Arr (cn.fin - cn.beg) (fun a => val (cn.beg + a))))
    (hv' : ∀ cn ∈ s'.crit, (s'.fc rsqrt' over Q mv g (r ^ 2 * e)).node cn = .ok (Arr (cn.fin - cn.beg) (fun a => val' (cn.beg + a))))
    {k : Nat} (hk : k < s.n) : ∃ v, val (τ k) = mkRes Q d v ∧ val' k = mkRes Q d (sc (μ / r ^ 2) (μ ^ 2 / r) v) := by
  have hr2 : 0 < r ^ 2 := by positivity
  have hm' : ∀ k < s'.n, 0 ≤ x' d k := by
    intro k hk
    rw [L.n] at hk
    rw [L.mass k hk]
    exact mul_nonneg hμ.le (hm _ (L.lt k hk))
  have hsep' : ∀ k l, k < s'.n → l < s'.n → k ≠ l → 0 < D2 d (r ^ 2 * e) (fun j => x' j k) (fun j => x' j l) := by
    intro k l hk hl hkl
    rw [L.n] at hk hl
    rw [D2_hom (L.pos k hk) (L.pos l hl)]
    exact mul_pos hr2 (hsep _ _ (L.lt k hk) (L.lt l hl) (fun h => hkl (L.inj k l hk hl h)))
  obtain ⟨ht1, ht2⟩ := crit_tiling (rakauEnv_ok A simd mac H.supp) H.reach H.size
  obtain ⟨c, ⟨hc, k1, k2⟩, _⟩ := ht2 k hk
  have hcm := List.getElem_mem hc
  generalize s.crit[c] = cn at k1 k2 hcm
  have hcm' : cn ∈ s'.crit := by rw [L.crit]; exact hcm
  obtain ⟨vs, w1, w2, w3, w4⟩ := C24_values H hsep Q g hcm
  obtain ⟨vs', w1', w2', w3', w4'⟩ := C24_values H' hsep' Q g hcm'
  -- the range of the critical node
  obtain ⟨t, _, ht, t1, t2, t3, _⟩ := reach_visits (rakauEnv_ok A simd mac H.supp) H.reach H.size H.small (fun _ => false) hcm (by omega)
  have hrg : ∀ l, cn.beg ≤ l → l < cn.fin → cn.beg ≤ τ l ∧ τ l < cn.fin := by
    intro l l1 l2
    have := L.range H.supp H.reach H.size ht (k := l) (by omega) (by omega)
    omega
  have hfn := (ht1 cn hcm).2
  have hlen : cn.beg + (cn.fin - cn.beg) = cn.fin := by have := (ht1 cn hcm).1; omega
  have hpm := map_range'_perm (τ := τ) (lo := cn.beg) (l := cn.fin - cn.beg) (n := s.n) (by omega) L.inj (by rw [hlen]; exact hrg)
  -- the same nodes are accepted
  have hacc : ∀ i < s'.tree.length, (s'.fc rsqrt' over Q mv g (r ^ 2 * e)).accepts (cn.fin - cn.beg) ((s'.fc rsqrt' over Q mv g (r ^ 2 * e)).slot cn) i =
      (s.fc rsqrt over Q mv g e).accepts (cn.fin - cn.beg) ((s.fc rsqrt over Q mv g e).slot cn) i := by
    intro i hi'
    have hi : i < s.tree.length := by rw [← L.tree]; exact hi'
    obtain ⟨q1, q2⟩ := L.check H H' hr hμ hq hi
    rw [Bool.eq_iff_iff, C24_acceptance H' hm' Q g hcm' hi', C24_acceptance H hm Q g hcm hi]
    constructor
    · intro h l l1 l2
      have : l ∈ (List.range' cn.beg (cn.fin - cn.beg)).map τ := by rw [hpm.mem_iff, List.mem_range'_1]; omega
      obtain ⟨l0, m0, rfl⟩ := List.mem_map.1 this
      rw [List.mem_range'_1] at m0
      have := h l0 (by omega) (by omega)
      rw [q1, q2 l0 (by omega)] at this
      exact lt_of_mul_lt_mul_left this hr2.le
    · intro h l l1 l2
      rw [q1, q2 l (by omega)]
      exact mul_lt_mul_of_pos_left (h _ (hrg l l1 l2).1 (hrg l l1 l2).2) hr2
  have hvs : vs' = vs := by
    rw [travGo_congr hacc, L.tree, w1] at w1'
    simpa using w1'.symm
  subst hvs
  have w5 := hv cn hcm
  have w5' := hv' cn hcm'
  rw [w4, Except.ok.injEq] at w5
  rw [w4', Except.ok.injEq] at w5'
  obtain ⟨j1, j2⟩ := hrg k k1 k2
  have w6 : (Arr (cn.fin - cn.beg) _)[τ k - cn.beg]? = (Arr (cn.fin - cn.beg) _)[τ k - cn.beg]? := congrArg (·[τ k - cn.beg]?) w5
  rw [arr_get (by omega), arr_get (by omega), Option.some.injEq, show cn.beg + (τ k - cn.beg) = τ k by omega] at w6
  have w6' : (Arr (cn.fin - cn.beg) _)[k - cn.beg]? = (Arr (cn.fin - cn.beg) _)[k - cn.beg]? := congrArg (·[k - cn.beg]?) w5'
  rw [arr_get (by omega), arr_get (by omega), Option.some.injEq, show cn.beg + (k - cn.beg) = k by omega] at w6'
  refine ⟨_, w6.symm, ?_⟩
  rw [← w6', ← sc_smul]
  apply VEq.mkRes
  rw [sc_add]
  have hpull : ∀ l < s.n, VEq d (pull (s'.fc rsqrt' over Q mv g (r ^ 2 * e)).M d (r ^ 2 * e) x' k l)
      (sc (μ / r ^ 2) (μ ^ 2 / r) (pull (s.fc rsqrt over Q mv g e).M d e x (τ k) (τ l))) := fun l hl =>
    grav_hom hr hinv (L.pos k hk) (L.pos l hl) (L.mass k hk) (L.mass l hl)
  apply VEq.add
  · rw [← sc_sum]
    apply VEq.sum
    intro v hvv
    unfold TS.visVal
    cases hev : v.ev with
    | none => simp only; rw [sc_zero]; exact VEq.rfl' _
    | some ev =>
      cases ev with
      | com i =>
        obtain ⟨hi, _⟩ := w3 v hvv i hev
        obtain ⟨n1, n2, _⟩ := L.node H H' hr hμ hq hi
        exact grav_hom hr hinv (L.pos k hk) n2 (L.mass k hk) n1
      | leaf i =>
        simp only
        rw [L.tree]
        by_cases hi : i < s.tree.length
        · have hri := reach_range H.supp H.reach H.size (List.getElem_mem hi)
          rw [Ev.particles_leaf hi, ← sc_sum]
          have hp2 := map_range'_perm (τ := τ) (lo := s.tree[i].beg) (l := s.tree[i].fin - s.tree[i].beg) (n := s.n) (by omega) L.inj (by
            intro l l1 l2
            have := L.range H.supp H.reach H.size hi l1 (by omega)
            omega)
          rw [← (hp2.map (fun l => sc (μ / r ^ 2) (μ ^ 2 / r) (pull (s.fc rsqrt over Q mv g e).M d e x (τ k) l))).sum_eq, List.map_map]
          apply VEq.sum
          intro l hl
          rw [List.mem_range'_1] at hl
          exact hpull l (by omega)
        · have : (Ev.leaf i).particles s.tree = [] := by
            unfold Ev.particles
            simp only
            rw [List.getElem?_eq_none (by omega)]
          rw [this]
          simp only [List.map_nil, List.sum_nil]
          rw [sc_zero]
          exact VEq.rfl' _
  · have hp3 := filter_range'_perm (τ := τ) (lo := cn.beg) (l := cn.fin - cn.beg) (n := s.n) (by omega) L.inj (by rw [hlen]; exact hrg) hk
    rw [← sc_sum, ← (hp3.map (fun l => sc (μ / r ^ 2) (μ ^ 2 / r) (pull (s.fc rsqrt over Q mv g e).M d e x (τ k) l))).sum_eq, List.map_map]
    apply VEq.sum
    intro l hl
    have := List.mem_range'_1.1 (List.mem_of_mem_filter hl)
    exact hpull l (by omega)

end Pair
end

end Rakau
