import Verif.Props.Error
import Verif.Props.Box
import Verif.Props.Finite
import Verif.Props.Ctor

/-!
# C57: the results in terms of the user's arrays

The statements of this file mention no tree: they compare what the user put in with what the user gets back, over the real numbers. The
positions and masses are those seen through the ordered view, in the order in which the user supplied them.
-/

namespace Rakau
namespace Spec

/-- The potential energy (`G = 1`) of particle `i` among `n` particles with coordinates `X 0`, …, `X (d - 1)`, masses `X d` and squared
softening length `e`. -/
noncomputable def energy (d : Nat) (e : ℝ) (X : Nat → Nat → ℝ) (n i : Nat) : ℝ :=
  -∑ l ∈ (Finset.range n).filter (· ≠ i), X d i * X d l / √(∑ j ∈ Finset.range d, (X j l - X j i) ^ 2 + e)

/-- Component `j` of the acceleration (`G = 1`) of particle `i`. -/
noncomputable def accel (d : Nat) (e : ℝ) (X : Nat → Nat → ℝ) (n i j : Nat) : ℝ :=
  ∑ l ∈ (Finset.range n).filter (· ≠ i), X d l * (X j l - X j i) / √(∑ j ∈ Finset.range d, (X j l - X j i) ^ 2 + e) ^ 3

/-- The sum of mass over squared softened distance, which bounds the length of the acceleration. -/
noncomputable def accSize (d : Nat) (e : ℝ) (X : Nat → Nat → ℝ) (n i : Nat) : ℝ :=
  ∑ l ∈ (Finset.range n).filter (· ≠ i), X d l / (∑ j ∈ Finset.range d, (X j l - X j i) ^ 2 + e)

end Spec
open Spec

theorem filter_range_toFinset (n k : Nat) : ((List.range n).filter (· ≠ k)).toFinset = (Finset.range n).filter (· ≠ k) := by
  ext l
  simp

/-- A sum over all particles but one, in the order of the tree and in that of the user. -/
theorem sum_others {M : Type} [AddCommMonoid M] {n : Nat} {perm : List Nat} (hp : perm.Perm (List.range n)) {k i : Nat} (hk : k < n)
    (hi : perm[k]? = some i) (F : Nat → M) :
    (((List.range n).filter (· ≠ k)).map (fun l => F (perm.getD l 0))).sum = (((List.range n).filter (· ≠ i)).map F).sum := by
  have hl : perm.length = n := by rw [hp.length_eq]; simp
  have hnd : perm.Nodup := hp.nodup_iff.2 List.nodup_range
  have e1 : (((List.range n).filter (· ≠ k)).map (fun l => perm.getD l 0)) = perm.filter (· ≠ i) := by
    have e2 : perm = (List.range n).map (fun l => perm.getD l 0) := by
      apply List.ext_getElem
      · simp [hl]
      · intro a h1 h2
        simp [h1]
    conv_rhs => rw [e2, List.filter_map]
    congr 1
    apply List.filter_congr
    intro l hl'
    rw [List.mem_range] at hl'
    have e3 : perm[k] = i := by
      rw [List.getElem?_eq_getElem (by omega)] at hi
      exact Option.some.inj hi
    have e4 : perm.getD l 0 = perm[l] := by simp [List.getD, hl', hl]
    simp only [Function.comp, e4, ← e3, decide_eq_decide, ne_eq]
    rw [hnd.getElem_inj_iff]
  have e5 : ((List.range n).filter (· ≠ k)).map (fun l => F (perm.getD l 0)) = (((List.range n).filter (· ≠ k)).map (fun l => perm.getD l 0)).map F := by
    rw [List.map_map]; rfl
  rw [e5, e1]
  exact ((hp.filter _).map F).sum_eq

/-- Components of a sum of values. -/
theorem val_sum {α : Type} (L : List α) (f : α → Val ℝ) : (∀ j, (L.map f).sum.1 j = (L.map (fun a => (f a).1 j)).sum) ∧ (L.map f).sum.2 = (L.map (fun a => (f a).2)).sum := by
  induction L with
  | nil => exact ⟨fun j => rfl, rfl⟩
  | cons a L ih =>
    simp only [List.map_cons, List.sum_cons]
    exact ⟨fun j => by rw [← ih.1 j]; rfl, by rw [← ih.2]; rfl⟩

theorem listSum_finset (n k : Nat) (f : Nat → ℝ) : (((List.range n).filter (· ≠ k)).map f).sum = ∑ l ∈ (Finset.range n).filter (· ≠ k), f l := by
  rw [← filter_range_toFinset, List.sum_toFinset _ (List.nodup_range.filter _)]

/-- The direct sum in the tree's order is the direct sum of the user's particles. -/
theorem directVal_user {d n : Nat} {e g : ℝ} {X : Nat → Nat → ℝ} {perm : List Nat} (hp : perm.Perm (List.range n)) {k i : Nat} (hk : k < n)
    (hi : perm[k]? = some i) :
    (∀ j, (directVal realA d e g (fun j k => X j (perm.getD k 0)) n k).1 j = g * accel d e X n i j) ∧
    (directVal realA d e g (fun j k => X j (perm.getD k 0)) n k).2 = g * energy d e X n i := by
  have hki : perm.getD k 0 = i := by simp [List.getD, hi]
  unfold directVal Val.smul
  beta_reduce
  rw [hki]
  rw [sum_others hp hk hi (fun l => grav (ex1 realA) (ex3 realA) d e (fun j => X j i) (X d i) (fun j => X j l) (X d l))]
  obtain ⟨v1, v2⟩ := val_sum ((List.range n).filter (· ≠ i)) (fun l => grav (ex1 realA) (ex3 realA) d e (fun j => X j i) (X d i) (fun j => X j l) (X d l))
  constructor
  · intro j
    show g * _ = _
    rw [v1, listSum_finset]
    unfold accel
    congr 1
    apply Finset.sum_congr rfl
    intro l _
    show X d l * (1 / √(D2 d e (fun j => X j i) (fun j => X j l))) ^ 3 * (X j l - X j i) = _
    unfold D2
    rw [div_pow, one_pow]
    ring
  · show g * _ = _
    rw [v2, listSum_finset]
    unfold energy
    rw [← Finset.sum_neg_distrib]
    congr 1
    apply Finset.sum_congr rfl
    intro l _
    show -(X d i * X d l * (1 / √(D2 d e (fun j => X j i) (fun j => X j l)))) = _
    unfold D2
    ring

section View
variable {K : Type} [Field K] [LinearOrder K] [FloorRing K] {A : Arith K} {simd : Option (Simd K)} {mac : Mac} {w d : Nat}
  {s : TS (rakauEnv A simd mac w d)}

/-- What the ordered view shows, in the order of the tree. -/
theorem data_of_view (h : Reach _ s) {X : Nat → Nat → K} (hX : ∀ j ≤ d, ∀ i < s.n, ordered s j i = some (.fin (X j i))) :
    IsData d s.n s.parts (fun j k => X j (s.perm.getD k 0)) := by
  have I := reach_inv h
  have ha : s.parts.length = d + 1 := I.arr
  refine ⟨ha, fun j hj => ?_⟩
  have hv : s.parts[j]? = some (s.parts[j]'(by omega)) := List.getElem?_eq_getElem (by omega)
  refine ⟨_, hv, ?_⟩
  have hlen : (s.parts[j]'(by omega)).length = s.n := I.len _ (List.getElem_mem _)
  apply List.ext_getElem
  · simp [hlen]
  · intro k h1 h2
    have hk : k < s.n := by omega
    have hpl : s.perm.length = s.n := by rw [I.perm.length_eq]; simp
    have hp : s.perm[k]? = some (s.perm[k]'(by omega)) := List.getElem?_eq_getElem (by omega)
    have hin : s.perm[k]'(by omega) < s.n := by
      have := I.perm.mem_iff.1 (List.getElem_mem (l := s.perm) (n := k) (by omega))
      rwa [List.mem_range] at this
    have e1 := hX j hj _ hin
    unfold ordered at e1
    rw [hv, I.inv k _ hp] at e1
    have e2 : (s.parts[j]'(by omega))[k]? = some (.fin (X j (s.perm[k]'(by omega)))) := e1
    rw [List.getElem?_eq_getElem h1] at e2
    rw [Option.some.inj e2]
    simp [List.getD, hp]

theorem perm_at (h : Reach _ s) {k : Nat} (hk : k < s.n) : ∃ i, s.perm[k]? = some i ∧ i < s.n ∧ s.perm.getD k 0 = i := by
  have I := reach_inv h
  have hpl : s.perm.length = s.n := by rw [I.perm.length_eq]; simp
  have hp : s.perm[k]? = some (s.perm[k]'(by omega)) := List.getElem?_eq_getElem (by omega)
  have hin : s.perm[k]'(by omega) < s.n := by
    have := I.perm.mem_iff.1 (List.getElem_mem (l := s.perm) (n := k) (by omega))
    rwa [List.mem_range] at this
  exact ⟨_, hp, hin, by simp [List.getD, hp]⟩

theorem perm_inv (h : Reach _ s) {i : Nat} (hi : i < s.n) : ∃ k, k < s.n ∧ s.perm[k]? = some i := by
  have I := reach_inv h
  have := I.perm.mem_iff.2 (List.mem_range.2 hi)
  obtain ⟨k, hk, e⟩ := List.getElem_of_mem this
  have hpl : s.perm.length = s.n := by rw [I.perm.length_eq]; simp
  exact ⟨k, by omega, by rw [List.getElem?_eq_getElem hk, e]⟩

theorem perm_ne (h : Reach _ s) {k l : Nat} (hk : k < s.n) (hl : l < s.n) (hkl : k ≠ l) : s.perm.getD k 0 ≠ s.perm.getD l 0 := by
  have I := reach_inv h
  have hpl : s.perm.length = s.n := by rw [I.perm.length_eq]; simp
  have hnd : s.perm.Nodup := I.perm.nodup_iff.2 List.nodup_range
  have e1 : s.perm.getD k 0 = s.perm[k]'(by omega) := by simp [List.getD, hk, hpl]
  have e2 : s.perm.getD l 0 = s.perm[l]'(by omega) := by simp [List.getD, hl, hpl]
  rw [e1, e2, ne_eq, hnd.getElem_inj_iff]
  exact hkl

end View

section
variable {simd : Option (Simd ℝ)} {mac : Mac} {w d : Nat} {s : TS (rakauEnv realA simd mac w d)}

/-- The setting of the force theorems, from what the user sees. -/
theorem sit_user (hS : ∀ S, simd = some S → S.Ok) (hs : Supported w d) (h : Reach _ s) (hz : s.n * cbits w d < 2 ^ 64)
    {over : Overshift} (hov : over.Small) (hr : s.n + (⟨realA, simd, none⟩ : Hw ℝ).pad < 2 ^ 64) (hn : s.n ≠ 0)
    {X : Nat → Nat → ℝ} (hX : ∀ j ≤ d, ∀ i < s.n, ordered s j i = some (.fin (X j i))) {mv e : ℝ} (hmv : 0 < mv) (he : 0 ≤ e) :
    ∃ b, Sit s none over (fun j k => X j (s.perm.getD k 0)) b mv e := by
  obtain ⟨b, hb, _, hb0⟩ := C56_box (exact_laws realA_exact) hs h
  exact ⟨b, realA_exact, hS, hs, h, hz, hr, hb, hb0 hn, data_of_view h hX, hov, hmv, he, realA_sqrt, by intro r hr; cases hr⟩

/-- C57: the exact functions return Newton's values for the user's particle. -/
theorem C57_exact (hS : ∀ S, simd = some S → S.Ok) (hs : Supported w d) (h : Reach _ s) (hz : s.n * cbits w d < 2 ^ 64)
    (hr : s.n + (⟨realA, simd, none⟩ : Hw ℝ).pad < 2 ^ 64) {X : Nat → Nat → ℝ} (hX : ∀ j ≤ d, ∀ i < s.n, ordered s j i = some (.fin (X j i)))
    {u : ℝ} (hu : 0 ≤ u) (hsep : ∀ i l, i < s.n → l < s.n → i ≠ l → 0 < ∑ j ∈ Finset.range d, (X j l - X j i) ^ 2 + u * u) (Q : Quant) (g : ℝ)
    {i : Nat} (hi : i < s.n) :
    s.exact Q true (.fin g) (.fin u) i = .ok (mkRes Q d (fun j => g * accel d (u * u) X s.n i j, g * energy d (u * u) X s.n i)) := by
  obtain ⟨b, H⟩ := sit_user hS hs h hz (over := maskedShift 64) (maskedShift_small 64) hr (by omega) hX (mv := 1) (e := u * u) one_pos (mul_self_nonneg u)
  obtain ⟨k, hk, hki⟩ := perm_inv h hi
  have I := reach_inv h
  rw [exact_direct hu H (fun a l ha hl hal => ?_) Q g true hk (by simpa using hki)]
  · obtain ⟨d1, d2⟩ := directVal_user (d := d) (e := u * u) (g := g) (X := X) I.perm hk hki
    have : directVal realA d (u * u) g (fun j k => X j (s.perm.getD k 0)) s.n k =
        (fun j => g * accel d (u * u) X s.n i j, g * energy d (u * u) X s.n i) := Prod.ext (funext d1) d2
    rw [this]
  · obtain ⟨a', _, a2, a3⟩ := perm_at h ha
    obtain ⟨l', _, l2, l3⟩ := perm_at h hl
    have hne := perm_ne h ha hl hal
    have := hsep a' l' a2 l2 (by rw [← a3, ← l3]; exact hne)
    unfold D2
    simp only [a3, l3]
    exact this

/-- C57: the results of the tree, at the position of the user's particle, are within the bounds of C51 and C55 of Newton's values. -/
theorem C57_user (hS : ∀ S, simd = some S → S.Ok) (hs : Supported w d) (h : Reach _ s) (hz : s.n * cbits w d < 2 ^ 64)
    {over : Overshift} (hov : over.Small) (hr : s.n + (⟨realA, simd, none⟩ : Hw ℝ).pad < 2 ^ 64) (hn : s.n ≠ 0)
    {X : Nat → Nat → ℝ} (hX : ∀ j ≤ d, ∀ i < s.n, ordered s j i = some (.fin (X j i))) (hm : ∀ i < s.n, 0 ≤ X d i)
    {t u κ : ℝ} (ht : 0 < t) (hu : 0 ≤ u) (h0 : 0 ≤ κ) (h1 : κ < 1) (hκ : d * t ^ 2 ≤ κ ^ 2)
    (hsep : ∀ i l, i < s.n → l < s.n → i ≠ l → 0 < ∑ j ∈ Finset.range d, (X j l - X j i) ^ 2 + u * u)
    (Q : Quant) (g : ℝ) {split : List (Fl ℝ)} (hsp : checkSplit split = .ok ()) {order : List Nat} {out : List (Res ℝ)}
    (ho : order.Perm (List.range s.crit.length)) (hout : out.length = s.n) :
    ∃ out', s.accPot none over Q true (.fin t) (.fin g) (.fin u) split order out = .ok out' ∧ out'.length = s.n ∧
      ∀ i < s.n, ∃ a p, out'[i]? = some (mkRes Q d (a, p)) ∧ |p - g * energy d (u * u) X s.n i| ≤ κ ^ 2 / (1 - κ) * |p| ∧
        ∀ j < d, |a j - g * accel d (u * u) X s.n i j| ≤ accErr κ * (1 + κ) ^ 2 * |g| * accSize d (u * u) X s.n i := by
  obtain ⟨b, H⟩ := sit_user hS hs h hz hov hr hn hX (invTheta_pos mac ht) (mul_self_nonneg u)
  have I := reach_inv h
  have hsep' : ∀ k l, k < s.n → l < s.n → k ≠ l → 0 < D2 d (u * u) (fun j => X j (s.perm.getD k 0)) (fun j => X j (s.perm.getD l 0)) := by
    intro a l ha hl hal
    obtain ⟨a', _, a2, a3⟩ := perm_at h ha
    obtain ⟨l', _, l2, l3⟩ := perm_at h hl
    have hne := perm_ne h ha hl hal
    have := hsep a' l' a2 l2 (by rw [← a3, ← l3]; exact hne)
    unfold D2
    simp only [a3, l3]
    exact this
  have hm' : ∀ k < s.n, 0 ≤ X d (s.perm.getD k 0) := by
    intro k hk
    obtain ⟨i, _, i2, i3⟩ := perm_at h hk
    rw [i3]; exact hm i i2
  obtain ⟨out', o1, o2, o3⟩ := total_within ht hu H hm' h0 h1 hκ (fun k l hk hl hkl => realA_root (hsep' k l hk hl hkl))
    (fun k i hk hi ha => realA_root (accepted_pos ht ha)) Q g hsp true ho hout
  refine ⟨out', o1, o2, fun i hi => ?_⟩
  obtain ⟨k, hk, hki⟩ := perm_inv h hi
  obtain ⟨i', v, i1, i2, i3⟩ := o3 k hk
  have hii : i' = i := by
    simp only [if_true] at i1
    rw [hki] at i1
    exact (Option.some.inj i1).symm
  subst hii
  obtain ⟨d1, d2⟩ := directVal_user (d := d) (e := u * u) (g := g) (X := X) I.perm hk hki
  have hkd : s.perm.getD k 0 = i' := by simp [List.getD, hki]
  refine ⟨v.1, v.2, i2, ?_, fun j hj => ?_⟩
  · rw [← d2]; exact i3.pot
  · rw [← d1]
    refine (i3.acc j hj).trans (le_of_eq ?_)
    congr 1
    rw [← listSum_finset]
    unfold accSize
    rw [← listSum_finset]
    rw [hkd]
    exact sum_others I.perm hk hki (fun l => X d l / D2 d (u * u) (fun j => X j i') (fun j => X j l))

end

/-- C57, end to end: for acceptable arrays of numbers the tree can be built, and every tree built gives exact and approximate results for the
particles in the order of the arrays. -/
theorem C57_end_to_end {simd : Option (Simd ℝ)} (hS : ∀ S, simd = some S → S.Ok) (hH : HaddNonfin simd) {mac : Mac} {w d : Nat} (hs : Supported w d)
    {n : Nat} (hn : n ≠ 0) (hz : n * cbits w d < 2 ^ 64) {over : Overshift} (hov : over.Small) (hr : n + (⟨realA, simd, none⟩ : Hw ℝ).pad < 2 ^ 64)
    {X : Nat → Nat → ℝ} {inp : Input (rakauEnv realA simd mac w d)}
    (hin : inp.parts = (List.range (d + 1)).map (fun j => (List.range n).map (fun i => .fin (X j i)))) (hv : ValidInput d inp.box inp.maxLeaf inp.ncrit inp.parts)
    (hm : ∀ i < n, 0 ≤ X d i) {t u κ : ℝ} (ht : 0 < t) (hu : 0 ≤ u) (h0 : 0 ≤ κ) (h1 : κ < 1) (hκ : d * t ^ 2 ≤ κ ^ 2)
    (hsep : ∀ i l, i < n → l < n → i ≠ l → 0 < ∑ j ∈ Finset.range d, (X j l - X j i) ^ 2 + u * u) (Q : Quant) (g : ℝ)
    {split : List (Fl ℝ)} (hsp : checkSplit split = .ok ()) :
    (∃ r, Construct inp r) ∧ ∀ r, Construct inp r → ∃ s, r = .ok s ∧
      (∀ i < n, s.exact Q true (.fin g) (.fin u) i = .ok (mkRes Q d (fun j => g * accel d (u * u) X n i j, g * energy d (u * u) X n i))) ∧
      ∀ (order : List Nat) (out : List (Res ℝ)), order.Perm (List.range s.crit.length) → out.length = n →
      ∃ out', s.accPot none over Q true (.fin t) (.fin g) (.fin u) split order out = .ok out' ∧ out'.length = n ∧
        ∀ i < n, ∃ a p, out'[i]? = some (mkRes Q d (a, p)) ∧ |p - g * energy d (u * u) X n i| ≤ κ ^ 2 / (1 - κ) * |p| ∧
          ∀ j < d, |a j - g * accel d (u * u) X n i j| ≤ accErr κ * (1 + κ) ^ 2 * |g| * accSize d (u * u) X n i := by
  have hl : inp.parts.length = d + 1 := by rw [hin]; simp
  have hhd : (inp.parts.headD []).length = n := by
    rw [hin, List.range_succ_eq_map]
    simp
  refine ⟨(C41_outcome realA simd mac hs hl (by rw [hhd]; exact hz)).1, fun r h => ?_⟩
  obtain ⟨s, rfl⟩ := (C41_exact realA_exact (fun q _ => rfl) hS hH mac hs hl (by rw [hhd]; exact hz) h).1 hv
  obtain ⟨v1, _, v3, _⟩ := C02_views (env := rakauEnv realA simd mac w d) hl h
  have hsn : s.n = n := v1.trans hhd
  have hR : Reach _ s := .construct inp s hl h
  have hX : ∀ j ≤ d, ∀ i < s.n, ordered s j i = some (.fin (X j i)) := by
    intro j hj i hi
    rw [v3, hin]
    simp [show j < d + 1 by omega, show i < n by omega]
  refine ⟨s, rfl, fun i hi => ?_, fun order out ho hout => ?_⟩
  · have := C57_exact hS hs hR (by rw [hsn]; exact hz) (by rw [hsn]; exact hr) hX hu (by rw [hsn]; exact hsep) Q g (i := i) (by omega)
    rwa [hsn] at this
  · have := C57_user hS hs hR (by rw [hsn]; exact hz) hov (by rw [hsn]; exact hr) (by omega) hX (by rw [hsn]; exact hm) ht hu h0 h1 hκ (by rw [hsn]; exact hsep)
      Q g hsp (out := out) ho (by omega)
    rwa [hsn] at this

/-- Three particles of masses 1, 2, 3 in the plane, on the diagonal. -/
noncomputable def diagX (j i : Nat) : ℝ := if j = 2 then i + 1 else i

/-- A tree for them in a box of size 16, with one particle per leaf. -/
noncomputable def diagInp (mac : Mac) : Input (rakauEnv realA none mac 64 2) where
  box := some (.fin 16)
  maxLeaf := 1
  ncrit := 1
  parts := (List.range 3).map (fun j => (List.range 3).map (fun i => Fl.fin (diagX j i)))

theorem diag_supp : Supported 64 2 := ⟨.inr rfl, by decide⟩

theorem diag_valid (mac : Mac) : ValidInput 2 (diagInp mac).box (diagInp mac).maxLeaf (diagInp mac).ncrit (diagInp mac).parts := by
  refine ⟨by show 1 ≠ 0; decide, by show 1 ≠ 0; decide, ?_, ?_, 16, rfl, by norm_num, ?_⟩
  · intro v hv u hu
    obtain ⟨j, _, rfl⟩ := List.mem_map.1 hv
    obtain ⟨j', _, rfl⟩ := List.mem_map.1 hu
    simp
  · intro v hv x hx
    obtain ⟨j, _, rfl⟩ := List.mem_map.1 hv
    obtain ⟨i, _, rfl⟩ := List.mem_map.1 hx
    rfl
  · intro v hv x hx y hxy
    have hv : v ∈ ((List.range 3).take 2).map (fun j => (List.range 3).map (fun i => Fl.fin (diagX j i))) := by
      rw [List.map_take]; exact hv
    obtain ⟨j, hj, rfl⟩ := List.mem_map.1 hv
    obtain ⟨i, hi, rfl⟩ := List.mem_map.1 hx
    obtain rfl : diagX j i = y := by injection hxy
    have hj : j ∈ [0, 1] := hj
    have hi : i ∈ [0, 1, 2] := hi
    simp only [List.mem_cons, List.not_mem_nil, or_false] at hj hi
    rcases hj with rfl | rfl <;> rcases hi with rfl | rfl | rfl <;> simp [diagX, InBox] <;> norm_num

theorem diag_sep {i l : Nat} (hil : i ≠ l) (u : ℝ) : 0 < ∑ j ∈ Finset.range 2, (diagX j l - diagX j i) ^ 2 + u * u := by
  rw [Finset.sum_range_succ, Finset.sum_range_one]
  simp only [diagX]
  have : (l : ℝ) - i ≠ 0 := by
    rw [sub_ne_zero]
    exact_mod_cast hil.symm
  have := pow_pos (abs_pos.2 this) 2
  rw [sq_abs] at this
  norm_num
  linarith [mul_self_nonneg u]

theorem diag_mass (i : Nat) : 0 ≤ diagX 2 i := by simp [diagX]; positivity

/-- A tree over the reals with three particles. -/
theorem diag_tree (mac : Mac) : ∃ s : TS (rakauEnv realA none mac 64 2), Reach _ s ∧ s.n = 3 ∧ ∀ j ≤ 2, ∀ i < s.n, ordered s j i = some (.fin (diagX j i)) := by
  have hl : (diagInp mac).parts.length = 2 + 1 := by simp [diagInp]
  have hhd : ((diagInp mac).parts.headD []).length = 3 := by simp [diagInp, List.range_succ_eq_map]
  obtain ⟨r, h⟩ := (C41_outcome realA none mac diag_supp hl (by rw [hhd]; decide)).1
  obtain ⟨s, rfl⟩ := (C41_exact realA_exact (fun q _ => rfl) (by simp) (by intro S h; cases h) mac diag_supp hl (by rw [hhd]; decide) h).1 (diag_valid mac)
  obtain ⟨v1, _, v3, _⟩ := C02_views (env := rakauEnv realA none mac 64 2) hl h
  have hsn : s.n = 3 := v1.trans hhd
  refine ⟨s, .construct _ s hl h, hsn, fun j hj i hi => ?_⟩
  rw [v3]
  show ((List.range 3).map (fun j => (List.range 3).map (fun i => Fl.fin (diagX j i))))[j]?.bind (fun v => v[i]?) = _
  simp [show j < 3 by omega, show i < 3 by omega]

/-- The data of the example meet the hypotheses, without and with softening. -/
example (mac : Mac) (Q : Quant) (g : ℝ) := C57_end_to_end (simd := none) (by simp) (by intro S h; cases h) (mac := mac) diag_supp (n := 3) (by decide)
  (by decide) (maskedShift_small 64) (by decide) (X := diagX) (inp := diagInp mac) rfl (diag_valid mac)
  (fun i _ => diag_mass i) (t := 1 / 2) (u := 0) (κ := 3 / 4) (by norm_num) le_rfl (by norm_num) (by norm_num) (by norm_num)
  (fun i l _ _ hil => diag_sep hil 0) Q g (split := []) rfl

example (mac : Mac) (Q : Quant) (g : ℝ) : ∃ s : TS (rakauEnv realA none mac 64 2), Reach _ s ∧ s.n = 3 ∧
    s.exact Q true (.fin g) (.fin 2) 1 = .ok (mkRes Q 2 (fun j => g * accel 2 (2 * 2) diagX s.n 1 j, g * energy 2 (2 * 2) diagX s.n 1)) := by
  obtain ⟨s, h, hn, hX⟩ := diag_tree mac
  exact ⟨s, h, hn, C57_exact (by simp) diag_supp h (by rw [hn]; decide) (by rw [hn]; decide) hX (by norm_num) (fun i l _ _ hil => diag_sep hil 2) Q g (by omega)⟩

example (mac : Mac) (Q : Quant) (g : ℝ) : ∃ s : TS (rakauEnv realA none mac 64 2), Reach _ s ∧ s.n = 3 ∧ ∀ out : List (Res ℝ), out.length = 3 →
    ∃ out', s.accPot none (maskedShift 64) Q true (.fin (1 / 2)) (.fin g) (.fin 0) [] (List.range s.crit.length) out = .ok out' := by
  obtain ⟨s, h, hn, hX⟩ := diag_tree mac
  refine ⟨s, h, hn, fun out ho => ?_⟩
  obtain ⟨out', o1, _⟩ := C57_user (by simp) diag_supp h (by rw [hn]; decide) (maskedShift_small 64) (by rw [hn]; decide) (by omega) hX (fun i _ => diag_mass i)
    (t := 1 / 2) (u := 0) (κ := 3 / 4) (by norm_num) le_rfl (by norm_num) (by norm_num) (by norm_num) (fun i l _ _ hil => diag_sep hil 0) Q g (split := []) rfl
    (.refl _) (ho.trans hn.symm)
  exact ⟨out', o1⟩

/-- The hypotheses of `C51_real` are met by the same tree. -/
example (mac : Mac) (Q : Quant) (g : ℝ) : ∃ s : TS (rakauEnv realA none mac 64 2), Reach _ s ∧ s.n = 3 ∧ ∀ out : List (Res ℝ), out.length = 3 →
    ∃ out', s.accPot none (maskedShift 64) Q false (.fin (1 / 2)) (.fin g) (.fin 0) [] (List.range s.crit.length) out = .ok out' := by
  obtain ⟨s, h, hn, hX⟩ := diag_tree mac
  obtain ⟨b, hb, _, hb0⟩ := C56_box (exact_laws realA_exact) diag_supp h
  refine ⟨s, h, hn, fun out ho => ?_⟩
  obtain ⟨out', o1, _⟩ := C51_real (by simp) diag_supp h (by rw [hn]; decide) (maskedShift_small 64) (by rw [hn]; decide) (data_of_view h hX) hb (hb0 (by omega))
    (fun k _ => diag_mass _) (t := 1 / 2) (u := 0) (κ := 3 / 4) (by norm_num) le_rfl (by norm_num) (by norm_num) (by norm_num)
    (fun k l hk hl hkl => diag_sep (perm_ne h hk hl hkl) 0) Q g (split := []) rfl false (.refl _) (ho.trans hn.symm)
  exact ⟨out', o1⟩

end Rakau
