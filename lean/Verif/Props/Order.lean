import Verif.Proof.Alike
import Verif.Proof.Sample

/-!
# C58, C59: order of the particles, scale of lengths and masses

Two trees over the same particles give the same results, whatever the order in which the particles were supplied, the way in which they were
moved there, the order in which the sort left particles with equal codes, and the schedule (C58). Multiplying lengths and masses multiplies
the results (C59), with or without vectorisation.
-/

namespace Rakau
open Spec

variable {K : Type} [Field K] [LinearOrder K] [FloorRing K] [IsStrictOrderedRing K]

/-- What the statements assume of a tree, in terms of what the user sees: it is reachable and not empty, position and mass of the user's particle
`i` are `X 0 i`, …, `X (d - 1) i` and `X d i`, masses are not negative, softened distances are positive; `t` is the parameter of the acceptance check, `u` the softening
length. -/
structure Seen {A : Arith K} {simd : Option (Simd K)} {mac : Mac} {w d : Nat} (s : TS (rakauEnv A simd mac w d))
    (rsqrt : Option (Fl K → Fl K)) (over : Overshift) (X : Nat → Nat → K) (t u : K) : Prop where
  exact : A.Exact
  sqrt : SqrtOk A
  est : EstOk rsqrt
  batch : ∀ S, simd = some S → S.Ok
  supp : Supported w d
  small : over.Small
  reach : Reach _ s
  pos : s.n ≠ 0
  size : s.n * cbits w d < 2 ^ 64
  room : s.n + (⟨A, simd, rsqrt⟩ : Hw K).pad < 2 ^ 64
  view : ∀ j ≤ d, ∀ i < s.n, ordered s j i = some (.fin (X j i))
  mass : ∀ i < s.n, 0 ≤ X d i
  sep : ∀ i l, i < s.n → l < s.n → i ≠ l → 0 < ∑ j ∈ Finset.range d, (X j l - X j i) ^ 2 + u * u
  theta : 0 < t
  soft : 0 ≤ u

section
variable {A : Arith K} {simd simd' : Option (Simd K)} {mac : Mac} {w d : Nat} {s : TS (rakauEnv A simd mac w d)} {s' : TS (rakauEnv A simd' mac w d)}
  {rsqrt rsqrt' : Option (Fl K → Fl K)} {over : Overshift} {X X' : Nat → Nat → K} {t u : K}

theorem Seen.sit (P : Seen s rsqrt over X t u) {b : K} (hb : s.box = .fin b) : Sit s rsqrt over (fun j k => X j (s.perm.getD k 0)) b (invTheta mac t) (u * u) := by
  obtain ⟨b', hb', _, hb0⟩ := C56_box (exact_laws P.exact) P.supp P.reach
  rw [hb, Fl.fin.injEq] at hb'
  subst hb'
  exact ⟨P.exact, P.batch, P.supp, P.reach, P.size, P.room, hb, hb0 P.pos, data_of_view P.reach P.view, P.small, invTheta_pos mac P.theta, mul_self_nonneg u, P.sqrt, P.est⟩

theorem Seen.box (P : Seen s rsqrt over X t u) : ∃ b, s.box = .fin b := by
  obtain ⟨b, hb, _⟩ := C56_box (exact_laws P.exact) P.supp P.reach
  exact ⟨b, hb⟩

/-- The results of two trees with corresponding particles. -/
theorem alike_results {r μ b : K} {π : Nat → Nat} (P : Seen s rsqrt over X t u) (P' : Seen s' rsqrt' over X' t (r * u)) (hr : 0 < r) (hμ : 0 < μ)
    (hq : SqrtHom A r) (hinv : InvHom ((⟨A, simd, rsqrt⟩ : Hw K).mode d) ((⟨A, simd', rsqrt'⟩ : Hw K).mode d) r)
    (hn : s'.n = s.n) (hml : s'.maxLeaf = s.maxLeaf) (hnc : s'.ncrit = s.ncrit) (hb : s.box = .fin b) (hb' : s'.box = .fin (r * b))
    (hlt : ∀ i < s.n, π i < s.n) (hinj : ∀ i l, i < s.n → l < s.n → π i = π l → i = l)
    (hX : ∀ j < d, ∀ i < s.n, X' j i = r * X j (π i)) (hM : ∀ i < s.n, X' d i = μ * X d (π i))
    (Q : Quant) (g : K) {split split' : List (Fl K)} (hsp : checkSplit split = .ok ()) (hsp' : checkSplit split' = .ok ())
    {order order' : List Nat} {out out' : List (Res K)} (ho : order.Perm (List.range s.crit.length)) (ho' : order'.Perm (List.range s'.crit.length))
    (hl : out.length = s.n) (hl' : out'.length = s.n) :
    ∃ o o', s.accPot rsqrt over Q true (.fin t) (.fin g) (.fin u) split order out = .ok o ∧
      s'.accPot rsqrt' over Q true (.fin t) (.fin g) (.fin (r * u)) split' order' out' = .ok o' ∧ o.length = s.n ∧ o'.length = s.n ∧
      ∀ i < s.n, ∃ v, o[π i]? = some (mkRes Q d v) ∧ o'[i]? = some (mkRes Q d (sc (μ / r ^ 2) (μ ^ 2 / r) v)) := by
  have H := P.sit hb
  have H' := P'.sit hb'
  have eu : r * u * (r * u) = r ^ 2 * (u * u) := by ring
  rw [eu] at H'
  -- positions in the trees
  have hat : ∀ k < s.n, ∃ m, m < s.n ∧ s.perm[m]? = some (π (s'.perm.getD k 0)) := by
    intro k hk
    obtain ⟨i, _, i2, i3⟩ := perm_at P'.reach (k := k) (by omega)
    rw [i3]
    exact perm_inv P.reach (hlt i (by omega))
  let τ : Nat → Nat := fun k => if h : k < s.n then (hat k h).choose else 0
  have hτ : ∀ k < s.n, τ k < s.n ∧ s.perm[τ k]? = some (π (s'.perm.getD k 0)) := by
    intro k hk
    have := (hat k hk).choose_spec
    simp only [τ, dif_pos hk]
    exact this
  have hτd : ∀ k < s.n, s.perm.getD (τ k) 0 = π (s'.perm.getD k 0) := by
    intro k hk
    simp [List.getD, (hτ k hk).2]
  have hτi : ∀ k l, k < s.n → l < s.n → τ k = τ l → k = l := by
    intro k l hk hl h
    by_contra hkl
    have h1 := hτd k hk
    rw [h, hτd l hl] at h1
    obtain ⟨i, _, i2, i3⟩ := perm_at P'.reach (k := k) (by omega)
    obtain ⟨i', _, i2', i3'⟩ := perm_at P'.reach (k := l) (by omega)
    rw [i3, i3'] at h1
    have h2 := hinj _ _ (by omega) (by omega) h1
    exact perm_ne P'.reach (by omega) (by omega) hkl (by rw [i3, i3', h2])
  have hin : ∀ k < s.n, s'.perm.getD k 0 < s.n := by
    intro k hk
    obtain ⟨i, _, i2, i3⟩ := perm_at P'.reach (k := k) (by omega)
    omega
  have L : Alike s s' (fun j k => X j (s.perm.getD k 0)) (fun j k => X' j (s'.perm.getD k 0)) r μ τ := by
    refine alike_of P.exact P.supp P.reach P'.reach hn P.size hr hb hb' H.bpos H.data H'.data hml hnc (fun k hk => (hτ k hk).1) hτi ?_ ?_
    · intro k hk j hj
      rw [hτd k hk, hX j hj _ (hin k hk)]
    · intro k hk
      rw [hτd k hk, hM _ (hin k hk)]
  have hsep : ∀ k l, k < s.n → l < s.n → k ≠ l → 0 < D2 d (u * u) (fun j => X j (s.perm.getD k 0)) (fun j => X j (s.perm.getD l 0)) := by
    intro k l hk hl hkl
    obtain ⟨a', _, a2, a3⟩ := perm_at P.reach hk
    obtain ⟨l', _, l2, l3⟩ := perm_at P.reach hl
    have hne := perm_ne P.reach hk hl hkl
    have := P.sep a' l' a2 l2 (by rw [← a3, ← l3]; exact hne)
    unfold D2
    simp only [a3, l3]
    exact this
  have hm : ∀ k < s.n, 0 ≤ X d (s.perm.getD k 0) := by
    intro k hk
    obtain ⟨i, _, i2, i3⟩ := perm_at P.reach hk
    rw [i3]; exact P.mass i i2
  -- the two computations
  obtain ⟨p1, hp1, _⟩ := H.pad_eq Q g
  obtain ⟨p2, hp2, _⟩ := H'.pad_eq Q g
  obtain ⟨val, hval, hall⟩ := C27_outputs H.simdPos H.supp H.reach H.size H.small H.room Q (checkParams_exact (mac := mac) (g := g) H.exact P.theta P.soft) hsp
    (by show (s.fc rsqrt over Q (invTheta mac t) g (u * u)).padCoord.isFinite = true; rw [hp1]; rfl)
  have hck := checkParams_exact (mac := mac) (g := g) H'.exact P'.theta P'.soft
  rw [eu] at hck
  obtain ⟨val', hval', hall'⟩ := C27_outputs H'.simdPos H'.supp H'.reach H'.size H'.small H'.room Q hck hsp'
    (by show (s'.fc rsqrt' over Q (invTheta mac t) g (r ^ 2 * (u * u))).padCoord.isFinite = true; rw [hp2]; rfl)
  obtain ⟨o, o1, o2, o3⟩ := hall true order out ho hl
  obtain ⟨o', o1', o2', o3'⟩ := hall' true order' out' ho' (hl'.trans hn.symm)
  refine ⟨o, o', o1, o1', o2, o2'.trans hn, ?_⟩
  intro i hi
  obtain ⟨k, hk, hki⟩ := perm_inv P'.reach (i := i) (by omega)
  have hk' : k < s.n := by omega
  obtain ⟨v, v1, v2⟩ := L.value H H' hr hμ hq hinv hm hsep Q g hval hval' hk'
  have hpk : s'.perm.getD k 0 = i := by simp [List.getD, hki]
  obtain ⟨i1, e1, e2⟩ := o3 (τ k) (hτ k hk').1
  obtain ⟨i2, e3, e4⟩ := o3' k hk
  simp only [if_true] at e1 e3
  rw [(hτ k hk').2, hpk, Option.some.injEq] at e1
  rw [hki, Option.some.injEq] at e3
  subst e1 e3
  exact ⟨v, by rw [e2, v1], by rw [e4, v2]⟩

end

section Order
variable {A : Arith K} {simd : Option (Simd K)} {mac : Mac} {w d : Nat} {s s' : TS (rakauEnv A simd mac w d)}
  {rsqrt : Option (Fl K → Fl K)} {over : Overshift} {X X' : Nat → Nat → K} {t u : K}

omit [LinearOrder K] [FloorRing K] [IsStrictOrderedRing K] in
theorem sqrtHom_one (A : Arith K) : SqrtHom A 1 := by
  intro q y h
  rw [one_pow, one_mul, one_mul]; exact h

omit [LinearOrder K] [FloorRing K] [IsStrictOrderedRing K] in
theorem invHom_one (M : Mode K) : InvHom M M 1 := by
  intro q
  rw [one_pow, one_mul, one_pow, div_one, div_one]
  exact ⟨rfl, rfl⟩

omit [LinearOrder K] [FloorRing K] [IsStrictOrderedRing K] in
theorem sc_one (v : Val K) : sc (1 / 1 ^ 2) (1 ^ 2 / 1) v = v := by
  unfold sc
  ext <;> simp

/-- C58: two trees with the same box and parameters over the same particles, however they came about (order of the input, order in which the sort left particles with equal codes, updates, parallel schedule), give the same results: if the user's particle `i` of `s'` is the user's particle `π i` of `s`, so is its result. -/
theorem C58_order {π : Nat → Nat} (P : Seen s rsqrt over X t u) (P' : Seen s' rsqrt over X' t u)
    (hn : s'.n = s.n) (hb : s'.box = s.box) (hml : s'.maxLeaf = s.maxLeaf) (hnc : s'.ncrit = s.ncrit)
    (hlt : ∀ i < s.n, π i < s.n) (hinj : ∀ i l, i < s.n → l < s.n → π i = π l → i = l)
    (hX : ∀ j ≤ d, ∀ i < s.n, X' j i = X j (π i)) (Q : Quant) (g : K) {split split' : List (Fl K)} (hsp : checkSplit split = .ok ())
    (hsp' : checkSplit split' = .ok ()) {order order' : List Nat} {out out' : List (Res K)} (ho : order.Perm (List.range s.crit.length))
    (ho' : order'.Perm (List.range s'.crit.length)) (hl : out.length = s.n) (hl' : out'.length = s.n) :
    ∃ o o', s.accPot rsqrt over Q true (.fin t) (.fin g) (.fin u) split order out = .ok o ∧
      s'.accPot rsqrt over Q true (.fin t) (.fin g) (.fin u) split' order' out' = .ok o' ∧ o.length = s.n ∧ o'.length = s.n ∧
      ∀ i < s.n, o'[i]? = o[π i]? := by
  obtain ⟨b, hb0⟩ := P.box
  have P1 : Seen s' rsqrt over X' t (1 * u) := by rw [one_mul]; exact P'
  obtain ⟨o, o', h1, h2, h3, h4, h5⟩ := alike_results (r := 1) (μ := 1) P P1 one_pos one_pos (sqrtHom_one A) (invHom_one _) hn hml hnc hb0
    (by rw [hb, hb0, one_mul]) hlt hinj (fun j hj i hi => by rw [hX j hj.le i hi, one_mul]) (fun i hi => by rw [hX d le_rfl i hi, one_mul]) Q g hsp hsp' ho ho' hl hl'
  rw [one_mul] at h2
  refine ⟨o, o', h1, h2, h3, h4, fun i hi => ?_⟩
  obtain ⟨v, v1, v2⟩ := h5 i hi
  rw [v1, v2, sc_one]

/-- C58: the same for two constructions: the outcome for a permuted input is the permuted outcome, whatever the sorts and schedules of the two runs. -/
theorem C58_construct {π : Nat → Nat} {inp inp' : Input (rakauEnv A simd mac w d)} {n : Nat}
    (hin : inp.parts = (List.range (d + 1)).map (fun j => (List.range n).map (fun i => .fin (X j i))))
    (hin' : inp'.parts = (List.range (d + 1)).map (fun j => (List.range n).map (fun i => .fin (X j (π i)))))
    (hlt : ∀ i < n, π i < n) (hinj : ∀ i l, i < n → l < n → π i = π l → i = l)
    (hb : inp.box = inp'.box) (hml : inp.maxLeaf = inp'.maxLeaf) (hnc : inp.ncrit = inp'.ncrit)
    (hc : Construct inp (.ok s)) (hc' : Construct inp' (.ok s')) (hA : A.Exact) (hq : SqrtOk A) (he : EstOk rsqrt) (hS : ∀ S, simd = some S → S.Ok)
    (hs : Supported w d) (hov : over.Small) (hn : n ≠ 0) (hz : n * cbits w d < 2 ^ 64) (hr : n + (⟨A, simd, rsqrt⟩ : Hw K).pad < 2 ^ 64)
    (hm : ∀ i < n, 0 ≤ X d i) (hsep : ∀ i l, i < n → l < n → i ≠ l → 0 < ∑ j ∈ Finset.range d, (X j l - X j i) ^ 2 + u * u)
    (ht : 0 < t) (hu : 0 ≤ u) (Q : Quant) (g : K) {split split' : List (Fl K)} (hsp : checkSplit split = .ok ())
    (hsp' : checkSplit split' = .ok ()) {order order' : List Nat} {out out' : List (Res K)} (ho : order.Perm (List.range s.crit.length))
    (ho' : order'.Perm (List.range s'.crit.length)) (hl : out.length = n) (hl' : out'.length = n) :
    ∃ o o', s.accPot rsqrt over Q true (.fin t) (.fin g) (.fin u) split order out = .ok o ∧
      s'.accPot rsqrt over Q true (.fin t) (.fin g) (.fin u) split' order' out' = .ok o' ∧ o.length = n ∧ o'.length = n ∧
      ∀ i < n, o'[i]? = o[π i]? := by
  have hd : inp.parts.length = d + 1 := by rw [hin]; simp
  have hd' : inp'.parts.length = d + 1 := by rw [hin']; simp
  have hhd : (inp.parts.headD []).length = n := by
    rw [hin, List.range_succ_eq_map]
    simp
  have hhd' : (inp'.parts.headD []).length = n := by
    rw [hin', List.range_succ_eq_map]
    simp
  have hπ : ((List.range n).map π).Perm (List.range n) := by
    have := map_range'_perm (τ := π) (lo := 0) (l := n) (n := n) (by omega) hinj (fun k _ hk => ⟨by omega, by have := hlt k (by omega); omega⟩)
    rwa [← List.range_eq_range'] at this
  have hp : inp.parts.mapM (fun v => applyIsort v ((List.range n).map π)) = some inp'.parts := by
    rw [mapM_some_iff, hin, hin']
    apply forall₂_of_getElem (by simp)
    intro j h1 h2
    rw [List.getElem_map, List.getElem_map, List.getElem_range]
    unfold applyIsort
    rw [mapM_some_iff]
    apply forall₂_of_getElem (by simp)
    intro i h3 h4
    have hi : i < n := by simpa using h3
    have := hlt i hi
    simp [this]
  obtain ⟨v1, _, v3, _⟩ := C02_views (env := rakauEnv A simd mac w d) hd hc
  obtain ⟨v1', _, v3', _⟩ := C02_views (env := rakauEnv A simd mac w d) hd' hc'
  have hsn : s.n = n := v1.trans hhd
  have hsn' : s'.n = n := v1'.trans hhd'
  obtain ⟨_, _, _, _, _, _, _, _, _, _, _, _, _, _, _, m1, n1⟩ := construct_ok hc
  obtain ⟨_, _, _, _, _, _, _, _, _, _, _, _, _, _, _, m2, n2⟩ := construct_ok hc'
  have c15 := C15_construct (rakauEnv_ok A simd mac hs) hd (by rw [hhd]; exact hπ) hp hb hml hnc (by rw [hhd]; exact hz) hc hc'
  have P : Seen s rsqrt over X t u :=
    ⟨hA, hq, he, hS, hs, hov, .construct inp s hd hc, by omega, by rw [hsn]; exact hz, by rw [hsn]; exact hr, by
      intro j hj i hi
      rw [v3, hin]
      simp [show j < d + 1 by omega, show i < n by omega], by rw [hsn]; exact hm, by rw [hsn]; exact hsep, ht, hu⟩
  have P' : Seen s' rsqrt over (fun j i => X j (π i)) t u :=
    ⟨hA, hq, he, hS, hs, hov, .construct inp' s' hd' hc', by omega, by rw [hsn']; exact hz, by rw [hsn']; exact hr, by
      intro j hj i hi
      rw [v3', hin']
      simp [show j < d + 1 by omega, show i < n by omega], by rw [hsn']; exact fun i hi => hm _ (hlt i hi), by
      rw [hsn']
      exact fun i l hi hl hil => hsep _ _ (hlt i hi) (hlt l hl) (fun h => hil (hinj i l hi hl h)), ht, hu⟩
  have := C58_order (π := π) P P' (hsn'.trans hsn.symm) c15.1.symm (m2.trans (hml.symm.trans m1.symm)) (n2.trans (hnc.symm.trans n1.symm)) (by rw [hsn]; exact hlt) (by rw [hsn]; exact hinj)
    (fun _ _ _ _ => rfl) Q g hsp hsp' ho ho' (hl.trans hsn.symm) (hl'.trans hsn.symm)
  rw [hsn] at this
  exact this

end Order

/-! ### Scale -/

section Scale
variable {simd simd' : Option (Simd ℝ)} {mac : Mac} {w d : Nat} {s : TS (rakauEnv realA simd mac w d)} {s' : TS (rakauEnv realA simd' mac w d)}
  {over : Overshift} {X X' : Nat → Nat → ℝ} {t u : ℝ}

theorem sqrtHom_real {r : ℝ} (hr : 0 < r) : SqrtHom realA r := by
  intro q y h
  have h : Fl.fin √q = .fin y := h
  rw [Fl.fin.injEq] at h
  show Fl.fin √(r ^ 2 * q) = _
  rw [Real.sqrt_mul (sq_nonneg r), Real.sqrt_sq hr.le, h]

theorem invHom_real (simd simd' : Option (Simd ℝ)) (d : Nat) {r : ℝ} (hr : 0 < r) :
    InvHom ((⟨realA, simd, none⟩ : Hw ℝ).mode d) ((⟨realA, simd', none⟩ : Hw ℝ).mode d) r := by
  have h1 : ∀ (simd : Option (Simd ℝ)) q, ((⟨realA, simd, none⟩ : Hw ℝ).mode d).inv1 q = 1 / √q ∧ ((⟨realA, simd, none⟩ : Hw ℝ).mode d).inv3 q = 1 / (√q * q) := by
    intro simd q
    unfold Hw.mode
    cases (⟨realA, simd, none⟩ : Hw ℝ).vec d <;> exact ⟨rfl, rfl⟩
  intro q
  rw [(h1 _ _).1, (h1 _ _).2, (h1 _ _).1, (h1 _ _).2, Real.sqrt_mul (sq_nonneg r), Real.sqrt_sq hr.le]
  constructor
  · rw [one_div, mul_inv, one_div]; field_simp
  · rw [div_div]; congr 1; ring

/-- C59: multiplying coordinates, box size and softening length by `r` and masses by `μ` multiplies accelerations by `μ / r²` and potential energies by
`μ² / r`, exactly, whatever `θ`: the same approximations are made. The two runs may use different vector widths or none. -/
theorem C59_scale {r μ b : ℝ} {π : Nat → Nat} (P : Seen s none over X t u) (P' : Seen s' none over X' t (r * u)) (hr : 0 < r) (hμ : 0 < μ)
    (hn : s'.n = s.n) (hml : s'.maxLeaf = s.maxLeaf) (hnc : s'.ncrit = s.ncrit) (hb : s.box = .fin b) (hb' : s'.box = .fin (r * b))
    (hlt : ∀ i < s.n, π i < s.n) (hinj : ∀ i l, i < s.n → l < s.n → π i = π l → i = l)
    (hX : ∀ j < d, ∀ i < s.n, X' j i = r * X j (π i)) (hM : ∀ i < s.n, X' d i = μ * X d (π i))
    (Q : Quant) (g : ℝ) {split split' : List (Fl ℝ)} (hsp : checkSplit split = .ok ()) (hsp' : checkSplit split' = .ok ())
    {order order' : List Nat} {out out' : List (Res ℝ)} (ho : order.Perm (List.range s.crit.length)) (ho' : order'.Perm (List.range s'.crit.length))
    (hl : out.length = s.n) (hl' : out'.length = s.n) :
    ∃ o o', s.accPot none over Q true (.fin t) (.fin g) (.fin u) split order out = .ok o ∧
      s'.accPot none over Q true (.fin t) (.fin g) (.fin (r * u)) split' order' out' = .ok o' ∧ o.length = s.n ∧ o'.length = s.n ∧
      ∀ i < s.n, ∃ a p, o[π i]? = some (mkRes Q d (a, p)) ∧ o'[i]? = some (mkRes Q d (fun j => μ / r ^ 2 * a j, μ ^ 2 / r * p)) := by
  obtain ⟨o, o', h1, h2, h3, h4, h5⟩ := alike_results P P' hr hμ (sqrtHom_real hr) (invHom_real simd simd' d hr) hn hml hnc hb hb' hlt hinj hX hM Q g hsp hsp' ho ho' hl hl'
  refine ⟨o, o', h1, h2, h3, h4, fun i hi => ?_⟩
  obtain ⟨v, v1, v2⟩ := h5 i hi
  exact ⟨v.1, v.2, v1, v2⟩

/-- The deduced box size: 2.1 times the largest absolute coordinate. -/
theorem deduce_user {A : Arith K} (hA : A.Exact) {d n : Nat} (hd : 0 < d) (X : Nat → Nat → K) :
    ∃ m, 0 ≤ m ∧ (m = 0 ∨ ∃ j < d, ∃ i < n, |X j i| = m) ∧ (∀ j < d, ∀ i < n, |X j i| ≤ m) ∧
      deduceBox A d ((List.range (d + 1)).map (fun j => (List.range n).map (fun i => .fin (X j i)))) = .ok (.fin (21 / 10 * m)) := by
  have hR : Rect d n ((List.range (d + 1)).map (fun j => (List.range n).map (fun i => Fl.fin (X j i)))) := by
    refine ⟨by simp, ?_⟩
    intro v hv
    obtain ⟨j, _, rfl⟩ := List.mem_map.1 hv
    simp
  have hmem : ∀ x : Fl K, x ∈ (((List.range (d + 1)).map (fun j => (List.range n).map (fun i => Fl.fin (X j i)))).take d).flatten ↔
      ∃ j < d, ∃ i < n, x = .fin (X j i) := by
    intro x
    rw [← List.map_take, List.take_range]
    simp only [List.mem_flatten, List.mem_map, List.mem_range]
    constructor
    · rintro ⟨l, ⟨j, hj, rfl⟩, hx⟩
      obtain ⟨i, hi, rfl⟩ := List.mem_map.1 hx
      exact ⟨j, by omega, i, List.mem_range.1 hi, rfl⟩
    · rintro ⟨j, hj, i, hi, rfl⟩
      exact ⟨_, ⟨j, by omega, rfl⟩, List.mem_map.2 ⟨i, List.mem_range.2 hi, rfl⟩⟩
  rcases deduceBox_cases A hd hR with ⟨m, ⟨i1, i2, i3⟩, e⟩ | ⟨⟨x, hx, hxf⟩, _⟩
  · refine ⟨m, i1, ?_, ?_, ?_⟩
    · rcases i3 with h | ⟨q, hq, h⟩
      · exact .inl h
      · obtain ⟨j, hj, i, hi, e⟩ := (hmem _).1 hq
        rw [Fl.fin.injEq] at e
        exact .inr ⟨j, hj, i, hi, by rw [← e, h]⟩
    · intro j hj i hi
      obtain ⟨q, e, hq⟩ := i2 (.fin (X j i)) ((hmem _).2 ⟨j, hj, i, hi, rfl⟩)
      rw [Fl.fin.injEq] at e; rw [e]; exact hq
    · rw [e]
      unfold boxFromMax
      simp only [maxElement, List.foldl_nil, ofUB, bind, Except.bind]
      rw [ex_mul hA, ex_div hA (by norm_num), ex_fma hA]
      simp only [Fl.isFinite, Bool.not_true, Bool.false_eq_true, if_false]
      congr 2; ring
  · exfalso
    obtain ⟨j, _, i, _, rfl⟩ := (hmem _).1 hx
    simp [Fl.isFinite] at hxf

/-- C59: the same for two constructions, with the box size given or deduced. -/
theorem C59_construct {r μ : ℝ} {π : Nat → Nat} {n : Nat} {inp : Input (rakauEnv realA simd mac w d)} {inp' : Input (rakauEnv realA simd' mac w d)}
    (hin : inp.parts = (List.range (d + 1)).map (fun j => (List.range n).map (fun i => .fin (X j i))))
    (hin' : inp'.parts = (List.range (d + 1)).map (fun j => (List.range n).map (fun i => .fin ((if j = d then μ else r) * X j (π i)))))
    (hlt : ∀ i < n, π i < n) (hinj : ∀ i l, i < n → l < n → π i = π l → i = l) {box : Option ℝ}
    (hb : inp.box = box.map .fin) (hb' : inp'.box = box.map (fun b => .fin (r * b))) (hml : inp'.maxLeaf = inp.maxLeaf) (hnc : inp'.ncrit = inp.ncrit)
    (hc : Construct inp (.ok s)) (hc' : Construct inp' (.ok s')) (hr : 0 < r) (hμ : 0 < μ) (hS : ∀ S, simd = some S → S.Ok) (hS' : ∀ S, simd' = some S → S.Ok)
    (hs : Supported w d) (hov : over.Small) (hn : n ≠ 0) (hz : n * cbits w d < 2 ^ 64) (hr1 : n + (⟨realA, simd, none⟩ : Hw ℝ).pad < 2 ^ 64)
    (hr2 : n + (⟨realA, simd', none⟩ : Hw ℝ).pad < 2 ^ 64)
    (hm : ∀ i < n, 0 ≤ X d i) (hsep : ∀ i l, i < n → l < n → i ≠ l → 0 < ∑ j ∈ Finset.range d, (X j l - X j i) ^ 2 + u * u)
    (ht : 0 < t) (hu : 0 ≤ u) (Q : Quant) (g : ℝ) {split split' : List (Fl ℝ)} (hsp : checkSplit split = .ok ())
    (hsp' : checkSplit split' = .ok ()) {order order' : List Nat} {out out' : List (Res ℝ)} (ho : order.Perm (List.range s.crit.length))
    (ho' : order'.Perm (List.range s'.crit.length)) (hl : out.length = n) (hl' : out'.length = n) :
    ∃ o o', s.accPot none over Q true (.fin t) (.fin g) (.fin u) split order out = .ok o ∧
      s'.accPot none over Q true (.fin t) (.fin g) (.fin (r * u)) split' order' out' = .ok o' ∧ o.length = n ∧ o'.length = n ∧
      ∀ i < n, ∃ a p, o[π i]? = some (mkRes Q d (a, p)) ∧ o'[i]? = some (mkRes Q d (fun j => μ / r ^ 2 * a j, μ ^ 2 / r * p)) := by
  have hd : inp.parts.length = d + 1 := by rw [hin]; simp
  have hd' : inp'.parts.length = d + 1 := by rw [hin']; simp
  have hhd : (inp.parts.headD []).length = n := by
    rw [hin, List.range_succ_eq_map]
    simp
  have hhd' : (inp'.parts.headD []).length = n := by
    rw [hin', List.range_succ_eq_map]
    simp
  obtain ⟨v1, _, v3, _⟩ := C02_views (env := rakauEnv realA simd mac w d) hd hc
  obtain ⟨v1', _, v3', _⟩ := C02_views (env := rakauEnv realA simd' mac w d) hd' hc'
  have hsn : s.n = n := v1.trans hhd
  have hsn' : s'.n = n := v1'.trans hhd'
  obtain ⟨_, _, _, _, b1, _, _, _, _, _, _, _, _, _, _, m1, n1⟩ := construct_ok hc
  obtain ⟨_, _, _, _, b2, _, _, _, _, _, _, _, _, _, _, m2, n2⟩ := construct_ok hc'
  have hd0 := hs.dim.1
  have hsurj : ∀ l < n, ∃ i < n, π i = l := by
    intro l hl
    have := map_range'_perm (τ := π) (lo := 0) (l := n) (n := n) (by omega) hinj (fun k _ hk => ⟨by omega, by have := hlt k (by omega); omega⟩)
    have h1 : l ∈ (List.range' 0 n).map π := by rw [this.mem_iff, List.mem_range'_1]; omega
    obtain ⟨i, hi, e⟩ := List.mem_map.1 h1
    rw [List.mem_range'_1] at hi
    exact ⟨i, by omega, e⟩
  have hbox : ∃ b, s.box = .fin b ∧ s'.box = .fin (r * b) := by
    cases box with
    | some b =>
      rw [hb] at b1
      rw [hb'] at b2
      simp only [Option.map_some, boxFor, Except.ok.injEq] at b1 b2
      exact ⟨b, b1.symm, b2.symm⟩
    | none =>
      rw [hb, hin] at b1
      rw [hb', hin'] at b2
      obtain ⟨m, q0, q1, q2, q3⟩ := deduce_user realA_exact hd0 (n := n) X
      obtain ⟨m', q0', q1', q2', q3'⟩ := deduce_user realA_exact hd0 (n := n) (fun j i => (if j = d then μ else r) * X j (π i))
      have b1 := q3.symm.trans (show deduceBox realA d _ = _ from b1)
      have b2 := q3'.symm.trans (show deduceBox realA d _ = _ from b2)
      rw [Except.ok.injEq] at b1 b2
      refine ⟨21 / 10 * m, b1.symm, ?_⟩
      rw [← b2]
      have : m' = r * m := by
        apply le_antisymm
        · rcases q1' with h | ⟨j, hj, i, hi, h⟩
          · rw [h]; positivity
          · rw [← h, if_neg (by omega), abs_mul, abs_of_pos hr]
            exact mul_le_mul_of_nonneg_left (q2 j hj _ (hlt i hi)) hr.le
        · rcases q1 with h | ⟨j, hj, i, hi, h⟩
          · rw [h, mul_zero]; exact q0'
          · obtain ⟨i', hi', rfl⟩ := hsurj i hi
            have := q2' j hj i' hi'
            rw [if_neg (by omega), abs_mul, abs_of_pos hr, h] at this
            exact this
      rw [this]
      congr 1; ring
  obtain ⟨b, hb0, hb0'⟩ := hbox
  have P : Seen s none over X t u :=
    ⟨realA_exact, realA_sqrt, (by intro r hr; cases hr), hS, hs, hov, .construct inp s hd hc, by omega, by rw [hsn]; exact hz, by rw [hsn]; exact hr1, by
      intro j hj i hi
      rw [v3, hin]
      simp [show j < d + 1 by omega, show i < n by omega], by rw [hsn]; exact hm, by rw [hsn]; exact hsep, ht, hu⟩
  have P' : Seen s' none over (fun j i => (if j = d then μ else r) * X j (π i)) t (r * u) :=
    ⟨realA_exact, realA_sqrt, (by intro r hr; cases hr), hS', hs, hov, .construct inp' s' hd' hc', by omega, by rw [hsn']; exact hz, by rw [hsn']; exact hr2, by
      intro j hj i hi
      rw [v3', hin']
      simp [show j < d + 1 by omega, show i < n by omega], by
      rw [hsn']
      intro i hi
      rw [if_pos rfl]
      exact mul_nonneg hμ.le (hm _ (hlt i hi)), by
      rw [hsn']
      intro i l hi hl hil
      have h1 := hsep _ _ (hlt i hi) (hlt l hl) (fun h => hil (hinj i l hi hl h))
      have h2 : ∑ j ∈ Finset.range d, ((if j = d then μ else r) * X j (π l) - (if j = d then μ else r) * X j (π i)) ^ 2 + r * u * (r * u) =
          r ^ 2 * (∑ j ∈ Finset.range d, (X j (π l) - X j (π i)) ^ 2 + u * u) := by
        rw [mul_add, Finset.mul_sum]
        congr 1
        · apply Finset.sum_congr rfl
          intro j hj
          rw [Finset.mem_range] at hj
          rw [if_neg (by omega)]
          ring
        · ring
      rw [h2]
      positivity, ht, by positivity⟩
  have := C59_scale (π := π) P P' hr hμ (hsn'.trans hsn.symm) (m2.trans (hml.trans m1.symm)) (n2.trans (hnc.trans n1.symm)) hb0 hb0' (by rw [hsn]; exact hlt) (by rw [hsn]; exact hinj)
    (fun j hj i _ => by rw [if_neg (by omega)]) (fun i _ => by rw [if_pos rfl]) Q g hsp hsp' ho ho' (hl.trans hsn.symm) (hl'.trans hsn.symm)
  rw [hsn] at this
  exact this

end Scale

/-! ### Examples -/

/-- The sample `gS` with the particles in the opposite order, and its data in the user's order. -/
def gRev (mac : Mac) : Input (gEnv mac) := ⟨some (.fin 16), 1, 2, gData.map (fun v => (v.map .fin).reverse)⟩

def gRevS (mac : Mac) : TS (gEnv mac) := okOr (gRev mac).exec (TS.default _)

def gU (j i : Nat) : ℚ := (gData.getD j []).getD i 0

theorem gRev_construct (mac : Mac) : Construct (gRev mac) (.ok (gRevS mac)) := by
  have h : Construct (gRev mac) (gRev mac).exec := construct_exec (by cases mac <;> decide +kernel)
  rwa [eq_okOr (d := TS.default _) (show isOk (gRev mac).exec = true by cases mac <;> decide +kernel)] at h

theorem g_construct (mac : Mac) : Construct (gInp mac) (.ok (gS mac)) := by
  have h : Construct (gInp mac) (gInp mac).exec := construct_exec (by cases mac <;> decide +kernel)
  rwa [eq_okOr (d := TS.default _) (show isOk (gInp mac).exec = true by cases mac <;> decide +kernel)] at h

theorem g_seen (mac : Mac) {rsqrt : Option (Fl ℚ → Fl ℚ)} (hr : EstOk rsqrt) : Seen (gS mac) rsqrt (maskedShift 32) gU (3 / 4) 0 where
  exact := sqQ_exact
  sqrt := sqQ_sqrt
  est := hr
  batch := rat_ok
  supp := g_supp
  small := maskedShift_small _
  reach := g_reach mac
  pos := by rw [g_n]; decide
  size := g_size mac
  room := g_room mac _
  view := by rw [g_n]; cases mac <;> decide +kernel
  mass := by rw [g_n]; decide +kernel
  sep := by
    rw [g_n]
    have : ∀ i < 5, ∀ l < 5, i ≠ l → 0 < ∑ j ∈ Finset.range 3, (gU j l - gU j i) ^ 2 + 0 * 0 := by decide +kernel
    exact fun i l hi hl => this i hi l hl
  theta := by norm_num
  soft := le_rfl

theorem gRev_n (mac : Mac) : (gRevS mac).n = 5 := by cases mac <;> decide +kernel

theorem gRev_seen (mac : Mac) {rsqrt : Option (Fl ℚ → Fl ℚ)} (hr : EstOk rsqrt) : Seen (gRevS mac) rsqrt (maskedShift 32) (fun j i => gU j (4 - i)) (3 / 4) 0 where
  exact := sqQ_exact
  sqrt := sqQ_sqrt
  est := hr
  batch := rat_ok
  supp := g_supp
  small := maskedShift_small _
  reach := .construct _ _ (by cases mac <;> rfl) (gRev_construct mac)
  pos := by rw [gRev_n]; decide
  size := by rw [gRev_n]; decide
  room := by rw [gRev_n]; show 5 + 3 < _; decide
  view := by rw [gRev_n]; cases mac <;> decide +kernel
  mass := by rw [gRev_n]; decide +kernel
  sep := by
    rw [gRev_n]
    have : ∀ i < 5, ∀ l < 5, i ≠ l → 0 < ∑ j ∈ Finset.range 3, (gU j (4 - l) - gU j (4 - i)) ^ 2 + 0 * 0 := by decide +kernel
    exact fun i l hi hl => this i hi l hl
  theta := by norm_num
  soft := le_rfl

example (mac : Mac) (Q : Quant) (g : ℚ) := C58_order (π := fun i => 4 - i) (g_seen mac estQ_ok) (gRev_seen mac estQ_ok) (by rw [g_n, gRev_n])
  (by cases mac <;> decide +kernel) (by cases mac <;> decide +kernel) (by cases mac <;> decide +kernel) (by rw [g_n]; omega) (by rw [g_n]; omega)
  (fun _ _ _ _ => rfl) Q g (split := []) rfl (split' := [.fin 1]) rfl (.refl _) (List.reverse_perm _) (out := List.replicate 5 ⟨[], []⟩)
  (by rw [g_n]; rfl) (out' := List.replicate 5 ⟨[], []⟩) (by rw [g_n]; rfl)

example (mac : Mac) (Q : Quant) (g : ℚ) := C58_construct (π := fun i => 4 - i) (n := 5) (X := gU) (inp := gInp mac) (inp' := gRev mac) (by cases mac <;> decide +kernel)
  (by cases mac <;> decide +kernel) (by omega) (by omega) rfl rfl rfl (g_construct mac) (gRev_construct mac) sqQ_exact sqQ_sqrt estQ_ok rat_ok g_supp
  (maskedShift_small 32) (by decide) (by decide) (by show 5 + 3 < _; decide) (by decide +kernel) (u := 0)
  (by have : ∀ i < 5, ∀ l < 5, i ≠ l → 0 < ∑ j ∈ Finset.range 3, (gU j l - gU j i) ^ 2 + 0 * 0 := by decide +kernel
      exact fun i l hi hl => this i hi l hl)
  (t := 3 / 4) (by norm_num) le_rfl Q g (split := []) rfl (split' := []) rfl (.refl _) (.refl _) (out := List.replicate 5 ⟨[], []⟩) rfl
  (out' := List.replicate 5 ⟨[], []⟩) rfl

/-- The three particles of `diagInp` in the opposite order, with coordinates and box doubled and masses tripled. -/
noncomputable def diagInp2 (mac : Mac) : Input (rakauEnv realA none mac 64 2) where
  box := some (.fin (2 * 16))
  maxLeaf := 1
  ncrit := 1
  parts := (List.range 3).map (fun j => (List.range 3).map (fun i => Fl.fin ((if j = 2 then 3 else 2) * diagX j (2 - i))))

theorem diag2_valid (mac : Mac) : ValidInput 2 (diagInp2 mac).box (diagInp2 mac).maxLeaf (diagInp2 mac).ncrit (diagInp2 mac).parts := by
  refine ⟨by show 1 ≠ 0; decide, by show 1 ≠ 0; decide, ?_, ?_, 2 * 16, rfl, by norm_num, ?_⟩
  · intro v hv u hu
    obtain ⟨j, _, rfl⟩ := List.mem_map.1 hv
    obtain ⟨j', _, rfl⟩ := List.mem_map.1 hu
    simp
  · intro v hv x hx
    obtain ⟨j, _, rfl⟩ := List.mem_map.1 hv
    obtain ⟨i, _, rfl⟩ := List.mem_map.1 hx
    rfl
  · intro v hv x hx y hxy
    have hv : v ∈ ((List.range 3).take 2).map (fun j => (List.range 3).map (fun i => Fl.fin ((if j = 2 then 3 else 2) * diagX j (2 - i)))) := by
      rw [List.map_take]; exact hv
    obtain ⟨j, hj, rfl⟩ := List.mem_map.1 hv
    obtain ⟨i, hi, rfl⟩ := List.mem_map.1 hx
    obtain rfl : (if j = 2 then 3 else 2) * diagX j (2 - i) = y := by injection hxy
    have hj : j ∈ [0, 1] := hj
    have hi : i ∈ [0, 1, 2] := hi
    simp only [List.mem_cons, List.not_mem_nil, or_false] at hj hi
    rcases hj with rfl | rfl <;> rcases hi with rfl | rfl | rfl <;> simp [diagX, InBox] <;> norm_num

/-- Both inputs give trees, and the theorem applies to them. -/
example (mac : Mac) (Q : Quant) (g : ℝ) : ∃ s s' : TS (rakauEnv realA none mac 64 2), Construct (diagInp mac) (.ok s) ∧ Construct (diagInp2 mac) (.ok s') ∧
    ∀ out : List (Res ℝ), out.length = 3 →
    ∃ o o', s.accPot none (maskedShift 64) Q true (.fin (1 / 2)) (.fin g) (.fin 5) [] (List.range s.crit.length) out = .ok o ∧
      s'.accPot none (maskedShift 64) Q true (.fin (1 / 2)) (.fin g) (.fin (2 * 5)) [] (List.range s'.crit.length) out = .ok o' ∧
      ∃ a p, o[2]? = some (mkRes Q 2 (a, p)) ∧ o'[0]? = some (mkRes Q 2 (fun j => 3 / 4 * a j, 9 / 2 * p)) := by
  have hl : (diagInp mac).parts.length = 2 + 1 := by simp [diagInp]
  have hhd : ((diagInp mac).parts.headD []).length = 3 := by simp [diagInp, List.range_succ_eq_map]
  have hl' : (diagInp2 mac).parts.length = 2 + 1 := by simp [diagInp2]
  have hhd' : ((diagInp2 mac).parts.headD []).length = 3 := by simp [diagInp2, List.range_succ_eq_map]
  obtain ⟨r, h⟩ := (C41_outcome realA none mac diag_supp hl (by rw [hhd]; decide)).1
  obtain ⟨s, rfl⟩ := (C41_exact realA_exact (fun q _ => rfl) (by simp) (by intro S h; cases h) mac diag_supp hl (by rw [hhd]; decide) h).1 (diag_valid mac)
  obtain ⟨r', h'⟩ := (C41_outcome realA none mac diag_supp hl' (by rw [hhd']; decide)).1
  obtain ⟨s', rfl⟩ := (C41_exact realA_exact (fun q _ => rfl) (by simp) (by intro S h; cases h) mac diag_supp hl' (by rw [hhd']; decide) h').1 (diag2_valid mac)
  refine ⟨s, s', h, h', fun out hout => ?_⟩
  obtain ⟨o, o', e1, e2, _, _, e5⟩ := C59_construct (inp := diagInp mac) (inp' := diagInp2 mac) (r := 2) (μ := 3) (π := fun i => 2 - i) (n := 3) (X := diagX) (box := some 16) rfl rfl (by omega) (by omega) rfl rfl rfl rfl h h'
    (by norm_num) (by norm_num) (by simp) (by simp) diag_supp (maskedShift_small 64) (by decide) (by decide) (by decide) (by decide)
    (fun i _ => diag_mass i) (u := 5) (fun i l _ _ hil => diag_sep hil 5) (t := 1 / 2) (by norm_num) (by norm_num) Q g (split := []) rfl (split' := []) rfl (.refl _) (.refl _) hout hout
  obtain ⟨a, p, a1, a2⟩ := e5 0 (by decide)
  norm_num at a2
  exact ⟨o, o', e1, e2, a, p, a1, a2⟩

end Rakau
