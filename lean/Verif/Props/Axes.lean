import Verif.Proof.Axes
import Verif.Props.Order

/-!
# C84: the axes

Exchanging axes, and reversing axes along which no particle lies on a face of a cell, exchanges and reverses the components of the results and
changes nothing else. The order of the particles, their codes and the order of the nodes change; the nodes and the approximations do not.
-/

namespace Rakau
open Spec

variable {K : Type} [Field K] [LinearOrder K] [FloorRing K] [IsStrictOrderedRing K]

/-- The cell of the opposite coordinate. -/
theorem cell_mirror {A : Arith K} (hA : A.Exact) {w d : Nat} {b q : K} (hb : 0 < b) {c c' : Nat}
    (h : discSingle A w (cbits w d) (.fin q) (invBox A (.fin b)) = .ok c) (h' : discSingle A w (cbits w d) (.fin (-q)) (invBox A (.fin b)) = .ok c')
    (hedge : ∀ z : ℤ, q ≠ z * (b / 2 ^ cbits w d)) : c' = 2 ^ cbits w d - 1 - c := by
  have hsc : ∀ r : K, discScaled A (cbits w d) (.fin r) (invBox A (.fin b)) = .fin ((r / b + 1 / 2) * 2 ^ cbits w d) := by
    intro r
    unfold discScaled invBox
    rw [ex_div hA hb.ne', ex_fma hA, ex_mul hA]
    congr 2
    ring
  rcases discSingle_cases A (cbits_le w d) (.fin q) (invBox A (.fin b)) with ⟨y, y1, y2, y3, y4⟩ | ⟨_, y4⟩
  swap
  · rw [y4] at h; simp at h
  rcases discSingle_cases A (cbits_le w d) (.fin (-q)) (invBox A (.fin b)) with ⟨y', y1', y2', y3', y4'⟩ | ⟨_, y4'⟩
  swap
  · rw [y4'] at h'; simp at h'
  rw [y4, Except.ok.injEq] at h
  rw [y4', Except.ok.injEq] at h'
  rw [hsc, Fl.fin.injEq] at y1 y1'
  have hp : (2 : K) ^ cbits w d ≠ 0 := by positivity
  have hsum : y' = ((2 ^ cbits w d : ℤ) : K) - y := by
    rw [← y1, ← y1']
    push_cast
    ring
  -- a number of cells that is not whole
  have hni : ∀ z : ℤ, y ≠ z := by
    intro z hz
    rcases Nat.eq_zero_or_pos (cbits w d) with h0 | h0
    · rw [h0, pow_zero] at y3
      rw [hz] at y2 y3 y1
      have z0 : (0 : ℤ) ≤ z := by exact_mod_cast y2
      have z1 : z < 1 := by exact_mod_cast y3
      obtain rfl : z = 0 := by omega
      rw [h0, pow_zero] at hsum y3'
      rw [hsum, hz] at y3'
      norm_num at y3'
    · obtain ⟨m, hm⟩ : ∃ m, cbits w d = m + 1 := ⟨cbits w d - 1, by omega⟩
      apply hedge (z - 2 ^ m)
      rw [hz] at y1
      have hb' := hb.ne'
      push_cast
      rw [← y1, hm, pow_succ]
      have h2 : (2 : K) ^ m ≠ 0 := by positivity
      field_simp
      ring
  have hfl : ⌊y'⌋ = 2 ^ cbits w d - 1 - ⌊y⌋ := by
    rw [Int.floor_eq_iff, hsum]
    have f1 := Int.floor_le y
    have f2 := Int.lt_floor_add_one y
    have f3 : (⌊y⌋ : K) ≠ y := fun e => hni _ e.symm
    have f4 : (⌊y⌋ : K) < y := lt_of_le_of_ne f1 f3
    push_cast
    constructor <;> linarith
  have g1 : 0 ≤ ⌊y⌋ := Int.floor_nonneg.2 y2
  have g2 : 0 ≤ ⌊y'⌋ := Int.floor_nonneg.2 y2'
  have g3 : ((2 ^ cbits w d : ℕ) : ℤ) = 2 ^ cbits w d := by push_cast; rfl
  rw [← h, ← h']
  omega

section
variable {A : Arith K} {simd simd' : Option (Simd K)} {mac : Mac} {w d : Nat} {s : TS (rakauEnv A simd mac w d)} {s' : TS (rakauEnv A simd' mac w d)}
  {rsqrt rsqrt' : Option (Fl K → Fl K)} {over : Overshift} {X X' : Nat → Nat → K} {t u : K}

/-- `s'` has the particles of `s` in some order, after a permutation of the axes and reversal of those with `ε j = -1`; the parameters are the same. Along an axis that is
reversed no particle of `s` lies on a face of the smallest cells. -/
structure Axes (s : TS (rakauEnv A simd mac w d)) (s' : TS (rakauEnv A simd' mac w d)) (X X' : Nat → Nat → K) (b : K) (ε : Nat → K) (σ π : Nat → Nat) : Prop where
  n : s'.n = s.n
  box : s.box = .fin b
  box' : s'.box = .fin b
  maxLeaf : s'.maxLeaf = s.maxLeaf
  ncrit : s'.ncrit = s.ncrit
  sgn : ∀ j < d, ε j = 1 ∨ ε j = -1
  slt : ∀ j < d, σ j < d
  sinj : ∀ i j, i < d → j < d → σ i = σ j → i = j
  lt : ∀ i < s.n, π i < s.n
  inj : ∀ i l, i < s.n → l < s.n → π i = π l → i = l
  pos : ∀ j < d, ∀ i < s.n, X' j i = ε j * X (σ j) (π i)
  mass : ∀ i < s.n, X' d i = X d (π i)
  edge : ∀ j < d, ε j = -1 → ∀ i < s.n, ∀ z : ℤ, X (σ j) i ≠ z * (b / 2 ^ cbits w d)

/-- The positions of the particles in the two trees. -/
theorem Axes.turned {b : K} {ε : Nat → K} {σ π : Nat → Nat} (P : Seen s rsqrt over X t u) (P' : Seen s' rsqrt' over X' t u) (Y : Axes s s' X X' b ε σ π) :
    ∃ τ, Turned s s' (fun j k => X j (s.perm.getD k 0)) (fun j k => X' j (s'.perm.getD k 0)) b ε σ τ ∧
      ∀ k < s.n, s.perm[τ k]? = some (π (s'.perm.getD k 0)) := by
  have H := P.sit Y.box
  have H' := P'.sit Y.box'
  have hat : ∀ k < s.n, ∃ m, m < s.n ∧ s.perm[m]? = some (π (s'.perm.getD k 0)) := by
    intro k hk
    obtain ⟨i, _, i2, i3⟩ := perm_at P'.reach (k := k) (by have := Y.n; omega)
    rw [i3]
    exact perm_inv P.reach (Y.lt i (by have := Y.n; omega))
  choose! τ hτ using hat
  have hτd : ∀ k < s.n, s.perm.getD (τ k) 0 = π (s'.perm.getD k 0) := by
    intro k hk
    simp [List.getD, (hτ k hk).2]
  have hin : ∀ k < s.n, s'.perm.getD k 0 < s.n := by
    intro k hk
    obtain ⟨i, _, i2, i3⟩ := perm_at P'.reach (k := k) (by have := Y.n; omega)
    have := Y.n
    omega
  have hpos : ∀ k < s.n, ∀ j < d, X' j (s'.perm.getD k 0) = ε j * X (σ j) (s.perm.getD (τ k) 0) := by
    intro k hk j hj
    rw [hτd k hk, Y.pos j hj _ (hin k hk)]
  refine ⟨τ, ⟨Y.n, Y.maxLeaf, Y.ncrit, Y.sgn, Y.slt, Y.sinj, fun k hk => (hτ k hk).1, ?_, hpos, ?_, ?_⟩, fun k hk => (hτ k hk).2⟩
  · intro k l hk hl h
    by_contra hkl
    have h1 := hτd k hk
    rw [h, hτd l hl] at h1
    have h2 := Y.inj _ _ (hin l hl) (hin k hk) h1
    exact perm_ne P'.reach (by have := Y.n; omega) (by have := Y.n; omega) hkl h2.symm
  · intro k hk
    rw [hτd k hk, Y.mass _ (hin k hk)]
  · intro k hk j hj hε
    have hσ := Y.slt j hj
    -- both coordinates have cells
    have hdisc : ∀ {simd₀ : Option (Simd K)} {r : TS (rakauEnv A simd₀ mac w d)} {x : Nat → Nat → K} (_ : Reach _ r) (_ : r.box = .fin b)
        (_ : IsData d r.n r.parts x) {k j : Nat} (_ : k < r.n) (_ : j < d),
        discSingle A w (cbits w d) (.fin (x j k)) (invBox A (.fin b)) = .ok (cellOf A w d b (x j k)) := by
      intro simd₀ r x hR hb hx k j hk hj
      obtain ⟨c1, c2⟩ := reach_code hR hb hx
      have h1 := c2 k (by omega)
      rcases codeOf_cases A P.supp (box := .fin b) (c := ((List.range d).map (fun j => x j k)).map .fin) (by simp) with ⟨xs, v, a1, _⟩ | ⟨_, a5⟩
      · have hl := a1.length_eq
        have := (List.forall₂_iff_get.1 a1).2 j (by simpa using hj) (by rw [← hl]; simpa using hj)
        simp only [List.get_eq_getElem, List.getElem_map, List.getElem_range] at this
        unfold cellOf
        rw [this]
        rfl
      · rw [a5] at h1
        simp at h1
    have e1 := hdisc P.reach Y.box H.data (hτ k hk).1 hσ
    have e2 := hdisc P'.reach Y.box' H'.data (k := k) (by have := Y.n; omega) hj
    beta_reduce at e1 e2
    have hq : X' j (s'.perm.getD k 0) = -X (σ j) (s.perm.getD (τ k) 0) := by rw [hpos k hk j hj, hε, neg_one_mul]
    rw [hq] at e2
    have := cell_mirror P.exact H.bpos e1 e2 (by
      rw [hτd k hk]
      exact Y.edge j hj hε _ (Y.lt _ (hin k hk)))
    rw [hq]
    exact this

/-- The results of the two trees. -/
theorem axes_results {b : K} {ε : Nat → K} {σ π : Nat → Nat} (P : Seen s rsqrt over X t u) (P' : Seen s' rsqrt' over X' t u) (Y : Axes s s' X X' b ε σ π)
    (hinv : InvSame ((⟨A, simd, rsqrt⟩ : Hw K).mode d) ((⟨A, simd', rsqrt'⟩ : Hw K).mode d))
    (Q : Quant) (g : K) {split split' : List (Fl K)} (hsp : checkSplit split = .ok ()) (hsp' : checkSplit split' = .ok ())
    {order order' : List Nat} {out out' : List (Res K)} (ho : order.Perm (List.range s.crit.length)) (ho' : order'.Perm (List.range s'.crit.length))
    (hl : out.length = s.n) (hl' : out'.length = s.n) :
    ∃ o o', s.accPot rsqrt over Q true (.fin t) (.fin g) (.fin u) split order out = .ok o ∧
      s'.accPot rsqrt' over Q true (.fin t) (.fin g) (.fin u) split' order' out' = .ok o' ∧ o.length = s.n ∧ o'.length = s.n ∧
      ∀ i < s.n, ∃ a p, o[π i]? = some (mkRes Q d (a, p)) ∧ o'[i]? = some (mkRes Q d (fun j => ε j * a (σ j), p)) := by
  have H := P.sit Y.box
  have H' := P'.sit Y.box'
  have hn := Y.n
  obtain ⟨τ, T, hτ⟩ := Y.turned P P'
  have hsep : ∀ k l, k < s.n → l < s.n → k ≠ l → 0 < D2 d (u * u) (fun j => X j (s.perm.getD k 0)) (fun j => X j (s.perm.getD l 0)) := by
    intro k l hk hl hkl
    obtain ⟨a', _, a2, a3⟩ := perm_at P.reach hk
    obtain ⟨l', _, l2, l3⟩ := perm_at P.reach hl
    have hne := perm_ne P.reach hk hl hkl
    have := P.sep a' l' a2 l2 (by rw [← a3, ← l3]; exact hne)
    unfold D2
    simp only [a3, l3]
    exact this
  have hm : ∀ k < s.n, 0 ≤ X d (s.perm.getD k 0) := by
    intro k hk
    obtain ⟨i, _, i2, i3⟩ := perm_at P.reach hk
    rw [i3]; exact P.mass i i2
  obtain ⟨p1, hp1, _⟩ := H.pad_eq Q g
  obtain ⟨p2, hp2, _⟩ := H'.pad_eq Q g
  obtain ⟨val, hval, hall⟩ := C27_outputs H.simdPos H.supp H.reach H.size H.small H.room Q (checkParams_exact (mac := mac) (g := g) H.exact P.theta P.soft) hsp
    (by show (s.fc rsqrt over Q (invTheta mac t) g (u * u)).padCoord.isFinite = true; rw [hp1]; rfl)
  obtain ⟨val', hval', hall'⟩ := C27_outputs H'.simdPos H'.supp H'.reach H'.size H'.small H'.room Q (checkParams_exact (mac := mac) (g := g) H'.exact P'.theta P'.soft) hsp'
    (by show (s'.fc rsqrt' over Q (invTheta mac t) g (u * u)).padCoord.isFinite = true; rw [hp2]; rfl)
  obtain ⟨o, o1, o2, o3⟩ := hall true order out ho hl
  obtain ⟨o', o1', o2', o3'⟩ := hall' true order' out' ho' (hl'.trans hn.symm)
  refine ⟨o, o', o1, o1', o2, o2'.trans hn, ?_⟩
  intro i hi
  obtain ⟨k, hk, hki⟩ := perm_inv P'.reach (i := i) (by omega)
  have hk' : k < s.n := by omega
  obtain ⟨v, v1, v2⟩ := T.value H H' hinv hm hsep Q g hval hval' hk'
  have hpk : s'.perm.getD k 0 = i := by simp [List.getD, hki]
  obtain ⟨i1, e1, e2⟩ := o3 (τ k) (T.lt k hk')
  obtain ⟨i2, e3, e4⟩ := o3' k hk
  simp only [if_true] at e1 e3
  rw [hτ k hk', hpk, Option.some.injEq] at e1
  rw [hki, Option.some.injEq] at e3
  subst e1 e3
  exact ⟨v.1, v.2, by rw [e2, v1], by rw [e4, v2]; rfl⟩

/-- C84: the two trees have the same nodes: as many, with the same levels, numbers of particles and sizes of subtrees, and holding the same particles. -/
theorem C84_tree {b : K} {ε : Nat → K} {σ π : Nat → Nat} (P : Seen s rsqrt over X t u) (P' : Seen s' rsqrt' over X' t u) (Y : Axes s s' X X' b ε σ π) :
    s'.tree.length = s.tree.length ∧
    ∀ i' (hi' : i' < s'.tree.length), ∃ i, ∃ hi : i < s.tree.length, s'.tree[i'].level = s.tree[i].level ∧
      s'.tree[i'].fin - s'.tree[i'].beg = s.tree[i].fin - s.tree[i].beg ∧ s'.tree[i'].nChildren = s.tree[i].nChildren ∧
      ∀ a, (∃ k, s'.tree[i'].beg ≤ k ∧ k < s'.tree[i'].fin ∧ s'.perm[k]? = some a) →
        ∃ m, s.tree[i].beg ≤ m ∧ m < s.tree[i].fin ∧ s.perm[m]? = some (π a) := by
  have H := P.sit Y.box
  have H' := P'.sit Y.box'
  obtain ⟨τ, T, hτ⟩ := Y.turned P P'
  have h0 : 0 < s.n := Nat.pos_of_ne_zero P.pos
  have M := T.match H H' h0
  refine ⟨M.length, fun i' hi' => ?_⟩
  obtain ⟨i, C⟩ := M.left hi'
  obtain ⟨_, B, sp, hb⟩ := reach_build (rakauEnv_ok A simd mac H.supp) H.reach H.size h0
  obtain ⟨_, B', sp', hb'⟩ := reach_build (rakauEnv_ok A simd' mac H'.supp) H'.reach H'.size (by rw [T.n]; exact h0)
  refine ⟨i, C.hi, C.level, M.size C, M.kids ((build_dfs B' hb').sub) ((build_dfs B hb).sub) C, ?_⟩
  rintro a ⟨k, k1, k2, k3⟩
  have hk : k < s.n := by have := (M.S'.rng i' hi').2.1; omega
  obtain ⟨m1, m2⟩ := (C.mem k hk).1 ⟨k1, k2⟩
  refine ⟨τ k, m1, m2, ?_⟩
  rw [hτ k hk]
  simp [List.getD, k3]

end

section Same
variable {A : Arith K} {simd : Option (Simd K)} {mac : Mac} {w d : Nat} {s s' : TS (rakauEnv A simd mac w d)}
  {rsqrt : Option (Fl K → Fl K)} {over : Overshift} {X X' : Nat → Nat → K} {t u : K}

/-- C84: permuting the axes, and reversing axes along which no particle lies on a face of a cell, permutes and reverses the components of the accelerations and leaves the
potential energies as they are, exactly, whatever `θ`: the same approximations are made. -/
theorem C84_axes {b : K} {ε : Nat → K} {σ π : Nat → Nat} (P : Seen s rsqrt over X t u) (P' : Seen s' rsqrt over X' t u) (Y : Axes s s' X X' b ε σ π)
    (Q : Quant) (g : K) {split split' : List (Fl K)} (hsp : checkSplit split = .ok ()) (hsp' : checkSplit split' = .ok ())
    {order order' : List Nat} {out out' : List (Res K)} (ho : order.Perm (List.range s.crit.length)) (ho' : order'.Perm (List.range s'.crit.length))
    (hl : out.length = s.n) (hl' : out'.length = s.n) :
    ∃ o o', s.accPot rsqrt over Q true (.fin t) (.fin g) (.fin u) split order out = .ok o ∧
      s'.accPot rsqrt over Q true (.fin t) (.fin g) (.fin u) split' order' out' = .ok o' ∧ o.length = s.n ∧ o'.length = s.n ∧
      ∀ i < s.n, ∃ a p, o[π i]? = some (mkRes Q d (a, p)) ∧ o'[i]? = some (mkRes Q d (fun j => ε j * a (σ j), p)) :=
  axes_results P P' Y (fun _ => ⟨rfl, rfl⟩) Q g hsp hsp' ho ho' hl hl'

/-- C84: the same for two constructions, with the box size given or deduced, whatever the sorts and schedules of the two runs. -/
theorem C84_construct {ε : Nat → K} {σ π : Nat → Nat} {n : Nat} {inp inp' : Input (rakauEnv A simd mac w d)}
    (hin : inp.parts = (List.range (d + 1)).map (fun j => (List.range n).map (fun i => .fin (X j i))))
    (hin' : inp'.parts = (List.range (d + 1)).map (fun j => (List.range n).map (fun i => .fin (if j = d then X d (π i) else ε j * X (σ j) (π i)))))
    (hsgn : ∀ j < d, ε j = 1 ∨ ε j = -1) (hslt : ∀ j < d, σ j < d) (hsinj : ∀ i j, i < d → j < d → σ i = σ j → i = j)
    (hlt : ∀ i < n, π i < n) (hinj : ∀ i l, i < n → l < n → π i = π l → i = l) {box : Option K}
    (hb : inp.box = box.map .fin) (hb' : inp'.box = box.map .fin) (hml : inp'.maxLeaf = inp.maxLeaf) (hnc : inp'.ncrit = inp.ncrit)
    (hc : Construct inp (.ok s)) (hc' : Construct inp' (.ok s')) (hA : A.Exact) (hq : SqrtOk A) (he : EstOk rsqrt) (hS : ∀ S, simd = some S → S.Ok)
    (hs : Supported w d) (hov : over.Small) (hn : n ≠ 0) (hz : n * cbits w d < 2 ^ 64) (hr : n + (⟨A, simd, rsqrt⟩ : Hw K).pad < 2 ^ 64)
    (hm : ∀ i < n, 0 ≤ X d i) (hsep : ∀ i l, i < n → l < n → i ≠ l → 0 < ∑ j ∈ Finset.range d, (X j l - X j i) ^ 2 + u * u)
    (hedge : ∀ b, s.box = .fin b → ∀ j < d, ε j = -1 → ∀ i < n, ∀ z : ℤ, X (σ j) i ≠ z * (b / 2 ^ cbits w d))
    (ht : 0 < t) (hu : 0 ≤ u) (Q : Quant) (g : K) {split split' : List (Fl K)} (hsp : checkSplit split = .ok ())
    (hsp' : checkSplit split' = .ok ()) {order order' : List Nat} {out out' : List (Res K)} (ho : order.Perm (List.range s.crit.length))
    (ho' : order'.Perm (List.range s'.crit.length)) (hl : out.length = n) (hl' : out'.length = n) :
    ∃ o o', s.accPot rsqrt over Q true (.fin t) (.fin g) (.fin u) split order out = .ok o ∧
      s'.accPot rsqrt over Q true (.fin t) (.fin g) (.fin u) split' order' out' = .ok o' ∧ o.length = n ∧ o'.length = n ∧
      ∀ i < n, ∃ a p, o[π i]? = some (mkRes Q d (a, p)) ∧ o'[i]? = some (mkRes Q d (fun j => ε j * a (σ j), p)) := by
  have hd : inp.parts.length = d + 1 := by rw [hin]; simp
  have hd' : inp'.parts.length = d + 1 := by rw [hin']; simp
  have hhd : (inp.parts.headD []).length = n := by
    rw [hin, List.range_succ_eq_map]
    simp
  have hhd' : (inp'.parts.headD []).length = n := by
    rw [hin', List.range_succ_eq_map]
    simp
  obtain ⟨v1, _, v3, _⟩ := C02_views (env := rakauEnv A simd mac w d) hd hc
  obtain ⟨v1', _, v3', _⟩ := C02_views (env := rakauEnv A simd mac w d) hd' hc'
  have hsn : s.n = n := v1.trans hhd
  have hsn' : s'.n = n := v1'.trans hhd'
  obtain ⟨_, _, _, _, b1, _, _, _, _, _, _, _, _, _, _, m1, n1⟩ := construct_ok hc
  obtain ⟨_, _, _, _, b2, _, _, _, _, _, _, _, _, _, _, m2, n2⟩ := construct_ok hc'
  have habs : ∀ j < d, ∀ q : K, |ε j * q| = |q| := by
    intro j hj q
    rcases hsgn j hj with h | h <;> rw [h] <;> simp
  have hbox : ∃ b, s.box = .fin b ∧ s'.box = .fin b := by
    cases box with
    | some b =>
      rw [hb] at b1
      rw [hb'] at b2
      simp only [Option.map_some, boxFor, Except.ok.injEq] at b1 b2
      exact ⟨b, b1.symm, b2.symm⟩
    | none =>
      rw [hb, hin] at b1
      rw [hb', hin'] at b2
      obtain ⟨m, q0, q1, q2, q3⟩ := deduce_user hA hs.dim.1 (n := n) X
      obtain ⟨m', q0', q1', q2', q3'⟩ := deduce_user hA hs.dim.1 (n := n) (fun j i => if j = d then X d (π i) else ε j * X (σ j) (π i))
      have b1 := q3.symm.trans (show deduceBox A d _ = _ from b1)
      have b2 := q3'.symm.trans (show deduceBox A d _ = _ from b2)
      rw [Except.ok.injEq] at b1 b2
      refine ⟨21 / 10 * m, b1.symm, ?_⟩
      rw [← b2]
      have : m' = m := by
        apply le_antisymm
        · rcases q1' with h | ⟨j, hj, i, hi, h⟩
          · rw [h]; exact q0
          · rw [← h, if_neg (by omega), habs j hj]
            exact q2 _ (hslt j hj) _ (hlt i hi)
        · rcases q1 with h | ⟨j, hj, i, hi, h⟩
          · rw [h]; exact q0'
          · obtain ⟨i', hi', rfl⟩ := surj_of hlt hinj hi
            obtain ⟨j', hj', rfl⟩ := surj_of hslt hsinj hj
            have := q2' j' hj' i' hi'
            rw [if_neg (by omega), habs j' hj', h] at this
            exact this
      rw [this]
  obtain ⟨b, hb0, hb0'⟩ := hbox
  have P : Seen s rsqrt over X t u :=
    ⟨hA, hq, he, hS, hs, hov, .construct inp s hd hc, by omega, by rw [hsn]; exact hz, by rw [hsn]; exact hr, by
      intro j hj i hi
      rw [v3, hin]
      simp [show j < d + 1 by omega, show i < n by omega], by rw [hsn]; exact hm, by rw [hsn]; exact hsep, ht, hu⟩
  have P' : Seen s' rsqrt over (fun j i => if j = d then X d (π i) else ε j * X (σ j) (π i)) t u :=
    ⟨hA, hq, he, hS, hs, hov, .construct inp' s' hd' hc', by omega, by rw [hsn']; exact hz, by rw [hsn']; exact hr, by
      intro j hj i hi
      rw [v3', hin']
      simp [show j < d + 1 by omega, show i < n by omega], by
      rw [hsn']
      intro i hi
      rw [if_pos rfl]
      exact hm _ (hlt i hi), by
      rw [hsn']
      intro i l hi hl hil
      have h1 := hsep _ _ (hlt i hi) (hlt l hl) (fun h => hil (hinj i l hi hl h))
      rw [← sum_axes hslt hsinj] at h1
      refine lt_of_lt_of_eq h1 ?_
      congr 1
      apply Finset.sum_congr rfl
      intro j hj
      rw [Finset.mem_range] at hj
      rw [if_neg (by omega), if_neg (by omega)]
      rcases hsgn j hj with h | h <;> rw [h] <;> ring, ht, hu⟩
  have Y : Axes s s' X (fun j i => if j = d then X d (π i) else ε j * X (σ j) (π i)) b ε σ π :=
    ⟨hsn'.trans hsn.symm, hb0, hb0', m2.trans (hml.trans m1.symm), n2.trans (hnc.trans n1.symm), hsgn, hslt, hsinj, by rw [hsn]; exact hlt, by rw [hsn]; exact hinj,
      fun j hj i _ => if_neg (by omega), fun i _ => if_pos rfl, by rw [hsn]; exact hedge b hb0⟩
  have := C84_axes P P' Y Q g hsp hsp' ho ho' (hl.trans hsn.symm) (hl'.trans hsn.symm)
  rw [hsn] at this
  exact this

end Same

/-- C84: the two runs may use different vector widths or none. -/
theorem C84_widths {simd simd' : Option (Simd ℝ)} {mac : Mac} {w d : Nat} {s : TS (rakauEnv realA simd mac w d)} {s' : TS (rakauEnv realA simd' mac w d)}
    {over : Overshift} {X X' : Nat → Nat → ℝ} {t u b : ℝ} {ε : Nat → ℝ} {σ π : Nat → Nat} (P : Seen s none over X t u) (P' : Seen s' none over X' t u)
    (Y : Axes s s' X X' b ε σ π) (Q : Quant) (g : ℝ) {split split' : List (Fl ℝ)} (hsp : checkSplit split = .ok ()) (hsp' : checkSplit split' = .ok ())
    {order order' : List Nat} {out out' : List (Res ℝ)} (ho : order.Perm (List.range s.crit.length)) (ho' : order'.Perm (List.range s'.crit.length))
    (hl : out.length = s.n) (hl' : out'.length = s.n) :
    ∃ o o', s.accPot none over Q true (.fin t) (.fin g) (.fin u) split order out = .ok o ∧
      s'.accPot none over Q true (.fin t) (.fin g) (.fin u) split' order' out' = .ok o' ∧ o.length = s.n ∧ o'.length = s.n ∧
      ∀ i < s.n, ∃ a p, o[π i]? = some (mkRes Q d (a, p)) ∧ o'[i]? = some (mkRes Q d (fun j => ε j * a (σ j), p)) := by
  refine axes_results P P' Y (fun q => ?_) Q g hsp hsp' ho ho' hl hl'
  have := invHom_real simd simd' d one_pos q
  simpa using this

/-! ### Faces -/

/-- One particle on the lower face of the box, and the same with the first axis reversed. -/
noncomputable def mirInp (mac : Mac) (q : ℝ) : Input (rakauEnv realA none mac 64 2) where
  box := some (.fin 16)
  maxLeaf := 1
  ncrit := 1
  parts := [[.fin q], [.fin 0], [.fin 1]]

/-- C84: without the condition about faces the axes may not be reversed: a particle on the lower face of the box is accepted, its mirror image is not. -/
theorem C84_fails (mac : Mac) : (∃ s, Construct (mirInp mac (-8)) (.ok s)) ∧ ∀ r, Construct (mirInp mac 8) r → r = .error .invalidArg := by
  have hl : ∀ q, (mirInp mac q).parts.length = 2 + 1 := fun q => rfl
  have hz : ∀ q, ((mirInp mac q).parts.headD []).length * cbits 64 2 < 2 ^ 64 := fun q => by show 1 * _ < _; decide
  constructor
  · obtain ⟨r, h⟩ := (C41_outcome realA none mac diag_supp (hl (-8)) (hz _)).1
    obtain ⟨s, rfl⟩ := (C41_exact realA_exact (fun q _ => rfl) (by simp) (by intro S h; cases h) mac diag_supp (hl (-8)) (hz _) h).1 (by
      refine ⟨by show 1 ≠ 0; decide, by show 1 ≠ 0; decide, ?_, ?_, 16, rfl, by norm_num, ?_⟩
      · intro v hv u hu
        simp only [mirInp, List.mem_cons, List.not_mem_nil, or_false] at hv hu
        rcases hv with rfl | rfl | rfl <;> rcases hu with rfl | rfl | rfl <;> rfl
      · intro v hv x hx
        simp only [mirInp, List.mem_cons, List.not_mem_nil, or_false] at hv
        rcases hv with rfl | rfl | rfl <;> (simp only [List.mem_cons, List.not_mem_nil, or_false] at hx; rw [hx]; rfl)
      · intro v hv x hx y hxy
        have hv : v ∈ [[Fl.fin (-8 : ℝ)], [.fin 0]] := hv
        simp only [List.mem_cons, List.not_mem_nil, or_false] at hv
        rcases hv with rfl | rfl <;>
          (simp only [List.mem_cons, List.not_mem_nil, or_false] at hx
           rw [hx, Fl.fin.injEq] at hxy
           rw [← hxy]
           unfold InBox
           norm_num))
    exact ⟨s, h⟩
  · intro r h
    refine (C41_exact realA_exact (fun q _ => rfl) (by simp) (by intro S h; cases h) mac diag_supp (hl 8) (hz _) h).2 ?_
    rintro ⟨_, _, _, _, b, hb, _, hin⟩
    have hb : Fl.fin (16 : ℝ) = .fin b := hb
    rw [Fl.fin.injEq] at hb
    have := (hin [.fin 8] (by show [Fl.fin (8 : ℝ)] ∈ [[Fl.fin (8 : ℝ)], [.fin 0]]; simp) (.fin 8) (by simp) 8 rfl).2
    rw [← hb] at this
    norm_num at this

/-! ### Examples -/

/-- Three particles off the faces of the cells, and the same with the axes exchanged, the first one reversed afterwards, in the opposite order. -/
noncomputable def offX (j i : Nat) : ℝ := if j = 2 then i + 1 else if j = 0 then i + 1 / 3 else 2 * i - 1 / 3

noncomputable def offInp (mac : Mac) : Input (rakauEnv realA none mac 64 2) where
  box := some (.fin 16)
  maxLeaf := 1
  ncrit := 1
  parts := (List.range 3).map (fun j => (List.range 3).map (fun i => Fl.fin (offX j i)))

noncomputable def offInp2 (mac : Mac) : Input (rakauEnv realA none mac 64 2) where
  box := some (.fin 16)
  maxLeaf := 1
  ncrit := 1
  parts := (List.range 3).map (fun j => (List.range 3).map (fun i =>
    Fl.fin (if j = 2 then offX 2 (2 - i) else (if j = 0 then -1 else 1) * offX (1 - j) (2 - i))))

theorem off_valid (mac : Mac) : ValidInput 2 (offInp mac).box (offInp mac).maxLeaf (offInp mac).ncrit (offInp mac).parts ∧
    ValidInput 2 (offInp2 mac).box (offInp2 mac).maxLeaf (offInp2 mac).ncrit (offInp2 mac).parts := by
  constructor
  all_goals
    refine ⟨by show 1 ≠ 0; decide, by show 1 ≠ 0; decide, ?_, ?_, 16, rfl, by norm_num, ?_⟩
    · intro v hv u hu
      obtain ⟨j, _, rfl⟩ := List.mem_map.1 hv
      obtain ⟨j', _, rfl⟩ := List.mem_map.1 hu
      simp
    · intro v hv x hx
      obtain ⟨j, _, rfl⟩ := List.mem_map.1 hv
      obtain ⟨i, _, rfl⟩ := List.mem_map.1 hx
      rfl
    · intro v hv x hx y hxy
      have hv := hv
      simp only [offInp, offInp2, ← List.map_take] at hv
      obtain ⟨j, hj, rfl⟩ := List.mem_map.1 hv
      obtain ⟨i, hi, rfl⟩ := List.mem_map.1 hx
      rw [Fl.fin.injEq] at hxy
      subst hxy
      have hj : j ∈ [0, 1] := hj
      have hi : i ∈ [0, 1, 2] := hi
      simp only [List.mem_cons, List.not_mem_nil, or_false] at hj hi
      rcases hj with rfl | rfl <;> rcases hi with rfl | rfl | rfl <;> norm_num [offX, InBox]

theorem off_edge (j i : Nat) (hj : j < 2) (z : ℤ) : offX j i ≠ z * (16 / 2 ^ cbits 64 2) := by
  have hcb : cbits 64 2 = 31 := by decide
  rw [hcb]
  intro h
  have h2 : offX j i * 3 * 2 ^ 27 = 3 * z := by
    rw [h]; ring
  interval_cases j
  · simp only [offX] at h2
    norm_num at h2
    have : ((3 * (i : ℤ) + 1) * 2 ^ 27 : ℤ) = 3 * z := by
      have : (((3 * (i : ℤ) + 1) * 2 ^ 27 : ℤ) : ℝ) = ((3 * z : ℤ) : ℝ) := by push_cast; linarith
      exact_mod_cast this
    omega
  · simp only [offX] at h2
    norm_num at h2
    have : ((6 * (i : ℤ) - 1) * 2 ^ 27 : ℤ) = 3 * z := by
      have : (((6 * (i : ℤ) - 1) * 2 ^ 27 : ℤ) : ℝ) = ((3 * z : ℤ) : ℝ) := by push_cast; linarith
      exact_mod_cast this
    omega

/-- Both inputs give trees, and the theorem applies to them. -/
example (mac : Mac) (Q : Quant) (g : ℝ) : ∃ s s' : TS (rakauEnv realA none mac 64 2), Construct (offInp mac) (.ok s) ∧ Construct (offInp2 mac) (.ok s') ∧
    ∀ out : List (Res ℝ), out.length = 3 →
    ∃ o o', s.accPot none (maskedShift 64) Q true (.fin (1 / 2)) (.fin g) (.fin 5) [] (List.range s.crit.length) out = .ok o ∧
      s'.accPot none (maskedShift 64) Q true (.fin (1 / 2)) (.fin g) (.fin 5) [] (List.range s'.crit.length) out = .ok o' ∧
      ∃ (a : Nat → ℝ) (p : ℝ), o[2]? = some (mkRes Q 2 (a, p)) ∧ o'[0]? = some (mkRes Q 2 (fun j => (if j = 0 then -1 else 1) * a (1 - j), p)) := by
  have hl : (offInp mac).parts.length = 2 + 1 := by simp [offInp]
  have hhd : ((offInp mac).parts.headD []).length = 3 := by simp [offInp, List.range_succ_eq_map]
  have hl' : (offInp2 mac).parts.length = 2 + 1 := by simp [offInp2]
  have hhd' : ((offInp2 mac).parts.headD []).length = 3 := by simp [offInp2, List.range_succ_eq_map]
  obtain ⟨r, h⟩ := (C41_outcome realA none mac diag_supp hl (by rw [hhd]; decide)).1
  obtain ⟨s, rfl⟩ := (C41_exact realA_exact (fun q _ => rfl) (by simp) (by intro S h; cases h) mac diag_supp hl (by rw [hhd]; decide) h).1 (off_valid mac).1
  obtain ⟨r', h'⟩ := (C41_outcome realA none mac diag_supp hl' (by rw [hhd']; decide)).1
  obtain ⟨s', rfl⟩ := (C41_exact realA_exact (fun q _ => rfl) (by simp) (by intro S h; cases h) mac diag_supp hl' (by rw [hhd']; decide) h').1 (off_valid mac).2
  refine ⟨s, s', h, h', fun out hout => ?_⟩
  obtain ⟨o, o', e1, e2, _, _, e5⟩ := C84_construct (inp := offInp mac) (inp' := offInp2 mac) (ε := fun j => if j = 0 then -1 else 1) (σ := fun j => 1 - j) (π := fun i => 2 - i) (n := 3) (X := offX)
    (box := some 16) rfl rfl (by intro j _; by_cases h : j = 0 <;> simp [h]) (by omega) (by omega) (by omega) (by omega) rfl rfl rfl rfl h h'
    realA_exact realA_sqrt (rsqrt := none) (by intro r hr; cases hr) (by simp) diag_supp (maskedShift_small 64) (by decide) (by decide) (by decide)
    (fun i _ => by simp only [offX, if_true]; positivity) (u := 5) (fun i l _ _ _ => by
      have : 0 ≤ ∑ j ∈ Finset.range 2, (offX j l - offX j i) ^ 2 := Finset.sum_nonneg (fun j _ => sq_nonneg _)
      linarith)
    (by
      intro b hb j hj _ i _ z
      obtain ⟨_, _, _, _, b1, _⟩ := construct_ok h
      have b1 : (Except.ok (Fl.fin 16) : Except Err (Fl ℝ)) = .ok s.box := b1
      rw [hb, Except.ok.injEq, Fl.fin.injEq] at b1
      rw [← b1]
      exact off_edge _ _ (by omega) z)
    (t := 1 / 2) (by norm_num) (by norm_num) Q g (split := []) rfl (split' := []) rfl (.refl _) (.refl _) hout hout
  obtain ⟨a, p, a1, a2⟩ := e5 0 (by decide)
  exact ⟨o, o', e1, e2, a, p, a1, a2⟩

end Rakau
