import Verif.Proof.CollGeom

/-! The collision graph: absence of undefined behaviour, and completeness in exact arithmetic. -/
namespace Rakau
open Spec

section Any

variable {K : Type} [Field K] [LinearOrder K] [IsStrictOrderedRing K] [FloorRing K] {A : Arith K} {simd : Option (Simd K)} {mac : Mac}
  {w d : Nat} {s : TS (rakauEnv A simd mac w d)} {over : Overshift} {top : K} {ordered : Bool} {sz : List (Fl K)}

omit [IsStrictOrderedRing K] in
/-- The user index of a stored particle. -/
theorem graphIdx_ok (hr : Reach (rakauEnv A simd mac w d) s) {x : Nat} (hx : x < s.n) :
    ∃ i < s.n, graphIdx s.perm s.n ordered x = some i ∧ aabbSize s.perm ordered sz x = sz[i]? := by
  have I := reach_inv hr
  cases ordered with
  | false => exact ⟨x, hx, by simp [graphIdx, hx], by simp [aabbSize]⟩
  | true =>
    have hl : s.perm.length = s.n := by rw [I.perm.length_eq, List.length_range]
    have hx' : x < s.perm.length := by omega
    have hlt : s.perm[x] < s.n := List.mem_range.1 (I.perm.mem_iff.1 (List.getElem_mem hx'))
    exact ⟨s.perm[x], hlt, by simp [graphIdx, hx', hlt], by simp [aabbSize, hx']⟩

omit [IsStrictOrderedRing K] in
theorem graphIdx_inj (hr : Reach (rakauEnv A simd mac w d) s) {x y i : Nat} (hx : graphIdx s.perm s.n ordered x = some i)
    (hy : graphIdx s.perm s.n ordered y = some i) : x = y := by
  have I := reach_inv hr
  obtain ⟨_, h1⟩ := graphIdx_some hx
  obtain ⟨_, h2⟩ := graphIdx_some hy
  cases ordered with
  | false => simp at h1 h2; omega
  | true =>
    simp only [if_true] at h1 h2
    have hn : s.perm.Nodup := I.perm.nodup_iff.2 List.nodup_range
    obtain ⟨a1, a2⟩ := List.getElem?_eq_some_iff.1 h1
    obtain ⟨b1, b2⟩ := List.getElem?_eq_some_iff.1 h2
    exact (hn.getElem_inj_iff).1 (a2.trans b2.symm)

omit [IsStrictOrderedRing K] in
theorem graphIdx_lt (hr : Reach (rakauEnv A simd mac w d) s) {x i : Nat} (hx : graphIdx s.perm s.n ordered x = some i) : x < s.n := by
  have I := reach_inv hr
  obtain ⟨h0, h1⟩ := graphIdx_some hx
  cases ordered with
  | false => simp at h1; omega
  | true =>
    simp only [if_true] at h1
    obtain ⟨a1, _⟩ := List.getElem?_eq_some_iff.1 h1
    rwa [I.perm.length_eq, List.length_range] at a1

theorem testPair_ok (hs : Supported w d) (hr : Reach (rakauEnv A simd mac w d) s) (hsz : s.n ≤ sz.length) {p : Nat × Nat} (h1 : p.1 < s.n)
    (h2 : p.2 < s.n) : ∃ r, testPair s ordered sz p = some r := by
  obtain ⟨i, hi, i1, i2⟩ := graphIdx_ok (ordered := ordered) (sz := sz) hr h1
  obtain ⟨j, hj, j1, j2⟩ := graphIdx_ok (ordered := ordered) (sz := sz) hr h2
  obtain ⟨_, _, c1⟩ := reach_coords hs hr h1
  obtain ⟨_, _, c2⟩ := reach_coords hs hr h2
  rw [List.getElem?_eq_getElem (by omega)] at i2 j2
  unfold testPair
  simp only [i2, j2, c1, c2, i1, j1, bind, Option.bind]
  split_ifs <;> exact ⟨_, rfl⟩

theorem mapM_none {α β : Type} {f : α → Option β} {l : List α} (h : l.mapM f = none) : ∃ x ∈ l, f x = none := by
  by_contra hc
  push Not at hc
  obtain ⟨r, hr⟩ := mapM_some_of (l := l) (f := f) (fun x hx => Option.ne_none_iff_exists'.1 (hc x hx))
  rw [hr] at h; simp at h

/-- Every outcome is a graph or an exception, in any arithmetic. -/
theorem cgraph_noUB (hs : Supported w d) (hr : Reach (rakauEnv A simd mac w d) s) (hz : s.n * cbits w d < 2 ^ 64)
    (hsh : LevelsOk s over) (h0 : 0 ≤ top) (h1 : top < 2 ^ cbits w d) (hsz : s.n ≤ sz.length)
    (hal : ∀ i < s.n, ∀ a, sz[i]? = some a → a.isFinite = true → a.eq (.fin 0) = false → LevelOk over w d (sizeToLevel A (cbits w d) a s.box))
    {old : List (List Nat)} {r : Except Err (List (List Nat))} (h : Cgraph s over top ordered sz old r) :
    (∃ g, r = .ok g) ∨ r = .error .invalidArg := by
  obtain ⟨L1, _, _⟩ := leaves_spec (rakauEnv_ok A simd mac hs) hr hz
  have I := reach_inv hr
  have hcl : s.codes.length = s.n := (rawCodes_spec.1 I.codes).1
  have htn : ∀ {lf : Node} {x : Nat}, (lf, x) ∈ collTasks s.tree → x < s.n := by
    intro lf x ht
    obtain ⟨t1, t2, t3⟩ := mem_collTasks.1 ht
    have := (L1 lf t1).fin
    omega
  cases h with
  | ok => exact .inl ⟨_, rfl⟩
  | fail lf p e ht he =>
    right
    obtain ⟨i, hi, _, i2⟩ := graphIdx_ok (ordered := ordered) (sz := sz) hr (htn ht)
    rw [List.getElem?_eq_getElem (by omega)] at i2
    by_cases hfin : sz[i].isFinite = true
    · rcases collParticle_cases hs hr hz hsh h0 h1 ht i2 (hal i hi _ (List.getElem?_eq_getElem _) hfin) with ⟨_, q⟩ | ⟨_, q⟩ | ⟨_, _, _, _, _, _, ⟨_, q⟩ | ⟨_, _, _, q, _⟩⟩
      all_goals (rw [q] at he; simp at he; try rw [← he])
    · unfold collParticle at he
      have hf : sz[i].isFinite = false := by simpa using hfin
      simp only [i2, ofUB, bind, Except.bind, hf] at he
      simp at he
      rw [← he]
  | ub adds vadd lf va sva f1 f2 f3 f4 f5 =>
    exfalso
    unfold collLeaf at f5
    cases hm : (pairs (List.range' lf.beg (lf.fin - lf.beg) ++ uniq sva)).mapM (testPair s ordered sz) with
    | some r => rw [hm] at f5; simp at f5
    | none =>
      obtain ⟨p, hp, hpn⟩ := mapM_none hm
      obtain ⟨m1, m2⟩ := mem_pairs hp
      have hb : ∀ x ∈ List.range' lf.beg (lf.fin - lf.beg) ++ uniq sva, x < s.n := by
        intro x hx
        rw [List.mem_append, List.mem_range'_1, mem_uniq, f4.1.mem_iff] at hx
        rcases hx with hx | hx
        · have := (L1 lf (List.of_mem_zip f3).1).fin
          omega
        · obtain ⟨k, hk, ek⟩ := List.getElem_of_mem (List.of_mem_zip f3).2
          have hk' : k < (leaves s.tree).length := by have := f2.1; rw [List.length_replicate] at this; omega
          rw [← ek, pushed_mem f2 hk (by simpa using hk')] at hx
          rcases hx with hx | hx
          · simp at hx
          · simp only [List.mem_flatMap, List.mem_map, Prod.mk.injEq] at hx
            obtain ⟨t, ht, y, _, _, rfl⟩ := hx
            exact htn (lf := t.1.1) (List.of_mem_zip ht).1
      obtain ⟨r, hr'⟩ := testPair_ok (ordered := ordered) hs hr hsz (hb _ m1) (hb _ m2)
      rw [hr'] at hpn; simp at hpn

end Any

section Exact

variable {K : Type} [Field K] [LinearOrder K] [IsStrictOrderedRing K] [FloorRing K] {A : Arith K} {simd : Option (Simd K)} {mac : Mac}
  {w d : Nat} {s : TS (rakauEnv A simd mac w d)} {over : Overshift} {top b : K} {ordered : Bool} {sz : List (Fl K)}

/-- The node at the level computed from the size is larger than the AABB, and usable. -/
theorem ex_sizeToLevel (hA : A.Exact) {σ : K} (hc : 0 < cbits w d) (h : b / 2 ^ cbits w d ≤ σ ∨ over (2 ^ w - 1) w = some 0) :
    LevelOk over w d (sizeToLevel A (cbits w d) (.fin σ) (.fin b)) ∧
      (sizeToLevel A (cbits w d) (.fin σ) (.fin b) = 0 ∨ σ < b / 2 ^ sizeToLevel A (cbits w d) (.fin σ) (.fin b)) := by
  obtain ⟨s1, s2, s3⟩ := ex_sizeLoop hA (σ := σ) (cbits w d) b
  refine ⟨?_, s2⟩
  rcases h with h | h
  · exact .of_lt (s3 h hc)
  · exact ⟨s1, fun _ => h⟩

/-- The leaves that share cells with a sufficiently small node around a point of the particle's AABB all contain the particle. -/
theorem covered (hA : A.Exact) (hs : Supported w d) (hr : Reach (rakauEnv A simd mac w d) s) (hz : s.n * cbits w d < 2 ^ 64)
    (hsh : LevelsOk s over) (h0 : 0 ≤ top) (h1 : top < 2 ^ cbits w d) (hbox : s.box = .fin b) (hb : 0 < b) {lf : Node} {x : Nat}
    (ht : (lf, x) ∈ collTasks s.tree) {σ : K} (ha : aabbSize s.perm ordered sz x = some (.fin σ)) (hσ : 0 < σ)
    (hal : b / 2 ^ cbits w d ≤ σ ∨ over (2 ^ w - 1) w = some 0) {c : List K} (hc : c.length = d) (hcx : coordsAt d s.parts x = some (c.map .fin)) :
    (∃ r, collParticle s over top ordered sz lf x = .ok r) ∧
    ∀ z : List K, z.length = d → (∀ j (h : j < c.length) (h' : j < z.length), c[j] - σ / 2 ≤ z[j] ∧ z[j] ≤ c[j] + σ / 2) →
      ∀ Z, Interleaves (cbits w d) (z.map (cell (cbits w d) top b)) Z →
        ∃ m ≤ cbits w d, (∃ (l : Nat) (nd : Node), (leaves s.tree)[l]? = some nd ∧ Meets d (cbits w d) nd Z m) ∧
          ∀ (l : Nat) (nd : Node), (leaves s.tree)[l]? = some nd → Meets d (cbits w d) nd Z m → InLeaf s over top ordered sz l x := by
  have hd := hs.dim
  have hcb : 0 < cbits w d := by rcases hs with ⟨rfl | rfl, rfl | rfl⟩ <;> decide
  obtain ⟨vs, v1, v2⟩ := vertices_cover hA hs h0 h1 hb hc hσ
  obtain ⟨k1, k2⟩ := ex_sizeToLevel (w := w) (d := d) (over := over) hA hcb hal
  have hzero : Fl.eq (.fin σ) (.fin 0) = false := by simp [Fl.eq, hσ.ne']
  have hlt : Fl.lt (.fin σ) (.fin 0) = false := by simpa using hσ.le
  rw [← hbox] at v1 k1 k2
  rcases collParticle_cases hs hr hz hsh h0 h1 ht ha (fun _ => k1) with ⟨q, _⟩ | ⟨q, _⟩ | ⟨_, _, _, pos, p1, p2, ⟨q, _⟩ | ⟨vs', adds, q1, q2, q3⟩⟩
  · rw [hlt] at q; simp [Fl.isFinite] at q
  · rw [hzero] at q; simp at q
  · rw [hcx, Option.some.injEq] at p1
    rw [← p1, v1] at q; simp at q
  · rw [hcx, Option.some.injEq] at p1
    rw [← p1, v1, Except.ok.injEq] at q1
    subst q1
    refine ⟨⟨_, q2⟩, ?_⟩
    intro z hz' hin Z' hZ'
    obtain ⟨Z, z1, z2, z3, z4⟩ := v2 z hz' hin
    have : Z' = Z := interleaves_unique (by simp [hz', hd.1]) hZ' z2
    subst this
    rcases q3 with q3 | ⟨l, nd, l1, l2, l3, l4⟩
    · obtain ⟨v, hv, e⟩ := z3 _ k1.le k2
      obtain ⟨m, hm, ⟨l, nd, l1, l2⟩, m2⟩ := q3 v hv
      have e' : Z' / 2 ^ ((cbits w d - m) * d) = v / 2 ^ ((cbits w d - m) * d) := by
        set al := sizeToLevel A (cbits w d) (.fin σ) s.box
        have e2 : 2 ^ ((cbits w d - m) * d) = 2 ^ ((cbits w d - al) * d) * 2 ^ ((al - m) * d) := by
          rw [← pow_add, ← Nat.add_mul]; congr 2; have := k1.le; omega
        rw [e2, ← Nat.div_div_eq_div_mul, ← Nat.div_div_eq_div_mul, e]
      refine ⟨m, hm.trans k1.le, ⟨l, nd, l1, l2.mono (le_refl _) (hm.trans k1.le) e'⟩, ?_⟩
      intro l nd hl hmt
      exact m2 l nd hl (hmt.mono (le_refl _) (hm.trans k1.le) e'.symm)
    · have e := z4 nd.level l2 _ l4
      refine ⟨nd.level, l2, ⟨l, nd, l1, Z', z1, e, rfl⟩, ?_⟩
      intro l' nd' hl' hmt
      obtain ⟨b1, b2⟩ := List.getElem?_eq_some_iff.1 l1
      obtain ⟨a1, a2⟩ := List.getElem?_eq_some_iff.1 hl'
      have : l' = l := meets_leaf (leavesOk hs hr hz hsh) a1 b1 (v := Z') (by rw [b2]; exact e) (by rw [a2, b2]; exact hmt)
      rw [this]; exact l3

/-- Two particles whose AABBs overlap are in a common leaf. -/
theorem common_leaf (hA : A.Exact) (hs : Supported w d) (hr : Reach (rakauEnv A simd mac w d) s) (hz : s.n * cbits w d < 2 ^ 64)
    (hsh : LevelsOk s over) (h0 : 0 ≤ top) (h1 : top < 2 ^ cbits w d) (hbox : s.box = .fin b) (hb : 0 < b) {lf lf' : Node} {x x' : Nat}
    (ht : (lf, x) ∈ collTasks s.tree) (ht' : (lf', x') ∈ collTasks s.tree) {σ σ' : K} (ha : aabbSize s.perm ordered sz x = some (.fin σ))
    (ha' : aabbSize s.perm ordered sz x' = some (.fin σ')) (hσ : 0 < σ) (hσ' : 0 < σ')
    (hal : b / 2 ^ cbits w d ≤ σ ∨ over (2 ^ w - 1) w = some 0) (hal' : b / 2 ^ cbits w d ≤ σ' ∨ over (2 ^ w - 1) w = some 0)
    {c c' : List K} (hc : c.length = d) (hc' : c'.length = d) (hcx : coordsAt d s.parts x = some (c.map .fin))
    (hcx' : coordsAt d s.parts x' = some (c'.map .fin))
    (hov : ∀ j (h : j < c.length) (h' : j < c'.length), c[j] - σ / 2 ≤ c'[j] + σ' / 2 ∧ c'[j] - σ' / 2 ≤ c[j] + σ / 2) :
    ∃ l, InLeaf s over top ordered sz l x ∧ InLeaf s over top ordered sz l x' := by
  have hd := hs.dim
  let z : List K := List.zipWith (fun p q => max (p - σ / 2) (q - σ' / 2)) c c'
  have hzl : z.length = d := by simp [z, hc, hc']
  have hcells : ∀ y ∈ z.map (cell (cbits w d) top b), y < 2 ^ cbits w d := by
    intro y hy
    obtain ⟨u, _, rfl⟩ := List.mem_map.1 hy
    exact (ex_discClamp hA (cbits_le w d) h0 h1 hb).2
  obtain ⟨Z, _, hZ⟩ := mortonEncode_interleaves (w := w) (xs := z.map (cell (cbits w d) top b)) (by simpa [hzl] using hs)
      (by simpa [hzl] using hcells)
  rw [show (z.map (cell (cbits w d) top b)).length = d by simpa using hzl] at hZ
  obtain ⟨m, hm, ⟨l, nd, l1, l2⟩, m2⟩ := (covered hA hs hr hz hsh h0 h1 hbox hb ht ha hσ hal hc hcx).2 z hzl (by
    intro j h h'
    have hj' : j < c'.length := by omega
    obtain ⟨o1, o2⟩ := hov j h hj'
    simp only [z, List.getElem_zipWith]
    exact ⟨le_max_left _ _, max_le (by linarith) o2⟩) Z hZ
  obtain ⟨m', hm', ⟨l', nd', l1', l2'⟩, m2'⟩ := (covered hA hs hr hz hsh h0 h1 hbox hb ht' ha' hσ' hal' hc' hcx').2 z hzl (by
    intro j h h'
    have hj' : j < c.length := by omega
    obtain ⟨o1, o2⟩ := hov j hj' h
    simp only [z, List.getElem_zipWith]
    exact ⟨le_max_right _ _, max_le o1 (by linarith)⟩) Z hZ
  rcases le_total m m' with h | h
  · exact ⟨l', m2 l' nd' l1' (l2'.mono h hm' rfl), m2' l' nd' l1' l2'⟩
  · exact ⟨l, m2 l nd l1 l2, m2' l nd l1 (l2.mono h hm rfl)⟩

omit [IsStrictOrderedRing K] in
theorem ex_overlap (hA : A.Exact) {σ σ' : K} {c c' : List K} :
    overlap A (.fin σ) (.fin σ') (c.map .fin) (c'.map .fin) = true ↔
      ∀ j (h : j < c.length) (h' : j < c'.length), c[j] - σ / 2 ≤ c'[j] + σ' / 2 ∧ c'[j] - σ' / 2 ≤ c[j] + σ / 2 := by
  have hd1 : A.div (.fin (-1)) (.fin 2) = .fin (-1 / 2) := ex_div hA (by norm_num)
  have hd2 : A.div (.fin 1) (.fin 2) = .fin (1 / 2) := ex_div hA (by norm_num)
  have hseg : ∀ σ x : K, segment A (.fin σ) (.fin x) = (.fin (x - σ / 2), .fin (x + σ / 2)) := by
    intro σ x
    unfold segment
    rw [hd1, hd2, ex_fma hA, ex_fma hA]
    congr 2 <;> ring
  unfold overlap
  rw [List.all_eq_true]
  constructor
  · intro h j hj hj'
    have := h (.fin c[j], .fin c'[j]) (by
      rw [List.mem_iff_getElem]
      exact ⟨j, by simp [hj, hj'], by simp⟩)
    simp only [hseg, Fl.ge, Fl.le_fin, Fl.lt_fin, Bool.and_eq_true, decide_eq_true_eq, Bool.not_eq_true', decide_eq_false_iff_not, not_lt] at this
    exact ⟨this.2, this.1⟩
  · intro h y hy
    obtain ⟨j, hj, rfl⟩ := List.getElem_of_mem hy
    simp only [List.length_zip, List.length_map, lt_inf_iff] at hj
    obtain ⟨o1, o2⟩ := h j hj.1 hj.2
    simp only [List.getElem_zip, List.getElem_map, hseg, Fl.ge, Fl.le_fin, Fl.lt_fin, Bool.and_eq_true, decide_eq_true_eq, Bool.not_eq_true',
      decide_eq_false_iff_not, not_lt]
    exact ⟨o2, o1⟩

end Exact

end Rakau
