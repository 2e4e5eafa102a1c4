import Verif.Proof.CollMain
import Verif.Props.Disc
import Verif.Props.Coll

/-!
Completeness of the collision search in any arithmetic that rounds monotonically: the argument of Proof/CollMain.lean with the computed cells of the vertices, instead
of their exact positions.
-/
namespace Rakau
open Spec

section Any

variable {K : Type} [Field K] [LinearOrder K] [IsStrictOrderedRing K] [FloorRing K] {A : Arith K} {simd : Option (Simd K)} {mac : Mac}
  {w d : Nat} {s : TS (rakauEnv A simd mac w d)} {over : Overshift} {top : K} {ordered : Bool} {sz : List (Fl K)}

/-- The cells of the ends of the segment of an AABB. -/
def EndCells (A : Arith K) (w d : Nat) (top : K) (size inv x : Fl K) (cl ch : Nat) : Prop :=
  ∃ lo hi, aabbBounds A (A.mul size (.fin (1 / 2))) x = .ok (lo, hi) ∧ discClamp A w (cbits w d) top lo inv = .ok cl ∧
    discClamp A w (cbits w d) top hi inv = .ok ch

/-- The cells of the vertices of an AABB, and of the points inside. -/
theorem vertices_any (hs : Supported w d) (h0 : 0 ≤ top) (h1 : top < 2 ^ cbits w d) {pos : List (Fl K)} (hp : pos.length = d) {size inv : Fl K} {vs : List Nat}
    (hv : aabbCodes A w d top pos size inv = .ok vs) :
    ∃ dl dh : List Nat, dl.length = d ∧ dh.length = d ∧ (∀ x ∈ dl, x < 2 ^ cbits w d) ∧ (∀ x ∈ dh, x < 2 ^ cbits w d) ∧
      (∀ j (h1 : j < pos.length) (h2 : j < dl.length) (h3 : j < dh.length), EndCells A w d top size inv pos[j] dl[j] dh[j]) ∧
      ∀ zc : List Nat, zc.length = d → (∀ j (h1 : j < zc.length) (h2 : j < dl.length) (h3 : j < dh.length), dl[j] ≤ zc[j] ∧ zc[j] ≤ dh[j]) →
        ∀ Z, Interleaves (cbits w d) zc Z →
          (∀ l ≤ cbits w d, (∀ j (h2 : j < dl.length) (h3 : j < dh.length), dh[j] / 2 ^ (cbits w d - l) ≤ dl[j] / 2 ^ (cbits w d - l) + 1) →
            ∃ v ∈ vs, Z / 2 ^ ((cbits w d - l) * d) = v / 2 ^ ((cbits w d - l) * d)) ∧
          (∀ l ≤ cbits w d, ∀ q, (∀ v ∈ vs, v / 2 ^ ((cbits w d - l) * d) = q) → Z / 2 ^ ((cbits w d - l) * d) = q) := by
  have hd := hs.dim
  rcases aabbCodes_cases A hs h0 h1 hp size inv with ⟨bs, vs', q1, q2, q3, q4⟩ | q
  swap
  · rw [hv] at q; simp at q
  rw [hv, Except.ok.injEq] at q2
  subst q2
  have hbl : bs.length = d := by rw [← q1.length_eq, hp]
  have hpos := Nat.two_pow_pos d
  obtain ⟨dl, l1, l2, l3, _⟩ := q4 0 (by omega)
  obtain ⟨dh, m1, m2, m3, _⟩ := q4 (2 ^ d - 1) (by omega)
  have hcl : ∀ i, (corner bs i).length = d := fun i => by unfold corner; simp [hbl]
  have hdl : dl.length = d := by rw [← l1.length_eq, hcl]
  have hdh : dh.length = d := by rw [← m1.length_eq, hcl]
  have lo : ∀ j (hj : j < d), discClamp A w (cbits w d) top (bs[j]'(by omega)).1 inv = .ok (dl[j]'(by omega)) := by
    intro j hj
    have := (forall₂_getElem l1).2 j (by rw [hcl]; exact hj) (by omega)
    rwa [corner_get (by omega), Nat.zero_testBit, if_neg (by simp)] at this
  have hi : ∀ j (hj : j < d), discClamp A w (cbits w d) top (bs[j]'(by omega)).2 inv = .ok (dh[j]'(by omega)) := by
    intro j hj
    have := (forall₂_getElem m1).2 j (by rw [hcl]; exact hj) (by omega)
    rwa [corner_get (by omega), Nat.testBit_two_pow_sub_one, if_pos (by simpa using hj)] at this
  have hvert : ∀ i (hi : i < vs.length), ∃ ds : List Nat, ds.length = d ∧ (∀ x ∈ ds, x < 2 ^ cbits w d) ∧ Interleaves (cbits w d) ds vs[i] ∧
      ∀ j (hj : j < ds.length) (hj' : j < d), ds[j] = if i.testBit j then dh[j]'(by omega) else dl[j]'(by omega) := by
    intro i hi'
    obtain ⟨ds, r1, r2, r3, _⟩ := q4 i hi'
    have hds : ds.length = d := by rw [← r1.length_eq, hcl]
    refine ⟨ds, hds, r2, r3, ?_⟩
    intro j hj hj'
    have := (forall₂_getElem r1).2 j (by rw [hcl]; exact hj') hj
    rw [corner_get (by omega)] at this
    split at this <;> rename_i hbit
    · rw [hi j hj', Except.ok.injEq] at this; rw [← this, if_pos hbit]
    · rw [lo j hj', Except.ok.injEq] at this; rw [← this, if_neg hbit]
  refine ⟨dl, dh, hdl, hdh, l2, m2, ?_, ?_⟩
  · intro j k1 k2 k3
    have hjd : j < d := by omega
    have := (forall₂_getElem q1).2 j k1 (by omega)
    exact ⟨(bs[j]'(by omega)).1, (bs[j]'(by omega)).2, by rw [this], lo j hjd, hi j hjd⟩
  · intro zc hzl hin Z hZ
    have hzlt : ∀ x ∈ zc, x < 2 ^ cbits w d := by
      intro x hx
      obtain ⟨j, hj, rfl⟩ := List.getElem_of_mem hx
      exact lt_of_le_of_lt (hin j hj (by omega) (by omega)).2 (m2 _ (List.getElem_mem _))
    constructor
    · intro l hl hnar
      let f : Fin d → Bool := fun j => decide (zc.getD j 0 / 2 ^ (cbits w d - l) ≠ dl.getD j 0 / 2 ^ (cbits w d - l))
      have hlt : Nat.ofBits f < vs.length := by rw [q3]; exact Nat.ofBits_lt_two_pow f
      obtain ⟨ds, d1, d2, d3, d4⟩ := hvert _ hlt
      refine ⟨vs[Nat.ofBits f], List.getElem_mem _, ?_⟩
      have := (interleaves_prefix (L := l) (by rw [hzl, d1]) (by rw [hzl]; exact hd.1) hl hzlt d2 hZ d3).2 ?_
      · rw [hzl, Nat.shiftRight_eq_div_pow, Nat.shiftRight_eq_div_pow] at this; exact this
      · apply List.ext_getElem (by simp [hzl, d1])
        intro j hj1 hj2
        have hjd : j < d := by simpa [hzl] using hj1
        simp only [List.getElem_map, Nat.shiftRight_eq_div_pow]
        rw [d4 j (by omega) hjd]
        have hbit : (Nat.ofBits f).testBit j = f ⟨j, hjd⟩ := Nat.testBit_ofBits_lt f j hjd
        have ez : zc.getD j 0 = zc[j] := by simp [List.getD, List.getElem?_eq_getElem (show j < zc.length by omega)]
        have ec : dl.getD j 0 = dl[j] := by simp [List.getD, List.getElem?_eq_getElem (show j < dl.length by omega)]
        have hf : f ⟨j, hjd⟩ = decide (zc[j] / 2 ^ (cbits w d - l) ≠ dl[j] / 2 ^ (cbits w d - l)) := by rw [← ez, ← ec]
        rw [hf] at hbit
        by_cases he : zc[j] / 2 ^ (cbits w d - l) = dl[j] / 2 ^ (cbits w d - l)
        · rw [if_neg (by rw [hbit]; simpa using he)]; exact he
        · rw [if_pos (by rw [hbit]; simpa using he)]
          obtain ⟨i1, i2⟩ := hin j (by omega) (by omega) (by omega)
          have n1 := Nat.div_le_div_right (c := 2 ^ (cbits w d - l)) i1
          have n2 := Nat.div_le_div_right (c := 2 ^ (cbits w d - l)) i2
          have := hnar j (by omega) (by omega)
          omega
    · intro l hl q hall
      have hv0 := hall _ (List.getElem_mem (show 0 < vs.length by omega))
      have hv1 := hall _ (List.getElem_mem (show 2 ^ d - 1 < vs.length by omega))
      have hpre := (interleaves_prefix (L := l) (xs := dl) (ys := dh) (by rw [hdl, hdh]) (by rw [hdl]; exact hd.1) hl l2 m2 l3 m3).1
        (by rw [hdl, Nat.shiftRight_eq_div_pow, Nat.shiftRight_eq_div_pow, hv0, hv1])
      have := (interleaves_prefix (L := l) (xs := zc) (ys := dl) (by rw [hzl, hdl]) (by rw [hzl]; exact hd.1) hl hzlt l2 hZ l3).2 ?_
      · rw [hzl, Nat.shiftRight_eq_div_pow, Nat.shiftRight_eq_div_pow] at this; rw [this, hv0]
      · apply List.ext_getElem (by simp [hzl, hdl])
        intro j hj1 hj2
        have hjd : j < d := by simpa [hzl] using hj1
        have hg : (dl.map (· >>> (cbits w d - l)))[j]'(by simp; omega) = (dh.map (· >>> (cbits w d - l)))[j]'(by simp; omega) := by
          congr 1
        simp only [List.getElem_map, Nat.shiftRight_eq_div_pow] at hg ⊢
        obtain ⟨i1, i2⟩ := hin j (by omega) (by omega) (by omega)
        have n1 := Nat.div_le_div_right (c := 2 ^ (cbits w d - l)) i1
        have n2 := Nat.div_le_div_right (c := 2 ^ (cbits w d - l)) i2
        omega

/-- At the level computed from its size, the AABB reaches over at most two cells in each dimension. -/
def TwoCells (A : Arith K) (w d : Nat) (top : K) (box size : Fl K) (pos : List (Fl K)) : Prop :=
  ∀ x ∈ pos, ∀ cl ch, EndCells A w d top size (invBox A box) x cl ch →
    ch / 2 ^ (cbits w d - sizeToLevel A (cbits w d) size box) ≤ cl / 2 ^ (cbits w d - sizeToLevel A (cbits w d) size box) + 1

/-- The leaves that share cells with a sufficiently small node around a point of the particle's AABB all contain the particle. -/
theorem covered_any (hs : Supported w d) (hr : Reach (rakauEnv A simd mac w d) s) (hz : s.n * cbits w d < 2 ^ 64)
    (hsh : LevelsOk s over) (h0 : 0 ≤ top) (h1 : top < 2 ^ cbits w d) {lf : Node} {x : Nat} (ht : (lf, x) ∈ collTasks s.tree) {a : Fl K}
    (ha : aabbSize s.perm ordered sz x = some a) (hnz : a.eq (.fin 0) = false) (hal : LevelOk over w d (sizeToLevel A (cbits w d) a s.box))
    {pos : List (Fl K)} (hpos : coordsAt d s.parts x = some pos) (htwo : TwoCells A w d top s.box a pos)
    {r : List Nat} (hok : collParticle s over top ordered sz lf x = .ok r) :
    ∃ dl dh : List Nat, dl.length = d ∧ dh.length = d ∧ pos.length = d ∧ (∀ x ∈ dl, x < 2 ^ cbits w d) ∧
      (∀ j (h1 : j < pos.length) (h2 : j < dl.length) (h3 : j < dh.length), EndCells A w d top a (invBox A s.box) pos[j] dl[j] dh[j]) ∧
      ∀ zc : List Nat, zc.length = d → (∀ j (h1 : j < zc.length) (h2 : j < dl.length) (h3 : j < dh.length), dl[j] ≤ zc[j] ∧ zc[j] ≤ dh[j]) →
        ∀ Z, Interleaves (cbits w d) zc Z →
          ∃ m ≤ cbits w d, (∃ (l : Nat) (nd : Node), (leaves s.tree)[l]? = some nd ∧ Meets d (cbits w d) nd Z m) ∧
            ∀ (l : Nat) (nd : Node), (leaves s.tree)[l]? = some nd → Meets d (cbits w d) nd Z m → InLeaf s over top ordered sz l x := by
  have hd := hs.dim
  rcases collParticle_cases hs hr hz hsh h0 h1 ht ha (fun _ => hal) with ⟨_, q⟩ | ⟨q, _⟩ | ⟨_, _, _, pos', p1, p2, ⟨_, q⟩ | ⟨vs, adds, q1, q2, q3⟩⟩
  · rw [hok] at q; simp at q
  · rw [hnz] at q; simp at q
  · rw [hok] at q; simp at q
  rw [hpos, Option.some.injEq] at p1
  subst p1
  obtain ⟨dl, dh, v1, v2, v3, v4, v5, v6⟩ := vertices_any hs h0 h1 p2 q1
  refine ⟨dl, dh, v1, v2, p2, v3, v5, ?_⟩
  intro zc hzl hin Z hZ
  obtain ⟨z3, z4⟩ := v6 zc hzl hin Z hZ
  rcases q3 with q3 | ⟨l, nd, l1, l2, l3, l4⟩
  · obtain ⟨v, hv, e⟩ := z3 _ hal.le (fun j h2 h3 => htwo _ (List.getElem_mem (show j < pos.length by omega)) _ _ (v5 j (by omega) h2 h3))
    obtain ⟨m, hm, ⟨l, nd, l1, l2⟩, m2⟩ := q3 v hv
    have e' : Z / 2 ^ ((cbits w d - m) * d) = v / 2 ^ ((cbits w d - m) * d) := by
      set al := sizeToLevel A (cbits w d) a s.box
      have e2 : 2 ^ ((cbits w d - m) * d) = 2 ^ ((cbits w d - al) * d) * 2 ^ ((al - m) * d) := by
        rw [← pow_add, ← Nat.add_mul]; congr 2; have := hal.le; omega
      rw [e2, ← Nat.div_div_eq_div_mul, ← Nat.div_div_eq_div_mul, e]
    refine ⟨m, hm.trans hal.le, ⟨l, nd, l1, l2.mono (le_refl _) (hm.trans hal.le) e'⟩, ?_⟩
    intro l nd hl hmt
    exact m2 l nd hl (hmt.mono (le_refl _) (hm.trans hal.le) e'.symm)
  · have e := z4 nd.level l2 _ l4
    have hZlt := hZ.1
    rw [hzl] at hZlt
    refine ⟨nd.level, l2, ⟨l, nd, l1, Z, hZlt, e, rfl⟩, ?_⟩
    intro l' nd' hl' hmt
    obtain ⟨b1, b2⟩ := List.getElem?_eq_some_iff.1 l1
    obtain ⟨a1, a2⟩ := List.getElem?_eq_some_iff.1 hl'
    have : l' = l := meets_leaf (leavesOk hs hr hz hsh) a1 b1 (v := Z) (by rw [b2]; exact e) (by rw [a2, b2]; exact hmt)
    rw [this]; exact l3

/-- Two particles are in a common leaf if the cells of their AABBs overlap. -/
theorem common_leaf_any (hs : Supported w d) (hr : Reach (rakauEnv A simd mac w d) s) (hz : s.n * cbits w d < 2 ^ 64)
    (hsh : LevelsOk s over) (h0 : 0 ≤ top) (h1 : top < 2 ^ cbits w d) {lf lf' : Node} {x x' : Nat}
    (ht : (lf, x) ∈ collTasks s.tree) (ht' : (lf', x') ∈ collTasks s.tree) {a a' : Fl K} (ha : aabbSize s.perm ordered sz x = some a)
    (ha' : aabbSize s.perm ordered sz x' = some a') (hnz : a.eq (.fin 0) = false) (hnz' : a'.eq (.fin 0) = false)
    (hal : LevelOk over w d (sizeToLevel A (cbits w d) a s.box)) (hal' : LevelOk over w d (sizeToLevel A (cbits w d) a' s.box))
    {pos pos' : List (Fl K)} (hpos : coordsAt d s.parts x = some pos) (hpos' : coordsAt d s.parts x' = some pos')
    (htwo : TwoCells A w d top s.box a pos) (htwo' : TwoCells A w d top s.box a' pos') {r r' : List Nat}
    (hok : collParticle s over top ordered sz lf x = .ok r) (hok' : collParticle s over top ordered sz lf' x' = .ok r')
    (hov : ∀ j (h : j < pos.length) (h' : j < pos'.length) cl ch cl' ch', EndCells A w d top a (invBox A s.box) pos[j] cl ch →
      EndCells A w d top a' (invBox A s.box) pos'[j] cl' ch' → cl ≤ ch ∧ cl' ≤ ch' ∧ cl ≤ ch' ∧ cl' ≤ ch) :
    ∃ l, InLeaf s over top ordered sz l x ∧ InLeaf s over top ordered sz l x' := by
  have hd := hs.dim
  obtain ⟨dl, dh, u1, u2, u3, u4, u5, u6⟩ := covered_any hs hr hz hsh h0 h1 ht ha hnz hal hpos htwo hok
  obtain ⟨el, eh, v1, v2, v3, v4, v5, v6⟩ := covered_any hs hr hz hsh h0 h1 ht' ha' hnz' hal' hpos' htwo' hok'
  let zc : List Nat := List.zipWith max dl el
  have hzl : zc.length = d := by simp [zc, u1, v1]
  have hzlt : ∀ y ∈ zc, y < 2 ^ cbits w d := by
    intro y hy
    obtain ⟨j, hj, rfl⟩ := List.getElem_of_mem hy
    simp only [zc, List.getElem_zipWith]
    exact max_lt (u4 _ (List.getElem_mem _)) (v4 _ (List.getElem_mem _))
  obtain ⟨Z, _, hZ⟩ := mortonEncode_interleaves (w := w) (xs := zc) (by simpa [hzl] using hs) (by simpa [hzl] using hzlt)
  rw [hzl] at hZ
  have key : ∀ j (hj : j < d), dl[j]'(by omega) ≤ dh[j]'(by omega) ∧ el[j]'(by omega) ≤ eh[j]'(by omega) ∧ dl[j]'(by omega) ≤ eh[j]'(by omega) ∧
      el[j]'(by omega) ≤ dh[j]'(by omega) := fun j hj =>
    hov j (by omega) (by omega) _ _ _ _ (u5 j (by omega) (by omega) (by omega)) (v5 j (by omega) (by omega) (by omega))
  obtain ⟨m, hm, ⟨l, nd, l1, l2⟩, m2⟩ := u6 zc hzl (by
    intro j h _ _
    obtain ⟨k1, k2, k3, k4⟩ := key j (by omega)
    simp only [zc, List.getElem_zipWith]
    exact ⟨le_max_left _ _, max_le k1 k4⟩) Z hZ
  obtain ⟨m', hm', ⟨l', nd', l1', l2'⟩, m2'⟩ := v6 zc hzl (by
    intro j h _ _
    obtain ⟨k1, k2, k3, k4⟩ := key j (by omega)
    simp only [zc, List.getElem_zipWith]
    exact ⟨le_max_right _ _, max_le k3 k2⟩) Z hZ
  rcases le_total m m' with h | h
  · exact ⟨l', m2 l' nd' l1' (l2'.mono h hm' rfl), m2' l' nd' l1' l2'⟩
  · exact ⟨l, m2 l nd l1 l2, m2' l nd l1 (l2.mono h hm rfl)⟩

/-- Half of the size is exact, and so is its negative. -/
def HalfOk (A : Arith K) (σ : K) : Prop := A.rnd (σ / 2) = .fin (σ / 2) ∧ A.rnd (-(σ / 2)) = .fin (-(σ / 2))

omit [IsStrictOrderedRing K] [FloorRing K] in
theorem mul_half {σ : K} (h : HalfOk A σ) : A.mul (.fin σ) (.fin (1 / 2)) = .fin (σ / 2) := by
  show A.rnd (σ * (1 / 2)) = _
  rw [mul_one_div]; exact h.1

omit [FloorRing K] in
/-- The segments of the overlap test are those between the ends of the AABBs. -/
theorem segment_eq (L : A.Laws) (hm : A.rnd (-1 / 2) = .fin (-1 / 2)) {σ x : K} (h : HalfOk A σ) :
    segment A (.fin σ) (.fin x) = (A.rnd (x - σ / 2), A.rnd (x + σ / 2)) := by
  have d1 : A.div (.fin (-1)) (.fin 2) = .fin (-1 / 2) := by
    show (if (2 : K) = 0 then _ else A.rnd (-1 / 2)) = _
    rw [if_neg (by norm_num)]; exact hm
  have d2 : A.div (.fin 1) (.fin 2) = .fin (1 / 2) := by
    show (if (2 : K) = 0 then _ else A.rnd (1 / 2)) = _
    rw [if_neg (by norm_num)]; exact L.half
  have e1 : A.mul (.fin σ) (.fin (-1 / 2)) = .fin (-(σ / 2)) := by
    show A.rnd (σ * (-1 / 2)) = _
    rw [show σ * (-1 / 2) = -(σ / 2) by ring]; exact h.2
  unfold segment
  rw [d1, d2]
  unfold Arith.fma
  cases A.fused with
  | true =>
    simp only [if_true, Arith.mulPre]
    rw [show σ * (-1 / 2) + x = x - σ / 2 by ring, show σ * (1 / 2) + x = x + σ / 2 by ring]
  | false =>
    simp only [Bool.false_eq_true, if_false]
    rw [e1, mul_half h]
    simp only [Arith.add]
    rw [show -(σ / 2) + x = x - σ / 2 by ring, show σ / 2 + x = x + σ / 2 by ring]

omit [IsStrictOrderedRing K] in
/-- The ends of an AABB. -/
theorem endCells_eq {σ x : K} {inv : Fl K} {cl ch : Nat} (h : HalfOk A σ) (he : EndCells A w d top (.fin σ) inv (.fin x) cl ch) :
    ∃ lo hi, A.rnd (x - σ / 2) = .fin lo ∧ A.rnd (x + σ / 2) = .fin hi ∧ lo ≤ hi ∧ discClamp A w (cbits w d) top (.fin lo) inv = .ok cl ∧
      discClamp A w (cbits w d) top (.fin hi) inv = .ok ch := by
  obtain ⟨lo, hi, e1, e2, e3⟩ := he
  rw [mul_half h] at e1
  unfold aabbBounds at e1
  have s1 : A.sub (.fin x) (.fin (σ / 2)) = A.rnd (x - σ / 2) := by rw [sub_eq_add_neg]; rfl
  have s2 : A.add (.fin x) (.fin (σ / 2)) = A.rnd (x + σ / 2) := rfl
  rw [s1, s2] at e1
  dsimp only at e1
  split at e1
  · simp at e1
  · rename_i hc
    simp only [Except.ok.injEq, Prod.mk.injEq] at e1
    obtain ⟨rfl, rfl⟩ := e1
    simp only [Bool.or_eq_true, Bool.not_eq_true', not_or, Bool.not_eq_false, Fl.gt, Bool.not_eq_true] at hc
    obtain ⟨⟨c1, c2⟩, c3⟩ := hc
    obtain ⟨l, hl⟩ := Fl.isFinite_iff.1 c1
    obtain ⟨u, hu⟩ := Fl.isFinite_iff.1 c2
    rw [hl, hu] at c3
    simp only [Fl.lt, decide_eq_false_iff_not, not_lt] at c3
    exact ⟨l, u, hl, hu, c3, hl ▸ e2, hu ▸ e3⟩

/-- An edge that the graph contains: two particles whose computed segments overlap. -/
theorem cgraph_complete (L : A.Laws) (hm : A.rnd (-1 / 2) = .fin (-1 / 2)) (hs : Supported w d) (hr : Reach (rakauEnv A simd mac w d) s) (hz : s.n * cbits w d < 2 ^ 64)
    (hsh : LevelsOk s over) (h0 : 0 ≤ top) (h1 : top < 2 ^ cbits w d) {b : K} (hbox : s.box = .fin b) (hb : 0 ≤ b) {old g : List (List Nat)}
    (h : Cgraph s over top ordered sz old (.ok g)) {i j a c : Nat} (hne : a ≠ c) (ha1 : a < s.n) (hc1 : c < s.n) (ha2 : UserIdx s.perm ordered a i) (hc2 : UserIdx s.perm ordered c j)
    {σ σ' : K} (hi : sz[i]? = some (.fin σ)) (hj : sz[j]? = some (.fin σ')) (hσ : σ ≠ 0) (hσ' : σ' ≠ 0) (hh : HalfOk A σ) (hh' : HalfOk A σ')
    (hal : LevelOk over w d (sizeToLevel A (cbits w d) (.fin σ) s.box)) (hal' : LevelOk over w d (sizeToLevel A (cbits w d) (.fin σ') s.box))
    {pa pc : List K} (hpa : coordsAt d s.parts a = some (pa.map .fin)) (hpc : coordsAt d s.parts c = some (pc.map .fin))
    (htwo : TwoCells A w d top s.box (.fin σ) (pa.map .fin)) (htwo' : TwoCells A w d top s.box (.fin σ') (pc.map .fin))
    (hov : overlap A (.fin σ) (.fin σ') (pa.map .fin) (pc.map .fin) = true) : ∃ hi : i < g.length, j ∈ g[i] := by
  have ha := (userIdx_iff hr).2 ⟨ha1, ha2⟩
  have hc := (userIdx_iff hr).2 ⟨hc1, hc2⟩
  obtain ⟨g1, _, g3, _⟩ := cgraph_edges h
  have hin : i < g.length := by rw [g1]; exact (graphIdx_some ha).1
  refine ⟨hin, (cgraph_iff (rakauEnv_ok A simd mac hs) hr hz h hin j).2 ?_⟩
  have ea : aabbSize s.perm ordered sz a = some (.fin σ) := by rw [aabbSize_user ha2, hi]
  have ec : aabbSize s.perm ordered sz c = some (.fin σ') := by rw [aabbSize_user hc2, hj]
  obtain ⟨lf, ht⟩ := collTask_of_lt hs hr hz ha1
  obtain ⟨lf', ht'⟩ := collTask_of_lt hs hr hz hc1
  obtain ⟨q, hq⟩ := g3 lf a ht
  obtain ⟨q', hq'⟩ := g3 lf' c ht'
  have nz : Fl.eq (.fin σ) (.fin 0) = false := by simp [Fl.eq, hσ]
  have nz' : Fl.eq (.fin σ') (.fin 0) = false := by simp [Fl.eq, hσ']
  obtain ⟨l, l1, l2⟩ := common_leaf_any hs hr hz hsh h0 h1 ht ht' ea ec nz nz' hal hal' hpa hpc htwo htwo' hq hq' (by
    intro k k1 k2 cl ch cl' ch' c1 c2
    simp only [List.getElem_map] at c1 c2
    obtain ⟨lo, hi, e1, e2, e3, e4, e5⟩ := endCells_eq hh c1
    obtain ⟨lo', hi', f1, f2, f3, f4, f5⟩ := endCells_eq hh' c2
    have hk : k < pa.length := by simpa using k1
    have hk' : k < pc.length := by simpa using k2
    have ho := (List.all_eq_true.1 hov) (.fin pa[k], .fin pc[k]) (by
      rw [List.mem_iff_getElem]
      exact ⟨k, by simp [hk, hk'], by simp⟩)
    rw [segment_eq L hm hh, segment_eq L hm hh', e1, e2, f1, f2] at ho
    simp only [Fl.ge, Fl.le, Fl.lt, Bool.and_eq_true, Bool.not_eq_true', decide_eq_false_iff_not, not_lt] at ho
    rw [hbox] at e4 e5 f4 f5
    have mono := fun {x y : K} {v v' : Nat} (hxy : x ≤ y) => C08_clamp_monotone L (cbits_le w d) h0 h1 hb hxy (v := v) (v' := v')
    exact ⟨mono e3 e4 e5, mono f3 f4 f5, mono ho.2 e4 f5, mono ho.1 f4 e5⟩)
  exact ⟨l, a, c, l1, l2, hne, ha, hc, _, _, _, _, ea, ec, nz, nz', hpa, hpc, hov⟩

end Any
end Rakau
