import Verif.Proof.Cover
import Mathlib.Tactic.Linarith
import Mathlib.Tactic.Positivity

/-! Particles and their AABBs in the collision graph. -/
namespace Rakau
open Spec

section Any

variable {K : Type} [Field K] [LinearOrder K] [IsStrictOrderedRing K] [FloorRing K] {A : Arith K} {simd : Option (Simd K)} {mac : Mac}
  {w d : Nat} {s : TS (rakauEnv A simd mac w d)} {over : Overshift} {top : K} {ordered : Bool} {sz : List (Fl K)}

/-- The corner of an AABB selected by the bits of `i`. -/
def corner (bs : List (Fl K × Fl K)) (i : Nat) : List (Fl K) :=
  bs.zipIdx.map (fun b => if (i >>> b.2) &&& 1 = 0 then b.1.1 else b.1.2)

theorem vertexCode_cases (A : Arith K) (hs : Supported w d) (h0 : 0 ≤ top) (h1 : top < 2 ^ cbits w d) {bs : List (Fl K × Fl K)}
    (hb : bs.length = d) (inv : Fl K) (i : Nat) :
    (∃ ds v, List.Forall₂ (fun c x => discClamp A w (cbits w d) top c inv = .ok x) (corner bs i) ds ∧ (∀ x ∈ ds, x < 2 ^ cbits w d) ∧
      Interleaves (cbits w d) ds v ∧ vertexCode A w (cbits w d) top bs inv i = .ok v) ∨
    vertexCode A w (cbits w d) top bs inv i = .error .invalidArg := by
  unfold vertexCode
  have e : (bs.zipIdx.mapM (fun b => discClamp A w (cbits w d) top (if (i >>> b.2) &&& 1 = 0 then b.1.1 else b.1.2) inv)) =
      (corner bs i).mapM (fun c => discClamp A w (cbits w d) top c inv) := by
    unfold corner; rw [List.mapM_map]; rfl
  rw [e]
  have hlen : (corner bs i).length = d := by unfold corner; simp [hb]
  cases hm : (corner bs i).mapM (fun c => discClamp A w (cbits w d) top c inv) with
  | error er =>
    right
    obtain ⟨x, _, hx⟩ := mapM_error hm
    rcases discClamp_cases A (cbits_le w d) h0 h1 x inv with ⟨q, _, q2, _⟩ | ⟨_, q2⟩
    · rw [q2] at hx; simp at hx
    · rw [q2] at hx; simp only [Except.error.injEq] at hx; subst hx; rfl
  | ok ds =>
    left
    have hf := mapM_ok_iff.1 hm
    have hdl : ds.length = d := by rw [← hf.length_eq, hlen]
    have hlt : ∀ x ∈ ds, x < 2 ^ cbits w d := by
      intro x hx
      obtain ⟨j, hj, rfl⟩ := List.getElem_of_mem hx
      have hjc : j < (corner bs i).length := by omega
      have := (forall₂_getElem hf).2 j hjc hj
      rcases discClamp_cases A (cbits_le w d) h0 h1 (corner bs i)[j] inv with ⟨q, _, q2, q3⟩ | ⟨_, q2⟩
      · rw [q2, Except.ok.injEq] at this; rw [← this]; exact q3
      · rw [q2] at this; simp at this
    obtain ⟨v, hv1, hv2⟩ := mortonEncode_interleaves (w := w) (xs := ds) (by rw [hdl]; exact hs) (by rw [hdl]; exact hlt)
    rw [hdl] at hv2
    refine ⟨ds, v, hf, hlt, hv2, ?_⟩
    show ofUB (mortonEncode w ds) = _
    rw [hv1]; rfl

theorem aabbCodes_cases (A : Arith K) (hs : Supported w d) (h0 : 0 ≤ top) (h1 : top < 2 ^ cbits w d) {pos : List (Fl K)}
    (hp : pos.length = d) (size inv : Fl K) :
    (∃ bs vs, List.Forall₂ (fun x b => aabbBounds A (A.mul size (.fin (1 / 2))) x = .ok b) pos bs ∧
      aabbCodes A w d top pos size inv = .ok vs ∧ vs.length = 2 ^ d ∧ ∀ i (hi : i < vs.length), ∃ ds,
        List.Forall₂ (fun c x => discClamp A w (cbits w d) top c inv = .ok x) (corner bs i) ds ∧ (∀ x ∈ ds, x < 2 ^ cbits w d) ∧
        Interleaves (cbits w d) ds vs[i] ∧ vs[i] < 2 ^ (cbits w d * d)) ∨
    aabbCodes A w d top pos size inv = .error .invalidArg := by
  unfold aabbCodes
  cases hm : pos.mapM (aabbBounds A (A.mul size (.fin (1 / 2)))) with
  | error er =>
    right
    obtain ⟨x, _, hx⟩ := mapM_error hm
    unfold aabbBounds at hx
    dsimp only at hx
    split at hx
    · simp only [Except.error.injEq] at hx; subst hx; rfl
    · simp at hx
  | ok bs =>
    have hf := mapM_ok_iff.1 hm
    have hbl : bs.length = d := by rw [← hf.length_eq, hp]
    simp only [bind, Except.bind]
    cases hv : (List.range (2 ^ d)).mapM (vertexCode A w (cbits w d) top bs inv) with
    | error er =>
      right
      obtain ⟨i, _, hi⟩ := mapM_error hv
      rcases vertexCode_cases A hs h0 h1 hbl inv i with ⟨ds, v, _, _, _, q⟩ | q
      · rw [q] at hi; simp at hi
      · rw [q] at hi; simp only [Except.error.injEq] at hi; rw [← hi]
    | ok vs =>
      left
      have hfv := mapM_ok_iff.1 hv
      refine ⟨bs, vs, hf, rfl, by rw [← hfv.length_eq, List.length_range], ?_⟩
      intro i hi
      have := (forall₂_getElem hfv).2 i (by rw [hfv.length_eq]; exact hi) hi
      rw [List.getElem_range] at this
      rcases vertexCode_cases A hs h0 h1 hbl inv i with ⟨ds, v, q1, q2, q3, q⟩ | q
      · rw [q, Except.ok.injEq] at this
        have hdl : ds.length = d := by rw [← q1.length_eq]; unfold corner; simp [hbl]
        have hlt := q3.1
        rw [hdl] at hlt
        exact ⟨ds, q1, q2, this ▸ q3, this ▸ hlt⟩
      · rw [q] at this; simp at this

theorem same_leaf (hd : 0 < d) {lvs : List Node} (H : LeavesOk over w d lvs) {i j : Nat} (hi : i < lvs.length) (hj : j < lvs.length)
    (h : lvs[i].code = lvs[j].code) : i = j := by
  have hlev : lvs[i].level = lvs[j].level := by
    have a1 := H.lo _ (List.getElem_mem hi)
    have a2 := H.hi _ (List.getElem_mem hi)
    have b1 := H.lo _ (List.getElem_mem hj)
    have b2 := H.hi _ (List.getElem_mem hj)
    rw [h] at a1 a2
    have c1 : lvs[i].level * d < lvs[j].level * d + 1 := (Nat.pow_lt_pow_iff_right (by norm_num)).1 (lt_of_le_of_lt a1 b2)
    have c2 : lvs[j].level * d < lvs[i].level * d + 1 := (Nat.pow_lt_pow_iff_right (by norm_num)).1 (lt_of_le_of_lt b1 a2)
    exact Nat.eq_of_mul_eq_mul_right hd (by omega)
  rcases lt_trichotomy i j with hij | hij | hij
  · have := List.pairwise_iff_getElem.1 H.apart i j hi hj hij
    unfold Apart at this
    rw [h, hlev] at this
    have := Nat.le_of_mul_le_mul_right this (Nat.two_pow_pos _)
    omega
  · exact hij
  · have := List.pairwise_iff_getElem.1 H.apart j i hj hi hij
    unfold Apart at this
    rw [h, hlev] at this
    have := Nat.le_of_mul_le_mul_right this (Nat.two_pow_pos _)
    omega

/-- A leaf that has a cell in common with a leaf is that leaf. -/
theorem meets_leaf {lvs : List Node} (H : LeavesOk over w d lvs) {i j : Nat} (hi : i < lvs.length)
    (hj : j < lvs.length) {v : Nat} (hv : v / 2 ^ ((cbits w d - lvs[j].level) * d) = lvs[j].code - 2 ^ (lvs[j].level * d))
    (h : Meets d (cbits w d) lvs[i] v lvs[j].level) : i = j := by
  obtain ⟨c, _, h1, h2⟩ := h
  rw [hv] at h2
  have key : ∀ a b, ∀ (ha : a < lvs.length) (hb : b < lvs.length), a < b →
      c / 2 ^ ((cbits w d - lvs[a].level) * d) = lvs[a].code - 2 ^ (lvs[a].level * d) →
      c / 2 ^ ((cbits w d - lvs[b].level) * d) = lvs[b].code - 2 ^ (lvs[b].level * d) → False := by
    intro a b ha hb hab e1 e2
    have := List.pairwise_iff_getElem.1 H.apart a b ha hb hab
    unfold Apart at this
    have ma := List.getElem_mem ha
    have mb := List.getElem_mem hb
    rw [range_value (H.lev _ mb).le (H.lo _ mb), Nat.add_mul, one_mul, range_value (H.lev _ ma).le (H.lo _ ma), ← e1, ← e2] at this
    have p1 := Nat.lt_div_mul_add (a := c) (Nat.two_pow_pos ((cbits w d - lvs[a].level) * d))
    have p2 := Nat.div_mul_le_self c (2 ^ ((cbits w d - lvs[b].level) * d))
    omega
  rcases lt_trichotomy i j with hij | hij | hij
  · exact (key i j hi hj hij h1 h2).elim
  · exact hij
  · exact (key j i hj hi hij h2 h1).elim

/-- The ranges of all leaves are computed correctly. -/
def LevelsOk (s : TS (rakauEnv A simd mac w d)) (over : Overshift) : Prop := ∀ nd ∈ leaves s.tree, LevelOk over w d nd.level

theorem leavesOk (hs : Supported w d) (hr : Reach (rakauEnv A simd mac w d) s) (hz : s.n * cbits w d < 2 ^ 64)
    (hsh : LevelsOk s over) : LeavesOk over w d (leaves s.tree) := by
  obtain ⟨L1, L2, _⟩ := leaves_spec (rakauEnv_ok A simd mac hs) hr hz
  refine ⟨hsh, fun nd hnd => (L1 nd hnd).lo, fun nd hnd => (L1 nd hnd).hi, ?_⟩
  rw [List.pairwise_iff_getElem] at L2 ⊢
  intro i j hi hj hij
  exact leaves_apart (reach_inv hr).sorted (L1 _ (List.getElem_mem hi)) (L1 _ (List.getElem_mem hj)) (L2 i j hi hj hij)

/-- The outcomes of the first phase for one particle. -/
theorem collParticle_cases (hs : Supported w d) (hr : Reach (rakauEnv A simd mac w d) s) (hz : s.n * cbits w d < 2 ^ 64)
    (hsh : LevelsOk s over) (h0 : 0 ≤ top) (h1 : top < 2 ^ cbits w d) {lf : Node} {x : Nat} (ht : (lf, x) ∈ collTasks s.tree) {a : Fl K}
    (ha : aabbSize s.perm ordered sz x = some a) (hal : a.eq (.fin 0) = false → LevelOk over w d (sizeToLevel A (cbits w d) a s.box)) :
    ((a.isFinite = false ∨ a.lt (.fin 0) = true) ∧ collParticle s over top ordered sz lf x = .error .invalidArg) ∨
    (a.eq (.fin 0) = true ∧ collParticle s over top ordered sz lf x = .ok []) ∨
    (a.isFinite = true ∧ a.lt (.fin 0) = false ∧ a.eq (.fin 0) = false ∧ ∃ pos, coordsAt d s.parts x = some pos ∧ pos.length = d ∧
      ((aabbCodes A w d top pos a (invBox A s.box) = .error .invalidArg ∧ collParticle s over top ordered sz lf x = .error .invalidArg) ∨
       ∃ vs adds, aabbCodes A w d top pos a (invBox A s.box) = .ok vs ∧ collParticle s over top ordered sz lf x = .ok adds ∧
        ((∀ v ∈ vs, ∃ m ≤ sizeToLevel A (cbits w d) a s.box, (∃ (l : Nat) (nd : Node), (leaves s.tree)[l]? = some nd ∧ Meets d (cbits w d) nd v m) ∧
          ∀ (l : Nat) (nd : Node), (leaves s.tree)[l]? = some nd → Meets d (cbits w d) nd v m → InLeaf s over top ordered sz l x) ∨
         (∃ (l : Nat) (nd : Node), (leaves s.tree)[l]? = some nd ∧ nd.level ≤ cbits w d ∧ InLeaf s over top ordered sz l x ∧
          ∀ v ∈ vs, v / 2 ^ ((cbits w d - nd.level) * d) = nd.code - 2 ^ (nd.level * d))))) := by
  have hd := hs.dim
  obtain ⟨L1, L2, L3⟩ := leaves_spec (rakauEnv_ok A simd mac hs) hr hz
  have H := leavesOk hs hr hz hsh
  have I := reach_inv hr
  obtain ⟨t1, t2, t3⟩ := mem_collTasks.1 ht
  have LF := L1 lf t1
  have hcl : s.codes.length = s.n := (rawCodes_spec.1 I.codes).1
  have hxc : x < s.codes.length := lt_of_lt_of_le t3 LF.fin
  by_cases hbad : (!a.isFinite || a.lt (.fin 0)) = true
  · left
    refine ⟨by simpa using hbad, ?_⟩
    unfold collParticle
    simp only [ha, ofUB, bind, Except.bind, if_pos hbad]
  · right
    by_cases hzero : a.eq (.fin 0) = true
    · left
      refine ⟨hzero, ?_⟩
      unfold collParticle
      simp only [ha, ofUB, bind, Except.bind, if_neg hbad, if_pos hzero]
    · right
      have hzero' : a.eq (.fin 0) = false := by simpa using hzero
      have hbad' : a.isFinite = true ∧ a.lt (.fin 0) = false := by simpa using hbad
      obtain ⟨c, hc1, hc2⟩ := reach_coords hs hr (show x < s.n by omega)
      refine ⟨hbad'.1, hbad'.2, hzero', _, hc2, by simpa using hc1, ?_⟩
      have hcp : collParticle s over top ordered sz lf x = (do
          let vs ← aabbCodes A w d top (c.map .fin) a (invBox A s.box)
          let pcode ← ofUB s.codes[x]?
          let st ← ofUB (straddles w d lf.level pcode vs)
          if !st then .ok [] else
          let cs ← ofUB (vs.mapM (fun v => coverLoop over w d (leaves s.tree) lf v (sizeToLevel A (cbits w d) a s.box)))
          .ok (cs.flatMap (coverAdds (leaves s.tree) lf))) := by
        unfold collParticle
        simp only [ha, ofUB, bind, Except.bind, if_neg hbad, if_neg hzero, hc2]
      rw [hcp]
      rcases aabbCodes_cases A hs h0 h1 (pos := c.map .fin) (by simpa using hc1) a (invBox A s.box) with ⟨bs, vs, q1, q2, q3, q4⟩ | q
      · right
        rw [q2]
        simp only [bind, Except.bind]
        have hvlt : ∀ v ∈ vs, v < 2 ^ (cbits w d * d) := by
          intro v hv
          obtain ⟨i, hi, rfl⟩ := List.getElem_of_mem hv
          obtain ⟨_, _, _, _, q⟩ := q4 i hi
          exact q
        rw [List.getElem?_eq_getElem hxc]
        simp only [ofUB]
        obtain ⟨l0, hl0, el0⟩ := List.getElem_of_mem t1
        have hin0 : InLeaf s over top ordered sz l0 x := ⟨lf, by rw [List.getElem?_eq_getElem hl0, el0], .inl ⟨t2, t3⟩⟩
        obtain ⟨e1, e2⟩ := (shiftAmount hd.1 hd.2.1 hd.2.2 (le_refl (cbits w d)) LF.lev).1 LF.lev
        have hst : straddles w d lf.level s.codes[x] vs =
            some (vs.any (fun v => v / 2 ^ ((cbits w d - lf.level) * d) != lf.code - 2 ^ (lf.level * d))) := by
          unfold straddles
          have e3 : mulSz (subW (rakauEnv A simd mac w d).w (cbits (rakauEnv A simd mac w d).w (rakauEnv A simd mac w d).d) lf.level)
            (rakauEnv A simd mac w d).d = (cbits w d - lf.level) * d := e1
          rw [e1]
          have hm : vs.mapM (fun v => shr w v ((cbits w d - lf.level) * d)) = some (vs.map (fun v => v / 2 ^ ((cbits w d - lf.level) * d))) := by
            rw [mapM_some_iff]
            apply forall₂_of_getElem (by simp)
            intro i h1 h2
            rw [List.getElem_map]
            simp only [shr, if_pos e2, Nat.shiftRight_eq_div_pow]
          simp only [shr, if_pos e2] at hm ⊢
          simp only [bind, Option.bind]
          rw [hm]
          dsimp only
          rw [Nat.shiftRight_eq_div_pow, (LF.mem x hxc).1 ⟨t2, t3⟩, List.any_map]
          rfl
        rw [hst]
        dsimp only
        by_cases hstr : vs.any (fun v => v / 2 ^ ((cbits w d - lf.level) * d) != lf.code - 2 ^ (lf.level * d)) = true
        · rw [hstr]
          simp only [Bool.not_true, Bool.false_eq_true, if_false]
          have hal' := hal hzero'
          have hloop : ∀ v ∈ vs, _ := fun v hv => coverLoop_spec (over := over) hd.1 hd.2.1 hd.2.2 H (List.ne_nil_of_mem t1) t1 (hvlt v hv) _ hal'
          obtain ⟨cs, hcs⟩ : ∃ cs, vs.mapM (fun v => coverLoop over w d (leaves s.tree) lf v (sizeToLevel A (cbits w d) a s.box)) = some cs :=
            mapM_some_of (fun v hv => by obtain ⟨r, hr, _⟩ := hloop v hv; exact ⟨r, hr⟩)
          rw [hcs]
          refine ⟨vs, cs.flatMap (coverAdds (leaves s.tree) lf), rfl, rfl, .inl ?_⟩
          have hres : collParticle s over top ordered sz lf x = .ok (cs.flatMap (coverAdds (leaves s.tree) lf)) := by
            rw [hcp, q2]
            simp only [bind, Except.bind]
            rw [List.getElem?_eq_getElem hxc]
            simp only [ofUB]
            rw [hst]
            dsimp only
            rw [hstr, hcs]
            rfl
          intro v hv
          obtain ⟨i, hi, rfl⟩ := List.getElem_of_mem hv
          have hfc := forall₂_getElem (mapM_some_iff.1 hcs)
          have hi' : i < cs.length := by rw [← hfc.1]; exact hi
          have hci := hfc.2 i hi hi'
          obtain ⟨r, hr1, hr2⟩ := hloop _ hv
          rw [hci, Option.some.injEq] at hr1
          rcases hr2 with ⟨_, k2, k3⟩ | ⟨b, e, m, k1, k2, k3, k4, k5⟩
          · refine ⟨lf.level, k2, ⟨l0, lf, by rw [List.getElem?_eq_getElem hl0, el0], vs[i], hvlt _ hv, k3, rfl⟩, ?_⟩
            intro l nd hl hm
            obtain ⟨hll, el⟩ := List.getElem?_eq_some_iff.1 hl
            have : l = l0 := by
              refine meets_leaf H hll hl0 (v := vs[i]) (by rw [el0]; exact k3) ?_
              rw [el, el0]; exact hm
            rw [this]; exact hin0
          · refine ⟨m, k2, ⟨b, (leaves s.tree)[b], List.getElem?_eq_getElem (by omega), (k5 b (by omega)).1 ⟨le_refl _, k3⟩⟩, ?_⟩
            intro l nd hl hm
            obtain ⟨hll, el⟩ := List.getElem?_eq_some_iff.1 hl
            by_cases hcode : nd.code = lf.code
            · have : l = l0 := same_leaf hd.1 H hll hl0 (by rw [el, el0]; exact hcode)
              rw [this]; exact hin0
            · refine ⟨nd, hl, .inr ⟨lf, _, ht, hres, ?_⟩⟩
              rw [List.mem_flatMap]
              refine ⟨cs[i], List.getElem_mem _, ?_⟩
              rw [hr1, k1]
              have hbe := (k5 l hll).2 (by rw [el]; exact hm)
              simp only [coverAdds, List.mem_filter, List.mem_range'_1]
              refine ⟨⟨hbe.1, by omega⟩, ?_⟩
              rw [hl]
              simpa using hcode
        · have hstr' : vs.any (fun v => v / 2 ^ ((cbits w d - lf.level) * d) != lf.code - 2 ^ (lf.level * d)) = false := by simpa using hstr
          rw [hstr']
          refine ⟨vs, [], rfl, rfl, .inr ⟨l0, lf, by rw [List.getElem?_eq_getElem hl0, el0], LF.lev, hin0, ?_⟩⟩
          intro v hv
          rw [List.any_eq_false] at hstr'
          simpa using hstr' v hv
      · left
        exact ⟨q, by rw [q]; rfl⟩

end Any

/-! ### Exact arithmetic -/

section Exact

variable {K : Type} [Field K] [LinearOrder K] [IsStrictOrderedRing K] [FloorRing K] {A : Arith K} (hA : A.Exact)

/-- The clamped cell index of a coordinate. -/
def cell (cb : Nat) (top b x : K) : Nat := ⌊max 0 (min ((x / b + 1 / 2) * 2 ^ cb) top)⌋.toNat

theorem cell_mono {cb : Nat} {top b x y : K} (hb : 0 < b) (h : x ≤ y) : cell cb top b x ≤ cell cb top b y := by
  unfold cell
  apply Int.toNat_le_toNat
  apply Int.floor_le_floor
  have : (x / b + 1 / 2) * 2 ^ cb ≤ (y / b + 1 / 2) * 2 ^ cb := by
    apply mul_le_mul_of_nonneg_right _ (by positivity)
    have := div_le_div_of_nonneg_right h hb.le
    linarith
  exact max_le_max (le_refl _) (min_le_min this (le_refl _))

/-- Coordinates closer than the size of `2^s` cells are in the same or in neighbouring groups of `2^s` cells. -/
theorem cell_near {cb s : Nat} {top b x y : K} (hb : 0 < b) (hs : s ≤ cb) (h : y - x < b / 2 ^ (cb - s)) :
    cell cb top b y / 2 ^ s ≤ cell cb top b x / 2 ^ s + 1 := by
  have e : (2 : K) ^ cb = 2 ^ (cb - s) * 2 ^ s := by rw [← pow_add, Nat.sub_add_cancel hs]
  have hlt : (y / b + 1 / 2) * 2 ^ cb < (x / b + 1 / 2) * 2 ^ cb + 2 ^ s := by
    have h1 : (y - x) / b * 2 ^ cb < 2 ^ s := by
      rw [e, ← mul_assoc]
      have h2 : (y - x) / b * 2 ^ (cb - s) < 1 := by
        rw [div_mul_eq_mul_div, div_lt_one hb]
        rwa [lt_div_iff₀ (by positivity)] at h
      have h3 : (0 : K) < 2 ^ s := by positivity
      nlinarith
    have h2 : (y / b + 1 / 2) * 2 ^ cb - (x / b + 1 / 2) * 2 ^ cb = (y - x) / b * 2 ^ cb := by rw [sub_div]; ring
    linarith
  have hp : (0 : K) < 2 ^ s := by positivity
  have hcl : max 0 (min ((y / b + 1 / 2) * 2 ^ cb) top) ≤ max 0 (min ((x / b + 1 / 2) * 2 ^ cb) top) + 2 ^ s := by
    apply max_le
    · have := le_max_left (0 : K) (min ((x / b + 1 / 2) * 2 ^ cb) top); linarith
    · rcases le_total ((x / b + 1 / 2) * 2 ^ cb) top with h' | h'
      · have h1 := le_max_right (0 : K) (min ((x / b + 1 / 2) * 2 ^ cb) top)
        rw [min_eq_left h'] at h1 ⊢
        have h2 := min_le_left ((y / b + 1 / 2) * 2 ^ cb) top
        linarith
      · have h1 := le_max_right (0 : K) (min ((x / b + 1 / 2) * 2 ^ cb) top)
        rw [min_eq_right h'] at h1 ⊢
        have h2 := min_le_right ((y / b + 1 / 2) * 2 ^ cb) top
        linarith
  have hc : cell cb top b y ≤ cell cb top b x + 2 ^ s := by
    unfold cell
    have h1 : ⌊max 0 (min ((y / b + 1 / 2) * 2 ^ cb) top)⌋ ≤ ⌊max 0 (min ((x / b + 1 / 2) * 2 ^ cb) top)⌋ + ((2 ^ s : Nat) : Int) := by
      rw [← Int.floor_add_natCast]
      apply Int.floor_le_floor
      push_cast
      exact hcl
    have hpos := Nat.two_pow_pos s
    generalize 2 ^ s = t at h1 hpos ⊢
    have h2 : (0 : Int) ≤ ⌊max 0 (min ((x / b + 1 / 2) * 2 ^ cb) top)⌋ := Int.floor_nonneg.2 (le_max_left _ _)
    omega
  calc cell cb top b y / 2 ^ s ≤ (cell cb top b x + 2 ^ s) / 2 ^ s := Nat.div_le_div_right hc
    _ = cell cb top b x / 2 ^ s + 1 := Nat.add_div_right _ (Nat.two_pow_pos s)

include hA in
theorem ex_discClamp {w cb : Nat} (hcb : cb ≤ w) {top : K} (h0 : 0 ≤ top) (h1 : top < 2 ^ cb) {b x : K} (hb : 0 < b) :
    discClamp A w cb top (.fin x) (invBox A (.fin b)) = .ok (cell cb top b x) ∧ cell cb top b x < 2 ^ cb := by
  rcases discClamp_cases A hcb h0 h1 (.fin x) (invBox A (.fin b)) with ⟨q, e1, e2, e3⟩ | ⟨e1, _⟩
  · rw [ex_discScaled hA hb.ne', Fl.fin.injEq] at e1
    subst e1
    exact ⟨e2, e3⟩
  · rw [ex_discScaled hA hb.ne'] at e1; simp [Fl.isFinite] at e1

omit [IsStrictOrderedRing K] [FloorRing K] in
theorem sizeLoop_le (A : Arith K) (a : Fl K) : ∀ (fuel : Nat) (cur : Fl K), sizeLoop A a fuel cur ≤ fuel := by
  intro fuel
  induction fuel with
  | zero => intro _; simp [sizeLoop]
  | succ fuel ih =>
    intro cur
    rw [sizeLoop]
    split
    · omega
    · have := ih (A.mul cur (.fin (1 / 2))); omega

/-- The size of a node at the computed level exceeds the AABB, unless it is the root. -/
theorem ex_sizeLoop {A : Arith K} (hA : A.Exact) {σ : K} : ∀ (fuel : Nat) (cur : K),
    sizeLoop A (.fin σ) fuel (.fin cur) ≤ fuel ∧
    (sizeLoop A (.fin σ) fuel (.fin cur) = 0 ∨ σ < cur / 2 ^ sizeLoop A (.fin σ) fuel (.fin cur)) ∧
    (cur / 2 ^ fuel ≤ σ → 0 < fuel → sizeLoop A (.fin σ) fuel (.fin cur) < fuel) := by
  intro fuel
  induction fuel with
  | zero => intro cur; simp [sizeLoop]
  | succ fuel ih =>
    intro cur
    simp only [sizeLoop, ex_mul hA]
    by_cases hle : Fl.le (.fin (cur * (1 / 2))) (.fin σ) = true
    · rw [if_pos hle]; simp
    · rw [if_neg hle]
      have hlt : σ < cur * (1 / 2) := by simpa using hle
      obtain ⟨i1, i2, i3⟩ := ih (cur * (1 / 2))
      have e : ∀ k : Nat, cur * (1 / 2) / 2 ^ k = cur / 2 ^ (k + 1) := by
        intro k; rw [pow_succ]; field_simp
      refine ⟨by omega, .inr ?_, ?_⟩
      · rcases i2 with i2 | i2
        · rw [i2]; rw [zero_add, pow_one]; linarith
        · rw [← e]; exact i2
      · intro h _
        rw [← e] at h
        by_cases hf : fuel = 0
        · subst hf
          rw [pow_zero, div_one] at h; linarith
        · have := i3 h (by omega); omega

omit [Field K] [LinearOrder K] [IsStrictOrderedRing K] [FloorRing K] in
theorem corner_get {bs : List (Fl K × Fl K)} {i j : Nat} (hj : j < bs.length) (hj' : j < (corner bs i).length) :
    (corner bs i)[j] = if i.testBit j then bs[j].2 else bs[j].1 := by
  have e : (corner bs i)[j] = if (i >>> j) &&& 1 = 0 then bs[j].1 else bs[j].2 := by
    simp [corner]
  rw [e]
  simp only [Nat.testBit, bne_iff_ne]
  by_cases h : (i >>> j) &&& 1 = 0
  · rw [if_pos h, if_neg (by rw [Nat.and_comm, h]; simp)]
  · rw [if_neg h, if_pos (by rw [Nat.and_comm]; exact h)]

include hA in
/-- The cells of the vertices of an AABB, and of the points inside. -/
theorem vertices_cover {w d : Nat} (hs : Supported w d) {top : K} (h0 : 0 ≤ top) (h1 : top < 2 ^ cbits w d) {b : K} (hb : 0 < b)
    {c : List K} (hc : c.length = d) {σ : K} (hσ : 0 < σ) :
    ∃ vs, aabbCodes A w d top (c.map .fin) (.fin σ) (invBox A (.fin b)) = .ok vs ∧
      ∀ z : List K, z.length = d → (∀ j (h : j < c.length) (h' : j < z.length), c[j] - σ / 2 ≤ z[j] ∧ z[j] ≤ c[j] + σ / 2) →
        ∃ Z < 2 ^ (cbits w d * d), Interleaves (cbits w d) (z.map (cell (cbits w d) top b)) Z ∧
          (∀ l ≤ cbits w d, l = 0 ∨ σ < b / 2 ^ l → ∃ v ∈ vs, Z / 2 ^ ((cbits w d - l) * d) = v / 2 ^ ((cbits w d - l) * d)) ∧
          (∀ l ≤ cbits w d, ∀ q, (∀ v ∈ vs, v / 2 ^ ((cbits w d - l) * d) = q) → Z / 2 ^ ((cbits w d - l) * d) = q) := by
  have hd := hs.dim
  have hcell : ∀ x, discClamp A w (cbits w d) top (.fin x) (invBox A (.fin b)) = .ok (cell (cbits w d) top b x) ∧
      cell (cbits w d) top b x < 2 ^ cbits w d := fun x => ex_discClamp hA (cbits_le w d) h0 h1 hb
  have hhalf : A.mul (.fin σ) (.fin (1 / 2)) = .fin (σ / 2) := by rw [ex_mul hA]; congr 1; ring
  have hbounds : ∀ x : K, aabbBounds A (.fin (σ / 2)) (.fin x) = .ok (.fin (x - σ / 2), .fin (x + σ / 2)) := by
    intro x
    unfold aabbBounds
    rw [ex_sub hA, ex_add hA]
    simp only [Fl.isFinite, Fl.gt, Fl.lt_fin, Bool.not_true, Bool.false_or]
    rw [if_neg (by simp; linarith)]
  have hbm : (c.map Fl.fin).mapM (aabbBounds A (.fin (σ / 2))) = .ok (c.map (fun x => (Fl.fin (x - σ / 2), Fl.fin (x + σ / 2)))) := by
    rw [mapM_ok_iff]
    apply forall₂_of_getElem (by simp)
    intro i h1 h2
    rw [List.getElem_map, List.getElem_map]
    exact hbounds _
  set bs : List (Fl K × Fl K) := c.map (fun x => (Fl.fin (x - σ / 2), Fl.fin (x + σ / 2))) with hbs
  have hbl : bs.length = d := by simp [hbs, hc]
  rcases aabbCodes_cases A hs h0 h1 (pos := c.map .fin) (by simpa using hc) (.fin σ) (invBox A (.fin b)) with ⟨bs', vs, q1, q2, q3, q4⟩ | q
  · have ebs : bs' = bs := by
      have := mapM_ok_iff.2 q1
      rw [hhalf, hbm, Except.ok.injEq] at this
      exact this.symm
    subst ebs
    -- the cell of coordinate j of vertex i
    have hvert : ∀ i (hi : i < vs.length), ∃ ds : List Nat, ds.length = d ∧ (∀ x ∈ ds, x < 2 ^ cbits w d) ∧
        Interleaves (cbits w d) ds vs[i] ∧ ∀ j (hj : j < ds.length) (hj' : j < c.length),
          ds[j] = cell (cbits w d) top b (if i.testBit j then c[j] + σ / 2 else c[j] - σ / 2) := by
      intro i hi
      obtain ⟨ds, r1, r2, r3, _⟩ := q4 i hi
      have hcl : (corner bs i).length = d := by unfold corner; simp [hbl]
      have hdl : ds.length = d := by rw [← r1.length_eq, hcl]
      refine ⟨ds, hdl, r2, r3, ?_⟩
      intro j hj hj'
      have := (forall₂_getElem r1).2 j (by omega) hj
      rw [corner_get (by omega)] at this
      simp only [hbs, List.getElem_map] at this
      split at this <;> rename_i hbit
      · rw [(hcell _).1, Except.ok.injEq] at this; rw [← this, if_pos hbit]
      · rw [(hcell _).1, Except.ok.injEq] at this; rw [← this, if_neg hbit]
    refine ⟨vs, q2, ?_⟩
    intro z hz hin
    have hzl : (z.map (cell (cbits w d) top b)).length = d := by simp [hz]
    have hzlt : ∀ x ∈ z.map (cell (cbits w d) top b), x < 2 ^ cbits w d := by
      intro x hx
      obtain ⟨y, _, rfl⟩ := List.mem_map.1 hx
      exact (hcell y).2
    obtain ⟨Z, _, hZ⟩ := mortonEncode_interleaves (w := w) (xs := z.map (cell (cbits w d) top b)) (by rw [hzl]; exact hs)
      (by rw [hzl]; exact hzlt)
    rw [hzl] at hZ
    have hZlt := hZ.1
    rw [hzl] at hZlt
    refine ⟨Z, hZlt, hZ, ?_, ?_⟩
    · intro l hl hsz
      have hchoice : ∀ j (hj : j < c.length) (hj' : j < z.length),
          cell (cbits w d) top b z[j] / 2 ^ (cbits w d - l) = cell (cbits w d) top b (c[j] - σ / 2) / 2 ^ (cbits w d - l) ∨
          cell (cbits w d) top b z[j] / 2 ^ (cbits w d - l) = cell (cbits w d) top b (c[j] + σ / 2) / 2 ^ (cbits w d - l) := by
        intro j hj hj'
        obtain ⟨i1, i2⟩ := hin j hj hj'
        have m1 := Nat.div_le_div_right (c := 2 ^ (cbits w d - l)) (cell_mono (cb := cbits w d) (top := top) hb i1)
        have m2 := Nat.div_le_div_right (c := 2 ^ (cbits w d - l)) (cell_mono (cb := cbits w d) (top := top) hb i2)
        rcases hsz with rfl | hsz
        · rw [Nat.sub_zero, Nat.div_eq_of_lt (hcell _).2, Nat.div_eq_of_lt (hcell _).2]; exact .inl rfl
        · have := cell_near (cb := cbits w d) (s := cbits w d - l) (top := top) (x := c[j] - σ / 2) (y := c[j] + σ / 2) hb (by omega)
            (by rw [Nat.sub_sub_self hl]; linarith)
          omega
      let f : Fin d → Bool := fun j => decide (cell (cbits w d) top b (z.getD j 0) / 2 ^ (cbits w d - l) ≠
        cell (cbits w d) top b (c.getD j 0 - σ / 2) / 2 ^ (cbits w d - l))
      have hi : Nat.ofBits f < vs.length := by rw [q3]; exact Nat.ofBits_lt_two_pow f
      obtain ⟨ds, d1, d2, d3, d4⟩ := hvert _ hi
      refine ⟨vs[Nat.ofBits f], List.getElem_mem _, ?_⟩
      have := (interleaves_prefix (L := l) (by rw [hzl, d1]) (by rw [hzl]; exact hd.1) hl hzlt d2 hZ d3).2 ?_
      · rw [hzl, Nat.shiftRight_eq_div_pow, Nat.shiftRight_eq_div_pow] at this; exact this
      · apply List.ext_getElem (by simp [hz, d1])
        intro j hj1 hj2
        have hjd : j < d := by simpa [hz] using hj1
        simp only [List.getElem_map, Nat.shiftRight_eq_div_pow]
        rw [d4 j (by omega) (by omega)]
        have hbit : (Nat.ofBits f).testBit j = f ⟨j, hjd⟩ := Nat.testBit_ofBits_lt f j hjd
        have ez : z.getD j 0 = z[j] := by simp [List.getD, List.getElem?_eq_getElem (show j < z.length by omega)]
        have ec : c.getD j 0 = c[j] := by simp [List.getD, List.getElem?_eq_getElem (show j < c.length by omega)]
        have hf : f ⟨j, hjd⟩ = decide (cell (cbits w d) top b z[j] / 2 ^ (cbits w d - l) ≠
            cell (cbits w d) top b (c[j] - σ / 2) / 2 ^ (cbits w d - l)) := by
          rw [← ez, ← ec]
        rw [hf] at hbit
        by_cases he : cell (cbits w d) top b z[j] / 2 ^ (cbits w d - l) = cell (cbits w d) top b (c[j] - σ / 2) / 2 ^ (cbits w d - l)
        · rw [if_neg (by rw [hbit]; simpa using he)]; exact he
        · rw [if_pos (by rw [hbit]; simpa using he)]
          exact (hchoice j (by omega) (by omega)).resolve_left he
    · intro l hl q hall
      have hp : 0 < vs.length := by rw [q3]; exact Nat.two_pow_pos d
      have hp' : 2 ^ d - 1 < vs.length := by rw [q3]; have := Nat.two_pow_pos d; omega
      obtain ⟨ds, d1, d2, d3, d4⟩ := hvert 0 hp
      obtain ⟨es, e1, e2, e3, e4⟩ := hvert (2 ^ d - 1) hp'
      have hv0 := hall _ (List.getElem_mem hp)
      have hv1 := hall _ (List.getElem_mem hp')
      have hpre := (interleaves_prefix (L := l) (xs := ds) (ys := es) (by rw [d1, e1]) (by rw [d1]; exact hd.1) hl d2 e2 d3 e3).1
        (by rw [d1, Nat.shiftRight_eq_div_pow, Nat.shiftRight_eq_div_pow, hv0, hv1])
      have := (interleaves_prefix (L := l) (xs := z.map (cell (cbits w d) top b)) (ys := ds) (by rw [hzl, d1]) (by rw [hzl]; exact hd.1)
        hl hzlt d2 hZ d3).2 ?_
      · rw [hzl, Nat.shiftRight_eq_div_pow, Nat.shiftRight_eq_div_pow] at this; rw [this, hv0]
      · apply List.ext_getElem (by simp [hz, d1])
        intro j hj1 hj2
        have hjd : j < d := by simpa [hz] using hj1
        have hg : (ds.map (· >>> (cbits w d - l)))[j]'(by simp; omega) = (es.map (· >>> (cbits w d - l)))[j]'(by simp; omega) := by
          congr 1
        simp only [List.getElem_map, Nat.shiftRight_eq_div_pow] at hg ⊢
        have hdj := d4 j (by omega) (by omega)
        have hej := e4 j (by omega) (by omega)
        rw [Nat.zero_testBit, if_neg (by simp)] at hdj
        rw [Nat.testBit_two_pow_sub_one, if_pos (by simpa using hjd)] at hej
        obtain ⟨i1, i2⟩ := hin j (by omega) (by omega)
        have m1 := Nat.div_le_div_right (c := 2 ^ (cbits w d - l)) (cell_mono (cb := cbits w d) (top := top) hb i1)
        have m2 := Nat.div_le_div_right (c := 2 ^ (cbits w d - l)) (cell_mono (cb := cbits w d) (top := top) hb i2)
        rw [hdj, hej] at hg
        rw [hdj]
        omega
  · exfalso
    unfold aabbCodes at q
    rw [hhalf, hbm] at q
    simp only [bind, Except.bind] at q
    obtain ⟨i, _, hi⟩ := mapM_error q
    unfold vertexCode at hi
    have e : (bs.zipIdx.mapM (fun p => discClamp A w (cbits w d) top (if (i >>> p.2) &&& 1 = 0 then p.1.1 else p.1.2) (invBox A (.fin b)))) =
        (corner bs i).mapM (fun c => discClamp A w (cbits w d) top c (invBox A (.fin b))) := by
      unfold corner; rw [List.mapM_map]; rfl
    rw [e] at hi
    have hfin : ∀ x ∈ corner bs i, ∃ y, x = .fin y := by
      intro x hx
      obtain ⟨j, hj, rfl⟩ := List.getElem_of_mem hx
      have hjb : j < bs.length := by unfold corner at hj; simpa using hj
      rw [corner_get hjb]
      simp only [hbs, List.getElem_map]
      split
      · exact ⟨_, rfl⟩
      · exact ⟨_, rfl⟩
    rcases vertexCode_cases A hs h0 h1 hbl (invBox A (.fin b)) i with ⟨ds, v, _, _, _, r⟩ | r
    · unfold vertexCode at r
      rw [e] at r
      rw [r] at hi
      simp at hi
    · cases hm : (corner bs i).mapM (fun c => discClamp A w (cbits w d) top c (invBox A (.fin b))) with
      | error er =>
        obtain ⟨x, hx, hxe⟩ := mapM_error hm
        obtain ⟨y, rfl⟩ := hfin x hx
        rw [(hcell y).1] at hxe
        simp at hxe
      | ok ds =>
        have hf := mapM_ok_iff.1 hm
        have hdl : ds.length = d := by rw [← hf.length_eq]; unfold corner; simp [hbl]
        have hlt : ∀ x ∈ ds, x < 2 ^ cbits w d := by
          intro x hx
          obtain ⟨j, hj, rfl⟩ := List.getElem_of_mem hx
          have hjc : j < (corner bs i).length := by rw [hf.length_eq]; exact hj
          have := (forall₂_getElem hf).2 j hjc hj
          obtain ⟨y, hy⟩ := hfin _ (List.getElem_mem hjc)
          rw [hy, (hcell y).1, Except.ok.injEq] at this
          rw [← this]; exact (hcell y).2
        obtain ⟨v, hv1, _⟩ := mortonEncode_interleaves (w := w) (xs := ds) (by rw [hdl]; exact hs) (by rw [hdl]; exact hlt)
        rw [hm] at hi
        simp only [bind, Except.bind] at hi
        rw [hv1] at hi
        simp [ofUB] at hi

end Exact

end Rakau
