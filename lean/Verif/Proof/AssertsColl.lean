import Verif.Proof.AssertsState
import Verif.Props.Coll

/-! The collision graph in a debug build. -/
set_option linter.unusedSectionVars false

namespace Rakau
open Spec

section Codes

theorem rangeChk_ok {w d code level : Nat} (hd : 0 < d) (hw : d < w) (hl : level ≤ cbits w d) (h1 : 2 ^ (level * d) ≤ code)
    (h2 : code < 2 ^ (level * d + 1)) : rangeChk w d code level = .ok () := by
  obtain ⟨p, rfl, hp, rfl⟩ := exists_path d level code h1 h2
  unfold rangeChk
  rw [treeLevelD_code hd hw hp hl, bind_ok', chk_true (by simp), bind_ok', chk_true (decide_eq_true hl)]

theorem enclosing_eq {w d v al : Nat} (hd : 0 < d) (hw : d < w) (hw64 : w ≤ 64) (hal : al ≤ cbits w d) (hv : v < 2 ^ (cbits w d * d)) :
    ∃ sc, enclosing w d v al = some sc ∧ 2 ^ (al * d) ≤ sc ∧ sc < 2 ^ (al * d + 1) := by
  have hq : v / 2 ^ ((cbits w d - al) * d) < 2 ^ (al * d) := by
    rw [Nat.div_lt_iff_lt_mul (Nat.two_pow_pos _), ← pow_add, ← Nat.add_mul, Nat.add_sub_cancel' hal]; exact hv
  have hcw := cbits_mul_lt hd hw
  have hald : al * d ≤ cbits w d * d := Nat.mul_le_mul_right _ hal
  have hal64 : mulSz al d = al * d := by
    unfold mulSz
    exact Nat.mod_eq_of_lt (lt_of_lt_of_le (show al * d < 64 by omega) (by norm_num))
  obtain ⟨e1, e2⟩ := (shiftAmount hd hw hw64 (le_refl (cbits w d)) hal).1 hal
  have hp : 2 ^ (al * d + 1) ≤ 2 ^ w := Nat.pow_le_pow_right (by norm_num) (by omega)
  rw [pow_succ] at hp
  have := Nat.two_pow_pos (al * d)
  refine ⟨v / 2 ^ ((cbits w d - al) * d) + 2 ^ (al * d), ?_, Nat.le_add_left _ _, by rw [pow_succ]; omega⟩
  unfold enclosing
  rw [e1, hal64]
  simp only [shr, if_pos e2, shl, if_pos (show al * d < w by omega), bind, Option.bind]
  rw [Nat.shiftLeft_eq, one_mul, Nat.mod_eq_of_lt (show 2 ^ (al * d) < 2 ^ w by omega), Nat.shiftRight_eq_div_pow,
    Nat.mod_eq_of_lt (by omega)]

/-- The loop over the levels ends at the latest at level zero, or its behaviour is undefined. -/
def EndsAtRoot (over : Overshift) (w d : Nat) (lvs : List Node) (lf : Node) (v : Nat) : Prop := coverStep over w d lvs lf v 0 ≠ some none

theorem ofUB_bind {α β : Type} (a : Option α) (f : α → Option β) : ofUB (a.bind f) = (ofUB a >>= fun x => ofUB (f x)) := by
  cases a <;> rfl

theorem coverStepD_eq {over : Overshift} {w d : Nat} (hd : 0 < d) (hw : d < w) (hw64 : w ≤ 64) {lvs : List Node} {lf : Node} {v al : Nat}
    (hl : ∀ nd ∈ lvs, rangeChk w d nd.code nd.level = .ok ()) (hal : al ≤ cbits w d) (hv : v < 2 ^ (cbits w d * d))
    (hend : EndsAtRoot over w d lvs lf v) : coverStepD over w d lvs lf v al = dbg (ofUB (coverStep over w d lvs lf v al)) := by
  obtain ⟨sc, hsc, h1, h2⟩ := enclosing_eq hd hw hw64 hal hv
  have hend' : al = 0 → coverStep over w d lvs lf v al ≠ some none := fun e => e ▸ hend
  unfold coverStepD
  unfold coverStep at hend' ⊢
  rw [hsc] at hend' ⊢
  rw [show (ofUB (some sc) : Except Err Nat) = .ok sc from rfl, dbg_ok, bind_ok']
  simp only [bind, Option.bind] at hend' ⊢
  cases hf : fitsLeaf w d sc al lf with
  | none => rfl
  | some f =>
    rw [hf] at hend'
    cases f with
    | true => rfl
    | false =>
      simp only [Bool.false_eq_true, if_false] at hend'
      simp only [ofUB, dbg_ok, Except.bind, Bool.false_eq_true, if_false]
      rw [rangeChk_ok hd hw hal h1 h2]
      dsimp only
      cases hr : nodeRange over w d sc al with
      | none => rfl
      | some rng =>
        rw [hr] at hend'
        simp only [dbg_ok]
        unfold searchLeavesD
        rw [forM_ok hl, bind_ok']
        cases hsl : searchLeaves over w d lvs rng with
        | none => rfl
        | some be =>
          simp only [hsl] at hend'
          simp only [ofUB, dbg_ok]
          by_cases hbe : be.1 ≠ be.2
          · simp only [if_pos hbe]
          · simp only [if_neg hbe]
            have h0 : 0 < al := by
              rcases Nat.eq_zero_or_pos al with h0 | h0
              · exact (hend' h0 (by simp only [if_neg hbe])).elim
              · exact h0
            rw [chk_true (decide_eq_true h0)]

theorem coverLoopD_eq {over : Overshift} {w d : Nat} (hd : 0 < d) (hw : d < w) (hw64 : w ≤ 64) {lvs : List Node} {lf : Node} {v : Nat}
    (hl : ∀ nd ∈ lvs, rangeChk w d nd.code nd.level = .ok ()) (hv : v < 2 ^ (cbits w d * d)) (hend : EndsAtRoot over w d lvs lf v) :
    ∀ al ≤ cbits w d, coverLoopD over w d lvs lf v al = dbg (ofUB (coverLoop over w d lvs lf v al)) := by
  intro al
  induction al with
  | zero =>
    intro hal
    unfold coverLoopD coverLoop
    rw [coverStepD_eq hd hw hw64 hl hal hv hend, ofUB_bind, dbg_bind]
    congr 1
    funext r
    cases r <;> rfl
  | succ al ih =>
    intro hal
    unfold coverLoopD coverLoop
    rw [coverStepD_eq hd hw hw64 hl hal hv hend, ofUB_bind, dbg_bind]
    congr 1
    funext r
    cases r with
    | none => exact ih (by omega)
    | some x => rfl

theorem graphLower_spec {l : List Nat} (h : l.Pairwise (· < ·)) {x : Nat} (hx : x ∈ l) : l[graphLower l x]? = some x := by
  unfold graphLower
  induction l with
  | nil => simp at hx
  | cons a l ih =>
    rw [List.pairwise_cons] at h
    by_cases ha : a < x
    · rw [List.takeWhile_cons_of_pos (by simpa using ha), List.length_cons, List.getElem?_cons_succ]
      refine ih h.2 ?_
      rcases List.mem_cons.1 hx with e | e
      · omega
      · exact e
    · rw [List.takeWhile_cons_of_neg (by simpa using ha)]
      rcases List.mem_cons.1 hx with e | e
      · simp [e]
      · exact (ha (h.1 x e)).elim

theorem uniq_length {l : List Nat} (h : l.Pairwise (· < ·)) : uniq l = l := by
  induction l with
  | nil => rfl
  | cons a l ih =>
    cases l with
    | nil => rfl
    | cons b l =>
      rw [List.pairwise_cons] at h
      have := h.1 b (by simp)
      unfold uniq
      rw [if_neg (by omega), ih h.2]

/-- The check of a graph that has the right structure. -/
theorem graphChk_ok {g : List (List Nat)} (h : ∀ i (hi : i < g.length), g[i].Pairwise (· < ·) ∧ ∀ j ∈ g[i], ∃ hj : j < g.length, i ∈ g[j]) :
    graphChk g = .ok () := by
  unfold graphChk
  refine forM_ok (fun v hv => forM_ok (fun idx hidx => ?_))
  obtain ⟨i, hi, rfl⟩ := List.getElem_of_mem hv
  have hi' : i < g.length := by simpa using hi
  simp only [List.getElem_zipIdx, Nat.zero_add] at hidx ⊢
  obtain ⟨hj, hm⟩ := (h i hi').2 idx hidx
  have hs := (h idx hj).1
  have hlb := graphLower_spec hs hm
  rw [chk_true (decide_eq_true hj), bind_ok', List.getElem?_eq_getElem hj]
  simp only [ofUB, dbg_ok, bind_ok']
  rw [chk_true (isSorted_of (hs.imp (fun h => Nat.le_of_lt h))), bind_ok', uniq_length hs, chk_true (by simp), bind_ok',
    chk_true (decide_eq_true (List.getElem?_eq_some_iff.1 hlb).1), bind_ok', hlb, chk_true (by simp)]

end Codes

section Any

variable {K : Type} [Field K] [LinearOrder K] [IsStrictOrderedRing K] [FloorRing K] {A : Arith K} {simd : Option (Simd K)} {mac : Mac}
  {w d : Nat} {s : TS (rakauEnv A simd mac w d)} {over : Overshift} {top : K} {ordered : Bool} {sz : List (Fl K)} {f : Fast}

/-- Shifts by the full width of the type are undefined or give zero. -/
def OverOk (over : Overshift) (w : Nat) : Prop := over (2 ^ w - 1) w = none ∨ over (2 ^ w - 1) w = some 0

theorem endsAtRoot (hs : Supported w d) (hr : Reach (rakauEnv A simd mac w d) s) (hz : s.n * cbits w d < 2 ^ 64) (ho : OverOk over w)
    {lf : Node} (hlf : lf ∈ leaves s.tree) {v : Nat} (hv : v < 2 ^ (cbits w d * d)) : EndsAtRoot over w d (leaves s.tree) lf v := by
  obtain ⟨hd, hw, hw64⟩ := hs.dim
  obtain ⟨L1, _, _⟩ := leaves_spec (rakauEnv_ok A simd mac hs) hr hz
  have hc0 : 0 < cbits w d := by
    rcases hs with ⟨h1 | h1, h2 | h2⟩ <;> subst h1 <;> subst h2 <;> decide
  by_cases hsh : LevelsOk s over
  · obtain ⟨r, h1, _⟩ := coverLoop_spec hd hw hw64 (leavesOk hs hr hz hsh) (List.ne_nil_of_mem hlf) hlf hv 0 (LevelOk.of_lt hc0)
    intro hc
    unfold coverLoop at h1
    rw [hc] at h1
    simp at h1
  · unfold LevelsOk at hsh
    push Not at hsh
    obtain ⟨nd, hnd, hlev⟩ := hsh
    have hdeep : nd.level = cbits w d ∧ over (2 ^ w - 1) w = none := by
      have hle := (L1 nd hnd).lev
      by_cases e : nd.level = cbits w d
      · rcases ho with h | h
        · exact ⟨e, h⟩
        · exact (hlev ⟨e.le, fun _ => h⟩).elim
      · exact (hlev (LevelOk.of_lt (lt_of_le_of_ne hle e))).elim
    have hnone : nodeRange over w d nd.code nd.level = none := by
      have h2 : nd.code < 2 ^ w := by
        refine lt_of_lt_of_le (L1 nd hnd).hi (Nat.pow_le_pow_right (by norm_num) ?_)
        have := cbits_mul_lt hd hw
        show nd.level * d + 1 ≤ w
        rw [hdeep.1]; omega
      rw [hdeep.1, nodeRange_deep hd hw hw64 h2, hdeep.2]; rfl
    have hsn : ∀ rng, searchLeaves over w d (leaves s.tree) rng = none := by
      intro rng
      unfold searchLeaves partitionPoint
      have : (leaves s.tree).mapM (fun n => (nodeRange over w d n.code n.level).map (fun r => decide (r.2 < rng.1))) = none := by
        cases h : (leaves s.tree).mapM (fun n => (nodeRange over w d n.code n.level).map (fun r => decide (r.2 < rng.1))) with
        | none => rfl
        | some bs =>
          obtain ⟨i, hi, rfl⟩ := List.getElem_of_mem hnd
          have h2 := forall₂_getElem (mapM_some_iff.1 h)
          have := h2.2 i hi (by omega)
          rw [hnone] at this
          simp at this
      rw [this]; rfl
    unfold EndsAtRoot coverStep
    cases enclosing w d v 0 with
    | none => simp
    | some sc =>
      simp only [bind, Option.bind_some]
      cases fitsLeaf w d sc 0 lf with
      | none => simp
      | some fl =>
        rw [Option.bind_some]
        cases fl with
        | true => simp
        | false =>
          rw [if_neg (by simp)]
          cases nodeRange over w d sc 0 with
          | none => simp
          | some rng => rw [Option.bind_some, hsn]; simp

theorem vertexCodeD_eq (A : Arith K) (hs : Supported w d) (hf : f.Ok w) (h0 : 0 ≤ top) (h1 : top < 2 ^ cbits w d) {bs : List (Fl K × Fl K)}
    (hb : bs.length = d) (inv : Fl K) (i : Nat) :
    vertexCodeD f A w (cbits w d) top bs inv i = dbg (vertexCode A w (cbits w d) top bs inv i) := by
  unfold vertexCodeD vertexCode
  rw [dbg_bind]
  cases hm : bs.zipIdx.mapM (fun b => discClamp A w (cbits w d) top (if (i >>> b.2) &&& 1 = 0 then b.1.1 else b.1.2) inv) with
  | error e => rfl
  | ok ds =>
    have h2 := forall₂_getElem (mapM_ok_iff.1 hm)
    have hl : ds.length = d := by rw [← h2.1]; simpa using hb
    simp only [dbg_ok, bind_ok']
    refine encodeD_eq (by rw [hl]; exact hs) hf (fun x hx => ?_)
    obtain ⟨j, hj, rfl⟩ := List.getElem_of_mem hx
    have := h2.2 j (by omega) hj
    rw [hl]
    revert this
    generalize hg : (if (i >>> (bs.zipIdx[j]'(by omega)).2) &&& 1 = 0 then (bs.zipIdx[j]'(by omega)).1.1 else (bs.zipIdx[j]'(by omega)).1.2) = c
    intro this
    rcases discClamp_cases A (cbits_le w d) h0 h1 c inv with ⟨q, _, q2, q3⟩ | ⟨_, q2⟩
    · rw [q2, Except.ok.injEq] at this; rw [← this]; exact q3
    · rw [q2] at this; simp at this

theorem aabbCodesD_eq (A : Arith K) (hs : Supported w d) (hf : f.Ok w) (h0 : 0 ≤ top) (h1 : top < 2 ^ cbits w d) {pos : List (Fl K)}
    (hp : pos.length = d) (hpf : ∀ x ∈ pos, x.isFinite = true) {size : Fl K} (hsf : size.isFinite = true) (hsz : size.ge (.fin 0) = true)
    (inv : Fl K) : aabbCodesD f A w d top pos size inv = dbg (aabbCodes A w d top pos size inv) := by
  unfold aabbCodesD aabbCodes
  rw [chk_true (List.all_eq_true.2 hpf), bind_ok', chk_true (by rw [hsf, hsz]; rfl), bind_ok', dbg_bind]
  cases hm : pos.mapM (aabbBounds A (A.mul size (.fin (1 / 2)))) with
  | error e => rfl
  | ok bs =>
    have hl : bs.length = d := by rw [← (mapM_ok_iff.1 hm).length_eq, hp]
    exact mapM_dbg (fun i _ => vertexCodeD_eq A hs hf h0 h1 hl inv i)

theorem pos_of {a : Fl K} (h1 : a.isFinite = true) (h2 : a.lt (.fin 0) = false) (h3 : a.eq (.fin 0) = false) :
    a.gt (.fin 0) = true ∧ a.ge (.fin 0) = true := by
  cases a with
  | nan => simp [Fl.isFinite] at h1
  | inf b => simp [Fl.isFinite] at h1
  | fin x =>
    simp [Fl.lt, Fl.eq] at h2 h3
    simp only [Fl.gt, Fl.ge, Fl.lt, decide_eq_true_eq]
    exact ⟨lt_of_le_of_ne h2 (Ne.symm h3), by simpa using h2⟩

/-- The first phase for one particle. -/
theorem collParticleD_eq (hs : Supported w d) (hf : f.Ok w) (hr : Reach (rakauEnv A simd mac w d) s) (hz : s.n * cbits w d < 2 ^ 64)
    (hbox : s.box.isFinite = true) (ho : OverOk over w) (h0 : 0 ≤ top) (h1 : top < 2 ^ cbits w d) {lf : Node} {x : Nat}
    (ht : (lf, x) ∈ collTasks s.tree) : collParticleD f s over top ordered sz lf x = dbg (collParticle s over top ordered sz lf x) := by
  obtain ⟨hd, hw, hw64⟩ := hs.dim
  obtain ⟨L1, _, _⟩ := leaves_spec (rakauEnv_ok A simd mac hs) hr hz
  obtain ⟨t1, t2, t3⟩ := mem_collTasks.1 ht
  have I := reach_inv hr
  have hcl : s.codes.length = s.n := (rawCodes_spec.1 I.codes).1
  have hxn : x < s.n := by have := (L1 lf t1).fin; omega
  obtain ⟨c, hc1, hc2⟩ := reach_coords hs hr hxn
  have hl : ∀ nd ∈ leaves s.tree, rangeChk w d nd.code nd.level = .ok () := fun nd hnd =>
    rangeChk_ok hd hw (L1 nd hnd).lev (L1 nd hnd).lo (L1 nd hnd).hi
  unfold collParticleD collParticle
  cases ha : aabbSize s.perm ordered sz x with
  | none => rfl
  | some a =>
    simp only [ofUB, dbg_ok, bind_ok']
    by_cases hbad : (!a.isFinite || a.lt (.fin 0)) = true
    · rw [if_pos hbad, if_pos hbad]; rfl
    rw [if_neg hbad, if_neg hbad]
    by_cases hzero : a.eq (.fin 0) = true
    · rw [if_pos hzero, if_pos hzero]; rfl
    rw [if_neg hzero, if_neg hzero, hc2]
    have hfin : a.isFinite = true ∧ a.lt (.fin 0) = false := by simpa using hbad
    obtain ⟨hgt, hge⟩ := pos_of hfin.1 hfin.2 (by simpa using hzero)
    simp only [dbg_ok, bind_ok']
    rw [aabbCodesD_eq A hs hf h0 h1 (by simpa using hc1) (by intro y hy; simp only [List.mem_map] at hy; obtain ⟨z, _, rfl⟩ := hy; rfl) hfin.1 hge,
      dbg_bind]
    rcases aabbCodes_cases A hs h0 h1 (pos := c.map .fin) (by simpa using hc1) a (invBox A s.box) with ⟨bs, vs, _, q2, q3, q4⟩ | q
    · have hvlt : ∀ v ∈ vs, v < 2 ^ (cbits w d * d) := by
        intro v hv
        obtain ⟨i, hi, rfl⟩ := List.getElem_of_mem hv
        obtain ⟨_, _, _, _, q⟩ := q4 i hi
        exact q
      rw [q2]
      simp only [dbg_ok, bind_ok']
      rw [List.getElem?_eq_getElem (by omega : x < s.codes.length)]
      simp only [dbg_ok, bind_ok']
      cases straddles w d lf.level s.codes[x] vs with
      | none => rfl
      | some st =>
        simp only [dbg_ok, bind_ok']
        cases st with
        | false => rfl
        | true =>
          simp only [Bool.not_true, Bool.false_eq_true, if_false]
          unfold sizeToLevelD
          rw [chk_true hfin.1, bind_ok', chk_true hgt, bind_ok', chk_true hbox, bind_ok', bind_ok', dbg_bind]
          have hle : sizeToLevel A (cbits w d) a s.box ≤ cbits w d := sizeLoop_le A a _ _
          rw [mapM_dbg (f := fun v => ofUB (coverLoop over w d (leaves s.tree) lf v (sizeToLevel A (cbits w d) a s.box)))
            (fun v hv => coverLoopD_eq hd hw hw64 hl (hvlt v hv) (endsAtRoot hs hr hz ho t1 (hvlt v hv)) _ hle), mapM_ofUB]
          rfl
    · rw [q]; rfl

/-- Two leaves with a common particle are the same. -/
theorem leaf_unique (hs : Supported w d) (hr : Reach (rakauEnv A simd mac w d) s) (hz : s.n * cbits w d < 2 ^ 64) {a b : Node}
    (ha : a ∈ leaves s.tree) (hb : b ∈ leaves s.tree) {x : Nat} (a1 : a.beg ≤ x) (a2 : x < a.fin) (b1 : b.beg ≤ x) (b2 : x < b.fin) : a = b := by
  obtain ⟨_, L2, _⟩ := leaves_spec (rakauEnv_ok A simd mac hs) hr hz
  obtain ⟨i, hi, rfl⟩ := List.getElem_of_mem ha
  obtain ⟨j, hj, rfl⟩ := List.getElem_of_mem hb
  rw [List.pairwise_iff_getElem] at L2
  rcases Nat.lt_trichotomy i j with h | h | h
  · have := L2 i j hi hj h; omega
  · subst h; rfl
  · have := L2 j i hj hi h; omega

/-- The additional particles of a leaf are not its own. -/
theorem not_own (hs : Supported w d) (hr : Reach (rakauEnv A simd mac w d) s) (hz : s.n * cbits w d < 2 ^ 64) {adds vadd : List (List Nat)}
    (h1 : List.Forall₂ (fun t a => collParticle s over top ordered sz t.1 t.2 = .ok a) (collTasks s.tree) adds)
    (h2 : Pushed (((collTasks s.tree).zip adds).flatMap (fun t => t.2.map (fun l => (l, t.1.2)))) (List.replicate (leaves s.tree).length []) vadd)
    {k : Nat} (hk : k < (leaves s.tree).length) (hk' : k < vadd.length) {x : Nat} (hx : x ∈ vadd[k]) :
    x < (leaves s.tree)[k].beg ∨ x ≥ (leaves s.tree)[k].fin := by
  by_contra hc
  push Not at hc
  rw [pushed_mem h2 hk' (by simpa using hk)] at hx
  rcases hx with hx | hx
  · simp at hx
  · simp only [List.mem_flatMap, List.mem_map, Prod.mk.injEq] at hx
    obtain ⟨t, ht, y, hy, rfl, rfl⟩ := hx
    obtain ⟨i, hi, rfl⟩ := List.getElem_of_mem ht
    rw [List.getElem_zip] at *
    have hi1 : i < (collTasks s.tree).length := by simp at hi; omega
    have hi2 : i < adds.length := by simp at hi; omega
    have hp := (forall₂_getElem h1).2 i hi1 hi2
    obtain ⟨t1, t2, t3⟩ := mem_collTasks.1 (show ((collTasks s.tree)[i].1, (collTasks s.tree)[i].2) ∈ collTasks s.tree from List.getElem_mem _)
    obtain ⟨nd, n1, n2⟩ := adds_leaf hp hy
    obtain ⟨_, rfl⟩ := List.getElem?_eq_some_iff.1 n1
    exact n2 (by rw [leaf_unique hs hr hz t1 (List.getElem_mem hk) t2 t3 hc.1 hc.2])

theorem testPairD_eq {p : Nat × Nat} (hp : p.1 ≠ p.2) : testPairD s ordered sz p = dbg (ofUB (testPair s ordered sz p)) := by
  unfold testPairD
  cases ha : aabbSize s.perm ordered sz p.1 with
  | none => unfold testPair; rw [ha]; rfl
  | some sa =>
    simp only [ofUB, dbg_ok, bind_ok']
    by_cases hz : sa.eq (.fin 0) = true
    · rw [if_pos hz]
      unfold testPair
      rw [ha]
      simp only [bind, Option.bind, if_pos hz]
      rfl
    · rw [if_neg hz, chk_true (by simpa using hp), bind_ok']

theorem collLeafD_eq (hs : Supported w d) (hr : Reach (rakauEnv A simd mac w d) s) (hz : s.n * cbits w d < 2 ^ 64) {adds vadd : List (List Nat)}
    (h1 : List.Forall₂ (fun t a => collParticle s over top ordered sz t.1 t.2 = .ok a) (collTasks s.tree) adds)
    (h2 : Pushed (((collTasks s.tree).zip adds).flatMap (fun t => t.2.map (fun l => (l, t.1.2)))) (List.replicate (leaves s.tree).length []) vadd)
    {k : Nat} (hk : k < (leaves s.tree).length) (hk' : k < vadd.length) {sva : List Nat} (h3 : IsSortOf idxLt vadd[k] sva) :
    collLeafD s ordered sz (leaves s.tree)[k] sva = dbg (ofUB (collLeaf s ordered sz (leaves s.tree)[k] sva)) := by
  have hnd : (List.range' (leaves s.tree)[k].beg ((leaves s.tree)[k].fin - (leaves s.tree)[k].beg) ++ uniq sva).Nodup := by
    rw [List.nodup_append]
    refine ⟨List.nodup_range', (uniq_sorted (sort_sorted h3)).imp (fun h => Nat.ne_of_lt h), ?_⟩
    intro a ha b hb
    rw [List.mem_range'_1] at ha
    rw [mem_uniq, h3.1.mem_iff] at hb
    have := not_own hs hr hz h1 h2 hk hk' hb
    omega
  unfold collLeafD collLeaf
  rw [mapM_dbg (f := fun p => ofUB (testPair s ordered sz p)) (fun p hp => testPairD_eq (pairs_ne hnd hp)), mapM_ofUB]
  cases (pairs (List.range' (leaves s.tree)[k].beg ((leaves s.tree)[k].fin - (leaves s.tree)[k].beg) ++ uniq sva)).mapM (testPair s ordered sz) <;> rfl

theorem foldl_mod (M : Nat) (l : List Node) : ∀ a < M, l.foldl (fun a nd => (a + (nd.fin - nd.beg)) % M) a = (a + (l.map (fun nd => nd.fin - nd.beg)).sum) % M := by
  induction l with
  | nil => intro a ha; simp [Nat.mod_eq_of_lt ha]
  | cons x l ih =>
    intro a ha
    rw [List.foldl_cons, ih _ (Nat.mod_lt _ (by omega)), List.map_cons, List.sum_cons, Nat.mod_add_mod, Nat.add_assoc]

/-- The leaves contain every particle once. -/
theorem leaves_sum {l : List Node} {n : Nat} (h1 : ∀ nd ∈ l, nd.fin ≤ n) (h2 : l.Pairwise (fun a b => a.fin ≤ b.beg))
    (h3 : ∀ k < n, ∃ nd ∈ l, nd.beg ≤ k ∧ k < nd.fin) : (l.map (fun nd => nd.fin - nd.beg)).sum = n := by
  have hp : (l.flatMap (fun nd => List.range' nd.beg (nd.fin - nd.beg))).Perm (List.range n) := by
    rw [List.perm_ext_iff_of_nodup _ List.nodup_range]
    · intro k
      simp only [List.mem_flatMap, List.mem_range'_1, List.mem_range]
      constructor
      · rintro ⟨nd, hnd, h⟩
        have := h1 nd hnd
        omega
      · intro hk
        obtain ⟨nd, hnd, h⟩ := h3 k hk
        exact ⟨nd, hnd, h.1, by omega⟩
    · rw [List.nodup_flatMap]
      refine ⟨fun nd _ => List.nodup_range', h2.imp (fun {a b} h x hx hy => ?_)⟩
      rw [List.mem_range'_1] at hx hy
      omega
  have := hp.length_eq
  rw [List.length_range, List.length_flatMap] at this
  simpa using this

theorem leavesD_ok (hs : Supported w d) (hr : Reach (rakauEnv A simd mac w d) s) (hz : s.n * cbits w d < 2 ^ 64) : leavesD s.tree s.n = .ok () := by
  obtain ⟨L1, L2, L3⟩ := leaves_spec (rakauEnv_ok A simd mac hs) hr hz
  have hcl : s.codes.length = s.n := (rawCodes_spec.1 (reach_inv hr).codes).1
  have hc0 : 0 < cbits w d := by
    rcases hs with ⟨h1 | h1, h2 | h2⟩ <;> subst h1 <;> subst h2 <;> decide
  have hn : s.n < 2 ^ 64 := lt_of_le_of_lt (Nat.le_mul_of_pos_right _ hc0) hz
  unfold leavesD
  rw [chk_true, bind_ok', foldl_mod _ _ 0 (Nat.two_pow_pos _), leaves_sum (n := s.n) (fun nd hnd => hcl ▸ (L1 nd hnd).fin) L2 L3, Nat.zero_add,
    Nat.mod_eq_of_lt hn, chk_true (by simp)]
  rw [List.all_eq_true]
  intro nd hnd
  exact (List.mem_filter.1 hnd).2

theorem forall₂_congr {α β : Type} {R S : α → β → Prop} {l : List α} {r : List β} (h : ∀ a ∈ l, ∀ b, R a b → S a b) (hr : List.Forall₂ R l r) :
    List.Forall₂ S l r := by
  obtain ⟨hl, hg⟩ := forall₂_getElem hr
  exact forall₂_of_getElem hl (fun i h1 h2 => h _ (List.getElem_mem _) _ (hg i h1 h2))

/-- The collision graph in a debug build: the outcomes are those of other builds, no assertion fails. -/
theorem cgraphD_iff (hs : Supported w d) (hf : f.Ok w) (hr : Reach (rakauEnv A simd mac w d) s) (hz : s.n * cbits w d < 2 ^ 64)
    (hbox : s.box.isFinite = true) (ho : OverOk over w) (h0 : 0 ≤ top) (h1 : top < 2 ^ cbits w d) (old : List (List Nat))
    (rD : Dbg (List (List Nat))) :
    CgraphD f s over top ordered sz old rD ↔ ∃ r, Cgraph s over top ordered sz old r ∧ rD = dbg r := by
  have hpart : ∀ {t : Node × Nat}, t ∈ collTasks s.tree →
      collParticleD f s over top ordered sz t.1 t.2 = dbg (collParticle s over top ordered sz t.1 t.2) :=
    fun {t} ht => collParticleD_eq hs hf hr hz hbox ho h0 h1 (lf := t.1) (x := t.2) ht
  have hadds : ∀ adds, List.Forall₂ (fun t a => collParticleD f s over top ordered sz t.1 t.2 = .ok a) (collTasks s.tree) adds ↔
      List.Forall₂ (fun t a => collParticle s over top ordered sz t.1 t.2 = .ok a) (collTasks s.tree) adds := fun adds =>
    ⟨forall₂_congr (fun t ht a h => dbg_inj_ok (by rw [← hpart ht]; exact h)), forall₂_congr (fun t ht a h => by rw [hpart ht, h, dbg_ok])⟩
  have hgraph : ∀ g, Cgraph s over top ordered sz old (.ok g) → graphChk g = .ok () := by
    intro g hg
    obtain ⟨_, hst⟩ := C32_structure hs hr hz hg
    exact graphChk_ok (fun i hi => ⟨(hst i hi).1, (hst i hi).2.2.1⟩)
  have hrecs : ∀ {adds vadd svadd : List (List Nat)} (recs : List (List (Nat × Nat))),
      List.Forall₂ (fun t a => collParticle s over top ordered sz t.1 t.2 = .ok a) (collTasks s.tree) adds →
      Pushed (((collTasks s.tree).zip adds).flatMap (fun t => t.2.map (fun l => (l, t.1.2)))) (List.replicate (leaves s.tree).length []) vadd →
      List.Forall₂ (IsSortOf idxLt) vadd svadd → ∀ t ∈ (leaves s.tree).zip svadd,
      collLeafD s ordered sz t.1 t.2 = dbg (ofUB (collLeaf s ordered sz t.1 t.2)) := by
    intro adds vadd svadd recs q1 q2 q3 t ht
    obtain ⟨k, hk, rfl⟩ := List.getElem_of_mem ht
    rw [List.getElem_zip]
    have hk1 : k < (leaves s.tree).length := by simp at hk; omega
    have hk2 : k < svadd.length := by simp at hk; omega
    have hk3 : k < vadd.length := by have := q3.length_eq; omega
    exact collLeafD_eq hs hr hz q1 q2 hk1 hk3 ((forall₂_getElem q3).2 k hk3 hk2)
  constructor
  · intro h
    cases h with
    | leaves e he => rw [leavesD_ok hs hr hz] at he; simp at he
    | fail lf p e ht he =>
      rw [hpart (t := (lf, p)) ht] at he
      obtain ⟨e', q1, q2⟩ := dbg_inj_error he
      exact ⟨_, .fail lf p e' ht q1, by rw [q2]; rfl⟩
    | own adds vadd lf va x q1 q2 q3 q4 q5 =>
      exfalso
      obtain ⟨k, hk, ek⟩ := List.getElem_of_mem q3
      rw [List.getElem_zip, Prod.mk.injEq] at ek
      have hk1 : k < (leaves s.tree).length := by simp at hk; omega
      have hk2 : k < vadd.length := by simp at hk; omega
      refine q5 ?_
      rw [← ek.1]
      exact not_own hs hr hz ((hadds adds).1 q1) q2 hk1 hk2 (by rw [ek.2]; exact q4)
    | second adds vadd lf va sva e q1 q2 q3 q4 q5 =>
      obtain ⟨k, hk, ek⟩ := List.getElem_of_mem q3
      rw [List.getElem_zip, Prod.mk.injEq] at ek
      have hk1 : k < (leaves s.tree).length := by simp at hk; omega
      have hk2 : k < vadd.length := by simp at hk; omega
      rw [← ek.1, collLeafD_eq hs hr hz ((hadds adds).1 q1) q2 hk1 hk2 (by rw [ek.2]; exact q4)] at q5
      obtain ⟨e', p1, p2⟩ := dbg_inj_error q5
      cases hcl : collLeaf s ordered sz (leaves s.tree)[k] sva with
      | none =>
        rw [hcl] at p1
        simp only [ofUB, Except.error.injEq] at p1
        exact ⟨_, .ub adds vadd lf va sva ((hadds adds).1 q1) q2 q3 q4 (by rw [← ek.1]; exact hcl), by rw [p2, ← p1]; rfl⟩
      | some r => rw [hcl] at p1; simp [ofUB] at p1
    | ok adds vadd svadd recs graph sgraph q1 q2 q3 q4 q5 q6 =>
      have q1' := (hadds adds).1 q1
      have hg : Cgraph s over top ordered sz old (.ok (sgraph.map uniq)) := by
        refine .ok adds vadd svadd recs graph sgraph q1' q2 q3 (forall₂_congr (fun t ht r hr' => ?_) q4) q5 q6
        rw [hrecs recs q1' q2 q3 t ht] at hr'
        have := dbg_inj_ok hr'
        cases hc : collLeaf s ordered sz t.1 t.2 with
        | none => rw [hc] at this; simp [ofUB] at this
        | some r' => rw [hc] at this; simpa [ofUB] using this
      exact ⟨_, hg, by rw [hgraph _ hg]; rfl⟩
  · rintro ⟨r, h, rfl⟩
    cases h with
    | fail lf p e ht he => exact .fail lf p _ ht (by rw [hpart (t := (lf, p)) ht, he]; rfl)
    | ub adds vadd lf va sva q1 q2 q3 q4 q5 =>
      refine .second adds vadd lf va sva _ ((hadds adds).2 q1) q2 q3 q4 ?_
      obtain ⟨k, hk, ek⟩ := List.getElem_of_mem q3
      rw [List.getElem_zip, Prod.mk.injEq] at ek
      have hk1 : k < (leaves s.tree).length := by simp at hk; omega
      have hk2 : k < vadd.length := by simp at hk; omega
      have := collLeafD_eq hs hr hz q1 q2 hk1 hk2 (sva := sva) (by rw [ek.2]; exact q4)
      rw [ek.1, q5] at this
      exact this
    | ok adds vadd svadd recs graph sgraph q1 q2 q3 q4 q5 q6 =>
      have hg : Cgraph s over top ordered sz old (.ok (sgraph.map uniq)) := .ok adds vadd svadd recs graph sgraph q1 q2 q3 q4 q5 q6
      have h' := CgraphD.ok (f := f) (over := over) (top := top) (ordered := ordered) (sz := sz) (old := old) adds vadd svadd recs graph sgraph
        ((hadds adds).2 q1) q2 q3 (forall₂_congr (fun t ht r hr' => by rw [hrecs recs q1 q2 q3 t ht, hr']; rfl) q4) q5 q6
      rw [hgraph _ hg] at h'
      exact h'

end Any

end Rakau
