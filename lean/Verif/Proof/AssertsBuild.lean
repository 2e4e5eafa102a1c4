import Verif.Proof.Asserts
import Verif.Proof.Canon

/-! The builder in a debug build. -/
namespace Rakau
open Spec

theorem dbg_bind {α β : Type} (a : Except Err α) (f : α → Except Err β) : dbg (a >>= f) = (dbg a >>= fun x => dbg (f x)) := by
  cases a <;> rfl

theorem dbg_ok {α : Type} (a : α) : dbg (.ok a : Except Err α) = .ok a := rfl
theorem dbg_pure {α : Type} (a : α) : dbg (pure a : Except Err α) = pure a := rfl
theorem dbg_ite {α : Type} (p : Prop) [Decidable p] (a b : Except Err α) : dbg (if p then a else b) = if p then dbg a else dbg b := by
  split <;> rfl

theorem foldlM_dbg {β : Type} (f : β → Nat → Except Err β) (fD : β → Nat → Dbg β) (l : List Nat)
    (h : ∀ i ∈ l, ∀ a, fD a i = dbg (f a i)) (a : β) : l.foldlM fD a = dbg (l.foldlM f a) := by
  induction l generalizing a with
  | nil => rfl
  | cons i l ih =>
    rw [List.foldlM_cons, List.foldlM_cons, dbg_bind, h i (by simp)]
    congr 1
    funext x
    exact ih (fun i hi => h i (by simp [hi])) x

theorem mapM_dbg {α β : Type} {f : α → Except Err β} {fD : α → Dbg β} {l : List α} (h : ∀ a ∈ l, fD a = dbg (f a)) :
    l.mapM fD = dbg (l.mapM f) := by
  induction l with
  | nil => rfl
  | cons a l ih =>
    rw [List.mapM_cons, List.mapM_cons, dbg_bind, h a (by simp)]
    congr 1
    funext x
    rw [dbg_bind, ih (fun a ha => h a (by simp [ha]))]
    rfl

theorem treeLevelD_code {w d : Nat} (hd : 0 < d) (hw : d < w) {p : Path} (hp : Path.Ok d p) (hl : p.length ≤ cbits w d) :
    treeLevelD w d (Path.code d p) = .ok p.length := by
  have hlev := treeLevel_code hd hw p hp hl
  have hcb := cbits_mul_lt hd hw
  have h1 : p.length * d ≤ cbits w d * d := Nat.mul_le_mul_right _ hl
  have h2 : (cbits w d - p.length) * d ≤ cbits w d * d := Nat.mul_le_mul_right _ (Nat.sub_le _ _)
  unfold treeLevelD
  simp only [hlev]
  rw [chk_true (by simpa using (code_pos d p).ne'), chk_true, chk_true (decide_eq_true hl), chk_true]
  · rfl
  · rw [subW_eq hl (cbits_lt_two_pow w d)]
    apply decide_eq_true
    unfold mulSz
    exact lt_of_le_of_lt (Nat.mod_le _ _) (by omega)
  · unfold clz
    rw [builtinClz_eq (code_pos d p).ne' (code_lt_two_pow hd hw p hp hl), code_log2 d p hp]
    have : w - 1 - (w - 1 - p.length * d) = p.length * d := by omega
    rw [this]
    simp

theorem nodeCompareD_code {w d : Nat} (hd : 0 < d) (hw : d < w) (hw64 : w ≤ 64) {p q : Path} (hp : Path.Ok d p) (hq : Path.Ok d q)
    (hpl : p.length ≤ cbits w d) (hql : q.length ≤ cbits w d) :
    ∃ b, nodeCompareD w d (Path.code d p) (Path.code d q) = .ok b ∧ (b = true ↔ Path.Before p q) := by
  obtain ⟨b, h1, h2⟩ := nodeCompare_code hd hw hw64 p q hp hq hpl hql
  refine ⟨b, ?_, h2⟩
  unfold nodeCompareD
  rw [treeLevelD_code hd hw hp hpl, treeLevelD_code hd hw hq hql, h1]
  rfl

variable {g : Cfg} {codes : List Nat}

theorem child_le {k : Nat} {p : Path} (hl : p.length + (k + 1) = g.cb) {i : Nat} (hi' : i < 2 ^ g.d) :
    lo g.d g.cb codes (p ++ [i]) ≤ hi g.d g.cb codes (p ++ [i]) := (child_range g.d g.cb codes p (i := i) (by omega) hi').2.1

theorem bind_ok' {α β ε : Type} (a : α) (f : α → Except ε β) : ((Except.ok a : Except ε α) >>= f) = f a := rfl

/-- The serial builder of a debug build behaves as the other one. -/
theorem buildSerD_eq (H : Hyp g codes) (k : Nat) {p : Path} (hp : Path.Ok g.d p) (hl : p.length + k = g.cb) (ca : Bool) (st : BS)
    (hne : lo g.d g.cb codes p ≠ hi g.d g.cb codes p) (hst : (st.tree.getLast?).any (fun n => n.code == Path.code g.d p) = true) :
    buildSerD g codes k (Path.code g.d p) (lo g.d g.cb codes p) (hi g.d g.cb codes p) ca st =
      dbg (buildSer g codes k (Path.code g.d p) (lo g.d g.cb codes p) (hi g.d g.cb codes p) ca st) := by
  induction k generalizing p ca st with
  | zero => rfl
  | succ k ih =>
    obtain ⟨a1, a2, a3, a4, a5, a6, a7, a8, a9⟩ := level_arith H hp hl
    unfold buildSerD buildSer
    rw [treeLevelD_code H.hd H.hw hp (by have : g.cb = cbits g.w g.d := rfl; omega)]
    simp only [a1, a2, a3, a4, ofUB, bind_ok', a6, a7, dbg_ok, not_le.2 a5, if_false]
    rw [chk_true (by simp), chk_true hst, chk_true (by simpa using hne), chk_true (decide_eq_true a5)]
    simp only [bind_ok']
    refine foldlM_dbg _ _ _ (fun i hi acc => ?_) _
    have hi := List.mem_range.1 hi
    have hq : Path.Ok g.d (p ++ [i]) := ok_snoc.2 ⟨hp, hi⟩
    have hql : (p ++ [i]).length + k = g.cb := by simp; omega
    obtain ⟨st, ret⟩ := acc
    simp only [a8 i hi, a9 i hi, equalRange_child H hl hi]
    rw [chk_true (decide_eq_true (child_le hl hi))]
    simp only [bind_ok', dbg_ite, dbg_bind, dbg_pure]
    by_cases hc : Rakau.hi g.d g.cb codes (p ++ [i]) - lo g.d g.cb codes (p ++ [i]) ≠ 0
    · rw [if_pos hc, if_pos hc, ih hq hql]
      · omega
      · simp
    · rw [if_neg hc, if_neg hc]

/-- The parallel builder of a debug build behaves as the other one. -/
theorem buildParD_eq (H : Hyp g codes) (split k : Nat) {p : Path} (hp : Path.Ok g.d p) (hl : p.length + k = g.cb) (ca : Bool)
    (hne : lo g.d g.cb codes p ≠ hi g.d g.cb codes p) :
    buildParD g codes split k (Path.code g.d p) (lo g.d g.cb codes p) (hi g.d g.cb codes p) ca =
      dbg (buildPar g codes split k (Path.code g.d p) (lo g.d g.cb codes p) (hi g.d g.cb codes p) ca) := by
  induction k generalizing p ca with
  | zero => rfl
  | succ k ih =>
    obtain ⟨a1, a2, a3, a4, a5, a6, a7, a8, a9⟩ := level_arith H hp hl
    unfold buildParD buildPar
    rw [treeLevelD_code H.hd H.hw hp (by have : g.cb = cbits g.w g.d := rfl; omega)]
    simp only [a1, a2, a3, a4, ofUB, bind_ok', a6, a7, dbg_ok, not_le.2 a5, if_false]
    rw [chk_true (by simp), chk_true (by simpa using hne), chk_true (decide_eq_true a5)]
    simp only [bind_ok']
    refine foldlM_dbg _ _ _ (fun i hi acc => ?_) _
    have hi := List.mem_range.1 hi
    have hq : Path.Ok g.d (p ++ [i]) := ok_snoc.2 ⟨hp, hi⟩
    have hql : (p ++ [i]).length + k = g.cb := by simp; omega
    obtain ⟨ps, ret⟩ := acc
    simp only [a8 i hi, a9 i hi, equalRange_child H hl hi]
    rw [chk_true (decide_eq_true (child_le hl hi))]
    simp only [bind_ok', dbg_ite, dbg_bind, dbg_pure]
    by_cases hc : Rakau.hi g.d g.cb codes (p ++ [i]) - lo g.d g.cb codes (p ++ [i]) ≠ 0
    · rw [if_pos hc, if_pos hc, ih hq hql _ (by omega), buildSerD_eq H k hq hql _ _ (by omega) (by simp)]
    · rw [if_neg hc, if_neg hc]

theorem rootChildrenD_eq (H : Hyp g codes) (split : Nat) (hn : codes ≠ []) : rootChildrenD g codes split = dbg (rootChildren g codes split) := by
  obtain ⟨hr1, hr2, hr3⟩ := root_lo_hi H
  have h0 : 0 < codes.length := List.length_pos_iff.2 hn
  have := buildParD_eq H split g.cb (ok_nil g.d) (by simp) (rootCrit g codes) (by rw [hr2, hr3]; omega)
  rw [hr1, hr2, hr3] at this
  unfold rootChildrenD rootChildren
  rw [this, dbg_ite]
  rfl

/-! ### After the build -/

theorem flatMap_sublist {α β : Type} {l : List α} {f h : α → List β} (H : ∀ a ∈ l, (f a).Sublist (h a)) : (l.flatMap f).Sublist (l.flatMap h) := by
  induction l with
  | nil => simp
  | cons a l ih =>
    rw [List.flatMap_cons, List.flatMap_cons]
    exact (H a (by simp)).append (ih (fun a ha => H a (by simp [ha])))

theorem critP_sublist (k : Nat) (p : Path) (ca : Bool) : (critP g codes k p ca).Sublist (kidsP g codes k p) := by
  induction k generalizing p ca with
  | zero => simp [critP, kidsP]
  | succ k ih =>
    refine flatMap_sublist (fun i _ => ?_)
    split
    · have h1 : (if g.maxLeaf < g.cnt codes (p ++ [i]) then
          critP g codes k (p ++ [i]) (isCrit g ca (g.cnt codes (p ++ [i])) (p.length + 1) || ca) else []).Sublist
          (if g.maxLeaf < g.cnt codes (p ++ [i]) then kidsP g codes k (p ++ [i]) else []) := by
        split
        · exact ih _ _
        · simp
      split
      · exact h1.cons_cons _
      · exact h1.cons _
    · simp

theorem critAll_sublist : (critAll g codes).Sublist (allP g codes) := by
  unfold critAll allP
  by_cases hr : rootCrit g codes = true
  · rw [if_pos hr]; exact (List.nil_sublist _).cons_cons _
  · rw [if_neg hr]
    have hm : g.maxLeaf < g.cnt codes [] := by
      show g.maxLeaf < count g.d g.cb codes []
      rw [count_nil]
      simp [rootCrit] at hr
      exact hr.2
    unfold desc
    rw [if_pos hm]
    exact (critP_sublist _ _ _).cons _

theorem codesSortedD_eq (H : Hyp g codes) {l : List Path} (hs : l.Pairwise Path.Before) (hl : ∀ p ∈ l, Path.Ok g.d p ∧ p.length ≤ g.cb) :
    codesSortedD g.w g.d (l.map (Path.code g.d)) = .ok true := by
  induction l with
  | nil => rfl
  | cons p l ih =>
    cases l with
    | nil => rfl
    | cons q l =>
      have hp := hl p (by simp)
      have hq := hl q (by simp)
      obtain ⟨b, h1, h2⟩ := nodeCompareD_code H.hd H.hw H.hw64 hq.1 hp.1 hq.2 hp.2
      have hb : b = false := by
        rw [Bool.eq_false_iff, Ne, h2]
        exact before_asymm ((List.pairwise_cons.1 hs).1 q (by simp))
      subst hb
      simp only [List.map_cons, codesSortedD] at ih ⊢
      rw [h1]
      exact ih (List.pairwise_cons.1 hs).2 (fun p h => hl p (List.mem_cons_of_mem _ h))

theorem critLoopD_eq {l : List Path} {a b : Nat} (h : Tiles g codes a b l) : critLoopD (l.map (cnodeOf g codes)) = .ok () := by
  induction l generalizing a with
  | nil => rfl
  | cons p l ih =>
    cases l with
    | nil => rfl
    | cons q l =>
      have hi := ih h.2.2
      simp only [List.map_cons, critLoopD] at hi ⊢
      rw [chk_true, chk_true]
      · exact hi
      · simpa [cnodeOf] using h.2.2.1.symm
      · apply decide_eq_true
        show lo g.d g.cb codes p < Rakau.hi g.d g.cb codes p
        rw [h.1]; exact h.2.1

theorem tiles_last {l : List Path} {a b : Nat} (h : Tiles g codes a b l) :
    (l.getLast?).all (fun p => Rakau.hi g.d g.cb codes p == b) = true := by
  induction l generalizing a with
  | nil => rfl
  | cons p l ih =>
    cases l with
    | nil => simpa [Tiles] using h.2.2
    | cons q l => rw [List.getLast?_cons_cons]; exact ih h.2.2

theorem forM_ok {α : Type} {l : List α} {f : α → Dbg Unit} (h : ∀ a ∈ l, f a = .ok ()) : l.forM f = .ok () := by
  induction l with
  | nil => rfl
  | cons a l ih =>
    show (f a >>= fun _ => l.forM f) = _
    rw [h a (by simp)]
    exact ih (fun a ha => h a (by simp [ha]))

theorem lo_lt_hi (H : Hyp g codes) (hn : codes ≠ []) {p : Path} (h : p ∈ allP g codes) : lo g.d g.cb codes p < Rakau.hi g.d g.cb codes p := by
  have hN := (mem_allP hn).1 h
  have := count_eq H.hd H.bound (isNode_ok hN) hN.1
  have := hN.2.1
  omega

/-- The checks after the build succeed. -/
theorem builtD_eq (H : Hyp g codes) (hn : codes ≠ []) :
    builtD g codes ((allP g codes).map (nodeOf g codes)) ((critAll g codes).map (cnodeOf g codes)) = .ok () := by
  have hall : ∀ p ∈ allP g codes, Path.Ok g.d p ∧ p.length ≤ g.cb :=
    fun p hp => ⟨isNode_ok ((mem_allP hn).1 hp), ((mem_allP hn).1 hp).1⟩
  have hcrit : ∀ p ∈ critAll g codes, Path.Ok g.d p ∧ p.length ≤ g.cb := fun p hp => hall p (critAll_sublist.subset hp)
  have ht := critAll_tiles H hn
  have hpos : 0 < codes.length := List.length_pos_iff.2 hn
  have e1 : ((allP g codes).map (nodeOf g codes)).map (·.code) = (allP g codes).map (Path.code g.d) := by
    rw [List.map_map]; rfl
  have e2 : ((critAll g codes).map (cnodeOf g codes)).map (·.code) = (critAll g codes).map (Path.code g.d) := by
    rw [List.map_map]; rfl
  unfold builtD
  rw [e1, e2, codesSortedD_eq H allP_sorted hall, codesSortedD_eq H (allP_sorted.sublist critAll_sublist) hcrit, critLoopD_eq ht]
  simp only [bind_ok']
  rw [chk_true rfl, chk_true, chk_true, chk_true, chk_true]
  · simp only [bind_ok']
    refine forM_ok (fun n hn' => ?_)
    obtain ⟨p, hp, rfl⟩ := List.mem_map.1 hn'
    show (treeLevelD g.w g.d (Path.code g.d p) >>= _) = _
    rw [treeLevelD_code H.hd H.hw (hall p hp).1 (hall p hp).2]
    exact chk_true (by simp [nodeOf])
  · rw [List.getLast?_map]
    have := tiles_last ht
    cases h : (critAll g codes).getLast? with
    | none => rfl
    | some p => rw [h] at this; simpa [cnodeOf] using this
  · cases h : critAll g codes with
    | nil => rfl
    | cons p l => rw [h] at ht; simpa [cnodeOf] using ht.1
  · cases h : critAll g codes with
    | nil => rw [h] at ht; simp only [Tiles] at ht; omega
    | cons p l => rfl
  · refine List.all_eq_true.2 (fun n hn' => ?_)
    obtain ⟨p, hp, rfl⟩ := List.mem_map.1 hn'
    exact decide_eq_true (lo_lt_hi H hn hp)

theorem treeLtD_eq (H : Hyp g codes) (hsz : codes.length * g.cb ≤ szMax) {split : Nat} {ps : PS} {cc : Nat}
    (h : rootChildren g codes split = .ok (ps, cc)) {t1 t2 : List Node} (h1 : t1 ∈ ps.trees) (h2 : t2 ∈ ps.trees) :
    treeLtD g t1 t2 = .ok () := by
  obtain ⟨hr1, hr2, hr3⟩ := root_lo_hi H
  unfold rootChildren at h
  have hb := buildPar_eq H hsz split g.cb (ok_nil g.d) (by simp) (rootCrit g codes)
  rw [hr1, hr2, hr3] at hb
  rw [hb] at h
  by_cases hm : codes.length > g.maxLeaf
  · rw [if_pos hm] at h
    simp only [Except.ok.injEq, Prod.mk.injEq] at h
    obtain ⟨rfl, rfl⟩ := h
    have hcnt : g.cnt codes [] = codes.length := count_nil _ _ _
    have key : ∀ t ∈ (parT g codes split g.cb []).map (List.map (nodeOf g codes)),
        ∃ p l, t = nodeOf g codes p :: l ∧ Path.Ok g.d p ∧ p.length ≤ g.cb := by
      intro t ht
      obtain ⟨a, ha, rfl⟩ := List.mem_map.1 ht
      obtain ⟨p, a', rfl⟩ := List.exists_cons_of_ne_nil (parT_ne_nil split g.cb [] a ha)
      have : p ∈ kidsP g codes g.cb [] := by
        rw [← parT_flatten (g := g) (codes := codes) split g.cb []]; exact List.mem_flatten.2 ⟨_, ha, by simp⟩
      have h := (mem_kidsP_spec (g := g) (codes := codes) (p := []) (by simp) (by omega)).1 (by simpa using this)
      exact ⟨p, _, rfl, isNode_ok h.2, h.2.1⟩
    obtain ⟨p, l, rfl, hp1, hp2⟩ := key _ h1
    obtain ⟨q, m, rfl, hq1, hq2⟩ := key _ h2
    obtain ⟨b, hb, -⟩ := nodeCompareD_code H.hd H.hw H.hw64 hp1 hq1 hp2 hq2
    unfold treeLtD
    rw [chk_true (by simp)]
    show (nodeCompareD g.w g.d (Path.code g.d p) (Path.code g.d q) >>= fun _ => _) = _
    rw [hb]
    rfl
  · rw [if_neg hm] at h
    simp only [Except.ok.injEq, Prod.mk.injEq] at h
    obtain ⟨rfl, rfl⟩ := h
    simp at h1

/-- `build_tree` of a debug build has the outcomes of `build_tree`. -/
theorem isBuildD_eq (H : Hyp g codes) (hsz : codes.length * g.cb ≤ szMax) {split : Nat} {r : Dbg (List Node × List CNode)}
    (h : IsBuildD g codes split r) : ∃ r', IsBuild g codes split r' ∧ r = dbg r' := by
  cases h with
  | empty h => exact ⟨_, .empty h, rfl⟩
  | run ps cc trees crits hn h ht hc =>
    rw [rootChildrenD_eq H split hn] at h
    have h' : rootChildren g codes split = .ok (ps, cc) := by
      cases e : rootChildren g codes split with
      | error e' => rw [e] at h; simp [dbg] at h
      | ok v => rw [e] at h; simpa [dbg] using h
    have hb := IsBuild.run (split := split) ps cc trees crits hn h' ht hc
    refine ⟨_, hb, ?_⟩
    have he := isBuild_eq H hsz split hn hb
    simp only [Except.ok.injEq, Prod.mk.injEq] at he
    rw [he.1, he.2, builtD_eq H hn]
    rfl
  | compare ps cc t1 t2 e hn h h1 h2 he =>
    rw [rootChildrenD_eq H split hn] at h
    have h' : rootChildren g codes split = .ok (ps, cc) := by
      cases e : rootChildren g codes split with
      | error e' => rw [e] at h; simp [dbg] at h
      | ok v => rw [e] at h; simpa [dbg] using h
    rw [treeLtD_eq H hsz h' h1 h2] at he
    simp at he
  | fail e hn h =>
    rw [rootChildrenD_eq H split hn] at h
    cases e' : rootChildren g codes split with
    | error e'' =>
      rw [e'] at h
      simp only [dbg, Except.error.injEq] at h
      exact ⟨_, .fail e'' hn e', by rw [← h]; rfl⟩
    | ok v => rw [e'] at h; simp [dbg] at h

/-- Every outcome of the release build is one of the debug build. -/
theorem isBuildD_of (H : Hyp g codes) (hsz : codes.length * g.cb ≤ szMax) {split : Nat} {r : Except Err (List Node × List CNode)}
    (h : IsBuild g codes split r) : IsBuildD g codes split (dbg r) := by
  cases h with
  | empty h => exact .empty h
  | run ps cc trees crits hn h ht hc =>
    have hb := IsBuild.run (split := split) ps cc trees crits hn h ht hc
    have he := isBuild_eq H hsz split hn hb
    simp only [Except.ok.injEq, Prod.mk.injEq] at he
    have := IsBuildD.run (split := split) ps cc trees crits hn (by rw [rootChildrenD_eq H split hn, h]; rfl) ht hc
    rw [he.1, he.2, builtD_eq H hn] at this
    rw [he.1, he.2]
    exact this
  | fail e hn h => exact .fail _ hn (by rw [rootChildrenD_eq H split hn, h]; rfl)

end Rakau
