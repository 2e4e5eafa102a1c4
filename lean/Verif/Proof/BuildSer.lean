import Verif.Proof.Kids

/-! The serial builder computes the canonical lists. -/
namespace Rakau
open Spec

theorem partPoint_eq {p : Nat → Bool} {b len r : Nat} (h1 : b ≤ r) (h2 : r ≤ b + len)
    (h3 : ∀ k, b ≤ k → k < r → p k = true) (h4 : r < b + len → p r = false) : partPoint p b len = r := by
  induction len generalizing b with
  | zero => simp [partPoint]; omega
  | succ len ih =>
    unfold partPoint
    by_cases hb : b = r
    · subst hb; rw [h4 (by omega)]; simp
    · rw [h3 b le_rfl (by omega), if_pos rfl]
      exact ih (by omega) (by omega) (fun k hk => h3 k (by omega)) (fun h => h4 (by omega))

variable {g : Cfg} {codes : List Nat}

theorem cAt_eq {k : Nat} (hk : k < codes.length) : cAt codes k = codes[k] := by simp [cAt, hk]

theorem equalRange_child (H : Hyp g codes) {k : Nat} {p : Path} (hl : p.length + (k + 1) = g.cb)
    {i : Nat} (hi' : i < 2 ^ g.d) :
    equalRange codes (k * g.d) (pv g.d (p ++ [i])) (lo g.d g.cb codes p) (hi g.d g.cb codes p) =
      (lo g.d g.cb codes (p ++ [i]), hi g.d g.cb codes (p ++ [i])) := by
  obtain ⟨h1, h2, h3⟩ := child_range g.d g.cb codes p (i := i) (by omega) hi'
  have hn := hi_le_length g.d g.cb codes p
  have hlen : (p ++ [i]).length = g.cb - k := by simp; omega
  have hk : g.cb - (g.cb - k) = k := by omega
  have key : ∀ v j (hj : j < codes.length), cAt codes j >>> (k * g.d) < v ↔ j < below g.d g.cb codes (g.cb - k) v := by
    intro v j hj
    rw [cAt_eq hj, Nat.shiftRight_eq_div_pow, ← lt_below H.sorted _ _ _ hj, hk]
  have e1 : lo g.d g.cb codes (p ++ [i]) = below g.d g.cb codes (g.cb - k) (pv g.d (p ++ [i])) := by
    unfold lo; rw [hlen]
  have e2 : hi g.d g.cb codes (p ++ [i]) = below g.d g.cb codes (g.cb - k) (pv g.d (p ++ [i]) + 1) := by
    unfold hi; rw [hlen]
  unfold equalRange
  congr 1
  · apply partPoint_eq h1 (by omega)
    · intro j _ hj
      rw [decide_eq_true_eq, key _ _ (by omega), ← e1]; exact hj
    · intro hj
      rw [decide_eq_false_iff_not, key _ _ (by omega), ← e1]; omega
  · apply partPoint_eq (by omega) (by omega)
    · intro j _ hj
      rw [decide_eq_true_eq, ← Nat.lt_succ_iff, Nat.succ_eq_add_one, key _ _ (by omega), ← e2]; exact hj
    · intro hj
      rw [decide_eq_false_iff_not, ← Nat.lt_succ_iff, Nat.succ_eq_add_one, key _ _ (by omega), ← e2]; omega

theorem mulSz_eq {a d : Nat} (h : a * d < 64) : mulSz a d = a * d := by
  unfold mulSz; apply Nat.mod_eq_of_lt
  have : (64 : Nat) < 2 ^ 64 := Nat.lt_two_pow_self
  omega

theorem cb_mul_lt (H : Hyp g codes) : g.cb * g.d < g.w := cbits_mul_lt H.hd H.hw

theorem shl_eq {w x k : Nat} (hk : k < w) (h : x * 2 ^ k < 2 ^ w) : shl w x k = some (x * 2 ^ k) := by
  unfold shl; rw [if_pos hk, Nat.shiftLeft_eq, Nat.mod_eq_of_lt h]

theorem code_lt_w (H : Hyp g codes) {p : Path} (hp : Path.Ok g.d p) (hl : p.length ≤ g.cb) : Path.code g.d p < 2 ^ g.w :=
  code_lt_two_pow H.hd H.hw p hp hl

/-- The integer arithmetic at a node: no wrap-around, no undefined shift. -/
theorem level_arith (H : Hyp g codes) {k : Nat} {p : Path} (hp : Path.Ok g.d p) (hl : p.length + (k + 1) = g.cb) :
    g.cb - (k + 1) = p.length ∧
    shl g.w 1 (mulSz p.length g.d) = some (2 ^ (p.length * g.d)) ∧
    subW g.w (Path.code g.d p) (2 ^ (p.length * g.d)) = pv g.d p ∧
    mulSz (g.cb - p.length - 1) g.d = k * g.d ∧ k * g.d < g.w ∧
    shl g.w (pv g.d p) g.d = some (pv g.d p * 2 ^ g.d) ∧
    shl g.w (Path.code g.d p) g.d = some (Path.code g.d p * 2 ^ g.d) ∧
    (∀ i < 2 ^ g.d, (pv g.d p * 2 ^ g.d + i) % 2 ^ g.w = pv g.d (p ++ [i])) ∧
    (∀ i < 2 ^ g.d, (Path.code g.d p * 2 ^ g.d + i) % 2 ^ g.w = Path.code g.d (p ++ [i])) := by
  have hcb := cb_mul_lt H
  have hw64 := H.hw64
  have h1 : p.length * g.d ≤ g.cb * g.d := Nat.mul_le_mul_right _ (by omega)
  have h2 : k * g.d ≤ g.cb * g.d := Nat.mul_le_mul_right _ (by omega)
  have hz : Path.Ok g.d (p ++ [0]) := ok_snoc.2 ⟨hp, Nat.two_pow_pos _⟩
  have hcode : Path.code g.d p * 2 ^ g.d < 2 ^ g.w := by
    have := code_lt_w H hz (by simp; omega)
    rw [code_append] at this; omega
  have hpv : pv g.d p * 2 ^ g.d < 2 ^ g.w :=
    lt_of_le_of_lt (Nat.mul_le_mul_right _ (by rw [code_pv]; exact Nat.le_add_left _ _)) hcode
  have e := code_pv g.d p
  refine ⟨by omega, ?_, ?_, ?_, by omega, shl_eq H.hw hpv, shl_eq H.hw hcode, ?_, ?_⟩
  · rw [mulSz_eq (by omega), shl_eq (by omega) (by rw [one_mul]; exact Nat.pow_lt_pow_right (by norm_num) (by omega)),
      one_mul]
  · rw [subW_eq (by omega) (code_lt_w H hp (by omega))]; omega
  · have : g.cb - p.length - 1 = k := by omega
    rw [this, mulSz_eq (by omega)]
  · intro i hi
    rw [pv_snoc, Nat.mod_eq_of_lt]
    have h1 := code_lt_w H (ok_snoc.2 ⟨hp, hi⟩) (by simp; omega)
    have h2 := code_pv g.d (p ++ [i])
    rw [pv_snoc] at h2
    exact lt_of_le_of_lt (by rw [h2]; exact Nat.le_add_left _ _) h1
  · intro i hi
    rw [← code_append, Nat.mod_eq_of_lt]
    exact code_lt_w H (ok_snoc.2 ⟨hp, hi⟩) (by simp; omega)

theorem foldlM_range {β : Type} (f : β → Nat → Except Err β) (I : Nat → β) (m : Nat)
    (h : ∀ i < m, f (I i) i = .ok (I (i + 1))) : (List.range m).foldlM f (I 0) = .ok (I m) := by
  induction m with
  | zero => rfl
  | succ m ih =>
    rw [List.range_succ, List.foldlM_append, ih (fun i hi => h i (by omega))]
    have := h m (by omega)
    simp [bind, Except.bind, List.foldlM_cons, List.foldlM_nil, this, pure, Except.pure]

theorem modify_mid {α : Type} (T R : List α) (a : α) (f : α → α) :
    (T ++ a :: R).modify T.length f = T ++ f a :: R := by
  induction T with
  | nil => rfl
  | cons t T ih => simp [List.modify_succ_cons, ih]

/-- The list of paths below child `i`. -/
def kidA (g : Cfg) (codes : List Nat) (k : Nat) (p : Path) (i : Nat) : List Path :=
  if 0 < g.cnt codes (p ++ [i]) then
    (p ++ [i]) :: (if g.maxLeaf < g.cnt codes (p ++ [i]) then kidsP g codes k (p ++ [i]) else [])
  else []

def critA (g : Cfg) (codes : List Nat) (k : Nat) (p : Path) (ca : Bool) (i : Nat) : List Path :=
  if 0 < g.cnt codes (p ++ [i]) then
    (if isCrit g ca (g.cnt codes (p ++ [i])) (p.length + 1) then [p ++ [i]] else []) ++
    (if g.maxLeaf < g.cnt codes (p ++ [i]) then
      critP g codes k (p ++ [i]) (isCrit g ca (g.cnt codes (p ++ [i])) (p.length + 1) || ca) else [])
  else []

theorem kidsP_succ (k : Nat) (p : Path) : kidsP g codes (k + 1) p = (List.range (2 ^ g.d)).flatMap (kidA g codes k p) := rfl
theorem critP_succ (k : Nat) (p : Path) (ca : Bool) :
    critP g codes (k + 1) p ca = (List.range (2 ^ g.d)).flatMap (critA g codes k p ca) := rfl

theorem flatMap_range_le (A : Nat → List Path) {m n : Nat} (h : m ≤ n) :
    ((List.range m).flatMap A).length ≤ ((List.range n).flatMap A).length := by
  obtain ⟨r, rfl⟩ := Nat.exists_eq_add_of_le h
  rw [List.range_add, List.flatMap_append, List.length_append]; omega

theorem checkedUInc_ok {mx out add : Nat} (h : out + add ≤ mx) : checkedUInc mx out add = .ok (out + add) := by
  unfold checkedUInc; rw [if_neg (by omega)]

theorem kidsP_le_szMax (H : Hyp g codes) (hsz : codes.length * g.cb ≤ szMax) {k : Nat} {p : Path} (hp : Path.Ok g.d p)
    (hl : p.length + k ≤ g.cb) : (kidsP g codes k p).length ≤ szMax := by
  refine le_trans (kidsP_length_le H k hp hl) (le_trans ?_ hsz)
  have : g.cnt codes p ≤ codes.length := by rw [← count_nil g.d g.cb codes]; exact count_anti List.nil_prefix
  exact Nat.mul_le_mul this (by omega)

theorem buildSer_eq (H : Hyp g codes) (hsz : codes.length * g.cb ≤ szMax) (k : Nat) {p : Path} (hp : Path.Ok g.d p)
    (hl : p.length + k = g.cb) (ca : Bool) (st : BS) :
    buildSer g codes k (Path.code g.d p) (lo g.d g.cb codes p) (hi g.d g.cb codes p) ca st =
      .ok (⟨st.tree ++ (kidsP g codes k p).map (nodeOf g codes), st.crit ++ (critP g codes k p ca).map (cnodeOf g codes)⟩,
        (kidsP g codes k p).length) := by
  induction k generalizing p ca st with
  | zero => simp [buildSer, kidsP, critP]
  | succ k ih =>
    obtain ⟨a1, a2, a3, a4, a5, a6, a7, a8, a9⟩ := level_arith H hp hl
    unfold buildSer
    simp only [a1, a2, a3, a4, ofUB, bind, Except.bind, not_le.2 a5, if_false, a6, a7]
    let I : Nat → BS × Nat := fun m =>
      (⟨st.tree ++ ((List.range m).flatMap (kidA g codes k p)).map (nodeOf g codes),
        st.crit ++ ((List.range m).flatMap (critA g codes k p ca)).map (cnodeOf g codes)⟩,
       ((List.range m).flatMap (kidA g codes k p)).length)
    have e0 : ((st, 0) : BS × Nat) = I 0 := by simp [I]
    rw [e0, foldlM_range _ I]
    · simp only [I, kidsP_succ, critP_succ]
    · intro i hi
      have hq : Path.Ok g.d (p ++ [i]) := ok_snoc.2 ⟨hp, hi⟩
      have hql : (p ++ [i]).length + k = g.cb := by simp; omega
      have hcnt : g.cnt codes (p ++ [i]) = _ := count_eq H.hd H.bound hq (by omega)
      have hk' : g.cb - (p ++ [i]).length = k := by omega
      have hbound : ((List.range (i + 1)).flatMap (kidA g codes k p)).length ≤ szMax :=
        le_trans (flatMap_range_le _ hi) (kidsP_le_szMax H hsz (k := k + 1) hp (by omega))
      rw [List.range_succ, List.flatMap_append, List.flatMap_singleton, List.length_append] at hbound
      simp only [a8 i hi, a9 i hi, equalRange_child H hl hi, ← hcnt]
      by_cases hc : 0 < g.cnt codes (p ++ [i])
      · have hc' : g.cnt codes (p ++ [i]) ≠ 0 := by omega
        simp only [hc', ne_eq, not_false_eq_true, if_true]
        by_cases hm : g.maxLeaf < g.cnt codes (p ++ [i])
        · have hA : kidA g codes k p i = (p ++ [i]) :: kidsP g codes k (p ++ [i]) := by
            unfold kidA; rw [if_pos hc, if_pos hm]
          have hN : nodeOf g codes (p ++ [i]) = ⟨lo g.d g.cb codes (p ++ [i]), Rakau.hi g.d g.cb codes (p ++ [i]),
              (kidsP g codes k (p ++ [i])).length, Path.code g.d (p ++ [i]), p.length + 1⟩ := by
            unfold nodeOf desc; rw [if_pos hm, hk']; simp
          rw [hA, List.length_cons] at hbound
          rw [if_pos hm, ih hq hql]
          have e1 : ∀ (T R : List Node) (a : Node) (f : Node → Node),
              (T ++ [a] ++ R).modify ((T ++ [a]).length - 1) f = T ++ f a :: R := by
            intro T R a f
            have : (T ++ [a]).length - 1 = T.length := by simp
            rw [this, List.append_assoc]; exact modify_mid T R a f
          simp only [e1, pure, Except.pure]
          have e2 : ∀ (T R : List Node) (a b : Node), (T ++ b :: R)[(T ++ [a]).length - 1]? = some b := by
            intro T R a b
            have : (T ++ [a]).length - 1 = T.length := by simp
            rw [this]; simp
          simp only [e2, Option.map_some]
          rw [checkedUInc_ok (by simp only [I]; omega)]
          simp only
          rw [checkedUInc_ok (by simp only [I]; omega)]
          simp only [I, List.range_succ, List.flatMap_append, List.flatMap_singleton, hA, List.map_append, List.map_cons,
            hN, List.length_append, List.length_cons, List.append_assoc]
          have hC : critA g codes k p ca i = (if isCrit g ca (g.cnt codes (p ++ [i])) (p.length + 1) then [p ++ [i]] else []) ++
              critP g codes k (p ++ [i]) (isCrit g ca (g.cnt codes (p ++ [i])) (p.length + 1) || ca) := by
            unfold critA; rw [if_pos hc, if_pos hm]
          simp only [hC]
          cases isCrit g ca (g.cnt codes (p ++ [i])) (p.length + 1) <;> simp [cnodeOf, Nat.add_assoc]
        · have hA : kidA g codes k p i = [p ++ [i]] := by
            unfold kidA; rw [if_pos hc, if_neg hm]
          have hN : nodeOf g codes (p ++ [i]) = ⟨lo g.d g.cb codes (p ++ [i]), Rakau.hi g.d g.cb codes (p ++ [i]),
              0, Path.code g.d (p ++ [i]), p.length + 1⟩ := by
            unfold nodeOf desc; rw [if_neg hm]; simp
          rw [hA, List.length_singleton] at hbound
          rw [if_neg hm]
          have e2 : ∀ (T : List Node) (b : Node), (T ++ [b])[(T ++ [b]).length - 1]? = some b := by
            intro T b
            have : (T ++ [b]).length - 1 = T.length := by simp
            rw [this]; simp
          simp only [e2, Option.map_some, pure, Except.pure]
          rw [checkedUInc_ok (by simp only [I]; omega)]
          simp only
          rw [checkedUInc_ok (by simp only [I]; omega)]
          simp only [I, List.range_succ, List.flatMap_append, List.flatMap_singleton, hA, List.map_append, List.map_cons,
            hN, List.length_append, List.length_cons, List.append_assoc]
          have hC : critA g codes k p ca i = (if isCrit g ca (g.cnt codes (p ++ [i])) (p.length + 1) then [p ++ [i]] else []) := by
            unfold critA; rw [if_pos hc, if_neg hm, List.append_nil]
          simp only [hC]
          cases isCrit g ca (g.cnt codes (p ++ [i])) (p.length + 1) <;> simp [cnodeOf]
      · have hc' : g.cnt codes (p ++ [i]) = 0 := by omega
        have hA : kidA g codes k p i = [] := by unfold kidA; rw [if_neg hc]
        have hC : critA g codes k p ca i = [] := by unfold critA; rw [if_neg hc]
        simp [hc', I, List.range_succ, hA, hC, pure, Except.pure]

end Rakau
