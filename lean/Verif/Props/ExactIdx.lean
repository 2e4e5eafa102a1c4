import Verif.Props.Force

/-!
Property theorems C89: for which indices the exact functions are defined.
-/
set_option linter.unusedSectionVars false

namespace Rakau
open Spec

variable {K : Type} [Field K] [LinearOrder K] [IsStrictOrderedRing K] [FloorRing K]
variable {A : Arith K} {simd : Option (Simd K)} {mac : Mac} {w d : Nat} {s : TS (rakauEnv A simd mac w d)}

/-- There is no particle at an index beyond the end. -/
theorem ptAt_beyond (h : Reach _ s) {k : Nat} (hk : s.n ≤ k) : ptAt d s.parts k = none := by
  have I := reach_inv h
  have ha : s.parts.length = d + 1 := I.arr
  have hd : d < s.parts.length := by omega
  have hl := I.len _ (List.getElem_mem hd)
  unfold ptAt
  rw [List.getElem?_eq_getElem hd]
  cases (s.parts.take d).mapM (fun v => v[k]?) with
  | none => rfl
  | some pos =>
    show (do let m ← (s.parts[d])[k]?; some _) = _
    rw [List.getElem?_eq_none (by omega)]
    rfl

/-- The exact functions with usable parameters, from the unordered index on. -/
theorem exact_usable {eps : Fl K} {g : K} (he : (∃ u : K, eps = .fin u ∧ 0 ≤ u) ∧ ∃ u : K, A.mul eps eps = .fin u ∧ 0 ≤ u) (Q : Quant) (ordered : Bool)
    (k : Nat) : s.exact Q ordered (.fin g) eps k = (do
      let idx ← ofUB (if ordered then s.invPerm[k]? else some k)
      (List.range s.n).foldlM (fun r i =>
        if i = idx then .ok r else do
          let p ← ofUB (ptAt d s.parts idx)
          let q ← ofUB (ptAt d s.parts i)
          .ok (exactUpd A (.fin g) (A.mul eps eps) p q r)) (resZero Q d)) := by
  unfold TS.exact
  rcases computeEps2_cases A eps with ⟨_, _, h3⟩ | ⟨h3, _⟩
  · rw [h3]; rfl
  · exact absurd he h3

/-- C89: with usable parameters, in any arithmetic, and for every state of the tree: `exact_*_u(k)` returns a value if there is a particle `k` in the
order of the tree, or if the tree is empty, and otherwise reads beyond the end of the particles; `exact_*_o(k)` returns a value if the user's arrays have an
element `k`, and otherwise reads beyond the end of the permutation, also if the tree is empty. The index is never checked: no index throws. -/
theorem C89_defined (hS : SimdPos simd) (hs : Supported w d) (h : Reach _ s) (hz : s.n * cbits w d < 2 ^ 64) (Q : Quant) {eps : Fl K} {g : K}
    (he : (∃ u : K, eps = .fin u ∧ 0 ≤ u) ∧ ∃ u : K, A.mul eps eps = .fin u ∧ 0 ≤ u) (k : Nat) :
    ((k < s.n ∨ s.n = 0) → ∃ r, s.exact Q false (.fin g) eps k = .ok r) ∧
    (¬ (k < s.n ∨ s.n = 0) → s.exact Q false (.fin g) eps k = .error .ub) ∧
    (k < s.n → ∃ r, s.exact Q true (.fin g) eps k = .ok r) ∧
    (¬ k < s.n → s.exact Q true (.fin g) eps k = .error .ub) := by
  have I := reach_inv h
  refine ⟨?_, ?_, ?_, ?_⟩
  · rintro (hk | h0)
    · obtain ⟨pt, _, e⟩ := C40_each_once hS hs h hz Q (g := g) he hk
      exact ⟨_, e⟩
    · rw [exact_usable he, h0]
      exact ⟨_, rfl⟩
  · intro hk
    push Not at hk
    rw [exact_usable he]
    obtain ⟨m, hm⟩ := Nat.exists_eq_succ_of_ne_zero hk.2
    show (List.range s.n).foldlM _ _ = _
    rw [hm, List.range_succ_eq_map, List.foldlM_cons, if_neg (by omega), ptAt_beyond h hk.1]
    rfl
  · intro hk
    obtain ⟨i, _, hi, e⟩ := (C40_ordered h Q (.fin g) eps).1 k hk
    obtain ⟨pt, _, e'⟩ := C40_each_once hS hs h hz Q (g := g) he hi
    exact ⟨_, e.trans e'⟩
  · intro hk
    rw [exact_usable he, if_pos rfl, List.getElem?_eq_none (by rw [I.invLen]; omega)]
    rfl

/-- Five particles: indices 4 and 5. -/
example : (∃ r, (gS .bh).exact .both false (.fin 2) (.fin 0) 4 = .ok r) ∧ (gS .bh).exact .both false (.fin 2) (.fin 0) 5 = .error .ub ∧
    (∃ r, (gS .bh).exact .both true (.fin 2) (.fin 0) 4 = .ok r) ∧ (gS .bh).exact .both true (.fin 2) (.fin 0) 5 = .error .ub := by
  have H := fun k => C89_defined g_simd g_supp (g_reach .bh) (g_size .bh) .both (eps := .fin 0) (g := 2)
    ⟨⟨0, rfl, le_rfl⟩, 0 * 0, rfl, by norm_num⟩ k
  refine ⟨(H 4).1 (.inl (by rw [g_n]; decide)), (H 5).2.1 (by rw [g_n]; decide), (H 4).2.2.1 (by rw [g_n]; decide), (H 5).2.2.2 (by rw [g_n]; decide)⟩

/-- C89: the parameters are checked before the index is used: with parameters that are not usable, every index gives the same exception, and undefined
behaviour needs usable parameters. -/
theorem C89_parameters (Q : Quant) (ordered : Bool) (G eps : Fl K) (k : Nat) (hub : s.exact Q ordered G eps k = .error .ub) :
    (∃ u : K, eps = .fin u ∧ 0 ≤ u) ∧ (∃ u : K, A.mul eps eps = .fin u ∧ 0 ≤ u) ∧ ∃ g : K, G = .fin g := by
  by_contra hn
  rw [C28_exact_functions s Q ordered G eps k hn] at hub
  cases hub

example : (gS .bh).exact .both true (.fin 2) (.fin 0) 5 = .error .ub ∧ (gS .bh).exact .both true (.fin 2) (.fin (-1)) 5 = .error .domain := by
  decide +kernel

/-- C89: in an empty tree (default constructed, moved from, or after a failed update) the unordered functions return zeros for every index: no particle acts,
and no position is read. The ordered ones are undefined for every index. -/
theorem C89_empty (h : Reach _ s) (h0 : s.n = 0) (Q : Quant) {eps : Fl K} {g : K}
    (he : (∃ u : K, eps = .fin u ∧ 0 ≤ u) ∧ ∃ u : K, A.mul eps eps = .fin u ∧ 0 ≤ u) (k : Nat) :
    s.exact Q false (.fin g) eps k = .ok (resZero Q d) ∧ s.exact Q true (.fin g) eps k = .error .ub := by
  constructor
  · rw [exact_usable he, h0]
    rfl
  · rw [exact_usable he, if_pos rfl, List.getElem?_eq_none (by rw [(reach_inv h).invLen]; omega)]
    rfl

example : (TS.default (rakauEnv sqQ none .bh 64 3)).exact .acc false (.fin 1) (.fin 0) 7 = .ok ⟨[.fin 0, .fin 0, .fin 0], []⟩ ∧
    (TS.default (rakauEnv sqQ none .bh 64 3)).exact .acc true (.fin 1) (.fin 0) 0 = .error .ub :=
  ⟨(C89_empty .default rfl .acc ⟨⟨0, rfl, le_rfl⟩, 0 * 0, rfl, by norm_num⟩ 7).1, (C89_empty .default rfl .acc ⟨⟨0, rfl, le_rfl⟩, 0 * 0, rfl, by norm_num⟩ 0).2⟩

end Rakau
