import Verif.Proof.ForceState

/-! Finiteness of the data of a reachable tree, and signs of floating-point results, in any arithmetic. -/
set_option linter.unusedSectionVars false

namespace Rakau
open Spec

variable {K : Type} [Field K] [LinearOrder K] [FloorRing K]

theorem nodeProps_finite [IsStrictOrderedRing K] (A : Arith K) (simd : Option (Simd K)) (mac : Mac) {w d n : Nat} (hs : Supported w d) (box : Fl K)
    {parts : List (List (Fl K))} (hl : parts.length = d + 1) (hn : ∀ v ∈ parts, v.length = n) {nd : Node} (h1 : nd.beg ≤ nd.fin)
    (h2 : nd.fin ≤ n) {p : Path} (hp : p.Ok d) (hpl : p.length ≤ cbits w d) (hc : nd.code = p.code d) (hlev : nd.level = p.length)
    {r : NProps K} (h : nodeProps A simd mac w d box nd parts = .ok r) :
    r.com.length = d ∧ (∀ c ∈ r.com, c.isFinite = true) ∧ r.mass.isFinite = true ∧ r.dim.isFinite = true ∧ r.delta.isFinite = true := by
  obtain ⟨com, mass, e, hcl⟩ := nodeSums_total A simd hl hn h1 h2
  obtain ⟨cen, hclen, hcen⟩ : ∃ cen, cen.length = d ∧ nodeCentre A w d (p.code d) box = .ok cen := by
    obtain ⟨c, _, hclen, hcen⟩ := nodeCentre_eq A hs hp hpl box
    exact ⟨_, by rw [List.length_map]; exact hclen, hcen⟩
  have hd := hs.dim
  have hdim := nodeDim_eq A (show p.length < w by have := cbits_mul_lt hd.1 hd.2.1; have := Nat.le_mul_of_pos_right (cbits w d) hd.1; omega) box
  unfold nodeProps at h
  rw [e, hc, hlev] at h
  simp only [ofUB, bind, Except.bind] at h
  have fin_ : ∀ {l : List (Fl K)}, ¬ (l.any (fun c => !c.isFinite) = true) → ∀ c ∈ l, c.isFinite = true := by
    intro l hl c hc
    by_contra h
    exact hl (List.any_eq_true.2 ⟨c, hc, by simpa using h⟩)
  cases mac with
  | bh =>
    simp only [hcen, hdim] at h
    by_cases hm : mass.eq (.fin 0) = true
    · rw [if_pos hm] at h
      split at h
      · simp at h
      · rename_i f1
        split at h
        · simp at h
        · rename_i f2
          split at h
          · simp at h
          · rename_i f3
            simp only [Except.ok.injEq] at h
            subst h
            exact ⟨hclen, fin_ f1, by simpa using f2, by simpa using f3, rfl⟩
    · rw [if_neg hm] at h
      split at h
      · simp at h
      · rename_i f1
        split at h
        · simp at h
        · rename_i f2
          split at h
          · simp at h
          · rename_i f3
            simp only [Except.ok.injEq] at h
            subst h
            exact ⟨(List.length_map _).trans hcl, fin_ f1, by simpa using f2, by simpa using f3, rfl⟩
  | bhGeom =>
    simp only [hcen, hdim] at h
    by_cases hm : mass.eq (.fin 0) = true
    · rw [if_pos hm] at h
      split at h
      · simp at h
      · rename_i f1
        split at h
        · simp at h
        · rename_i f2
          split at h
          · simp at h
          · rename_i f3
            cases hr : dist2 A cen cen with
            | none => rw [hr] at h; simp at h
            | some q =>
              rw [hr] at h
              simp only at h
              split at h
              · simp at h
              · rename_i f4
                simp only [Except.ok.injEq] at h
                subst h
                exact ⟨hclen, fin_ f1, by simpa using f2, by simpa using f3, by simpa using f4⟩
    · rw [if_neg hm] at h
      split at h
      · simp at h
      · rename_i f1
        split at h
        · simp at h
        · rename_i f2
          split at h
          · simp at h
          · rename_i f3
            cases hr : dist2 A (com.map (fun c => A.mul c (A.div (.fin 1) mass))) cen with
            | none => rw [hr] at h; simp at h
            | some q =>
              rw [hr] at h
              simp only at h
              split at h
              · simp at h
              · rename_i f4
                simp only [Except.ok.injEq] at h
                subst h
                exact ⟨(List.length_map _).trans hcl, fin_ f1, by simpa using f2, by simpa using f3, by simpa using f4⟩

section Reach
variable [IsStrictOrderedRing K] {A : Arith K} {simd : Option (Simd K)} {mac : Mac} {w d : Nat} {s : TS (rakauEnv A simd mac w d)}
  (hs : Supported w d) (h : Reach _ s) (hz : s.n * cbits w d < 2 ^ 64)
include hs h

theorem reach_coords {k : Nat} (hk : k < s.n) : ∃ c : List K, c.length = d ∧ coordsAt d s.parts k = some (c.map .fin) := by
  have I := reach_inv h
  obtain ⟨hcl, hcs⟩ := rawCodes_spec.1 I.codes
  have h1 : (do codeOf A w d s.box (← ofUB (coordsAt d s.parts k))) = .ok s.codes[k] := hcs k (by omega)
  cases hc : coordsAt d s.parts k with
  | none => rw [hc] at h1; simp [ofUB, bind, Except.bind] at h1
  | some l =>
    rw [hc] at h1
    simp only [ofUB, bind, Except.bind] at h1
    by_cases hl : l.length = d
    · rcases codeOf_cases A hs (box := s.box) hl with ⟨xs, v, h2, _⟩ | ⟨_, e⟩
      · have hfin : ∀ x ∈ l, x.isFinite = true := by
          intro x hx
          obtain ⟨i, hi, rfl⟩ := List.getElem_of_mem hx
          have h3 := (forall₂_getElem h2).2 i hi (by have := h2.length_eq; omega)
          by_contra hf
          have hf : (l[i]).isFinite = false := by simpa using hf
          have := discScaled_nonfin A (cb := cbits w d) (inv := invBox A s.box) (.inl hf)
          rcases discSingle_cases A (cbits_le w d) l[i] (invBox A s.box) with ⟨q, hq, _⟩ | ⟨_, e⟩
          · rw [hq] at this; simp [Fl.isFinite] at this
          · rw [e] at h3; simp at h3
        refine ⟨l.map Fl.val, by simpa using hl, ?_⟩
        rw [List.map_map]
        congr 1
        symm
        rw [List.map_eq_iff]
        intro i
        cases hi : l[i]? with
        | none => rfl
        | some y =>
          obtain ⟨q, rfl⟩ := Fl.isFinite_iff.1 (hfin y (List.mem_of_getElem? hi))
          rfl
      · rw [e] at h1; simp at h1
    · unfold codeOf at h1
      rw [if_pos hl] at h1
      simp at h1

include hz

theorem reach_props {i : Nat} (hi : i < s.tree.length) :
    ∃ hp : i < s.props.length, s.props[i].com.length = d ∧ (∀ c ∈ s.props[i].com, c.isFinite = true) ∧ s.props[i].mass.isFinite = true ∧
      s.props[i].dim.isFinite = true ∧ s.props[i].delta.isFinite = true := by
  obtain ⟨_, _, _, hp, p, p1, p2, p3, p4, p5, p6, p7, _⟩ := reach_node (rakauEnv_ok A simd mac hs) h hz hi
  have I := reach_inv h
  exact ⟨hp, nodeProps_finite A simd mac hs s.box I.arr I.len p5.le p6 p1 p2 p3 p4 p7⟩

end Reach

/-! ### Signs -/

/-- `a` is not NaN and not negative. -/
def Fl.Nonneg : Fl K → Prop
  | .nan => False
  | .inf s => s = false
  | .fin q => 0 ≤ q

section Sign
variable [IsStrictOrderedRing K] {A : Arith K} (L : A.Laws)
include L

theorem nonneg_rnd {q : K} (h : 0 ≤ q) : (A.rnd q).Nonneg := by
  have h1 := L.mono 0 q h
  rw [L.zero] at h1
  cases hr : A.rnd q with
  | nan => exact absurd hr (L.notNan q)
  | inf s => rw [hr] at h1; simpa [Fl.le, Fl.ge, Fl.lt, Fl.Nonneg] using h1
  | fin r => rw [hr] at h1; simpa [Fl.le, Fl.ge, Fl.lt, Fl.Nonneg] using h1

theorem nonneg_add {a b : Fl K} (ha : a.Nonneg) (hb : b.Nonneg) : (A.add a b).Nonneg := by
  cases a with
  | nan => exact ha.elim
  | inf s =>
    cases b with
    | nan => exact hb.elim
    | inf t => simp only [Fl.Nonneg] at ha hb; subst ha; subst hb; simp [Arith.add, Fl.Nonneg]
    | fin q => exact ha
  | fin p =>
    cases b with
    | nan => exact hb.elim
    | inf t => exact hb
    | fin q => exact nonneg_rnd L (add_nonneg ha hb)

theorem nonneg_sq {a : Fl K} (ha : a ≠ .nan) : (A.mul a a).Nonneg := by
  cases a with
  | nan => exact absurd rfl ha
  | inf s => simp [Arith.mul, Arith.mulPre, Fl.Nonneg]
  | fin p => exact nonneg_rnd L (mul_self_nonneg p)

theorem nonneg_fma_sq {a c : Fl K} (ha : a ≠ .nan) (hc : c.Nonneg) : (A.fma a a c).Nonneg := by
  unfold Arith.fma
  split
  · cases a with
    | nan => exact absurd rfl ha
    | inf s =>
      cases c with
      | nan => exact hc.elim
      | inf t => simp only [Fl.Nonneg] at hc; subst hc; simp [Arith.mulPre, Fl.Nonneg]
      | fin q => simp [Arith.mulPre, Fl.Nonneg]
    | fin p =>
      cases c with
      | nan => exact hc.elim
      | inf t => exact hc
      | fin q => exact nonneg_rnd L (add_nonneg (mul_self_nonneg p) hc)
  · exact nonneg_add L (nonneg_sq L ha) hc

omit L in
theorem exact_laws (hA : A.Exact) : A.Laws where
  notNan q := by rw [hA]; simp
  mono a b h := by rw [hA, hA]; simp [Fl.le, Fl.ge, Fl.lt, h]
  zero := hA _
  half := hA _
  pow k _ := hA _
  idem q r _ := hA r

omit L in
theorem Fl.Nonneg.ne_nan {a : Fl K} (h : a.Nonneg) : a ≠ .nan := by
  rintro rfl; exact h

end Sign

end Rakau
