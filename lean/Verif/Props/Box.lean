import Verif.Props.Finite

/-! Property theorem on the box size: C56. -/
namespace Rakau
open Spec

variable {K : Type} [Field K] [LinearOrder K] [IsStrictOrderedRing K] [FloorRing K]

omit [FloorRing K] in
theorem rnd_nonneg {A : Arith K} (L : A.Laws) {q r : K} (hq : 0 ≤ q) (h : A.rnd q = .fin r) : 0 ≤ r :=
  L.fin_le hq L.zero h

omit [FloorRing K] in
/-- The product of two non-negative numbers, if finite. -/
theorem mul_nonneg_fin {A : Arith K} (L : A.Laws) {a b r : K} (ha : 0 ≤ a) (hb : 0 ≤ b) (h : A.mul (.fin a) (.fin b) = .fin r) : 0 ≤ r :=
  rnd_nonneg L (mul_nonneg ha hb) h

omit [IsStrictOrderedRing K] [FloorRing K] in
theorem fma_nonfin3 (A : Arith K) {a b c : Fl K} (h : c.isFinite = false) : (A.fma a b c).isFinite = false := by
  unfold Arith.fma
  split
  · cases c with
    | fin q => cases h
    | nan => cases Arith.mulPre a b <;> rfl
    | inf t =>
      cases Arith.mulPre a b with
      | nan => rfl
      | inf s => simp only; split <;> rfl
      | fin q => rfl
  · cases c with
    | fin q => cases h
    | nan => cases A.mul a b <;> rfl
    | inf t =>
      cases A.mul a b with
      | nan => rfl
      | inf s => simp only [Arith.add]; split <;> rfl
      | fin q => rfl

theorem deduceBox_ok {A : Arith K} (L : A.Laws) {d n : Nat} {parts : List (List (Fl K))} (hd : 0 < d) (harr : d ≤ parts.length) (hlen : ∀ v ∈ parts, v.length = n)
    {b : Fl K} (h : deduceBox A d parts = .ok b) : boxOkFl b = true := by
  rcases deduceBox_cases A hd ⟨harr, hlen⟩ with ⟨m, ⟨m0, _⟩, e⟩ | ⟨_, e⟩
  · rw [e] at h
    unfold boxFromMax at h
    simp only [maxElement, List.foldl_nil, ofUB, bind, Except.bind] at h
    split at h
    · cases h
    · rename_i hf
      rw [Except.ok.injEq] at h
      subst h
      rw [boxOk_iff]
      have hf : (A.fma (A.mul (.fin m) (.fin 2)) (A.div (.fin 1) (.fin 20)) (A.mul (.fin m) (.fin 2))).isFinite = true := by simpa using hf
      obtain ⟨q, hq⟩ := Fl.isFinite_iff.1 hf
      refine ⟨q, hq, ?_⟩
      have f1 : (A.mul (.fin m) (.fin 2)).isFinite = true := by
        by_contra hc
        rw [fma_nonfin3 A (by simpa using hc)] at hf
        cases hf
      obtain ⟨u, hu⟩ := Fl.isFinite_iff.1 f1
      rw [hu] at hf hq
      have f2 : (A.div (.fin 1) (.fin 20)).isFinite = true := by
        by_contra hc
        rw [fma_nonfin A (.inr (by simpa using hc))] at hf
        cases hf
      obtain ⟨v, hv⟩ := Fl.isFinite_iff.1 f2
      have u0 : 0 ≤ u := mul_nonneg_fin L m0 zero_le_two hu
      have v0 : 0 ≤ v := by
        have : A.rnd (1 / 20) = .fin v := by
          have hv : (if (20 : K) = 0 then _ else A.rnd (1 / 20)) = Fl.fin v := hv
          rwa [if_neg (by norm_num)] at hv
        exact rnd_nonneg L (by norm_num) this
      rw [hv] at hq
      unfold Arith.fma at hq
      split at hq
      · exact rnd_nonneg L (add_nonneg (mul_nonneg u0 v0) u0) hq
      · cases hp : A.mul (.fin u) (.fin v) with
        | nan => rw [hp] at hq; cases hq
        | inf s => rw [hp] at hq; cases hq
        | fin p =>
          rw [hp] at hq
          exact rnd_nonneg L (add_nonneg (mul_nonneg_fin L u0 v0 hp) u0) hq
  · rw [e] at h; cases h

/-- C56: the box size of every tree is finite and not negative, whatever has happened to the tree; if the tree has particles, it is positive. -/
theorem C56_box {A : Arith K} (L : A.Laws) {simd : Option (Simd K)} {mac : Mac} {w d : Nat} (hs : Supported w d) {s : TS (rakauEnv A simd mac w d)}
    (h : Reach (rakauEnv A simd mac w d) s) : ∃ b : K, s.box = .fin b ∧ 0 ≤ b ∧ (s.n ≠ 0 → 0 < b) := by
  have hd := hs.dim.1
  have key : boxOkFl (K := K) s.box = true := by
    have dflt : ∀ {t : TS (rakauEnv A simd mac w d)}, t = TS.default _ → boxOkFl (K := K) t.box = true := by
      rintro t rfl
      exact boxOk_iff.2 ⟨0, rfl, le_rfl⟩
    induction h with
    | default => exact dflt rfl
    | construct inp s hl hc =>
      obtain ⟨raw, ord, split, hck, hb, _⟩ := construct_ok hc
      rcases check_cases inp with ⟨_, c1, c2, _⟩ | ⟨hc', _⟩
      · cases hbox : inp.box with
        | none =>
          rw [hbox] at hb
          exact deduceBox_ok L hd (by show d ≤ _; have : inp.parts.length = d + 1 := hl; omega) c1 hb
        | some b =>
          rw [hbox] at hb c2
          have : b = s.box := Except.ok.inj hb
          rw [← this]
          exact c2
      · rw [hck] at hc'; cases hc'
    | particles s s' o f hr hu ih =>
      have hs' := reach_inv hr
      obtain ⟨parts, h1, h2⟩ := update_ok hu
      have hpre := preSync_of_run hs' h1
      obtain ⟨raw, ord, split, hb, _⟩ := sync_ok h2
      by_cases hde : s.deduced = true
      · have hb : deduceBox A d parts = .ok s'.box := by
          have := hb
          rw [if_pos (show ({ s with parts := parts } : TS _).deduced = true from hde)] at this
          exact this
        exact deduceBox_ok L hd (parts := parts) (Nat.le_of_succ_le (le_of_eq (show parts.length = d + 1 from hpre.arr).symm)) hpre.len hb
      · have hb : Except.ok s.box = Except.ok (ε := Err) s'.box := by
          have := hb
          rw [if_neg (show ¬ ({ s with parts := parts } : TS _).deduced = true from hde)] at this
          exact this
        rw [← Except.ok.inj hb]
        exact ih
    | particlesFail s s' o f e hr hu ih => exact dflt (update_threw (reach_inv hr) hu)
    | masses s s' o f hr hu ih =>
      obtain ⟨m, h1, h2, h3⟩ := masses_ok hu
      rw [h3]
      exact ih
    | massesFail s s' o f e hr hu ih => exact dflt (masses_threw (reach_inv hr) hu)
    | copy s hr ih => exact ih
    | moveTo s junk hr hj ih => exact ih
    | moveFrom s junk hr hj ih => exact dflt (clear_eq_default _ hj)
    | copyAssign t o s same fail ht ho hc iht iho =>
      rcases copyAssign_cases hc with ⟨h, _⟩ | ⟨h, _⟩
      · subst h; exact iht
      · subst h; exact iho
    | copyAssignFail t o s same fail e ht ho hc iht iho => exact dflt (copyAssign_threw (reach_inv ht).arr (reach_inv ho).arr hc)
    | moveAssignTo t o junk same ht ho hj iht iho =>
      unfold moveAssign
      split
      · exact iht
      · exact iho
    | moveAssignFrom t o junk same ht ho hj iht iho =>
      unfold moveAssign
      split
      · exact iht
      · exact dflt (clear_eq_default _ hj)
    | clear s hr ih => exact dflt (clear_eq_default _ (reach_inv hr).arr)
  obtain ⟨b, hb, hb0⟩ := boxOk_iff.1 key
  refine ⟨b, hb, hb0, fun hn => hb0.lt_of_ne ?_⟩
  rintro rfl
  -- a box of size zero rejects every coordinate
  have I := reach_inv h
  obtain ⟨hcl, hcs⟩ := rawCodes_spec.1 I.codes
  obtain ⟨c, c1, c2⟩ := reach_coords hs h (k := 0) (by omega)
  have h1 : (do codeOf A w d s.box (← ofUB (coordsAt d s.parts 0))) = .ok (s.codes[0]'(by omega)) := hcs 0 (by omega)
  rw [c2, hb] at h1
  have h1 : codeOf A w d (.fin 0) (c.map .fin) = .ok (s.codes[0]'(by omega)) := h1
  rcases codeOf_cases A hs (box := .fin 0) (c := c.map .fin) (by simpa using c1) with ⟨xs, v, h2, _⟩ | ⟨_, e⟩
  · have hlen := h2.length_eq
    have h3 := (forall₂_getElem h2).2 0 (by simpa [c1] using hd) (by rw [← hlen]; simpa [c1] using hd)
    have hinv : (invBox A (.fin (0 : K))).isFinite = false := by
      unfold invBox Arith.div
      simp [Fl.isFinite]
    have := discScaled_nonfin A (cb := cbits w d) (x := (c.map Fl.fin)[0]'(by simpa [c1] using hd)) (inv := invBox A (.fin (0 : K))) (.inr hinv)
    rcases discSingle_cases A (cbits_le w d) ((c.map Fl.fin)[0]'(by simpa [c1] using hd)) (invBox A (.fin (0 : K))) with ⟨q, hq, _⟩ | ⟨_, e⟩
    · rw [hq] at this; simp [Fl.isFinite] at this
    · rw [e] at h3; simp at h3
  · rw [e] at h1; cases h1

/-- A tree with particles and a tree without, the box of which may be zero. -/
example : ∃ b : ℚ, (gS .bh).box = .fin b ∧ 0 ≤ b ∧ ((gS .bh).n ≠ 0 → 0 < b) := C56_box (exact_laws sqQ_exact) g_supp (g_reach .bh)

example : (TS.default (gEnv .bh)).box = .fin 0 ∧ (gS .bh).box = .fin 16 := by decide +kernel

end Rakau
