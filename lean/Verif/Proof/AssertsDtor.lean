import Verif.Proof.AssertsState

/-! The destructor and the update of the masses in a debug build. -/
set_option linter.unusedSectionVars false

namespace Rakau
open Spec

theorem noRepeat_of {l : List Nat} (h : l.Nodup) : noRepeat l = true := by
  induction l with
  | nil => rfl
  | cons a l ih =>
    cases l with
    | nil => rfl
    | cons b l =>
      rw [List.nodup_cons] at h
      simp only [noRepeat, ih h.2, Bool.and_true, bne_iff_ne, ne_eq]
      rintro rfl
      exact h.1 (by simp)

theorem mergeSort_range {n : Nat} {l : List Nat} (h : l.Perm (List.range n)) : l.mergeSort (· ≤ ·) = List.range n := by
  apply List.Perm.eq_of_pairwise (le := fun a b => a ≤ b) (fun a b _ _ h1 h2 => le_antisymm h1 h2)
  · have := List.pairwise_mergeSort (le := fun a b : Nat => decide (a ≤ b)) (by intro a b c; simp; omega) (by intro a b; simp; omega) l
    simpa using this
  · exact (List.pairwise_lt_range).imp (fun h => h.le)
  · exact (List.mergeSort_perm _ _).trans h

/-- A loop whose body either succeeds or fails in a known way. -/
theorem forM_cases {α : Type} {l : List α} {f : α → Dbg Unit} {P : α → Prop} {E : α → Stop → Prop}
    (h : ∀ a ∈ l, (f a = .ok () ∧ P a) ∨ ∃ e, f a = .error e ∧ E a e) :
    (l.forM f = .ok () ∧ ∀ a ∈ l, P a) ∨ ∃ e, l.forM f = .error e ∧ ∃ a ∈ l, E a e := by
  induction l with
  | nil => exact .inl ⟨rfl, by simp⟩
  | cons a l ih =>
    rcases h a (by simp) with ⟨h1, h2⟩ | ⟨e, h1, h2⟩
    · have e1 : (a :: l).forM f = l.forM f := by
        show (f a >>= fun _ => l.forM f) = _
        rw [h1]; rfl
      rw [e1]
      rcases ih (fun b hb => h b (by simp [hb])) with ⟨k1, k2⟩ | ⟨e, k1, b, hb, k2⟩
      · exact .inl ⟨k1, by simpa using ⟨h2, k2⟩⟩
      · exact .inr ⟨e, k1, b, by simp [hb], k2⟩
    · refine .inr ⟨e, ?_, a, by simp, h2⟩
      show (f a >>= fun _ => l.forM f) = _
      rw [h1]; rfl

variable {K : Type} [Field K] [LinearOrder K] [IsStrictOrderedRing K] [FloorRing K] {A : Arith K} {simd : Option (Simd K)} {mac : Mac} {w d : Nat}

/-- The computed bounds of the box hold for `x`. -/
def InBounds (A : Arith K) (box x : Fl K) : Prop := x.lt (A.div box (.fin 2)) = true ∧ x.ge (A.div box.neg (.fin 2)) = true

/-- One of the two assertions about the box, and the coordinate `x` for which it fails. -/
def BoxCheck (A : Arith K) (box x : Fl K) (e : Stop) : Prop :=
  (e = .failed (.tree 1858) ∧ ¬ x.lt (A.div box (.fin 2)) = true) ∨ (e = .failed (.tree 1859) ∧ ¬ x.ge (A.div box.neg (.fin 2)) = true)

theorem boundsD_cases (A : Arith K) (box : Fl K) (c : List (Fl K)) :
    (boundsD A box c = .ok () ∧ ∀ x ∈ c, InBounds A box x) ∨ ∃ e, boundsD A box c = .error e ∧ ∃ x ∈ c, BoxCheck A box x e := by
  apply forM_cases
  intro x _
  by_cases h1 : x.lt (A.div box (.fin 2)) = true
  · by_cases h2 : x.ge (A.div box.neg (.fin 2)) = true
    · exact .inl ⟨by rw [chk_true h1, bind_ok', chk_true h2], h1, h2⟩
    · refine .inr ⟨_, ?_, .inr ⟨rfl, h2⟩⟩
      rw [chk_true h1, bind_ok']
      simp [chk, h2]
  · refine .inr ⟨_, ?_, .inl ⟨rfl, h1⟩⟩
    simp only [chk, if_neg h1]
    rfl

/-- The destructor: only the assertions about the box can fail. -/
theorem dtorD_cases {f : Fast} (hs : Supported w d) (hf : f.Ok w) {s : TS (rakauEnv A simd mac w d)} (h : TInv s) :
    (dtorD f s = .ok () ∧ ∀ i < s.n, ∀ c, coordsAt d s.parts i = some c → ∀ x ∈ c, InBounds A s.box x) ∨
    ∃ e, dtorD f s = .error e ∧ ∃ i < s.n, ∃ c, coordsAt d s.parts i = some c ∧ ∃ x ∈ c, BoxCheck A s.box x e := by
  obtain ⟨hcl, hcd⟩ := rawCodes_spec.1 h.codes
  have hpl := perm_length h.perm
  have hll := perm_length h.lastPerm
  have hcode : ∀ i < s.n, ∃ c v, coordsAt d s.parts i = some c ∧ s.codes[i]? = some v ∧ codeOf A w d s.box c = .ok v := by
    intro i hi
    have := hcd i (by omega)
    cases hc : coordsAt (rakauEnv A simd mac w d).d s.parts i with
    | none => rw [hc] at this; simp [ofUB, bind, Except.bind] at this
    | some c =>
      rw [hc] at this
      exact ⟨c, _, rfl, List.getElem?_eq_getElem (by omega), this⟩
  have loop : ∀ i ∈ List.range s.n, ((do
        let c ← dbg (ofUB (coordsAt d s.parts i))
        let v ← dbg (ofUB s.codes[i]?)
        boundsD A s.box c
        recodeD f A w d s.box c v : Dbg Unit) = .ok () ∧ ∀ c, coordsAt d s.parts i = some c → ∀ x ∈ c, InBounds A s.box x) ∨
      ∃ e, (do
        let c ← dbg (ofUB (coordsAt d s.parts i))
        let v ← dbg (ofUB s.codes[i]?)
        boundsD A s.box c
        recodeD f A w d s.box c v : Dbg Unit) = .error e ∧ ∃ c, coordsAt d s.parts i = some c ∧ ∃ x ∈ c, BoxCheck A s.box x e := by
    intro i hi
    obtain ⟨c, v, h1, h2, h3⟩ := hcode i (List.mem_range.1 hi)
    rw [h1, h2]
    simp only [ofUB, dbg_ok, bind_ok']
    rcases boundsD_cases A s.box c with ⟨k1, k2⟩ | ⟨e, k1, x, hx, k2⟩
    · left
      refine ⟨?_, fun c' hc' => by obtain rfl := Option.some.inj hc'; exact k2⟩
      rw [k1, bind_ok']
      unfold recodeD
      rw [codeOfD_eq A hs hf, h3, dbg_ok, bind_ok', chk_true (by simp)]
    · exact .inr ⟨e, by rw [k1]; rfl, c, rfl, x, hx, k2⟩
  have tail : ((List.range s.perm.length).forM (fun i => do
      let p ← dbg (ofUB s.perm[i]?)
      chk (.tree 1866) (decide (p < s.invPerm.length))
      chk (.tree 1867) (s.invPerm[p]? == some i)) : Dbg Unit) = .ok () := by
    refine forM_ok (fun i hi => ?_)
    have hi' : i < s.perm.length := List.mem_range.1 hi
    have hp : s.perm[i]? = some s.perm[i] := List.getElem?_eq_getElem hi'
    have hlt := perm_lt h.perm (List.getElem_mem hi')
    rw [hp]
    simp only [ofUB, dbg_ok, bind_ok']
    rw [chk_true (by rw [h.invLen]; exact decide_eq_true hlt), bind_ok', chk_true (by rw [h.inv i _ hp]; simp)]
  unfold dtorD
  rw [chk_true (by simp only [List.all_eq_true, beq_iff_eq]; exact h.len), bind_ok', chk_true (by rw [hcl]; simp), bind_ok',
    chk_true (isSorted_of h.sorted), bind_ok', chk_true (by rw [hpl]; simp), bind_ok', chk_true (by rw [hll]; simp), bind_ok',
    chk_true (by rw [h.invLen]; simp), bind_ok']
  rcases forM_cases loop with ⟨k1, k2⟩ | ⟨e, k1, i, hi, k2⟩
  · left
    refine ⟨?_, fun i hi => k2 i (List.mem_range.2 hi)⟩
    rw [k1, bind_ok', tail, bind_ok']
    simp only [mergeSort_range h.perm, mergeSort_range h.lastPerm, chk_true (noRepeat_of List.nodup_range), bind_ok']
    split
    · rename_i hn
      obtain ⟨m, hm⟩ := Nat.exists_eq_succ_of_ne_zero hn
      rw [chk_true (by rw [hm, List.range_succ_eq_map]; simp), bind_ok', chk_true (by rw [hm, List.range_succ]; simp)]
    · rfl
  · right
    exact ⟨e, by rw [k1]; rfl, i, List.mem_range.1 hi, k2⟩

/-- The masses: no assertion fails. -/
theorem massesD_eq (hs : Supported w d) {s : TS (rakauEnv A simd mac w d)} (h : TInv s) (hz : s.n * cbits w d < 2 ^ 64) (ordered : Bool)
    (f : Prog (Fl K)) : ∃ r, massesD s ordered f = dbg r ∧ updateMasses s ordered f = guard r s := by
  refine ⟨_, ?_, rfl⟩
  have E := rakauEnv_ok A simd mac hs
  obtain ⟨split, hb⟩ := h.built
  obtain ⟨hcl, _⟩ := rawCodes_spec.1 h.codes
  have H : Hyp (⟨w, d, s.maxLeaf, s.ncrit⟩ : Cfg) s.codes := ⟨hs.dim.1, hs.dim.2.1, hs.dim.2.2, h.sorted, codes_bound E h.codes⟩
  have hg := good_of_build H (by rw [hcl]; show s.n * cbits w d ≤ szMax; unfold szMax; omega) hb
  unfold massesD
  rw [dbg_bind]
  congr 1
  funext m
  dsimp only
  rw [dbg_bind, mapM_dbg (f := fun nd => nodeProps A simd mac w d s.box nd (s.parts.take d ++ m))
    (fun nd hnd => by obtain ⟨h1, p, h2, h3, h4⟩ := hg nd hnd; exact nodePropsD_eq A simd mac hs _ _ h1 h2 h3 h4)]
  rfl

end Rakau
