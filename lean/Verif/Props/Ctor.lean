import Verif.Proof.Ctor
import Verif.Proof.Finite

/-! C41: which inputs the constructor accepts. -/
set_option linter.unusedSectionVars false

namespace Rakau
namespace Spec
variable {K : Type} [Field K] [LinearOrder K]

/-- Acceptable arguments: positive parameters, arrays of the same length, finite data, and a domain with all the particles: a given one that is
finite and not negative, or a deduced one, for which not all particles may be at the origin. -/
def ValidInput (d : Nat) (box : Option (Fl K)) (maxLeaf ncrit : Nat) (parts : List (List (Fl K))) : Prop :=
  maxLeaf ≠ 0 ∧ ncrit ≠ 0 ∧ (∀ v ∈ parts, ∀ u ∈ parts, v.length = u.length) ∧ (∀ v ∈ parts, ∀ x ∈ v, x.isFinite = true) ∧
  match box with
  | some b => ∃ q, b = .fin q ∧ 0 ≤ q ∧ ∀ v ∈ parts.take d, ∀ x ∈ v, ∀ y, x = .fin y → InBox q y
  | none => (∀ v ∈ parts, v = []) ∨ ∃ v ∈ parts.take d, ∃ x ∈ v, x ≠ .fin 0

end Spec
open Spec

variable {K : Type} [Field K] [LinearOrder K] [IsStrictOrderedRing K] [FloorRing K]

/-- C41: in any arithmetic, construction has an outcome; it succeeds or throws `invalid_argument`, nothing else. -/
theorem C41_outcome (A : Arith K) (simd : Option (Simd K)) (mac : Mac) {w d : Nat} (hs : Supported w d)
    {inp : Input (rakauEnv A simd mac w d)} (hl : inp.parts.length = d + 1) (hz : (inp.parts.headD []).length * cbits w d < 2 ^ 64) :
    (∃ r, Construct inp r) ∧ ∀ r, Construct inp r → (∃ s, r = .ok s) ∨ r = .error .invalidArg := by
  refine ⟨construct_exists (rakauEnv_ok A simd mac hs) hz, fun r h => ?_⟩
  rcases ctor_cases A simd mac hs hl hz h with ⟨_, e⟩ | ⟨_, _, e⟩ | ⟨_, _, _, ⟨_, e⟩ | ⟨_, _, _, _, _, _, _, _, ⟨_, e⟩ | ⟨_, e⟩⟩⟩
  · exact .inr e
  · exact .inr e
  · exact .inr e
  · exact .inr e
  · exact .inl e

example : ∃ s, Construct ratInp (.ok s) := ⟨ratS, by
  have h : Construct ratInp ratInp.exec := construct_exec (by decide +kernel)
  rwa [eq_okOr (d := TS.default _) (show isOk ratInp.exec = true by decide +kernel)] at h⟩

theorem mem_transfer {α : Type} {a b : List (List α)} (h : List.Forall₂ (fun v u => u.Perm v) a b) {v : List α} (hv : v ∈ b) :
    ∃ u ∈ a, v.Perm u := by
  obtain ⟨i, hi, rfl⟩ := List.getElem_of_mem hv
  have := forall₂_getElem h
  exact ⟨a[i]'(by rw [this.1]; exact hi), List.getElem_mem _, this.2 i _ hi⟩

theorem lengths_iff {F : Type} {parts : List (List F)} :
    (∀ v ∈ parts, v.length = (parts.headD []).length) ↔ ∀ v ∈ parts, ∀ u ∈ parts, v.length = u.length := by
  constructor
  · intro h v hv u hu; rw [h v hv, h u hu]
  · intro h v hv
    cases parts with
    | nil => simp at hv
    | cons a l => exact h v hv a (by simp)

theorem boxOk_iff {b : Fl K} : boxOkFl b = true ↔ ∃ q, b = .fin q ∧ 0 ≤ q := by
  cases b with
  | nan => simp [boxOkFl, Fl.isFinite]
  | inf s => simp [boxOkFl, Fl.isFinite]
  | fin q => simp [boxOkFl, Fl.isFinite]

/-- C41: in any arithmetic, each of these makes construction throw `invalid_argument`: `max_leaf_n` or `ncrit` zero, arrays of different lengths, a
box size that is negative or not finite, a coordinate or mass that is not finite. -/
theorem C41_invalid (A : Arith K) {simd : Option (Simd K)} (hH : HaddNonfin simd) (mac : Mac) {w d : Nat} (hs : Supported w d)
    {inp : Input (rakauEnv A simd mac w d)} (hl : inp.parts.length = d + 1) (hz : (inp.parts.headD []).length * cbits w d < 2 ^ 64)
    {r : Except Err (TS (rakauEnv A simd mac w d))} (h : Construct inp r)
    (hi : inp.maxLeaf = 0 ∨ inp.ncrit = 0 ∨ (∃ v ∈ inp.parts, ∃ u ∈ inp.parts, v.length ≠ u.length) ∨
      (∃ b : Fl K, inp.box = some b ∧ (b.isFinite = false ∨ ∃ q < 0, b = .fin q)) ∨
      (∃ v ∈ inp.parts, ∃ x : Fl K, x ∈ v ∧ x.isFinite = false)) : r = .error .invalidArg := by
  have hd := hs.dim.1
  rcases ctor_cases A simd mac hs hl hz h with ⟨_, e⟩ | ⟨_, _, e⟩ | ⟨hc, box, hb, ⟨_, e⟩ | ⟨hall, parts, tree, p1, p2, p3, p4, p5, ⟨_, e⟩ | ⟨hok, e⟩⟩⟩
  · exact e
  · exact e
  · exact e
  · exact e
  exfalso
  rcases check_cases inp with ⟨_, c1, c2, c3, c4⟩ | ⟨hc', _⟩
  swap
  · rw [hc] at hc'; cases hc'
  rcases hi with hi | hi | ⟨v, hv, u, hu, hne⟩ | ⟨b, hbx, hbad⟩ | ⟨v, hv, x, hx, hf⟩
  · exact c3 hi
  · exact c4 hi
  · exact hne (lengths_iff.1 c1 v hv u hu)
  · rw [hbx] at c2
    obtain ⟨q, e1, e2⟩ := boxOk_iff.1 (show boxOkFl b = true from c2)
    rcases hbad with hf | ⟨q', hq', e3⟩
    · rw [e1] at hf; cases hf
    · rw [e1, Fl.fin.injEq] at e3; subst e3; exact absurd e2 (not_le.2 hq')
  · obtain ⟨j, hj, rfl⟩ := List.getElem_of_mem hv
    by_cases hjd : j < d
    · obtain ⟨c, hc⟩ := hall _ (List.mem_take_iff_getElem.2 ⟨j, by omega, rfl⟩) x hx
      rw [C08_nonfinite A (cbits_le w d) (.inl hf)] at hc
      cases hc
    · have hjd : j = d := by omega
      subst hjd
      obtain ⟨q1, q2⟩ := forall₂_getElem p2
      have hpm := q2 j hj (by omega)
      obtain ⟨k, hk, hkx⟩ := List.getElem_of_mem (hpm.mem_iff.2 hx)
      have hn0 : (inp.parts.headD []).length ≠ 0 := by
        rw [← p3 _ (List.getElem_mem (show j < parts.length by omega))]
        omega
      obtain ⟨nd, hnd, n1, n2⟩ := p5 hn0
      obtain ⟨m1, m2, p, o1, o2, o3, o4⟩ := p4 nd hnd
      obtain ⟨r', hr'⟩ := hok nd hnd
      rcases nodeProps_cases A simd mac hs box p1 p3 m1.le m2 o1 o2 o3 o4 with ⟨r'', e'', com, hsum, hfin⟩ | e''
      · have := nodeSums_nonfin A hH hsum (m := parts[j]) (List.getElem?_eq_getElem (by omega)) (k := k) (by omega)
          (by rw [n2, ← p3 _ (List.getElem_mem (show j < parts.length by omega))]; exact hk) (x := x)
          (by rw [List.getElem?_eq_getElem hk, hkx]) hf
        rw [this] at hfin
        cases hfin
      · rw [e''] at hr'; cases hr'

theorem simd4_nonfin : HaddNonfin (some simd4) := by
  intro S hS
  cases hS
  refine ⟨by decide, fun l hl => ?_⟩
  have key : ∀ (l : List (Fl ℚ)) (a : Fl ℚ), (a.isFinite = false ∨ ∃ x ∈ l, x.isFinite = false) → (l.foldl exactQ.add a).isFinite = false := by
    intro l
    induction l with
    | nil => rintro a (h | ⟨x, hx, _⟩)
             · exact h
             · simp at hx
    | cons b l ih =>
      rintro a (h | ⟨x, hx, hf⟩)
      · exact ih _ (.inl (add_nonfin' _ (.inl h)))
      · rcases List.mem_cons.1 hx with rfl | hx
        · exact ih _ (.inl (add_nonfin' _ (.inr hf)))
        · exact ih _ (.inr ⟨x, hx, hf⟩)
  exact key l _ (.inr hl)

/-- An infinite mass among six particles. -/
def infInp : Input ratEnv := ⟨some (.fin 8), 2, 3, (ratData.take 3).map (·.map .fin) ++ [[.fin 1, .fin 2, .inf false, .fin 5, .fin 4, .fin 1]]⟩

example : HaddNonfin (some simd4) ∧ Supported 32 3 ∧ infInp.parts.length = 3 + 1 ∧ Construct infInp (.error .invalidArg) ∧
    (∃ v ∈ infInp.parts, ∃ x : Fl ℚ, x ∈ v ∧ x.isFinite = false) := by
  refine ⟨simd4_nonfin, ⟨.inl rfl, .inr rfl⟩, by decide, ?_, ⟨[.fin 1, .fin 2, .inf false, .fin 5, .fin 4, .fin 1], by simp [infInp], .inf false, by simp, rfl⟩⟩
  have h : Construct infInp infInp.exec := construct_exec (by decide +kernel)
  rwa [show infInp.exec = .error .invalidArg from okErr (by decide +kernel)] at h

/-- C41: in any arithmetic, if construction throws, there is a reason: a parameter is invalid, the deduced box size is not finite, a coordinate is
rejected by the discretisation, or some node of the tree, which is given by a path and a range of the sorted particles, has data that are rejected. -/
theorem C41_reasons (A : Arith K) (simd : Option (Simd K)) (mac : Mac) {w d : Nat} (hs : Supported w d)
    {inp : Input (rakauEnv A simd mac w d)} (hl : inp.parts.length = d + 1) (hz : (inp.parts.headD []).length * cbits w d < 2 ^ 64) {e : Err}
    (h : Construct inp (.error e)) :
    e = .invalidArg ∧
    (inp.maxLeaf = 0 ∨ inp.ncrit = 0 ∨ (∃ v ∈ inp.parts, ∃ u ∈ inp.parts, v.length ≠ u.length) ∨
     (∃ b : Fl K, inp.box = some b ∧ (b.isFinite = false ∨ ∃ q < 0, b = .fin q)) ∨
     (inp.box = none ∧ deduceBox A d inp.parts = .error .invalidArg) ∨
     ∃ box : Fl K, (inp.box = some box ∨ inp.box = none ∧ deduceBox A d inp.parts = .ok box) ∧
      ((∃ v ∈ inp.parts.take d, ∃ x ∈ v, discSingle A w (cbits w d) x (invBox A box) = .error .invalidArg) ∨
       ∃ (parts : List (List (Fl K))) (nd : Node) (p : Path), List.Forall₂ (fun v u => u.Perm v) inp.parts parts ∧
        nd.beg < nd.fin ∧ nd.fin ≤ (inp.parts.headD []).length ∧ p.Ok d ∧ p.length ≤ cbits w d ∧ nd.code = p.code d ∧ nd.level = p.length ∧
        nodeProps A simd mac w d box nd parts = .error .invalidArg)) := by
  have hbox : ∀ {x : Except Err (Fl K)}, boxFor (rakauEnv A simd mac w d) inp.box inp.parts = x →
      (∃ b, inp.box = some b ∧ x = .ok b) ∨ (inp.box = none ∧ deduceBox A d inp.parts = x) := by
    intro x hx
    cases hb : inp.box with
    | some b => rw [hb] at hx; exact .inl ⟨b, rfl, hx.symm⟩
    | none => rw [hb] at hx; exact .inr ⟨rfl, hx⟩
  rcases ctor_cases A simd mac hs hl hz h with ⟨hc, e⟩ | ⟨_, hb, e⟩ | ⟨hc, box, hb, hr⟩
  · refine ⟨by cases e; rfl, ?_⟩
    rcases check_cases inp with ⟨hc', _⟩ | ⟨_, hbad⟩
    · rw [hc] at hc'; cases hc'
    by_cases h1 : ∃ v ∈ inp.parts, ∃ u ∈ inp.parts, v.length ≠ u.length
    · exact .inr (.inr (.inl h1))
    by_cases h2 : inp.maxLeaf = 0
    · exact .inl h2
    by_cases h3 : inp.ncrit = 0
    · exact .inr (.inl h3)
    have h4 : ¬ boxOkFl (inp.box.getD (.fin 0)) = true := by
      intro h4
      refine hbad ⟨lengths_iff.2 ?_, h4, h2, h3⟩
      intro v hv u hu
      by_contra hne
      exact h1 ⟨v, hv, u, hu, hne⟩
    refine .inr (.inr (.inr (.inl ?_)))
    rw [boxOk_iff] at h4
    cases hb : inp.box with
    | none => exact absurd ⟨0, by rw [hb]; rfl, le_refl _⟩ h4
    | some b =>
      refine ⟨b, rfl, ?_⟩
      rw [hb] at h4
      cases b with
      | nan => exact .inl rfl
      | inf s => exact .inl rfl
      | fin q =>
        refine .inr ⟨q, ?_, rfl⟩
        by_contra hq
        exact h4 ⟨q, rfl, not_lt.1 hq⟩
  · refine ⟨by cases e; rfl, ?_⟩
    rcases hbox hb with ⟨b, _, hx⟩ | hx
    · cases hx
    · exact .inr (.inr (.inr (.inr (.inl hx))))
  · have hb' : inp.box = some box ∨ inp.box = none ∧ deduceBox A d inp.parts = .ok box := by
      rcases hbox hb with ⟨b, hx, hx'⟩ | hx
      · cases hx'; exact .inl hx
      · exact .inr hx
    rcases hr with ⟨hx, e⟩ | ⟨_, parts, tree, _, p2, _, p4, _, ⟨⟨nd, hnd, hx⟩, e⟩ | ⟨_, s, e⟩⟩
    · exact ⟨by cases e; rfl, .inr (.inr (.inr (.inr (.inr ⟨box, hb', .inl hx⟩))))⟩
    · obtain ⟨m1, m2, p, o1, o2, o3, o4⟩ := p4 nd hnd
      exact ⟨by cases e; rfl, .inr (.inr (.inr (.inr (.inr ⟨box, hb', .inr ⟨parts, nd, p, p2, m1, m2, o1, o2, o3, o4, hx⟩⟩))))⟩
    · cases e

example : Construct infInp (.error .invalidArg) := by
  have h : Construct infInp infInp.exec := construct_exec (by decide +kernel)
  rwa [show infInp.exec = .error .invalidArg from okErr (by decide +kernel)] at h

theorem isData_exists {d n : Nat} {parts : List (List (Fl K))} (hl : parts.length = d + 1) (hn : ∀ v ∈ parts, v.length = n)
    (hf : ∀ v ∈ parts, ∀ x ∈ v, x.isFinite = true) : ∃ x, IsData d n parts x := by
  refine ⟨fun j k => ((parts.getD j []).getD k (.fin 0)).val, hl, fun j hj => ⟨parts[j], List.getElem?_eq_getElem (by omega), ?_⟩⟩
  have hv : parts[j]'(by omega) ∈ parts := List.getElem_mem _
  unfold IsVec
  apply List.ext_getElem (by rw [hn _ hv]; simp)
  intro k k1 k2
  rw [List.getElem_map, List.getElem_range]
  obtain ⟨q, hq⟩ := Fl.isFinite_iff.1 (hf _ hv _ (List.getElem_mem k1))
  have e1 : parts.getD j [] = parts[j]'(by omega) := by simp [List.getD, List.getElem?_eq_getElem (show j < parts.length by omega)]
  have e2 : (parts[j]'(by omega)).getD k (.fin 0) = (parts[j]'(by omega))[k] := by simp [List.getD, List.getElem?_eq_getElem k1]
  show _ = Fl.fin (((parts.getD j []).getD k (.fin 0)).val)
  rw [e1, e2, hq]
  rfl

/-- C41 in exact arithmetic: construction succeeds exactly for acceptable arguments, and throws `invalid_argument` otherwise. -/
theorem C41_exact {A : Arith K} (hA : A.Exact) (hq : ∀ q, 0 ≤ q → (A.sqrt q).isFinite = true) {simd : Option (Simd K)}
    (hS : ∀ S, simd = some S → S.Ok) (hH : HaddNonfin simd) (mac : Mac) {w d : Nat} (hs : Supported w d)
    {inp : Input (rakauEnv A simd mac w d)} (hl : inp.parts.length = d + 1) (hz : (inp.parts.headD []).length * cbits w d < 2 ^ 64)
    {r : Except Err (TS (rakauEnv A simd mac w d))} (h : Construct inp r) :
    (ValidInput d inp.box inp.maxLeaf inp.ncrit inp.parts → ∃ s, r = .ok s) ∧
    (¬ ValidInput d inp.box inp.maxLeaf inp.ncrit inp.parts → r = .error .invalidArg) := by
  have hd := hs.dim.1
  constructor
  · rintro ⟨v1, v2, v3, v4, v5⟩
    rcases check_cases inp with ⟨hc, c1, c2, _, _⟩ | ⟨hc, hbad⟩
    swap
    · exfalso
      apply hbad
      refine ⟨lengths_iff.2 v3, ?_, v1, v2⟩
      show boxOkFl (inp.box.getD (.fin 0)) = true
      rw [boxOk_iff]
      cases hb : inp.box with
      | none => exact ⟨0, rfl, le_refl _⟩
      | some b =>
        rw [hb] at v5
        obtain ⟨q, e1, e2, _⟩ := v5
        exact ⟨q, e1, e2⟩
    -- the box is finite and all coordinates are accepted
    have hboxes : ∃ b : K, boxFor (rakauEnv A simd mac w d) inp.box inp.parts = .ok (.fin b) ∧
        ∀ v ∈ inp.parts.take d, ∀ x ∈ v, discSingle A w (cbits w d) x (invBox A (.fin b)) ≠ .error .invalidArg := by
      have accept : ∀ b : K, (∀ v ∈ inp.parts.take d, ∀ x ∈ v, ∀ y, x = .fin y → InBox b y) →
          ∀ v ∈ inp.parts.take d, ∀ x ∈ v, discSingle A w (cbits w d) x (invBox A (.fin b)) ≠ .error .invalidArg := by
        intro b hb v hv x hx he
        obtain ⟨y, rfl⟩ := Fl.isFinite_iff.1 (v4 v (List.mem_of_mem_take hv) x hx)
        have hin := hb v hv _ hx y rfl
        have hpos : 0 < b := by have := hin.1.trans_lt hin.2; linarith
        rcases exact_accept hA (cbits_le w d) (x := y) hpos with ⟨c, e, _⟩ | ⟨_, hn⟩
        · rw [e] at he; cases he
        · exact hn hin
      cases hb : inp.box with
      | some b =>
        rw [hb] at v5
        obtain ⟨q, rfl, _, e3⟩ := v5
        exact ⟨q, rfl, accept q e3⟩
      | none =>
        rw [hb] at v5
        rcases v5 with hnil | ⟨v, hv, x, hx, hne⟩
        · obtain ⟨e1, _⟩ := C10_origin_fails (exact_laws hA) hs (parts := inp.parts) (by omega) c1
            (fun v hv x hx => by rw [hnil v (List.mem_of_mem_take hv)] at hx; simp at hx) ⟨_, hA _⟩
          refine ⟨0, e1, fun v hv x hx => ?_⟩
          rw [hnil v (List.mem_of_mem_take hv)] at hx; simp at hx
        · rcases deduceBox_cases A hd ⟨by omega, c1⟩ with ⟨m, ⟨i1, i2, i3⟩, e⟩ | ⟨⟨y, hy, hyf⟩, _⟩
          · have e' : deduceBox A d inp.parts = .ok (.fin (21 / 10 * m)) := by
              rw [e]
              unfold boxFromMax
              simp only [maxElement, List.foldl_nil, ofUB, bind, Except.bind]
              rw [ex_mul hA, ex_div hA (by norm_num : (20 : K) ≠ 0), ex_fma hA]
              show Except.ok _ = _
              congr 2
              ring
            refine ⟨21 / 10 * m, e', accept _ ?_⟩
            intro v' hv' x' hx' y hy
            obtain ⟨q, hq1, hq2⟩ := i2 x' (List.mem_flatten.2 ⟨v', hv', hx'⟩)
            rw [hy, Fl.fin.injEq] at hq1
            subst hq1
            have hm : 0 < m := by
              obtain ⟨q, hq1, hq2⟩ := i2 x (List.mem_flatten.2 ⟨v, hv, hx⟩)
              rcases i1.lt_or_eq with h | h
              · exact h
              · exfalso
                rw [← h] at hq2
                apply hne
                rw [hq1, abs_eq_zero.1 (le_antisymm hq2 (abs_nonneg _))]
            have := abs_le.1 hq2
            constructor <;> linarith
          · exfalso
            obtain ⟨v', hv', hyv⟩ := List.mem_flatten.1 hy
            rw [v4 v' (List.mem_of_mem_take hv') y hyv] at hyf
            cases hyf
    obtain ⟨b, hbox, hacc⟩ := hboxes
    rcases ctor_cases A simd mac hs hl hz h with ⟨e, _⟩ | ⟨_, e, _⟩ | ⟨_, box, hb, ⟨⟨v, hv, x, hx, he⟩, _⟩ | ⟨hall, parts, tree, p1, p2, p3, p4, p5, ⟨⟨nd, hnd, he⟩, _⟩ | ⟨hok, e⟩⟩⟩
    · rw [hc] at e; cases e
    · rw [hbox] at e; cases e
    · rw [hbox, Except.ok.injEq] at hb
      subst hb
      exact absurd he (hacc v hv x hx)
    · exfalso
      rw [hbox, Except.ok.injEq] at hb
      subst hb
      obtain ⟨x, hx⟩ := isData_exists p1 p3 (fun v hv y hy => by
        obtain ⟨u, hu, hp⟩ := mem_transfer p2 hv
        exact v4 u hu y (hp.mem_iff.1 hy))
      obtain ⟨m1, m2, p, o1, o2, o3, o4⟩ := p4 nd hnd
      obtain ⟨cen, _, _, hall⟩ := nodeProps_exact hA hS mac hs b hx m1.le m2 o1 o2 o3 o4
      rw [hall _ _ rfl rfl] at he
      cases mac with
      | bh => cases he
      | bhGeom =>
        simp only at he
        rw [if_pos] at he
        · cases he
        · apply hq
          unfold sqDist
          apply List.sum_nonneg
          intro y hy
          obtain ⟨q, _, rfl⟩ := List.mem_map.1 hy
          positivity
    · exact e
  · intro hv
    rcases ctor_cases A simd mac hs hl hz h with ⟨_, e⟩ | ⟨_, _, e⟩ | ⟨hc, box, hb, ⟨_, e⟩ | ⟨hall, parts, tree, p1, p2, p3, p4, p5, ⟨_, e⟩ | ⟨hok, e⟩⟩⟩
    · exact e
    · exact e
    · exact e
    · exact e
    exfalso
    apply hv
    have hno : ¬ r = .error .invalidArg := by rintro rfl; obtain ⟨s, hs⟩ := e; cases hs
    rcases check_cases inp with ⟨_, c1, c2, c3, c4⟩ | ⟨hc', _⟩
    swap
    · rw [hc] at hc'; cases hc'
    have hfin : ∀ v ∈ inp.parts, ∀ x : Fl K, x ∈ v → x.isFinite = true := by
      intro v hv x hx
      by_contra hf
      exact hno (C41_invalid A hH mac hs hl hz h (.inr (.inr (.inr (.inr ⟨v, hv, x, hx, by simpa using hf⟩)))))
    have hin : ∀ b : K, box = .fin b → 0 ≤ b → ∀ v ∈ inp.parts.take d, ∀ x ∈ v, ∀ y, x = .fin y → InBox b y := by
      intro b hbx hb0 v hv x hx y hy
      obtain ⟨c, hc⟩ := hall v hv x hx
      rw [hbx, hy] at hc
      rcases hb0.lt_or_eq with hpos | h0
      · rcases exact_accept hA (cbits_le w d) (x := y) hpos with ⟨_, _, hi, _⟩ | ⟨e', _⟩
        · exact hi
        · rw [e'] at hc; cases hc
      · exfalso
        rw [← h0] at hc
        have hinv : invBox A (.fin (0 : K)) = .inf false := by unfold invBox Arith.div; simp
        rw [hinv, C08_nonfinite A (cbits_le w d) (.inr rfl)] at hc
        cases hc
    refine ⟨c3, c4, lengths_iff.1 c1, hfin, ?_⟩
    cases hbx : inp.box with
    | some b =>
      rw [hbx] at c2 hb
      obtain ⟨q, e1, e2⟩ := boxOk_iff.1 (show boxOkFl b = true from c2)
      have : box = b := by
        have hb : (Except.ok b : Except Err (Fl K)) = .ok box := hb
        exact (Except.ok.inj hb).symm
      exact ⟨q, e1, e2, hin q (this.trans e1) e2⟩
    | none =>
      show _ ∨ _
      by_contra hno2
      push Not at hno2
      obtain ⟨⟨v, hv, hvne⟩, hall0⟩ := hno2
      obtain ⟨e1, _⟩ := C10_origin_fails (exact_laws hA) hs (parts := inp.parts) (by omega) c1
        (fun v hv x hx => hall0 v hv x hx) ⟨_, hA _⟩
      rw [hbx] at hb
      have hb : deduceBox A d inp.parts = .ok box := hb
      rw [e1, Except.ok.injEq] at hb
      have h0 : inp.parts[0]'(by omega) ∈ inp.parts.take d := List.mem_take_iff_getElem.2 ⟨0, by omega, rfl⟩
      have hlen0 : (inp.parts[0]'(by omega)).length = v.length := lengths_iff.1 c1 _ (List.mem_of_mem_take h0) v hv
      have hvpos : 0 < v.length := List.length_pos_of_ne_nil hvne
      have hx0 : (inp.parts[0]'(by omega))[0]'(by omega) ∈ inp.parts[0]'(by omega) := List.getElem_mem _
      have := hin 0 hb.symm (le_refl _) _ h0 _ hx0 0 (hall0 _ h0 _ hx0)
      simp [InBox] at this

/-- One particle on the upper face of the domain. -/
def faceInp : Input ratEnv := ⟨some (.fin 8), 2, 3, [[.fin 1, .fin 4], [.fin 1, .fin 1], [.fin 1, .fin 1], [.fin 1, .fin 1]]⟩

example : exactQ.Exact ∧ (∀ S, some simd4 = some S → S.Ok) ∧ ValidInput 3 ratInp.box ratInp.maxLeaf ratInp.ncrit ratInp.parts ∧
    Construct faceInp (.error .invalidArg) ∧ ¬ ValidInput 3 faceInp.box faceInp.maxLeaf faceInp.ncrit faceInp.parts := by
  refine ⟨exactQ_exact, rat_ok, ⟨by decide, by decide, by decide +kernel, by decide +kernel, 8, rfl, by norm_num, ?_⟩, ?_, ?_⟩
  · have : ∀ v ∈ ratInp.parts.take 3, ∀ x ∈ v, InBox 8 x.val := by decide +kernel
    intro v hv x hx y hy
    have := this v hv x hx
    rwa [hy] at this
  · have h : Construct faceInp faceInp.exec := construct_exec (by decide +kernel)
    rwa [show faceInp.exec = .error .invalidArg from okErr (by decide +kernel)] at h
  · rintro ⟨_, _, _, _, q, hq, _, h⟩
    cases hq
    have := (h [.fin 1, .fin 4] (by simp [faceInp]) (.fin 4) (by simp) 4 rfl).2
    norm_num at this

end Rakau
