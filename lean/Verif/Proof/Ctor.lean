import Verif.Props.NodeProps

/-! All outcomes of construction. -/
set_option linter.unusedSectionVars false

namespace Rakau
open Spec

/-- Construction ends early, or builds the tree; then it fails while computing node properties, or succeeds. -/
theorem construct_cases {env : Env} (E : EnvOk env) (U : EnvNoUB env) {inp : Input env}
    (hz : (inp.parts.headD []).length * cbits env.w env.d < 2 ^ 64) {r : Except Err (TS env)} (h : Construct inp r) :
    (∃ e, inp.prepare = .error e ∧ r = .error e) ∨
    ∃ box raw srt codes parts tree crit split, inp.prepare = .ok (box, raw) ∧ srt.Perm (List.range (inp.parts.headD []).length) ∧
      inp.parts.mapM (fun v => applyIsort v srt) = some parts ∧ applyIsort raw srt = some codes ∧
      IsBuild ⟨env.w, env.d, inp.maxLeaf, inp.ncrit⟩ codes split (.ok (tree, crit)) ∧
      (codes ≠ [] → BuildInput ⟨env.w, env.d, inp.maxLeaf, inp.ncrit⟩ codes) ∧ codes.length = (inp.parts.headD []).length ∧
      ((∃ e, tree.mapM (fun nd => env.props box nd parts) = .error e ∧ r = .error e) ∨
        ∃ props s, tree.mapM (fun nd => env.props box nd parts) = .ok props ∧ r = .ok s) := by
  cases h with
  | early e h => exact .inl ⟨e, h, rfl⟩
  | run box raw srt ord codes split r h1 h2 h3 h4 h5 =>
    right
    set n := (inp.parts.headD []).length with hn
    have hw : inp.check = .ok () ∧ rawCodes env box inp.parts n = .ok raw := by
      have h1 := h1
      unfold Input.prepare at h1
      cases hc : inp.check with
      | error e => rw [hc] at h1; simp [bind, Except.bind] at h1
      | ok u =>
        rw [hc] at h1
        refine ⟨rfl, ?_⟩
        cases hb : boxFor env inp.box inp.parts with
        | error e => simp [bind, Except.bind, hb] at h1
        | ok b =>
          cases hw : rawCodes env b inp.parts (inp.parts.headD []).length with
          | error e => simp only [bind, Except.bind, hb, hw] at h1; simp at h1
          | ok raw =>
            simp only [bind, Except.bind, hb, hw, pure, Except.pure, Except.ok.injEq, Prod.mk.injEq] at h1
            rw [← h1.1, ← h1.2]; exact hw
    obtain ⟨hck, hw⟩ := hw
    have hrl := (rawCodes_spec.1 hw).1
    have h2' := h2
    rw [hrl] at h2 h3
    obtain ⟨parts, hp⟩ := mapM_isort_exists h2.1 (check_lengths hck)
    obtain ⟨inv, hi, _⟩ := permToInv_spec (inv0 := List.replicate srt.length 0) h2.1 h3 (by simpa using perm_length h2.1)
    have hcp := applyIsort_perm_of h2.1 hrl h4
    have hcl : codes.length = n := hcp.length_eq.trans hrl
    have hso := codes_sorted h2' h4
    have hbd : ∀ c ∈ codes, c < 2 ^ (cbits env.w env.d * env.d) := fun c hc => codes_bound E hw c (hcp.mem_iff.1 hc)
    obtain ⟨tree, crit, rfl, -⟩ := built_noUB E U (g := ⟨env.w, env.d, inp.maxLeaf, inp.ncrit⟩) rfl rfl h5 hso hbd (by rw [hcl]; exact hz)
    refine ⟨box, raw, srt, codes, parts, tree, crit, split, h1, h2.1, hp, h4, h5, fun hne => ⟨E.dim, hso, hbd, by rw [hcl]; exact hz, hne⟩, hcl, ?_⟩
    unfold Input.finish
    simp only [h4, hp, hi, ofUB, bind, Except.bind]
    cases hm : tree.mapM (fun nd => env.props box nd parts) with
    | error e => exact .inl ⟨e, rfl, rfl⟩
    | ok props => exact .inr ⟨props, _, rfl, rfl⟩

theorem prepare_cases {env : Env} (inp : Input env) :
    (∃ e, inp.check = .error e ∧ inp.prepare = .error e) ∨
    (inp.check = .ok () ∧ ∃ e, boxFor env inp.box inp.parts = .error e ∧ inp.prepare = .error e) ∨
    (inp.check = .ok () ∧ ∃ box, boxFor env inp.box inp.parts = .ok box ∧
      ((∃ e, rawCodes env box inp.parts (inp.parts.headD []).length = .error e ∧ inp.prepare = .error e) ∨
        ∃ raw, rawCodes env box inp.parts (inp.parts.headD []).length = .ok raw ∧ inp.prepare = .ok (box, raw))) := by
  unfold Input.prepare
  cases hc : inp.check with
  | error e => exact .inl ⟨e, rfl, rfl⟩
  | ok u =>
    right
    cases hb : boxFor env inp.box inp.parts with
    | error e => exact .inl ⟨rfl, e, rfl, rfl⟩
    | ok b =>
      refine .inr ⟨rfl, b, rfl, ?_⟩
      cases hw : rawCodes env b inp.parts (inp.parts.headD []).length with
      | error e => exact .inl ⟨e, rfl, by simp only [bind, Except.bind, hw]⟩
      | ok raw => exact .inr ⟨raw, rfl, by simp only [bind, Except.bind, hw, pure, Except.pure]⟩

theorem check_cases {env : Env} (inp : Input env) :
    (inp.check = .ok () ∧ (∀ v ∈ inp.parts, v.length = (inp.parts.headD []).length) ∧ env.boxOk (inp.box.getD env.zero) = true ∧
      inp.maxLeaf ≠ 0 ∧ inp.ncrit ≠ 0) ∨
    (inp.check = .error .invalidArg ∧ ¬ ((∀ v ∈ inp.parts, v.length = (inp.parts.headD []).length) ∧
      env.boxOk (inp.box.getD env.zero) = true ∧ inp.maxLeaf ≠ 0 ∧ inp.ncrit ≠ 0)) := by
  unfold Input.check
  by_cases h1 : ∀ v ∈ inp.parts, v.length = (inp.parts.headD []).length
  · rw [if_neg (by simpa using h1)]
    by_cases h2 : env.boxOk (inp.box.getD env.zero) = true
    · rw [if_neg (by simpa using h2)]
      by_cases h3 : inp.maxLeaf = 0
      · rw [if_pos h3]; exact .inr ⟨rfl, fun h => h.2.2.1 h3⟩
      · rw [if_neg h3]
        by_cases h4 : inp.ncrit = 0
        · rw [if_pos h4]; exact .inr ⟨rfl, fun h => h.2.2.2 h4⟩
        · rw [if_neg h4]; exact .inl ⟨rfl, h1, h2, h3, h4⟩
    · rw [if_pos (by simpa using h2)]; exact .inr ⟨rfl, fun h => h2 h.2.1⟩
  · rw [if_pos (by simpa using h1)]; exact .inr ⟨rfl, fun h => h1 h.1⟩

def errOf {α : Type} : Except Err α → Option Err | .ok _ => none | .error e => some e

theorem okErr {α : Type} {x : Except Err α} {e : Err} (h : errOf x = some e) : x = .error e := by
  cases x with
  | ok a => simp [errOf] at h
  | error e' => simp only [errOf, Option.some.injEq] at h; rw [h]

variable {K : Type} [Field K] [LinearOrder K] [IsStrictOrderedRing K] [FloorRing K]

/-- The codes can be computed exactly if every coordinate is accepted. -/
theorem rawCodes_cases (A : Arith K) (simd : Option (Simd K)) (mac : Mac) {w d n : Nat} (hs : Supported w d) (box : Fl K)
    {parts : List (List (Fl K))} (hl : parts.length = d + 1) (hn : ∀ v ∈ parts, v.length = n) :
    ((∃ raw, rawCodes (rakauEnv A simd mac w d) box parts n = .ok raw) ∧
      ∀ v ∈ parts.take d, ∀ x ∈ v, ∃ r, discSingle A w (cbits w d) x (invBox A box) = .ok r) ∨
    (rawCodes (rakauEnv A simd mac w d) box parts n = .error .invalidArg ∧
      ∃ v ∈ parts.take d, ∃ x ∈ v, discSingle A w (cbits w d) x (invBox A box) = .error .invalidArg) := by
  have htl : (parts.take d).length = d := by rw [List.length_take, hl]; omega
  have hco : ∀ i < n, ∃ c, coordsAt d parts i = some c ∧ c.length = d := fun i hi => by
    obtain ⟨c, h1, h2⟩ := coordsAt_some hn d i hi
    exact ⟨c, h1, h2.trans htl⟩
  cases hr : rawCodes (rakauEnv A simd mac w d) box parts n with
  | ok raw =>
    left
    refine ⟨⟨raw, rfl⟩, ?_⟩
    intro v hv x hx
    obtain ⟨i, hi, rfl⟩ := List.getElem_of_mem hx
    have hin : i < n := by rw [← hn v (List.mem_of_mem_take hv)]; exact hi
    obtain ⟨c, h1, h2⟩ := hco i hin
    obtain ⟨hrl, hall⟩ := rawCodes_spec.1 hr
    have := hall i (by omega)
    have hc : codeOf A w d box c = .ok raw[i] := by
      simp only [h1, ofUB, bind, Except.bind] at this
      exact this
    rcases codeOf_cases A hs h2 with ⟨xs, _, hf, _⟩ | ⟨_, e⟩
    · have hf' := mapM_some_iff.1 h1
      obtain ⟨k, hk, rfl⟩ := List.getElem_of_mem hv
      have e1 := (forall₂_getElem hf').2 k hk (by omega)
      rw [List.getElem?_eq_getElem hi, Option.some.injEq] at e1
      exact ⟨_, by rw [e1]; exact (forall₂_getElem hf).2 k (by omega) (by have := hf.length_eq; omega)⟩
    · rw [e] at hc; cases hc
  | error e =>
    right
    obtain ⟨i, hi, he⟩ := mapM_error hr
    obtain ⟨c, h1, h2⟩ := hco i (List.mem_range.1 hi)
    have he' : codeOf A w d box c = .error e := by
      simp only [h1, ofUB, bind, Except.bind] at he
      exact he
    rcases codeOf_cases A hs h2 (box := box) with ⟨_, _, _, _, _, _, e'⟩ | ⟨⟨x, hx, hxe⟩, e'⟩
    · rw [e'] at he'; cases he'
    · rw [e'] at he'
      cases he'
      refine ⟨rfl, ?_⟩
      obtain ⟨k, hk, rfl⟩ := List.getElem_of_mem hx
      have e1 := (forall₂_getElem (mapM_some_iff.1 h1)).2 k (by omega) hk
      exact ⟨_, List.getElem_mem (by omega : k < (parts.take d).length), _, List.mem_of_getElem? e1, hxe⟩

/-- Horizontal sums of the instruction set of something that is not finite are not finite. -/
def HaddNonfin (simd : Option (Simd K)) : Prop :=
  ∀ S, simd = some S → 0 < S.batch ∧ ∀ l : List (Fl K), (∃ x ∈ l, x.isFinite = false) → (S.hadd l).isFinite = false

theorem add_nonfin' (A : Arith K) {a b : Fl K} (h : a.isFinite = false ∨ b.isFinite = false) : (A.add a b).isFinite = false := by
  cases a with
  | nan => rfl
  | inf n =>
    cases b with
    | nan => rfl
    | inf m => by_cases e : n = m <;> simp [Arith.add, e, Fl.isFinite]
    | fin q => rfl
  | fin p =>
    cases b with
    | nan => rfl
    | inf m => rfl
    | fin q => rcases h with h | h <;> cases h

theorem massScalar_nonfin (A : Arith K) {m : List (Fl K)} {beg i j : Nat} {acc r : Fl K} (h : massScalar A m beg i j acc = some r)
    (hx : acc.isFinite = false ∨ ∃ k, i ≤ k ∧ k < j ∧ ∃ x, m[beg + k]? = some x ∧ x.isFinite = false) : r.isFinite = false := by
  unfold massScalar at h
  generalize hc : j - i = c at h
  induction c generalizing i acc with
  | zero =>
    simp only [List.range'_zero, List.foldlM_nil, Option.pure_def, Option.some.injEq] at h
    subst h
    rcases hx with hx | ⟨k, h1, h2, _⟩
    · exact hx
    · omega
  | succ c ih =>
    rw [List.range'_succ, List.foldlM_cons] at h
    cases hm : m[beg + i]? with
    | none => simp [hm] at h
    | some y =>
      simp only [hm, Option.bind_eq_bind, Option.bind_some] at h
      refine ih ?_ (by omega) h
      rcases hx with hx | ⟨k, h1, h2, x, h3, h4⟩
      · exact .inl (add_nonfin' A (.inl hx))
      · by_cases hk : k = i
        · subst hk
          rw [hm, Option.some.injEq] at h3
          exact .inl (add_nonfin' A (.inr (by rw [h3]; exact h4)))
        · exact .inr ⟨k, by omega, h2, x, h3, h4⟩

theorem massVec_nonfin (A : Arith K) (S : Simd K) {m : List (Fl K)} {beg cnt : Nat} {r : List (Fl K)} (h : massVec A S m beg cnt = some r)
    {k : Nat} (hk : k < cnt * S.batch) {x : Fl K} (hx : m[beg + k]? = some x) (hf : x.isFinite = false) : ∃ y ∈ r, y.isFinite = false := by
  unfold massVec at h
  have key : ∀ c ≤ cnt, ∀ acc, (List.range c).foldlM (fun acc t => do
      let mv ← load m (beg + t * S.batch) S.batch
      some (List.zipWith A.add acc mv)) (List.replicate S.batch (.fin 0)) = some acc →
      acc.length = S.batch ∧ (k < c * S.batch → ∃ y ∈ acc, y.isFinite = false) := by
    intro c
    induction c with
    | zero =>
      intro _ acc ha
      simp only [List.range_zero, List.foldlM_nil, Option.pure_def, Option.some.injEq] at ha
      subst ha
      exact ⟨by simp, by simp⟩
    | succ c ih =>
      intro hc acc ha
      rw [List.range_succ, List.foldlM_append] at ha
      cases h1 : (List.range c).foldlM (fun acc t => do
        let mv ← load m (beg + t * S.batch) S.batch
        some (List.zipWith A.add acc mv)) (List.replicate S.batch (.fin 0)) with
      | none => rw [h1] at ha; simp at ha
      | some acc' =>
        obtain ⟨e1, e2⟩ := ih (by omega) acc' h1
        rw [h1] at ha
        simp only [Option.bind_eq_bind, Option.bind_some, List.foldlM_cons, List.foldlM_nil, Option.pure_def] at ha
        unfold load at ha
        split at ha
        · rename_i hl
          simp only [Option.bind_some, Option.some.injEq] at ha
          subst ha
          have hmv : ((m.drop (beg + c * S.batch)).take S.batch).length = S.batch := by
            rw [List.length_take, List.length_drop]; omega
          refine ⟨by rw [List.length_zipWith, e1, hmv, min_self], ?_⟩
          intro hk'
          by_cases hkc : k < c * S.batch
          · obtain ⟨y, hy, hyf⟩ := e2 hkc
            obtain ⟨l, hl', rfl⟩ := List.getElem_of_mem hy
            refine ⟨_, List.getElem_mem (l := List.zipWith A.add acc' _) (n := l) (by rw [List.length_zipWith]; omega), ?_⟩
            rw [List.getElem_zipWith]
            exact add_nonfin' A (.inl hyf)
          · rw [Nat.succ_mul] at hk'
            refine ⟨_, List.getElem_mem (l := List.zipWith A.add acc' ((m.drop (beg + c * S.batch)).take S.batch)) (n := k - c * S.batch)
              (by rw [List.length_zipWith]; omega), ?_⟩
            rw [List.getElem_zipWith]
            refine add_nonfin' A (.inr ?_)
            rw [List.getElem_take, List.getElem_drop]
            have : beg + c * S.batch + (k - c * S.batch) = beg + k := by omega
            simp only [this]
            rw [List.getElem?_eq_some_iff] at hx
            obtain ⟨_, e⟩ := hx
            rw [e]; exact hf
        · simp at ha
  exact (key cnt (le_refl _) r h).2 hk

/-- A mass that is not finite makes the mass of every node with the particle not finite. -/
theorem nodeSums_nonfin (A : Arith K) {simd : Option (Simd K)} (hH : HaddNonfin simd) {d : Nat} {nd : Node} {parts : List (List (Fl K))}
    {com : List (Fl K)} {mass : Fl K} (h : nodeSums A simd d nd parts = some (com, mass)) {m : List (Fl K)} (hm : parts[d]? = some m) {k : Nat}
    (h1 : nd.beg ≤ k) (h2 : k < nd.fin) {x : Fl K} (hx : m[k]? = some x) (hf : x.isFinite = false) : mass.isFinite = false := by
  unfold nodeSums at h
  simp only [hm, Option.bind_eq_bind, Option.bind_some] at h
  cases e1 : vecStart simd d (fun S => massVec A S m nd.beg (vecSize simd d (nd.fin - nd.beg) / S.batch)) with
  | none => simp [e1] at h
  | some mass0 =>
    simp only [e1, Option.bind_some] at h
    cases e2 : massScalar A m nd.beg (vecSize simd d (nd.fin - nd.beg)) (nd.fin - nd.beg) mass0 with
    | none => simp [e2] at h
    | some mass' =>
      simp only [e2, Option.bind_some] at h
      have hmass : mass' = mass := by
        cases e3 : (parts.take d).mapM (fun c =>
            (vecStart simd d (fun S => comVec A S m c nd.beg (vecSize simd d (nd.fin - nd.beg) / S.batch))).bind (fun com0 =>
            comScalar A m c nd.beg (vecSize simd d (nd.fin - nd.beg)) (nd.fin - nd.beg) com0)) with
        | none => rw [e3] at h; simp at h
        | some com' => rw [e3] at h; simp at h; exact h.2
      rw [← hmass]
      apply massScalar_nonfin A e2
      have hbk : nd.beg + (k - nd.beg) = k := by omega
      by_cases hv : k - nd.beg < vecSize simd d (nd.fin - nd.beg)
      · left
        cases simd with
        | none => simp [vecSize] at hv
        | some S =>
          by_cases hd : d = 3
          · have hb := (hH S rfl).1
            simp only [vecStart, if_pos hd] at e1
            cases e3 : massVec A S m nd.beg (vecSize (some S) d (nd.fin - nd.beg) / S.batch) with
            | none => rw [e3] at e1; cases e1
            | some lanes =>
              rw [e3] at e1
              simp only [Option.map_some, Option.some.injEq] at e1
              rw [← e1]
              apply (hH S rfl).2
              refine massVec_nonfin A S e3 (k := k - nd.beg) ?_ (by rw [hbk]; exact hx) hf
              have : vecSize (some S) d (nd.fin - nd.beg) = (nd.fin - nd.beg) / S.batch * S.batch := by
                simp only [vecSize, if_pos hd]
                have := Nat.div_add_mod (nd.fin - nd.beg) S.batch
                rw [Nat.mul_comm] at this
                omega
              rw [this, Nat.mul_div_cancel _ hb, ← this]
              exact hv
          · simp [vecSize, hd] at hv
      · right
        exact ⟨k - nd.beg, by omega, by omega, x, by rw [hbk]; exact hx, hf⟩

/-- Node properties fail with `invalid_argument` or succeed. -/
theorem nodeProps_cases (A : Arith K) (simd : Option (Simd K)) (mac : Mac) {w d n : Nat} (hs : Supported w d) (box : Fl K)
    {parts : List (List (Fl K))} (hl : parts.length = d + 1) (hn : ∀ v ∈ parts, v.length = n) {nd : Node} (h1 : nd.beg ≤ nd.fin)
    (h2 : nd.fin ≤ n) {p : Path} (hp : p.Ok d) (hpl : p.length ≤ cbits w d) (hc : nd.code = p.code d) (hlev : nd.level = p.length) :
    (∃ r, nodeProps A simd mac w d box nd parts = .ok r ∧ ∃ com, nodeSums A simd d nd parts = some (com, r.mass) ∧ r.mass.isFinite = true) ∨
    nodeProps A simd mac w d box nd parts = .error .invalidArg := by
  obtain ⟨com, mass, e, hcl⟩ := nodeSums_total A simd hl hn h1 h2
  obtain ⟨cen, hclen, hcen⟩ : ∃ cen, cen.length = d ∧ nodeCentre A w d (p.code d) box = .ok cen := by
    obtain ⟨c, _, hclen, hcen⟩ := nodeCentre_eq A hs hp hpl box
    exact ⟨_, by rw [List.length_map]; exact hclen, hcen⟩
  have hd := hs.dim
  have hdim := nodeDim_eq A (show p.length < w by have := cbits_mul_lt hd.1 hd.2.1; have := Nat.le_mul_of_pos_right (cbits w d) hd.1; omega) box
  rw [e]
  unfold nodeProps
  rw [e, hc, hlev]
  simp only [ofUB, bind, Except.bind]
  cases mac with
  | bh =>
    simp only [hcen, hdim]
    by_cases hm : mass.eq (.fin 0) = true
    · rw [if_pos hm]
      split
      · exact .inr rfl
      · split
        · exact .inr rfl
        · rename_i hmf
          split
          · exact .inr rfl
          · exact .inl ⟨_, rfl, com, rfl, by simpa using hmf⟩
    · rw [if_neg hm]
      split
      · exact .inr rfl
      · split
        · exact .inr rfl
        · rename_i hmf
          split
          · exact .inr rfl
          · exact .inl ⟨_, rfl, com, rfl, by simpa using hmf⟩
  | bhGeom =>
    simp only [hcen, hdim]
    have hdist : ∀ l : List (Fl K), l.length = d → ∃ q, dist2 A l cen = some q := by
      intro l hl
      unfold dist2
      cases hz : l.zip cen with
      | nil =>
        have := congrArg List.length hz
        rw [List.length_zip, hl, hclen, min_self] at this
        simp at this; omega
      | cons a t => exact ⟨_, rfl⟩
    by_cases hm : mass.eq (.fin 0) = true
    · rw [if_pos hm]
      split
      · exact .inr rfl
      · split
        · exact .inr rfl
        · rename_i hmf
          split
          · exact .inr rfl
          · obtain ⟨q, hq⟩ := hdist cen hclen
            rw [hq]
            dsimp only
            split
            · exact .inr rfl
            · exact .inl ⟨_, rfl, com, rfl, by simpa using hmf⟩
    · rw [if_neg hm]
      split
      · exact .inr rfl
      · split
        · exact .inr rfl
        · rename_i hmf
          split
          · exact .inr rfl
          · obtain ⟨q, hq⟩ := hdist (com.map (fun c => A.mul c (A.div (.fin 1) mass))) (by rw [List.length_map]; exact hcl)
            rw [hq]
            dsimp only
            split
            · exact .inr rfl
            · exact .inl ⟨_, rfl, com, rfl, by simpa using hmf⟩

/-- The outcomes of construction for the arithmetic `A`. -/
theorem ctor_cases (A : Arith K) (simd : Option (Simd K)) (mac : Mac) {w d : Nat} (hs : Supported w d)
    {inp : Input (rakauEnv A simd mac w d)} (hl : inp.parts.length = d + 1) (hz : (inp.parts.headD []).length * cbits w d < 2 ^ 64)
    {r : Except Err (TS (rakauEnv A simd mac w d))} (h : Construct inp r) :
    (inp.check = .error .invalidArg ∧ r = .error .invalidArg) ∨
    (inp.check = .ok () ∧ boxFor (rakauEnv A simd mac w d) inp.box inp.parts = .error .invalidArg ∧ r = .error .invalidArg) ∨
    (inp.check = .ok () ∧ ∃ box : Fl K, boxFor (rakauEnv A simd mac w d) inp.box inp.parts = .ok box ∧
      (((∃ v ∈ inp.parts.take d, ∃ x ∈ v, discSingle A w (cbits w d) x (invBox A box) = .error .invalidArg) ∧ r = .error .invalidArg) ∨
       ((∀ v ∈ inp.parts.take d, ∀ x ∈ v, ∃ c, discSingle A w (cbits w d) x (invBox A box) = .ok c) ∧
        ∃ (parts : List (List (Fl K))) (tree : List Node), parts.length = d + 1 ∧
          List.Forall₂ (fun v u => u.Perm v) inp.parts parts ∧ (∀ v ∈ parts, v.length = (inp.parts.headD []).length) ∧
          (∀ nd ∈ tree, nd.beg < nd.fin ∧ nd.fin ≤ (inp.parts.headD []).length ∧
            ∃ p : Path, p.Ok d ∧ p.length ≤ cbits w d ∧ nd.code = p.code d ∧ nd.level = p.length) ∧
          ((inp.parts.headD []).length ≠ 0 → ∃ nd ∈ tree, nd.beg = 0 ∧ nd.fin = (inp.parts.headD []).length) ∧
          (((∃ nd ∈ tree, nodeProps A simd mac w d box nd parts = .error .invalidArg) ∧ r = .error .invalidArg) ∨
            (∀ nd ∈ tree, ∃ p, nodeProps A simd mac w d box nd parts = .ok p) ∧ ∃ s, r = .ok s)))) := by
  have E := rakauEnv_ok A simd mac hs
  have U := rakauEnv_noUB A simd mac hs
  have hd := hs.dim.1
  rcases check_cases inp with ⟨hc, hlen, _⟩ | ⟨hc, _⟩
  swap
  · refine .inl ⟨hc, ?_⟩
    have hp : inp.prepare = .error .invalidArg := by unfold Input.prepare; rw [hc]; rfl
    rcases construct_cases E U hz h with ⟨e, h1, h2⟩ | ⟨_, _, _, _, _, _, _, _, h1, _⟩
    · rw [hp] at h1; cases h1; exact h2
    · rw [hp] at h1; cases h1
  right
  have hbox : ∀ e, boxFor (rakauEnv A simd mac w d) inp.box inp.parts = .error e → e = .invalidArg := by
    intro e he
    unfold boxFor at he
    cases hb : inp.box with
    | some b => rw [hb] at he; cases he
    | none =>
      rw [hb] at he
      have he : deduceBox A d inp.parts = .error e := he
      rcases deduceBox_cases A hd ⟨by omega, hlen⟩ with ⟨m, h1, e1⟩ | ⟨_, e1⟩
      · rw [e1] at he
        unfold boxFromMax at he
        simp only [maxElement, List.foldl_nil, ofUB, bind, Except.bind] at he
        split at he
        · cases he; rfl
        · cases he
      · rw [e1] at he; cases he; rfl
  rcases prepare_cases inp with ⟨e, h1, _⟩ | ⟨_, e, h1, h2⟩ | ⟨_, box, h1, h2⟩
  · rw [hc] at h1; cases h1
  · have := hbox e h1
    subst this
    refine .inl ⟨hc, h1, ?_⟩
    rcases construct_cases E U hz h with ⟨e, h3, h4⟩ | ⟨_, _, _, _, _, _, _, _, h3, _⟩
    · rw [h2] at h3; cases h3; exact h4
    · rw [h2] at h3; cases h3
  · refine .inr ⟨hc, box, h1, ?_⟩
    rcases rawCodes_cases A simd mac hs box hl hlen with ⟨⟨raw, hr⟩, hall⟩ | ⟨hr, hex⟩
    swap
    · refine .inl ⟨hex, ?_⟩
      rcases h2 with ⟨e, h3, h4⟩ | ⟨raw, h3, _⟩
      · rw [hr] at h3; cases h3
        rcases construct_cases E U hz h with ⟨e, h5, h6⟩ | ⟨_, _, _, _, _, _, _, _, h5, _⟩
        · rw [h4] at h5; cases h5; exact h6
        · rw [h4] at h5; cases h5
      · rw [hr] at h3; cases h3
    · refine .inr ⟨hall, ?_⟩
      have hp : inp.prepare = .ok (box, raw) := by
        rcases h2 with ⟨e, h3, _⟩ | ⟨raw', h3, h4⟩
        · rw [hr] at h3; cases h3
        · rw [hr] at h3; cases h3; exact h4
      rcases construct_cases E U hz h with ⟨e, h3, _⟩ | ⟨box', raw', srt, codes, parts, tree, crit, split, k1, k2, k3, k4, k5, k6, k7, k8⟩
      · rw [hp] at h3; cases h3
      rw [hp, Except.ok.injEq, Prod.mk.injEq] at k1
      obtain ⟨rfl, rfl⟩ := k1
      obtain ⟨s1, s2, _⟩ := mapM_isort_spec k3
      have hperm : List.Forall₂ (fun v u => u.Perm v) inp.parts parts := by
        apply forall₂_of_getElem s1
        intro i i1 i2
        exact applyIsort_perm_of k2 (hlen _ (List.getElem_mem i1)) ((forall₂_getElem (mapM_some_iff.1 k3)).2 i i1 i2)
      have hplen : ∀ v ∈ parts, v.length = (inp.parts.headD []).length := fun v hv => (s2 v hv).trans (perm_length k2)
      have hnode : ∀ nd ∈ tree, nd.beg < nd.fin ∧ nd.fin ≤ (inp.parts.headD []).length ∧
            ∃ p : Path, p.Ok d ∧ p.length ≤ cbits w d ∧ nd.code = p.code d ∧ nd.level = p.length := by
        intro nd hnd
        by_cases hce : codes = []
        · cases k5 with
          | empty => simp at hnd
          | run _ _ _ _ hne => exact absurd hce hne
        · obtain ⟨i, hi, rfl⟩ := List.getElem_of_mem hnd
          obtain ⟨ps, pl, _, _, pm, pall⟩ := C11_depth_first (k6 hce) k5
          obtain ⟨e1, e2, e3, e4, _⟩ := pall i hi
          have hn := (pm _).1 (List.getElem_mem (show i < ps.length by omega))
          exact ⟨e3, by rw [← k7]; exact e4, ps[i], isNode_ok hn, hn.1, e1, e2⟩
      refine ⟨parts, tree, s1.symm.trans hl, hperm, hplen, hnode, ?_, ?_⟩
      · intro hn0
        have hce : codes ≠ [] := fun e => hn0 (by rw [← k7, e]; rfl)
        obtain ⟨ps, pl, p0, _, pm, pall⟩ := C11_depth_first (k6 hce) k5
        have hpos : 0 < ps.length := by cases ps with
          | nil => simp at p0
          | cons a l => simp
        obtain ⟨_, _, e3, e4, e5, _⟩ := pall 0 (by omega)
        have hps : ps[0] = [] := by
          rw [List.head?_eq_getElem?, List.getElem?_eq_getElem hpos] at p0
          exact Option.some.inj p0
        refine ⟨_, List.getElem_mem (show 0 < tree.length by omega), ?_, ?_⟩
        · have := (e5 0 (by omega)).2 (by rw [hps]; exact List.nil_prefix)
          omega
        · have := (e5 (codes.length - 1) (by omega)).2 (by rw [hps]; exact List.nil_prefix)
          omega
      · rcases k8 with ⟨e, f1, f2⟩ | ⟨props, s, f1, f2⟩
        · left
          obtain ⟨nd, hnd, he⟩ := mapM_error f1
          have he : nodeProps A simd mac w d box nd parts = .error e := he
          obtain ⟨n1, n2, p, p1, p2, p3, p4⟩ := hnode nd hnd
          rcases nodeProps_cases A simd mac hs box (s1.symm.trans hl) hplen n1.le n2 p1 p2 p3 p4 with ⟨q, e', _⟩ | e'
          · rw [e'] at he; cases he
          · rw [e'] at he; cases he
            exact ⟨⟨nd, hnd, e'⟩, f2⟩
        · right
          refine ⟨?_, s, f2⟩
          intro nd hnd
          obtain ⟨i, hi, rfl⟩ := List.getElem_of_mem hnd
          have hf := forall₂_getElem (mapM_ok_iff.1 f1)
          exact ⟨_, hf.2 i hi (by rw [← hf.1]; exact hi)⟩

end Rakau
