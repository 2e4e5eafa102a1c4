import Verif.Proof.AssertsBuild
import Verif.Proof.Ctor

/-! Construction, updates and destruction in a debug build. -/
set_option linter.unusedSectionVars false

namespace Rakau
open Spec

variable {K : Type} [Field K] [LinearOrder K] [IsStrictOrderedRing K] [FloorRing K]

theorem dbg_inj_ok {α : Type} {r : Except Err α} {a : α} (h : dbg r = .ok a) : r = .ok a := by
  cases r with
  | error e => simp [dbg] at h
  | ok v => simpa [dbg] using h

theorem dbg_inj_error {α : Type} {r : Except Err α} {e : Stop} (h : dbg r = .error e) : ∃ e', r = .error e' ∧ e = .err e' := by
  cases r with
  | error e' => simp only [dbg, Except.error.injEq] at h; exact ⟨e', rfl, h.symm⟩
  | ok v => simp [dbg] at h

theorem codeOfD_eq {f : Fast} (A : Arith K) {w d : Nat} (hs : Supported w d) (hf : f.Ok w) (box : Fl K) (c : List (Fl K)) :
    codeOfD f A w d box c = dbg (codeOf A w d box c) := by
  unfold codeOfD codeOf
  by_cases hc : c.length ≠ d
  · rw [if_pos hc, if_pos hc]; rfl
  · rw [if_neg hc, if_neg hc, dbg_bind]
    have hc' : c.length = d := not_not.1 hc
    cases h : c.mapM (fun x => discSingle A w (cbits w d) x (invBox A box)) with
    | error e => rfl
    | ok xs =>
      have h2 := forall₂_getElem (mapM_ok_iff.1 h)
      have hl : xs.length = d := by rw [← h2.1, hc']
      subst hl
      refine encodeD_eq hs hf (fun x hx => ?_)
      obtain ⟨i, hi, rfl⟩ := List.getElem_of_mem hx
      exact discSingle_lt A (cbits_le _ _) (h2.2 i (by omega) hi)

theorem rawCodesD_eq {f : Fast} (A : Arith K) (simd : Option (Simd K)) (mac : Mac) {w d : Nat} (hs : Supported w d) (hf : f.Ok w) (box : Fl K)
    (parts : List (List (Fl K))) (n : Nat) : rawCodesD f A w d box parts n = dbg (rawCodes (rakauEnv A simd mac w d) box parts n) := by
  refine mapM_dbg (fun i _ => ?_)
  rw [dbg_bind]
  congr 1
  funext c
  exact codeOfD_eq A hs hf box c

theorem nodeCentreD_eq (A : Arith K) {w d : Nat} (hs : Supported w d) {p : Path} (hp : p.Ok d) (hl : p.length ≤ cbits w d) (box : Fl K) :
    nodeCentreD A w d (p.code d) box = dbg (nodeCentre A w d (p.code d) box) := by
  obtain ⟨hd0, hdw, hw64⟩ := hs.dim
  have hcb := cbits_mul_lt hd0 hdw
  have hld : p.length * d ≤ cbits w d * d := Nat.mul_le_mul_right _ hl
  have hsd : (cbits w d - p.length) * d = cbits w d * d - p.length * d := Nat.sub_mul _ _ _
  have hq := pv_lt d p hp
  have hsh : pv d p * 2 ^ ((cbits w d - p.length) * d) < 2 ^ (cbits w d * d) := by
    have : (2 : Nat) ^ (cbits w d * d) = 2 ^ (p.length * d) * 2 ^ ((cbits w d - p.length) * d) := by rw [← pow_add]; congr 1; omega
    rw [this]
    exact Nat.mul_lt_mul_of_pos_right hq (Nat.two_pow_pos _)
  have e1 : shl w 1 (mulSz p.length d) = some (2 ^ (p.length * d)) := by
    rw [mulSz_eq (by omega), shl_eq (by omega) (by rw [one_mul]; exact Nat.pow_lt_pow_right (by norm_num) (by omega)), one_mul]
  have e2 : subW w (p.code d) (2 ^ (p.length * d)) = pv d p := by
    rw [subW_eq (by rw [code_pv]; omega) (code_lt_two_pow hd0 hdw p hp hl), code_pv]; omega
  have e3 : shl w (pv d p) (mulSz (cbits w d - p.length) d) = some (pv d p * 2 ^ ((cbits w d - p.length) * d)) := by
    rw [mulSz_eq (by omega), shl_eq (by omega) (lt_of_lt_of_le hsh (Nat.pow_le_pow_right (by norm_num) (by omega)))]
  obtain ⟨xs, hx, -⟩ := mortonDecode_interleaves hs hsh
  unfold nodeCentreD
  rw [treeLevelD_code hd0 hdw hp hl]
  simp only [bind_ok', e1, e2, e3, ofUB, dbg_ok, decodeD_eq hs hsh, hx]

/-- The node properties in a debug build. -/
theorem nodePropsD_eq (A : Arith K) (simd : Option (Simd K)) (mac : Mac) {w d : Nat} (hs : Supported w d) (box : Fl K) {nd : Node}
    (parts : List (List (Fl K))) (hlt : nd.beg < nd.fin) {p : Path} (hp : p.Ok d) (hl : p.length ≤ cbits w d) (hc : nd.code = p.code d) :
    nodePropsD A simd mac w d box nd parts = dbg (nodeProps A simd mac w d box nd parts) := by
  obtain ⟨c, _, _, hcen⟩ := nodeCentre_eq A hs hp hl box
  unfold nodePropsD
  rw [chk_true (decide_eq_true hlt)]
  simp only [bind_ok']
  cases h : nodeSums A simd d nd parts with
  | none => unfold nodeProps; rw [h]; rfl
  | some v =>
    obtain ⟨com, mass⟩ := v
    simp only [ofUB, dbg_ok, bind_ok']
    split
    · rw [hc, nodeCentreD_eq A hs hp hl, hcen]; rfl
    · rfl

theorem fin_eq_self {x : Fl K} (h : x.isFinite = true) : x.eq x = true := by
  cases x <;> simp [Fl.isFinite, Fl.eq] at h ⊢

theorem nodeProps_dim (A : Arith K) (simd : Option (Simd K)) (mac : Mac) {w d : Nat} (box : Fl K) {nd : Node} {parts : List (List (Fl K))}
    {r : NProps K} (h : nodeProps A simd mac w d box nd parts = .ok r) :
    ∃ dim, nodeDim A w nd.level box = .ok dim ∧
      r.dim.eq (dimVal A mac dim) = true := by
  unfold nodeProps at h
  cases h1 : nodeSums A simd d nd parts with
  | none => rw [h1] at h; simp [ofUB, bind, Except.bind] at h
  | some v =>
    obtain ⟨com0, mass⟩ := v
    cases hdim : nodeDim A w nd.level box with
    | error e =>
      rw [h1] at h
      simp only [ofUB, bind_ok', hdim] at h
      exfalso
      cases mac <;> simp only [bind, Except.bind] at h <;> (repeat' split at h) <;> simp_all
    | ok dim =>
      refine ⟨dim, rfl, ?_⟩
      rw [h1] at h
      simp only [ofUB, bind_ok', hdim] at h
      cases mac with
      | bh =>
        simp only [bind, Except.bind] at h
        repeat' split at h
        all_goals first
          | (simp at h; done)
          | (simp only [Except.ok.injEq] at h; rw [← h]; apply fin_eq_self; simp_all [dimVal])
      | bhGeom =>
        simp only [bind, Except.bind] at h
        repeat' split at h
        all_goals first
          | (simp at h; done)
          | (simp only [Except.ok.injEq] at h; rw [← h]; apply fin_eq_self; simp_all [dimVal])


theorem dimsD_eq (A : Arith K) (simd : Option (Simd K)) (mac : Mac) {w d : Nat} (box : Fl K) (parts : List (List (Fl K))) :
    ∀ (tree : List Node) (props : List (NProps K)), tree.mapM (fun nd => nodeProps A simd mac w d box nd parts) = .ok props →
      dimsD A mac w box tree props = .ok () := by
  intro tree props h
  have h2 := mapM_ok_iff.1 h
  unfold dimsD
  refine forM_ok (fun x hx => ?_)
  have hx' : nodeProps A simd mac w d box x.1 parts = .ok x.2 := by
    obtain ⟨i, hi, rfl⟩ := List.getElem_of_mem hx
    rw [List.getElem_zip]
    exact (forall₂_getElem h2).2 i (by simp at hi; omega) (by simp at hi; omega)
  obtain ⟨dim, e1, e2⟩ := nodeProps_dim A simd mac box hx'
  rw [e1, dbg_ok, bind_ok', chk_true e2]

/-- What is needed of a node. -/
def GoodNode (w d : Nat) (nd : Node) : Prop :=
  nd.beg < nd.fin ∧ ∃ p : Path, p.Ok d ∧ p.length ≤ cbits w d ∧ nd.code = p.code d

theorem propsD_eq (A : Arith K) (simd : Option (Simd K)) (mac : Mac) {w d : Nat} (hs : Supported w d) (box : Fl K) {tree : List Node}
    (parts : List (List (Fl K))) (ht : ∀ nd ∈ tree, GoodNode w d nd) :
    propsD A simd mac w d box tree parts = dbg (tree.mapM (fun nd => nodeProps A simd mac w d box nd parts)) := by
  unfold propsD
  rw [mapM_dbg (f := fun nd => nodeProps A simd mac w d box nd parts)
    (fun nd hnd => by obtain ⟨h1, p, h2, h3, h4⟩ := ht nd hnd; exact nodePropsD_eq A simd mac hs box parts h1 h2 h3 h4)]
  cases h : tree.mapM (fun nd => nodeProps A simd mac w d box nd parts) with
  | error e => rfl
  | ok props => rw [dbg_ok, bind_ok', dimsD_eq A simd mac box parts tree props h]; rfl

theorem good_of_build {g : Cfg} {codes : List Nat} (H : Hyp g codes) (hsz : codes.length * g.cb ≤ szMax) {split : Nat} {tree : List Node}
    {crit : List CNode} (h : IsBuild g codes split (.ok (tree, crit))) : ∀ nd ∈ tree, GoodNode g.w g.d nd := by
  by_cases hn : codes = []
  · cases h with
    | empty => simp
    | run _ _ _ _ hne => exact absurd hn hne
  · have he := isBuild_eq H hsz split hn h
    simp only [Except.ok.injEq, Prod.mk.injEq] at he
    rw [he.1]
    intro nd hnd
    obtain ⟨p, hp, rfl⟩ := List.mem_map.1 hnd
    have hp' := (mem_allP hn).1 hp
    exact ⟨lo_lt_hi H hn hp, p, isNode_ok hp', hp'.1, rfl⟩

theorem isSorted_of {l : List Nat} (h : l.Pairwise (· ≤ ·)) : isSorted idxLt l = true := by
  induction l with
  | nil => rfl
  | cons a l ih =>
    cases l with
    | nil => rfl
    | cons b l =>
      rw [List.pairwise_cons] at h
      have := h.1 b (by simp)
      simp only [isSorted, ih h.2, Bool.and_true, Bool.not_eq_true', idxLt, decide_eq_false_iff_not]
      omega

theorem applyIsortD_eq {α : Type} {v : List α} {srt : List Nat} {n : Nat} (hp : srt.Perm (List.range n)) (hv : v.length = n) :
    applyIsortD v srt = dbg (ofUB (applyIsort v srt)) := by
  unfold applyIsortD
  rw [chk_true (by rw [perm_length hp, hv]; simp), bind_ok',
    chk_true (by rw [List.all_eq_true]; intro k hk; have := perm_lt hp hk; simp; omega), bind_ok']

theorem permToInvD_eq {ord perm inv : List Nat} {n : Nat} (hp : perm.Perm (List.range n)) (ho : ord.Perm (List.range n)) (hi : inv.length = n) :
    permToInvD ord perm inv = dbg (ofUB (permToInv ord perm inv)) := by
  have hl := perm_length hp
  unfold permToInvD
  rw [chk_true (by rw [hl, hi]; simp), bind_ok',
    chk_true (by rw [List.all_eq_true]; intro k hk; have := perm_lt ho hk; simp; omega), bind_ok',
    chk_true (by
      rw [List.all_eq_true]; intro k hk
      have := perm_lt ho hk
      rw [List.getElem?_eq_getElem (by omega)]
      have := perm_lt hp (List.getElem_mem (show k < perm.length by omega))
      simp only [Option.all_some]; apply decide_eq_true; omega), bind_ok']

theorem mapM_ofUB {α β : Type} (f : α → Option β) (l : List α) : l.mapM (fun a => ofUB (f a)) = ofUB (l.mapM f) := by
  induction l with
  | nil => rfl
  | cons a l ih =>
    rw [List.mapM_cons, List.mapM_cons, ih]
    cases f a with
    | none => rfl
    | some b => cases l.mapM f <;> rfl

section
variable {A : Arith K} {simd : Option (Simd K)} {mac : Mac} {w d : Nat}

theorem prepareD_eq {f : Fast} (hs : Supported w d) (hf : f.Ok w) (moved : Bool) (inp : Input (rakauEnv A simd mac w d)) :
    prepareD f moved inp = dbg inp.prepare := by
  unfold prepareD Input.prepare
  by_cases hl : inp.parts.any (fun v => v.length != (inp.parts.headD []).length) = true
  · have : inp.check = .error .invalidArg := by unfold Input.check; rw [if_pos hl]
    rw [if_pos hl, this]; rfl
  · have hlen : ∀ v ∈ inp.parts, v.length = (inp.parts.headD []).length := by
      intro v hv
      simp only [List.any_eq_true, not_exists, not_and] at hl
      simpa using hl v hv
    have c1 : chk (.tree 1345) (!inp.box.isNone || Fl.eq (K := K) (inp.box.getD (.fin 0)) (.fin 0)) = .ok () := by
      apply chk_true
      cases h : inp.box with
      | none => show Fl.eq (Fl.fin (0 : K)) (.fin 0) = true; exact fin_eq_self rfl
      | some b => rfl
    have c2 : chk (.tree 1347) (!moved || (if moved then 0 else (inp.parts.headD []).length) == 0) = .ok () := by
      apply chk_true
      cases moved <;> rfl
    have c3 : chk (.tree 1371) (!moved || inp.parts.all (fun v => v.length == (inp.parts.headD []).length)) = .ok () := by
      apply chk_true
      cases moved
      · rfl
      · simp only [Bool.not_true, Bool.false_or, List.all_eq_true, beq_iff_eq]; exact hlen
    rw [if_neg hl]
    dsimp only
    rw [c1, bind_ok', c2, bind_ok', dbg_bind]
    congr 1
    funext _
    rw [c3, bind_ok', dbg_bind]
    congr 1
    funext box
    rw [rawCodesD_eq A simd mac hs hf, dbg_bind]
    rfl

theorem syncPrepareD_eq {f : Fast} (hs : Supported w d) (hf : f.Ok w) (s : TS (rakauEnv A simd mac w d)) :
    syncPrepareD f s = dbg s.syncPrepare := by
  unfold syncPrepareD TS.syncPrepare
  rw [dbg_bind]
  congr 1
  funext box
  rw [rawCodesD_eq A simd mac hs hf, dbg_bind]
  rfl

theorem hyp_of {raw srt codes : List Nat} (hs : Supported w d) (hb : ∀ c ∈ raw, c < 2 ^ (cbits w d * d))
    (hso : IsSortOf (codeLt raw) (List.range raw.length) srt) (ha : applyIsort raw srt = some codes) (hz : raw.length * cbits w d < 2 ^ 64)
    (ml nc : Nat) : Hyp ⟨w, d, ml, nc⟩ codes ∧ codes.length * cbits w d ≤ szMax := by
  have hcp := applyIsort_perm_of hso.1 rfl ha
  refine ⟨⟨hs.dim.1, hs.dim.2.1, hs.dim.2.2, codes_sorted hso ha, fun c hc => hb c (hcp.mem_iff.1 hc)⟩, ?_⟩
  rw [hcp.length_eq]
  unfold szMax
  omega

theorem finishD_eq (hs : Supported w d) (inp : Input (rakauEnv A simd mac w d)) (box : Fl K) {raw srt ord codes : List Nat}
    {r : Except Err (List Node × List CNode)} (hlen : ∀ v ∈ inp.parts, v.length = raw.length)
    (hso : IsSortOf (codeLt raw) (List.range raw.length) srt) (ho : ord.Perm (List.range raw.length)) (ha : applyIsort raw srt = some codes)
    (hg : ∀ tree crit, r = .ok (tree, crit) → ∀ nd ∈ tree, GoodNode w d nd) :
    finishD inp box raw srt ord (dbg r) = dbg (inp.finish box raw srt ord r) := by
  have hsl := perm_length hso.1
  unfold finishD Input.finish
  rw [applyIsortD_eq hso.1 rfl, ha]
  simp only [ofUB, dbg_ok, bind_ok', chk_true (isSorted_of (codes_sorted hso ha))]
  rw [mapM_dbg (f := fun v => ofUB (applyIsort v srt)) (fun v hv => applyIsortD_eq hso.1 (hlen v hv)), mapM_ofUB, dbg_bind]
  congr 1
  funext parts
  rw [permToInvD_eq hso.1 ho (by simp [hsl]), dbg_bind]
  congr 1
  funext inv
  rw [dbg_bind]
  cases r with
  | error e => rfl
  | ok v =>
    obtain ⟨tree, crit⟩ := v
    simp only [dbg_ok, bind_ok']
    rw [propsD_eq A simd mac hs box parts (hg tree crit rfl), dbg_bind]
    rfl

theorem syncFinishD_eq (hs : Supported w d) (s : TS (rakauEnv A simd mac w d)) (box : Fl K) {raw srt ord codes : List Nat}
    {r : Except Err (List Node × List CNode)} (hlen : ∀ v ∈ s.parts, v.length = raw.length) (hperm : s.perm.Perm (List.range raw.length))
    (hinv : s.invPerm.length = raw.length)
    (hso : IsSortOf (codeLt raw) (List.range raw.length) srt) (ho : ord.Perm (List.range raw.length)) (ha : applyIsort raw srt = some codes)
    (hg : ∀ tree crit, r = .ok (tree, crit) → ∀ nd ∈ tree, GoodNode w d nd) :
    syncFinishD s box raw srt ord (dbg r) = dbg (s.syncFinish box raw srt ord r) := by
  unfold syncFinishD TS.syncFinish
  rw [applyIsortD_eq hso.1 rfl, ha]
  simp only [ofUB, dbg_ok, bind_ok', chk_true (isSorted_of (codes_sorted hso ha))]
  rw [mapM_dbg (f := fun v => ofUB (applyIsort v srt)) (fun v hv => applyIsortD_eq hso.1 (hlen v hv)), mapM_ofUB, dbg_bind]
  congr 1
  funext parts
  obtain ⟨perm, hp⟩ := applyIsort_exists (v := s.perm) hso.1 (perm_length hperm)
  rw [applyIsortD_eq hso.1 (perm_length hperm), hp]
  simp only [ofUB, dbg_ok, bind_ok']
  rw [permToInvD_eq (applyIsort_perm hso.1 hperm hp) ho hinv, dbg_bind]
  congr 1
  funext inv
  rw [dbg_bind]
  cases r with
  | error e => rfl
  | ok v =>
    obtain ⟨tree, crit⟩ := v
    simp only [dbg_ok, bind_ok']
    rw [propsD_eq A simd mac hs box parts (hg tree crit rfl), dbg_bind]
    rfl

/-- Construction: the debug build has exactly the outcomes of the release build. -/
theorem constructD_iff {f : Fast} (hs : Supported w d) (hf : f.Ok w) (moved : Bool) (inp : Input (rakauEnv A simd mac w d))
    (hz : (inp.parts.headD []).length * cbits w d < 2 ^ 64) (rD : Dbg (TS (rakauEnv A simd mac w d))) :
    ConstructD f moved inp rD ↔ ∃ r, Construct inp r ∧ rD = dbg r := by
  have E := rakauEnv_ok A simd mac hs
  have key : ∀ box raw, inp.prepare = .ok (box, raw) → (∀ v ∈ inp.parts, v.length = raw.length) ∧ raw.length * cbits w d < 2 ^ 64 ∧
      ∀ c ∈ raw, c < 2 ^ (cbits w d * d) := by
    intro box raw hp
    rcases prepare_cases inp with ⟨e, _, h⟩ | ⟨_, e, _, h⟩ | ⟨hc, b, _, ⟨e, _, h⟩ | ⟨raw', hr, h⟩⟩
    · rw [h] at hp; simp at hp
    · rw [h] at hp; simp at hp
    · rw [h] at hp; simp at hp
    · rw [h, Except.ok.injEq, Prod.mk.injEq] at hp
      obtain ⟨rfl, rfl⟩ := hp
      have hl := (rawCodes_spec.1 hr).1
      exact ⟨fun v hv => by rw [hl]; exact check_lengths hc v hv, by rw [hl]; exact hz, codes_bound E hr⟩
  constructor
  · intro h
    cases h with
    | early e h =>
      rw [prepareD_eq hs hf] at h
      obtain ⟨e', h1, rfl⟩ := dbg_inj_error h
      exact ⟨_, .early _ h1, rfl⟩
    | run box raw srt ord codes split r hp hso ho ha hb =>
      rw [prepareD_eq hs hf] at hp
      have hp' := dbg_inj_ok hp
      obtain ⟨k1, k2, k3⟩ := key _ _ hp'
      obtain ⟨H, hsz⟩ := hyp_of hs k3 hso ha k2 inp.maxLeaf inp.ncrit
      obtain ⟨r', hr', rfl⟩ := isBuildD_eq H hsz hb
      have h1 := Construct.run (inp := inp) box raw srt ord codes split r' hp' hso ho ha hr'
      have h2 := finishD_eq hs inp box (r := r') k1 hso ho ha (fun tree crit e => by subst e; exact good_of_build H hsz hr')
      exact ⟨_, h1, h2⟩
  · rintro ⟨r, h, rfl⟩
    cases h with
    | early e h => exact .early _ (by rw [prepareD_eq hs hf, h]; rfl)
    | run box raw srt ord codes split r hp hso ho ha hb =>
      obtain ⟨k1, k2, k3⟩ := key _ _ hp
      obtain ⟨H, hsz⟩ := hyp_of hs k3 hso ha k2 inp.maxLeaf inp.ncrit
      rw [← finishD_eq hs inp box k1 hso ho ha (fun tree crit e => by subst e; exact good_of_build H hsz hb)]
      exact .run box raw srt ord codes split (dbg r) (by rw [prepareD_eq hs hf, hp]; rfl) hso ho ha (isBuildD_of H hsz hb)

/-- `sync()`: likewise. -/
theorem syncD_iff {f : Fast} (hs : Supported w d) (hf : f.Ok w) {t : TS (rakauEnv A simd mac w d)} (ht : PreSync t)
    (hz : t.n * cbits w d < 2 ^ 64) (rD : Dbg (TS (rakauEnv A simd mac w d))) :
    SyncD f t rD ↔ ∃ r, Sync t r ∧ rD = dbg r := by
  have E := rakauEnv_ok A simd mac hs
  have key : ∀ box raw, t.syncPrepare = .ok (box, raw) → raw.length = t.n ∧ raw.length * cbits w d < 2 ^ 64 ∧
      ∀ c ∈ raw, c < 2 ^ (cbits w d * d) := by
    intro box raw hp
    unfold TS.syncPrepare at hp
    cases hb : boxFor (rakauEnv A simd mac w d) (if t.deduced then none else some t.box) t.parts with
    | error e => rw [hb] at hp; simp [bind, Except.bind] at hp
    | ok b =>
      rw [hb] at hp
      simp only [bind_ok'] at hp
      cases hr : rawCodes (rakauEnv A simd mac w d) b t.parts t.n with
      | error e => rw [hr] at hp; simp [bind, Except.bind] at hp
      | ok raw' =>
        rw [hr] at hp
        simp only [bind_ok', pure, Except.pure, Except.ok.injEq, Prod.mk.injEq] at hp
        obtain ⟨rfl, rfl⟩ := hp
        have hl := (rawCodes_spec.1 hr).1
        exact ⟨hl, by rw [hl]; exact hz, codes_bound E hr⟩
  constructor
  · intro h
    cases h with
    | early e h =>
      rw [syncPrepareD_eq hs hf] at h
      obtain ⟨e', h1, rfl⟩ := dbg_inj_error h
      exact ⟨_, .early _ h1, rfl⟩
    | run box raw srt ord codes split r hp hso ho ha hb =>
      rw [syncPrepareD_eq hs hf] at hp
      have hp' := dbg_inj_ok hp
      obtain ⟨k1, k2, k3⟩ := key _ _ hp'
      obtain ⟨H, hsz⟩ := hyp_of hs k3 hso ha k2 t.maxLeaf t.ncrit
      obtain ⟨r', hr', rfl⟩ := isBuildD_eq H hsz hb
      have h1 := Sync.run (s := t) box raw srt ord codes split r' hp' hso ho ha hr'
      have h2 := syncFinishD_eq hs t box (r := r') (by rw [k1]; exact ht.len) (by rw [k1]; exact ht.perm) (by rw [k1]; exact ht.invLen) hso ho ha
        (fun tree crit e => by subst e; exact good_of_build H hsz hr')
      exact ⟨_, h1, h2⟩
  · rintro ⟨r, h, rfl⟩
    cases h with
    | early e h => exact .early _ (by rw [syncPrepareD_eq hs hf, h]; rfl)
    | run box raw srt ord codes split r hp hso ho ha hb =>
      obtain ⟨k1, k2, k3⟩ := key _ _ hp
      obtain ⟨H, hsz⟩ := hyp_of hs k3 hso ha k2 t.maxLeaf t.ncrit
      rw [← syncFinishD_eq hs t box (by rw [k1]; exact ht.len) (by rw [k1]; exact ht.perm) (by rw [k1]; exact ht.invLen) hso ho ha
        (fun tree crit e => by subst e; exact good_of_build H hsz hb)]
      exact .run box raw srt ord codes split (dbg r) (by rw [syncPrepareD_eq hs hf, hp]; rfl) hso ho ha (isBuildD_of H hsz hb)

end

end Rakau
