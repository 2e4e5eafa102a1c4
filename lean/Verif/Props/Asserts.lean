import Verif.Proof.AssertsDtor
import Verif.Proof.AssertsColl
import Verif.Proof.AssertsSplit
import Verif.Props.Box

/-! C72: the assertions of debug builds. -/
set_option linter.unusedSectionVars false

namespace Rakau
open Spec

variable {K : Type} [Field K] [LinearOrder K] [IsStrictOrderedRing K] [FloorRing K] {A : Arith K} {simd : Option (Simd K)} {mac : Mac} {w d : Nat}
  {f : Fast} {s : TS (rakauEnv A simd mac w d)}

/-- `exec` ended with the error `e`. -/
def endsWith {α : Type} (r : Except Err α) (e : Err) : Bool := match r with | .error e' => e' == e | .ok _ => false

omit [IsStrictOrderedRing K] [FloorRing K] [LinearOrder K] [Field K] in
theorem eq_error {α : Type} {r : Except Err α} {e : Err} (h : endsWith r e = true) : r = .error e := by
  cases r with
  | ok _ => cases h
  | error e' => rw [beq_iff_eq.1 h]

theorem guardD_dbg {env : Env} (r : Except Err (TS env)) (t : TS env) : guardD (dbg r) t = .out (guard r t) := by cases r <;> rfl

instance (f : Fast) (w : Nat) : Decidable (f.Ok w) := by unfold Fast.Ok; infer_instance

/-! ### Construction and updates -/

/-- C72: no assertion fails during construction, and a debug build yields exactly the outcomes of other builds: in any arithmetic, for any input (valid or not),
with and without BMI2 instructions. `moved` says from which of the two groups of constructors the call comes. -/
theorem C72_construct (hs : Supported w d) (hf : f.Ok w) (moved : Bool) (inp : Input (rakauEnv A simd mac w d))
    (hz : (inp.parts.headD []).length * cbits w d < 2 ^ 64) (rD : Dbg (TS (rakauEnv A simd mac w d))) :
    ConstructD f moved inp rD ↔ ∃ r, Construct inp r ∧ rD = dbg r := constructD_iff hs hf moved inp hz rD

/-- The five particles of the collision examples: the construction succeeds in a debug build. -/
example : ConstructD ⟨true, 64, 64⟩ false collInp (.ok collS) := by
  have h : Construct collInp collInp.exec := construct_exec (by decide +kernel)
  rw [eq_okOr (d := TS.default _) (show isOk collInp.exec = true by decide +kernel)] at h
  exact (C72_construct ⟨.inl rfl, .inr rfl⟩ (by decide) false collInp (by decide +kernel) _).2 ⟨_, h, rfl⟩

/-- A coordinate outside of the box: the exception is thrown, no assertion fails. -/
def outInp : Input collEnv := { collInp with parts := [[1, -1, 3, -2, 5], [1, 1, 3, -2, -1], [1, 1, 3, 0, 1], [1, 1, 1, 1, 1]].map (·.map .fin) }

example : ConstructD ⟨false, 32, 32⟩ true outInp (.error (.err .invalidArg)) := by
  have h : Construct outInp outInp.exec := construct_exec (by decide +kernel)
  rw [eq_error (show endsWith outInp.exec .invalidArg = true by decide +kernel)] at h
  exact (C72_construct ⟨.inl rfl, .inr rfl⟩ (by decide) true outInp (by decide +kernel) _).2 ⟨_, h, rfl⟩

/-- C72: no assertion fails during an update of the particles of any tree, whatever the callback does and whether or not the update is successful; the outcomes
are those of other builds. -/
theorem C72_update (hs : Supported w d) (hf : f.Ok w) (hr : Reach _ s) (hz : s.n * cbits w d < 2 ^ 64) (ordered : Bool) (g : Prog (Fl K))
    (o : DOut (rakauEnv A simd mac w d)) : UpdateD f s ordered g o ↔ ∃ o', UpdateParticles s ordered g o' ∧ o = .out o' := by
  have hI := reach_inv hr
  have key : ∀ parts, g.run (s.tr ordered) s.parts = .ok parts → ∀ rD, SyncD f { s with parts := parts } rD ↔ ∃ r, Sync { s with parts := parts } r ∧ rD = dbg r := by
    intro parts h
    have hp := preSync_of_run hI h
    refine syncD_iff hs hf hp ?_
    have e1 := perm_length hp.perm
    have e2 := perm_length hI.perm
    have e3 : ({ s with parts := parts } : TS (rakauEnv A simd mac w d)).n = s.n := by rw [← e1, ← e2]
    rw [e3]
    exact hz
  constructor
  · intro h
    rcases h with ⟨e, h⟩ | ⟨parts, r, h1, h2⟩
    · have := UpdateParticles.callback (s := s) (ordered := ordered) (f := g) e h
      exact ⟨_, this, rfl⟩
    · obtain ⟨r, h3, rfl⟩ := (key parts h1 _).1 h2
      have := UpdateParticles.sync (s := s) (ordered := ordered) (f := g) parts r h1 h3
      exact ⟨_, this, guardD_dbg r _⟩
  · rintro ⟨o', h, rfl⟩
    rcases h with ⟨e, h⟩ | ⟨parts, r, h1, h2⟩
    · exact UpdateD.callback (f := f) (s := s) (ordered := ordered) (g := g) e h
    · have h3 := (key parts h1 _).2 ⟨r, h2, rfl⟩
      have := UpdateD.sync (f := f) (s := s) (ordered := ordered) (g := g) parts _ h1 h3
      rw [guardD_dbg] at this
      exact this

/-- Two particles change places, with ordered iterators. -/
def collSwap : Prog (Fl ℚ) := .read 0 0 fun a => .read 0 2 fun b => .write 0 0 b (.write 0 2 a .done)

example : UpdateD ⟨true, 64, 64⟩ collS true collSwap (.out (collS.updExec true collSwap)) ∧ (collS.updExec true collSwap).isOk = true :=
  ⟨(C72_update ⟨.inl rfl, .inr rfl⟩ (by decide) coll_reach (by decide +kernel) true collSwap _).2
    ⟨_, update_exec (by decide +kernel), rfl⟩, by decide +kernel⟩

/-- C72: no assertion fails during an update of the masses. -/
theorem C72_masses (hs : Supported w d) (hr : Reach _ s) (hz : s.n * cbits w d < 2 ^ 64) (ordered : Bool) (g : Prog (Fl K)) :
    updateMassesD s ordered g = .out (updateMasses s ordered g) := by
  obtain ⟨r, h1, h2⟩ := massesD_eq hs (reach_inv hr) hz ordered g
  unfold updateMassesD
  rw [h1, h2]
  cases r <;> rfl

example : updateMassesD collS false (.write 0 3 (.fin 7) .done) = .out (updateMasses collS false (.write 0 3 (.fin 7) .done)) :=
  C72_masses ⟨.inl rfl, .inr rfl⟩ coll_reach (by decide +kernel) false _

/-! ### The destructor -/

/-- C72 for the destructor, in any arithmetic: the only assertions that can fail are those on the bounds of the coordinates (tree.hpp:1858-1859), and one of them
fails exactly if some coordinate `x` of a particle is not in the computed bounds, `x < box / 2` and `x >= -box / 2`. The full claim, that these hold too, is false:
`C72_dtor_fails`. -/
theorem C72_dtor_partial (hs : Supported w d) (hf : f.Ok w) (hr : Reach _ s) :
    (dtorD f s = .ok () ∧ ∀ i < s.n, ∀ c, coordsAt d s.parts i = some c → ∀ x ∈ c, InBounds A s.box x) ∨
    ∃ e, dtorD f s = .error e ∧ ∃ i < s.n, ∃ c, coordsAt d s.parts i = some c ∧ ∃ x ∈ c, BoxCheck A s.box x e :=
  dtorD_cases hs hf (reach_inv hr)

/-- C72 for the destructor, if half of the box size is a number of the floating-point type: no assertion fails if and only if all coordinates are in `[-b/2, b/2)`. -/
theorem C72_dtor_iff (hs : Supported w d) (hf : f.Ok w) (hr : Reach _ s) {b : K} (hb : s.box = .fin b) (h1 : A.rnd (b / 2) = .fin (b / 2))
    (h2 : A.rnd (-b / 2) = .fin (-b / 2)) :
    dtorD f s = .ok () ↔ ∀ i < s.n, ∀ c : List K, coordsAt d s.parts i = some (c.map .fin) → ∀ x ∈ c, InBox b x := by
  have hw : ∀ x : K, InBounds A s.box (.fin x) ↔ InBox b x := by
    intro x
    unfold InBounds InBox
    rw [hb]
    have e1 : A.div (.fin b) (.fin 2) = .fin (b / 2) := by simp only [Arith.div, if_neg (two_ne_zero (α := K))]; exact h1
    have e2 : A.div (Fl.fin b).neg (.fin 2) = .fin (-b / 2) := by simp only [Fl.neg, Arith.div, if_neg (two_ne_zero (α := K))]; exact h2
    rw [e1, e2]
    simp only [Fl.lt, Fl.ge, decide_eq_true_eq, neg_div, Bool.not_eq_true', decide_eq_false_iff_not, not_lt]
    exact and_comm
  rcases C72_dtor_partial hs hf hr with ⟨e, h⟩ | ⟨e, h, i, hi, c, hc, x, hx, hn⟩
  · refine ⟨fun _ i hi c hc x hx => (hw x).1 (h i hi _ hc _ (List.mem_map_of_mem hx)), fun _ => e⟩
  · constructor
    · intro h'; rw [h] at h'; cases h'
    · intro h'
      exfalso
      obtain ⟨c', _, hc'⟩ := reach_coords hs hr hi
      rw [hc, Option.some.injEq] at hc'
      rw [hc'] at hc hx
      obtain ⟨y, hy, rfl⟩ := List.mem_map.1 hx
      have := (hw y).2 (h' i hi c' hc y hy)
      rcases hn with ⟨_, hn⟩ | ⟨_, hn⟩
      · exact hn this.1
      · exact hn this.2

/-- The coordinates of a particle of a tree have a code. -/
theorem reach_coded (hs : Supported w d) (hr : Reach _ s) {i : Nat} (hi : i < s.n) {c : List K} (hc : coordsAt d s.parts i = some (c.map .fin)) :
    c.length = d ∧ ∃ v, codeOf A w d s.box (c.map .fin) = .ok v := by
  obtain ⟨hcl, hcd⟩ := rawCodes_spec.1 (reach_inv hr).codes
  have h1 : (do codeOf A w d s.box (← ofUB (coordsAt d s.parts i))) = .ok s.codes[i] := hcd i (by omega)
  rw [hc] at h1
  obtain ⟨c', hl, hc'⟩ := reach_coords hs hr hi
  rw [hc, Option.some.injEq] at hc'
  exact ⟨by rw [← hl]; simpa using congrArg List.length hc', _, h1⟩

/-- C72 for the destructor in exact arithmetic: no assertion fails. -/
theorem C72_dtor_exact (hA : A.Exact) (hs : Supported w d) (hf : f.Ok w) (hr : Reach _ s) : dtorD f s = .ok () := by
  obtain ⟨b, hb, _, h0⟩ := C56_box hA.laws hs hr
  refine (C72_dtor_iff hs hf hr hb (hA _) (hA _)).2 ?_
  intro i hi c hc x hx
  obtain ⟨hl, v, h2⟩ := reach_coded hs hr hi hc
  rw [hb] at h2
  rcases C09_exact_partial hA hs (h0 (by omega)) hl with ⟨_, _, _, h3, _⟩ | ⟨h3, _⟩
  · exact h3 x hx
  · rw [h2] at h3; cases h3

example : dtorD ⟨true, 64, 64⟩ collS = .ok () := C72_dtor_exact (fun _ => rfl) ⟨.inl rfl, .inr rfl⟩ (by decide) coll_reach

section ieee
variable {F : Format} {fused : Bool} {sqrt : ℚ → Fl ℚ} {simd : Option (Simd ℚ)} {s : TS (rakauEnv (F.arith fused sqrt) simd mac w d)}

/-- Half of the box size is a number of the format. -/
theorem half_box {b : ℚ} (hb : 0 < b) (h3 : 2 * F.minNormal ≤ b) (h4 : b < 2 ^ F.emax) (hbr : F.near b = b) :
    (F.arith fused sqrt).rnd (b / 2) = .fin (b / 2) ∧ (F.arith fused sqrt).rnd (-b / 2) = .fin (-b / 2) := by
  have e := Format.near_halve hbr hb h3
  have e' : F.near (-b / 2) = -b / 2 := by rw [neg_div, Format.near_neg, e]
  constructor
  · show F.rnd (b / 2) = _
    rw [Format.rnd_fin, e]
    rw [e, abs_of_pos (by positivity)]; linarith
  · show F.rnd (-b / 2) = _
    rw [Format.rnd_fin, e']
    rw [e', neg_div, abs_neg, abs_of_pos (by positivity)]; linarith

/-- C72 for the destructor in a binary format: the first of the two assertions on the bounds, `x < box / 2`, never fails. The box size is a number of the format, neither very
large nor very small. -/
theorem C72_dtor_upper (h : F.Std) (hs : Supported w d) (hf : f.Ok w) (hr : Reach _ s) {b : ℚ} (hbox : s.box = .fin b) (h1 : F.minNormal ≤ 1 / b)
    (h2 : 1 / b ≤ 2 ^ (F.emax - 1)) (h3 : 2 * F.minNormal ≤ b) (h4 : b < 2 ^ F.emax) (hbr : F.near b = b) :
    dtorD f s = .ok () ∨ dtorD f s = .error (.failed (.tree 1859)) := by
  have hm : 0 < F.minNormal := by unfold Format.minNormal; positivity
  have hb : 0 < b := by linarith
  rcases C72_dtor_partial hs hf hr with ⟨e, _⟩ | ⟨e, h', i, hi, c, hc, x, hx, hn⟩
  · exact .inl e
  · rcases hn with ⟨rfl, hn⟩ | ⟨rfl, hn⟩
    · exfalso
      obtain ⟨c', _, hc'⟩ := reach_coords hs hr hi
      rw [hc, Option.some.injEq] at hc'
      rw [hc'] at hc hx
      obtain ⟨y, hy, rfl⟩ := List.mem_map.1 hx
      obtain ⟨hl, v, hv⟩ := reach_coded hs hr hi hc
      rw [hbox] at hv
      have := C09_below h fused sqrt hs hb h1 h2 hl hv y hy
      refine hn ?_
      rw [hbox]
      have e1 : (F.arith fused sqrt).div (.fin b) (.fin 2) = .fin (b / 2) := by
        simp only [Arith.div, if_neg (two_ne_zero (α := ℚ))]; exact (half_box hb h3 h4 hbr).1
      rw [e1]
      simpa [Fl.lt] using this
    · exact .inr h'

/-- C72 for the destructor in a binary format with fused multiply-add: no assertion fails. The box size and the coordinates are numbers of the format, and the box size is neither
very large nor very small. -/
theorem C72_dtor_fused {s : TS (rakauEnv (F.arith true sqrt) simd mac w d)} (h : F.Std) (he : F.emin ≤ -2 * (F.prec : ℤ) - 1) (hs : Supported w d) (hf : f.Ok w)
    (hr : Reach _ s) {b : ℚ} (hbox : s.box = .fin b) (h1 : F.minNormal ≤ 1 / b) (h2 : 1 / b ≤ 2 ^ (F.emax - 1)) (h3 : 2 * F.minNormal ≤ b)
    (h4 : b < 2 ^ F.emax) (hbr : F.near b = b) (hx : ∀ v ∈ s.parts.take d, ∀ q : ℚ, Fl.fin q ∈ v → F.near q = q) : dtorD f s = .ok () := by
  have hm : 0 < F.minNormal := by unfold Format.minNormal; positivity
  have hb : 0 < b := by linarith
  obtain ⟨e1, e2⟩ := half_box (fused := true) (sqrt := sqrt) hb h3 h4 hbr
  refine (C72_dtor_iff hs hf hr hbox e1 e2).2 ?_
  intro i hi c hc x hxc
  obtain ⟨hl, v, hv⟩ := reach_coded hs hr hi hc
  rw [hbox] at hv
  refine C09_fused h he sqrt hs hb h1 h2 h3 hbr hl ?_ hv x hxc
  intro q hq
  have hm := mapM_some_iff.1 (show (s.parts.take d).mapM (fun v => v[i]?) = some (c.map .fin) from hc)
  have hf2 := forall₂_getElem hm
  obtain ⟨j, hj, rfl⟩ := List.getElem_of_mem hq
  have h5 := hf2.2 j (by rw [hf2.1, List.length_map]; exact hj) (by simpa using hj)
  exact hx _ (List.getElem_mem _) _ (by rw [List.getElem_map] at h5; exact List.mem_of_getElem? h5)

/-- C72 for the destructor in a binary format, if the box size is deduced from the particles: no assertion fails, with or without fused multiply-add, after any sequence of
operations. The largest absolute value `m` of the coordinates is neither very small nor very large. -/
theorem C72_dtor_deduced (h : F.Std) (hs : Supported w d) (hf : f.Ok w) (hr : Reach _ s) (hd : s.deduced = true) {m : ℚ}
    (hle : ∀ v ∈ s.parts.take d, ∀ q : ℚ, Fl.fin q ∈ v → |q| ≤ m) (hm : ∃ v ∈ s.parts.take d, ∃ q : ℚ, Fl.fin q ∈ v ∧ |q| = m)
    (h1 : (2 : ℚ) ^ (F.emin + F.prec + 4) ≤ m) (h2 : m ≤ 2 ^ (F.emax - 3)) : dtorD f s = .ok () := by
  have I := reach_inv hr
  have hbox : deduceBox (F.arith fused sqrt) d s.parts = .ok s.box := reach_box (rakauEnv_ok (F.arith fused sqrt) simd mac hs) hr hd
  have hm0 : 0 < m := lt_of_lt_of_le (by positivity) h1
  rcases deduceBox_cases (F.arith fused sqrt) hs.dim.1 (parts := s.parts) ⟨by have : s.parts.length = d + 1 := I.arr; omega, I.len⟩ with ⟨m', hm', e⟩ | ⟨_, e⟩
  · obtain ⟨b0, b1, b2⟩ := hm'
    have hmm : m' = m := by
      apply le_antisymm
      · rcases b2 with rfl | ⟨q, hq, rfl⟩
        · exact hm0.le
        · obtain ⟨v, hv, hqv⟩ := List.mem_flatten.1 hq
          exact hle v hv q hqv
      · obtain ⟨v, hv, q, hq, rfl⟩ := hm
        obtain ⟨q', e', h'⟩ := b1 _ (List.mem_flatten.2 ⟨v, hv, hq⟩)
        rw [Fl.fin.injEq] at e'
        rw [e']; exact h'
    subst hmm
    obtain ⟨b, eb, hb⟩ := Format.boxFromMax_ieee (fused := fused) (sqrt := sqrt) h h1 h2
    rw [e, eb, Except.ok.injEq] at hbox
    have hu := Format.unit_pos (f := F)
    have hu2 := Format.unit_le' h.prec10
    have hum : F.unit * m' ≤ m' / 1024 := by nlinarith
    rw [abs_le] at hb
    have hb1 : 209 / 100 * m' ≤ b := by linarith
    have hb2 : b ≤ 211 / 100 * m' := by linarith
    have hmin : F.minNormal ≤ m' := by
      refine le_trans ?_ h1
      unfold Format.minNormal
      exact zpow_le_zpow_right₀ (by norm_num) (by omega)
    have hmax : m' * 4 ≤ 2 ^ (F.emax - 1) := by
      have : (2 : ℚ) ^ (F.emax - 1) = 2 ^ (F.emax - 3) * 4 := by
        rw [show (4 : ℚ) = 2 ^ 2 by norm_num, ← pow_add]; congr 1; have := h.emax; omega
      rw [this]; linarith
    have hup : ∃ r : ℚ, F.rnd (b / 2) = .fin r ∧ m' < r := by
      obtain ⟨r, er, hr⟩ := Format.rnd_normal h.toOk (q := b / 2) (by rw [abs_of_pos (by linarith)]; linarith) (by rw [abs_of_pos (by linarith)]; linarith)
      rw [abs_of_pos (by linarith : 0 < b / 2), abs_le] at hr
      have : F.unit * (b / 2) ≤ 1 / 1024 * (b / 2) := mul_le_mul_of_nonneg_right hu2 (by linarith)
      exact ⟨r, er, by linarith⟩
    have hlo : ∃ r : ℚ, F.rnd (-b / 2) = .fin r ∧ r < -m' := by
      have ea : |(-b / 2)| = b / 2 := by rw [neg_div, abs_neg, abs_of_pos (by linarith)]
      obtain ⟨r, er, hr⟩ := Format.rnd_normal h.toOk (q := -b / 2) (by rw [ea]; linarith) (by rw [ea]; linarith)
      rw [ea, abs_le] at hr
      have : F.unit * (b / 2) ≤ 1 / 1024 * (b / 2) := mul_le_mul_of_nonneg_right hu2 (by linarith)
      exact ⟨r, er, by linarith⟩
    obtain ⟨r1, e1, g1⟩ := hup
    obtain ⟨r2, e2, g2⟩ := hlo
    have d1 : (F.arith fused sqrt).div (.fin b) (.fin 2) = .fin r1 := by simp only [Arith.div, if_neg (two_ne_zero (α := ℚ))]; exact e1
    have d2 : (F.arith fused sqrt).div (Fl.fin b).neg (.fin 2) = .fin r2 := by simp only [Fl.neg, Arith.div, if_neg (two_ne_zero (α := ℚ))]; exact e2
    rcases C72_dtor_partial hs hf hr with ⟨e, _⟩ | ⟨e, _, i, hi, c, hc, x, hx, hn⟩
    · exact e
    · exfalso
      have hx' : x ∈ (s.parts.take d).flatten := by
        have hm := forall₂_getElem (mapM_some_iff.1 (show (s.parts.take d).mapM (fun v => v[i]?) = some c from hc))
        obtain ⟨j, hj, rfl⟩ := List.getElem_of_mem hx
        exact List.mem_flatten.2 ⟨_, List.getElem_mem _, List.mem_of_getElem? (hm.2 j (by rw [hm.1]; exact hj) hj)⟩
      obtain ⟨q, rfl, hq⟩ := b1 x hx'
      rw [abs_le] at hq
      unfold BoxCheck at hn
      rw [← hbox, d1, d2] at hn
      rcases hn with ⟨_, hn⟩ | ⟨_, hn⟩
      · exact hn (by simp only [Fl.lt, decide_eq_true_eq]; linarith)
      · exact hn (by simp only [Fl.ge, Fl.lt, Bool.not_eq_true', decide_eq_false_iff_not, not_lt]; linarith)
  · have hbox : deduceBox (F.arith fused sqrt) d s.parts = .ok s.box := hbox
    rw [e] at hbox; cases hbox

end ieee

/-- Three particles, the box size of which is deduced in double precision without fused multiply-add. -/
def dedInp : Input (rakauEnv (dbl false) none .bh 64 3) := ⟨none, 1, 8, [[-(3 / 2 + 1 / 2 ^ 52), 1, 0], [0, 1, 1 / 2], [0, 1, -1], [1, 2, 3]].map (·.map .fin)⟩
def dedS : TS (rakauEnv (dbl false) none .bh 64 3) := okOr dedInp.exec (TS.default _)

theorem ded_reach : Reach _ dedS := reach_exec _ rfl (by decide +kernel) (by decide +kernel)

example : dtorD ⟨true, 64, 64⟩ dedS = .ok () :=
  C72_dtor_deduced (F := binary64) (m := 3 / 2 + 1 / 2 ^ 52) binary64_std ⟨.inr rfl, .inr rfl⟩ (by decide) ded_reach (by decide +kernel)
    (by
      have h : (dedS.parts.take 3).all (fun v => v.all (fun x => match x with | .fin q => decide (|q| ≤ 3 / 2 + 1 / 2 ^ 52) | _ => true)) = true := by decide +kernel
      intro v hv q hq
      simpa using List.all_eq_true.1 (List.all_eq_true.1 h v hv) _ hq)
    ⟨(dedS.parts.take 3).headD [], by decide +kernel, -(3 / 2 + 1 / 2 ^ 52), by decide +kernel, by decide +kernel⟩ (by decide +kernel) (by decide +kernel)

/-- The sample of C24, in double precision with fused multiply-add. -/
example : dtorD ⟨true, 64, 64⟩ (mixS none) = .ok () :=
  C72_dtor_fused (F := binary64) (b := 16) binary64_std (by decide) ⟨.inl rfl, .inr rfl⟩ (by decide) mix_reach.2 (by decide +kernel) (by decide +kernel) (by decide +kernel)
    (by decide +kernel) (by decide +kernel) (by decide +kernel) (by
      intro v hv q hq
      have : ∀ v ∈ ((mixS none).parts.take 3), ∀ x ∈ v, ∀ q : ℚ, x = .fin q → binary64.near q = q := by
        have h : ((mixS none).parts.take 3).all (fun v => v.all (fun x => match x with | .fin q => binary64.near q == q | _ => true)) = true := by decide +kernel
        intro v hv x hx q e
        have := List.all_eq_true.1 (List.all_eq_true.1 h v hv) x hx
        subst e
        simpa using this
      exact this v hv _ hq q rfl)

/-- A particle just outside of a box of size 3: its first coordinate is the number before -1.5 in double precision. -/
def edgeInp : Input (rakauEnv (dbl false) none .bh 64 3) := ⟨some (.fin 3), 8, 8, [[-(3 / 2 + 1 / 2 ^ 52)], [0], [0], [1]].map (·.map .fin)⟩
def edgeS : TS (rakauEnv (dbl false) none .bh 64 3) := okOr edgeInp.exec (TS.default _)

theorem edge_reach : Reach _ edgeS := reach_exec _ rfl (by decide +kernel) (by decide +kernel)

/-- C72 does not hold for the destructor: a tree can be constructed from a particle with the coordinate -(1.5 + 2^-52) in a box of size 3, in double precision without
fused multiply-add, since `x * (1 / 3) + 0.5` is rounded to 0. Then the destructor ends the program: `p_its_u[j][i] >= -m_box_size / F(2)` (tree.hpp:1859) is false. -/
theorem C72_dtor_fails : Reach _ edgeS ∧ edgeS.n = 1 ∧ ∀ f : Fast, f.Ok 64 → dtorD f edgeS = .error (.failed (.tree 1859)) := by
  refine ⟨edge_reach, by decide +kernel, ?_⟩
  intro f _
  have h0 : edgeS.n = 1 := by decide +kernel
  have hc : coordsAt 3 edgeS.parts 0 = some [.fin (-(3 / 2 + 1 / 2 ^ 52)), .fin 0, .fin 0] := by decide +kernel
  have hv : ∃ v, edgeS.codes[0]? = some v := ⟨edgeS.codes.headD 0, by decide +kernel⟩
  obtain ⟨v, hv⟩ := hv
  have hb : boundsD (dbl false) edgeS.box [.fin (-(3 / 2 + 1 / 2 ^ 52)), .fin 0, .fin 0] = .error (.failed (.tree 1859)) := by decide +kernel
  unfold dtorD
  rw [chk_true (by decide +kernel), bind_ok', chk_true (by decide +kernel), bind_ok', chk_true (by decide +kernel), bind_ok',
    chk_true (by decide +kernel), bind_ok', chk_true (by decide +kernel), bind_ok', chk_true (by decide +kernel), bind_ok', h0]
  rw [show List.range 1 = [0] from rfl]
  rw [List.forM_eq_forM, List.forM_cons]
  rw [hc, hv]
  simp only [ofUB, dbg, bind, Except.bind] at hb ⊢
  rw [hb]

/-- The other assertion holds for this tree, as `C72_dtor_upper` says. -/
example : dtorD ⟨true, 64, 64⟩ edgeS = .ok () ∨ dtorD ⟨true, 64, 64⟩ edgeS = .error (.failed (.tree 1859)) :=
  C72_dtor_upper (F := binary64) (fused := false) (sqrt := .fin) (b := 3) binary64_std ⟨.inr rfl, .inr rfl⟩ (by decide) edge_reach (by decide +kernel) (by decide +kernel)
    (by decide +kernel) (by decide +kernel) (by decide +kernel) (by decide +kernel)

/-! ### The collision graph -/

/-- C72: no assertion fails during the computation of the collision graph of any tree, for any sizes (valid or not) and any execution; the outcomes are those of other builds.
If the over-wide shift of C34 happens, it is undefined or yields 0. -/
theorem C72_cgraph (L : A.Laws) {over : Overshift} {top : K} {ordered : Bool} {sz : List (Fl K)} (hs : Supported w d) (hf : f.Ok w) (hr : Reach _ s)
    (hz : s.n * cbits w d < 2 ^ 64) (ho : OverOk over w) (h0 : 0 ≤ top) (h1 : top < 2 ^ cbits w d) (old : List (List Nat)) (rD : Dbg (List (List Nat))) :
    CgraphD f s over top ordered sz old rD ↔ ∃ r, Cgraph s over top ordered sz old r ∧ rD = dbg r := by
  obtain ⟨b, hb, _⟩ := C56_box L hs hr
  exact cgraphD_iff hs hf hr hz (by rw [hb]; rfl) ho h0 h1 old rD

example : CgraphD ⟨true, 64, 64⟩ collS strictShift 1023 true ((List.range 5).map (fun i => .fin (collSize i))) [[7], [1, 2]] (.ok [[4], [4], [], [], [0, 1]]) := by
  have := coll_exec collS strictShift 1023 true ((List.range 5).map (fun i => .fin (collSize i))) [[7], [1, 2]]
  rw [show collExec collS strictShift 1023 true ((List.range 5).map (fun i => .fin (collSize i))) = .ok [[4], [4], [], [], [0, 1]]
    by decide +kernel] at this
  exact (C72_cgraph (exact_laws fun _ => rfl) ⟨.inl rfl, .inr rfl⟩ (by decide) coll_reach (by decide +kernel) (.inl rfl) (by norm_num) (by decide +kernel) _ _).2
    ⟨_, this, rfl⟩

/-! ### Accelerations and potentials -/

/-- C72 for the distribution of the work: the only assertion that can fail is the one on the order of the indices for CUDA (tree.hpp:3165), and it fails exactly if they are not
in order. The full claim is false: `C72_split_fails`. -/
theorem C72_split_partial (B : Backend) (D : Arith K) (types : Bool) (hs : Supported w d) (hr : Reach _ s) (hz : s.n * cbits w d < 2 ^ 64) (split : List (Fl K)) :
    splitPlanD B D A types w d s.tree s.crit s.n split = dbg (splitPlan B D A types s.crit s.n split) ∨
    (∃ m, B = .cuda m) ∧ splitPlanD B D A types w d s.tree s.crit s.n split = .error (.failed (.tree 3165)) ∧ splitCommon split = .ok () ∧
      1 < split.length ∧ ∃ idx, cudaIdx D A s.n (split.foldl D.add (.fin 0)) (split.headD .nan) split.tail = .ok idx ∧ ¬ idx.Pairwise (· ≤ ·) :=
  splitPlanD_cases B D types hs hr hz split

/-- C72 for the distribution of the work without CUDA: no assertion fails, for any split (valid or not). -/
theorem C72_split_rocm (B : Backend) (hB : ∀ m, B ≠ .cuda m) (D : Arith K) (types : Bool) (hs : Supported w d) (hr : Reach _ s)
    (hz : s.n * cbits w d < 2 ^ 64) (split : List (Fl K)) :
    splitPlanD B D A types w d s.tree s.crit s.n split = dbg (splitPlan B D A types s.crit s.n split) := by
  rcases C72_split_partial B D types hs hr hz split with h | ⟨⟨m, h⟩, _⟩
  · exact h
  · exact absurd h (hB m)

/-- C72 for the distribution of the work with CUDA, under the conditions of `C29_partial`: no assertion fails for a valid split, if the sum of its values is finite and the
number of particles is not rounded up in the floating-point type. -/
theorem C72_split_cuda {D : Arith K} (L : D.Laws) (hs : Supported w d) (hr : Reach _ s) (hz : s.n * cbits w d < 2 ^ 64) {m : Nat} {types : Bool} {split : List (Fl K)}
    (hv : ∀ x ∈ split, ∃ q, x = .fin q ∧ 0 ≤ q ∧ D.rnd q = .fin q) {a g : K} (ha : split.foldl D.add (.fin 0) = .fin a) (hg : A.rnd s.n = .fin g)
    (hg1 : D.rnd g = .fin g) (hg2 : 0 ≤ g) (hg3 : g ≤ s.n) :
    splitPlanD (.cuda m) D A types w d s.tree s.crit s.n split = dbg (splitPlan (.cuda m) D A types s.crit s.n split) := by
  rcases C72_split_partial (.cuda m) D types hs hr hz split with h | ⟨_, _, hc, hl, idx, hi, hp⟩
  · exact h
  · exfalso
    have hpos : split ≠ [] → ∃ q, Fl.fin q ∈ split ∧ 0 < q := by
      by_contra hcon
      rw [splitCommon_bad (fun h => hcon h.2)] at hc
      cases hc
    rcases split with _ | ⟨x, l⟩
    · simp at hl
    obtain ⟨t, rfl, ht, htt⟩ := hv x List.mem_cons_self
    have hrest : ∀ z ∈ l, NonNeg D z := fun z hz => hv z (List.mem_cons_of_mem _ hz)
    have hapos : 0 < a := by
      obtain ⟨q, hq, hq0⟩ := hpos (by simp)
      have := (foldl_ge L hv le_rfl L.zero ha).2 q hq
      linarith
    have hsum' : l.foldl D.add (.fin t) = .fin a := by
      rw [List.foldl_cons] at ha
      have : D.add (.fin 0) (.fin t) = .fin t := by
        show D.rnd (0 + t) = _
        rw [zero_add, htt]
      rwa [this] at ha
    obtain ⟨is, q, i1, _, _, i4, _⟩ := cudaIdx_spec L (by have := n_lt hs hz; omega) hg hg1 hg2 hg3 hapos hrest ht htt hsum'
    rw [ha, List.headD_cons, List.tail_cons, i1, Except.ok.injEq] at hi
    exact hp (hi ▸ i4)

example : splitPlanD (.rocm true 2) sqQ sqQ true 32 3 (gS .bh).tree (gS .bh).crit (gS .bh).n [.fin 1, .fin 1] = .ok ⟨2, [2, 5]⟩ := by
  rw [C72_split_rocm (.rocm true 2) (by simp) sqQ true g_supp (g_reach .bh) (g_size .bh) [.fin 1, .fin 1]]
  rw [show splitPlan (.rocm true 2) sqQ sqQ true (gS .bh).crit (gS .bh).n [.fin 1, .fin 1] = .ok ⟨2, [2, 5]⟩ by decide +kernel]
  rfl

example : splitPlanD (.cuda 1) sqQ sqQ true 32 3 (gS .bh).tree (gS .bh).crit (gS .bh).n [.fin 1, .fin 1] = .ok ⟨4, []⟩ := by
  rw [C72_split_cuda (exact_laws sqQ_exact) g_supp (g_reach .bh) (g_size .bh) (a := 2) (g := 5) (fun x hx => ⟨1, by simpa using hx, by norm_num, rfl⟩) (by decide +kernel)
    (by decide +kernel) rfl (by norm_num) (by rw [g_n]; norm_num)]
  rw [show splitPlan (.cuda 1) sqQ sqQ true (gS .bh).crit (gS .bh).n [.fin 1, .fin 1] = .ok ⟨4, []⟩ by decide +kernel]
  rfl

/-- C72 does not hold for the distribution of the work with CUDA: in the situation of `C29_fails_round` (single precision, 16777219 particles, two devices, the split 1, 1, 0)
the indices are 8388610, 16777220, 16777219, and the assertion on their order fails. -/
theorem C72_split_fails {w d : Nat} {tree : List Node} {crit : List CNode} :
    splitPlanD (.cuda 2) (binary64.ieee false) (binary32.ieee false) true w d tree crit 16777219 [.fin 1, .fin 1, .fin 0] = .error (.failed (.tree 3165)) := by
  have hidx : cudaIdx (binary64.ieee false) (binary32.ieee false) 16777219 (.fin 2) (.fin 1) [.fin 1, .fin 0] = .ok [8388610, 16777220, 16777219] := by
    decide +kernel
  unfold splitPlanD
  rw [show splitCommon [Fl.fin (1 : ℚ), .fin 1, .fin 0] = .ok () by decide +kernel]
  simp only [dbg, bind, Except.bind]
  rw [if_neg (by decide), if_pos trivial, if_pos (by decide)]
  unfold cudaPlanD
  rw [show List.foldl (binary64.ieee false).add (.fin 0) [.fin 1, .fin 1, .fin 0] = .fin 2 by decide +kernel]
  simp only [List.headD_cons, List.tail_cons, bind, Except.bind]
  rw [hidx]
  rfl

end Rakau
