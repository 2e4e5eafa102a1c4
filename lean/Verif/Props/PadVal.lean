import Verif.Props.GeomErr
import Verif.Proof.Alike

/-!
C24 in IEEE arithmetic, bit by bit: the padding of the critical nodes leaves the results as they are. The result of a particle is what the same operations give on the
particles of the tree alone, without any padding, down to the last bit.
-/
namespace Rakau
open Spec

section
variable {K : Type} [Field K] [LinearOrder K]

/-- A value that rounding does not change: a number of the format, an infinity, or NaN. -/
def Arith.Mach (A : Arith K) (v : Fl K) : Prop := ∀ q, v = .fin q → A.rnd q = .fin q

variable [IsStrictOrderedRing K] {A : Arith K}

theorem mach_rnd (L : A.Laws) (q : K) : A.Mach (A.rnd q) := fun r h => L.idem q r h

theorem mach_add (L : A.Laws) (a b : Fl K) : A.Mach (A.add a b) := by
  intro r
  cases a <;> cases b <;> simp only [Arith.add] <;> first | exact mach_rnd L _ r | (try split) <;> (intro h; cases h)

theorem mach_fma (L : A.Laws) (a b c : Fl K) : A.Mach (A.fma a b c) := by
  unfold Arith.fma
  split
  · intro r
    split <;> first | exact mach_rnd L _ r | (try split) <;> (intro h; cases h)
  · exact mach_add L _ _

/-- A term that is exactly zero changes no accumulator. -/
theorem fma_null (L : A.Laws) (t : K) {a : Fl K} (ha : A.Mach a) : A.fma (.fin t) (.fin 0) a = a := by
  unfold Arith.fma Arith.mul Arith.mulPre
  simp only [mul_zero, L.zero]
  cases a with
  | nan => split <;> rfl
  | inf s => split <;> rfl
  | fin q => simp only [Arith.add, zero_add, ha q rfl, ite_self]

omit [LinearOrder K] [IsStrictOrderedRing K] in
theorem sub_null {a : Fl K} (ha : A.Mach a) : A.sub a (.fin 0) = a := by
  unfold Arith.sub
  rw [show (Fl.fin 0 : Fl K).neg = .fin 0 by simp [Fl.neg]]
  cases a with
  | nan => rfl
  | inf s => rfl
  | fin q => simp only [Arith.add, add_zero, ha q rfl]

/-- Results whose components are values of the format. -/
def Res.Mach (A : Arith K) (r : Res K) : Prop := (∀ a ∈ r.acc, A.Mach a) ∧ ∀ a ∈ r.pot, A.Mach a

theorem mach_zero (L : A.Laws) (Q : Quant) (d : Nat) : (resZero Q d : Res K).Mach A := by
  have h0 : A.Mach (.fin 0) := by rintro q ⟨⟩; exact L.zero
  constructor <;> intro a ha <;> unfold resZero at ha <;> simp only at ha <;> split at ha
  · cases ha
  · rw [List.eq_of_mem_replicate ha]; exact h0
  · cases ha
  · rw [List.mem_singleton.1 ha]; exact h0

theorem mach_upd1 {M : Mode K} (L : M.A.Laws) (e : Fl K) (p q : Pt K) (r : Res K) : (selfUpd1 M e p q r).Mach M.A := by
  constructor
  · intro a ha
    unfold selfUpd1 at ha
    simp only [List.mem_iff_getElem?, List.getElem?_zipWith] at ha
    obtain ⟨i, hi⟩ := ha
    split at hi <;> cases hi
    exact mach_fma L _ _ _
  · intro a ha
    unfold selfUpd1 at ha
    simp only [List.mem_map] at ha
    obtain ⟨c, _, rfl⟩ := ha
    exact mach_add L _ _

end

section
variable {M : Mode ℚ} {b : ℝ} {d κ k C : Nat} {u η lo hi : ℝ} (L : M.A.Laws) (F : FlModel M.A u η lo hi) (R : Span u η lo hi b d κ k C)
variable (hd : M.vec = true → d = 3) (hf : ∀ f, M.fast = some f → FastOk M.A u b κ f)
variable {e : ℝ} {e2 : ℚ} (he : SoftOk u η e e2) {y z : Nat → ℚ} {m : ℚ} (P : PairIn M.A b d e y m z 0)
include L F R hd hf he P

/-- A body of mass zero in range changes no bit of an accumulator. -/
theorem upd1_massless {r : Res ℚ} (h1 : r.acc.length ≤ d) (h2 : r.Mach M.A) : selfUpd1 M (.fin e2) (mkPt d y m) (mkPt d z 0) r = r := by
  obtain ⟨t, et, ht⟩ := pair_diffs F R he P
  obtain ⟨q, eq, hq⟩ := soft_near F R hd ht he P.near P.far
  obtain ⟨_, g, eg, hg⟩ := over_near F R hf hq P.near P.far P.rm'
  obtain ⟨⟨o, eo, ho⟩, _⟩ := over_near F R hf hq P.near P.far P.rm
  have g0 : g = 0 := by
    obtain ⟨τ, h, _⟩ := hg
    rw [Rat.cast_zero, zero_mul, zero_mul] at h
    exact_mod_cast h
  subst g0
  unfold selfUpd1 mkPt mutPot
  simp only
  rw [et, eq, eg, eo]
  have e0 : M.A.mul (.fin o) (.fin 0) = .fin 0 := by
    unfold Arith.mul Arith.mulPre
    simp only [mul_zero, L.zero]
  rw [e0]
  obtain ⟨ra, rp⟩ := r
  congr 1
  · apply List.ext_getElem?
    intro i
    rw [List.getElem?_zipWith]
    by_cases hi : i < ra.length
    · have hid : i < d := lt_of_lt_of_le hi h1
      rw [arr_get hid, List.getElem?_eq_getElem hi]
      simp only
      rw [fma_null L _ (h2.1 _ (List.getElem_mem hi))]
    · rw [List.getElem?_eq_none (not_lt.1 hi)]
      cases (Arr d (fun j => (.fin (t j) : Fl ℚ)))[i]? <;> rfl
  · show rp.map _ = rp
    refine (List.map_congr_left (fun a ha => ?_)).trans (List.map_id rp)
    rw [sub_null (h2.2 a ha)]
    rfl

end

theorem fold_inv {α β : Type} {f : α → β → α} {l : List β} {a : α} (p : α → Prop) (ha : p a) (h : ∀ r x, x ∈ l → p r → p (f r x)) : p (l.foldl f a) := by
  induction l generalizing a with
  | nil => exact ha
  | cons x l ih => exact ih (h a x (by simp) ha) (fun r y hy => h r y (by simp [hy]))

theorem fold_same {α β : Type} {f : α → β → α} {l : List β} {a : α} (p : α → Prop) (ha : p a) (h : ∀ r x, x ∈ l → p r → f r x = r) : l.foldl f a = a := by
  induction l with
  | nil => rfl
  | cons x l ih =>
    rw [List.foldl_cons, h a x (by simp) ha]
    exact ih (fun r y hy => h r y (by simp [hy]))

/-- The squared softening length that passes the checks. -/
theorem checkParams_soft {K : Type} [Field K] [LinearOrder K] {A : Arith K} {mac : Mac} {theta G eps mv e2 : Fl K} (hp : checkParams A mac theta G eps = .ok (mv, e2)) : e2 = A.mul eps eps := by
  unfold checkParams computeEps2 at hp
  simp only [bind, Except.bind] at hp
  split at hp <;> try contradiction
  split at hp <;> try contradiction
  split at hp <;> try contradiction
  rename_i hq
  split at hq <;> try contradiction
  split at hq <;> try contradiction
  split at hp <;> try contradiction
  simp only [Except.ok.injEq, Prod.mk.injEq] at hp hq
  rw [hq]; exact hp.2.symm

/-- The fast inverse square root in range, from the estimates. -/
theorem fast_of_est {f : Format} {fused : Bool} {simd : Option (Simd ℚ)} {d : Nat} {rsqrt : Option (Fl ℚ → Fl ℚ)} {b : ℝ} {κ K C : Nat} (hf : f.Std)
    (R : Span f.unit f.tiny f.minNormal ((2 ^ (f.emax - 1) : ℚ) : ℝ) b d κ K C) (hC : 2 ≤ C)
    (hest : ∀ r, ((⟨f.ieee fused, simd, rsqrt⟩ : Hw ℚ).mode d).fast = some r → EstimateOk f.unit b κ r) :
    ∀ r, ((⟨f.ieee fused, simd, rsqrt⟩ : Hw ℚ).mode d).fast = some r → FastOk ((⟨f.ieee fused, simd, rsqrt⟩ : Hw ℚ).mode d).A f.unit b κ r := by
  intro r hr
  have F := Format.ieee_model hf fused
  obtain ⟨fu, hfu⟩ := mode_ieee (f := f) (fused := fused) (simd := simd) (d := d) rsqrt
  obtain ⟨ε, m, m1, m2, m3, m4, m5⟩ := hest r hr
  rw [hfu]
  have hhi : 16 * b ^ 4 ≤ ((2 ^ (f.emax - 1) : ℚ) : ℝ) := by
    refine le_trans ?_ R.high
    have hb : 0 ≤ b ^ 4 := by have := R.b1; positivity
    have hC' : (2 : ℝ) ≤ C := by exact_mod_cast hC
    have := mul_le_mul_of_nonneg_right hC' hb
    nlinarith
  have hF := fast_of_estimate (Format.ieee_model hf fu) R.b1 (Span.lo_le (Format.ieee_model hf fu) R) hhi m2 m3 m4 m5
  intro q q1 q2
  obtain ⟨v, v1, v2⟩ := hF q q1 q2
  exact ⟨v, v1, v2.mono F.u0 F.lt1 m1⟩

/-- What the same operations give for particle `a` (counted from the start of the node) on the particles of the node alone, without padding: the visits, then the previous particles of the
node one batch after another, plus the sum for the following particles. -/
def Force.unpadded {K : Type} [Field K] [LinearOrder K] (c : Force K) (cn : CNode) (vs : List Visit) (a : Nat) : Res K :=
  resAdd c.M.A
    ((before' (c.hw.batch c.d) a).foldl (fun r l => selfUpd2 c.M c.eps2 (c.pt (cn.beg + l)) (c.pt (cn.beg + a)) r)
      (vs.foldl (c.visUpd (c.pt (cn.beg + a))) (resZero c.Q c.d)))
    ((List.range' (cn.beg + a + 1) (cn.fin - (cn.beg + a + 1))).foldl (fun r l => selfUpd1 c.M c.eps2 (c.pt (cn.beg + a)) (c.pt l) r) (resZero c.Q c.d))

section
variable {f : Format} {fused : Bool} {simd : Option (Simd ℚ)} {mac : Mac} {w d : Nat} {s : TS (rakauEnv (f.ieee fused) simd mac w d)}
  {x : Nat → Nat → ℚ} {b : ℝ} {B t eps : ℚ} (T : BoxIn s x b B t eps)
include T

/-- C24 in IEEE arithmetic (any format, either criterion, with or without estimates of inverse square roots), for positive masses and a domain in range; the particles need not be apart from one another. The results of a
critical node are, bit by bit, those of the same operations on the particles alone: the nodes are accepted or not according to the particles of the critical node, and no term of the sums stands for padding.
The part missing is the case of masses of both signs (where it is false, `C24_mixed_fails`), and of data out of range (false by `C24_nan_fails`). -/
theorem C24_ieee_values_partial (hf : f.Std) (hS : ∀ S, simd = some S → S.Adds (f.ieee fused)) (hs : Supported w d) (h : Reach _ s) (hz : s.n * cbits w d < 2 ^ 64)
    {rsqrt : Option (Fl ℚ → Fl ℚ)} {over : Overshift} (ho : over.Small) (hr : s.n + (⟨f.ieee fused, simd, rsqrt⟩ : Hw ℚ).pad < 2 ^ 64)
    (hx : IsData d s.n s.parts x) (hrep : ∀ j < d, ∀ k < s.n, (f.ieee fused).Repr (x j k))
    {κ' K : Nat} (R : Span f.unit f.tiny f.minNormal ((2 ^ (f.emax - 1) : ℚ) : ℝ) b d κ' K (s.n + (⟨f.ieee fused, simd, rsqrt⟩ : Hw ℚ).pad + 2))
    (hest : ∀ r, ((⟨f.ieee fused, simd, rsqrt⟩ : Hw ℚ).mode d).fast = some r → EstimateOk f.unit b κ' r)
    (Q : Quant) {g : Fl ℚ} {mv e2 : Fl ℚ} (hp : checkParams (f.ieee fused) mac (.fin t) g (.fin eps) = .ok (mv, e2)) {cn : CNode} (hc : cn ∈ s.crit) :
    ∃ vs, travGo over w d s.tree cn.code
        (fun i => (List.range' cn.beg (cn.fin - cn.beg)).all (fun k => !(s.force rsqrt over Q mv g e2).failsAt i ((s.force rsqrt over Q mv g e2).pt k))) s.tree.length 0 = some (.ok vs) ∧
      (s.force rsqrt over Q mv g e2).node cn = .ok (Arr (cn.fin - cn.beg) (fun a =>
        (s.force rsqrt over Q mv g e2).scaled ((s.force rsqrt over Q mv g e2).unpadded cn vs a))) := by
  have F := Format.ieee_model hf fused
  have L : (f.ieee fused).Laws := Format.arith_laws hf.toOk _ _
  have hSp : SimdPos simd := fun S e => (hS S e).pos
  have hd := hs.dim.1
  have hcn := (crit_tiling (rakauEnv_ok (f.ieee fused) simd mac hs) h hz).1 cn hc
  obtain ⟨fu, hfu⟩ := mode_ieee (f := f) (fused := fused) (simd := simd) (d := d) rsqrt
  obtain ⟨mv, rfl, hmv⟩ : ∃ q : ℚ, mv = .fin q ∧ macValue (f.ieee fused) mac (.fin t) = .fin q := by
    obtain ⟨_, m, m1, _, m2⟩ := checkParams_mac hp
    exact ⟨m, m1, m2⟩
  have hsq : (eps : ℝ) ^ 2 ≤ b ^ 2 := by
    rw [← sq_abs]
    exact pow_le_pow_left₀ (abs_nonneg _) (T.eps_le hd) 2
  obtain ⟨e2', ee, ep, he⟩ := soft_ok F R hsq
  obtain rfl : e2 = .fin e2' := by
    rw [← ee]
    exact checkParams_soft hp
  have hok := force_ok (s := s) hSp hs h hz rsqrt over Q (.fin mv) g (.fin e2')
  have hfast := fast_of_est hf R (by have := s.n; omega) hest
  obtain ⟨P, hP, hPr, hPd⟩ := T.padding hf hs h hx R hmv (rsqrt := rsqrt) (over := over) (Q := Q) (g := g) (e2 := .fin e2')
  obtain ⟨_, vs, _, _, _, _, _, _, v3, hn, _⟩ := node_val hSp hs h hz ho hr Q (.fin mv) g (.fin e2') hc
  refine ⟨vs, ?_, ?_⟩
  · rw [← v3]
    apply travGo_congr
    intro i hi
    rw [Bool.eq_iff_iff, List.all_eq_true]
    unfold Force.accepts
    rw [decide_eq_true_iff]
    have hb := hok.hw.batch_pos d
    constructor
    · intro hall l _
      by_cases hl : l < cn.fin - cn.beg
      · unfold Force.slot
        rw [if_pos hl]
        have := hall (cn.beg + l) (by rw [List.mem_range'_1]; omega)
        simpa using this
      · exact T.pad_passes hf hS hs h hz hx R hmv hi (by omega)
    · intro hall k hk
      rw [List.mem_range'_1] at hk
      have h1 := div_steps hb (show k - cn.beg < cn.fin - cn.beg by omega)
      rw [Nat.div_lt_iff_lt_mul hb] at h1
      have h2 := hall (k - cn.beg) h1
      unfold Force.slot at h2
      rw [if_pos (by omega), show cn.beg + (k - cn.beg) = k by omega] at h2
      rw [h2]; rfl
  · rw [hn]
    congr 1
    apply arr_ext
    intro a ha
    congr 1
    have hsl : ∀ l < cn.fin - cn.beg, (s.force rsqrt over Q (.fin mv) g (.fin e2')).slot cn l = (s.force rsqrt over Q (.fin mv) g (.fin e2')).pt (cn.beg + l) := by
      intro l hl
      unfold Force.slot
      rw [if_pos hl]
    have hpt : (s.force rsqrt over Q (.fin mv) g (.fin e2')).pt (cn.beg + a) = mkPt d (fun j => x j (cn.beg + a)) (x d (cn.beg + a)) :=
      Option.some.inj ((Force.pt_eq hok (show cn.beg + a < s.n by omega)).symm.trans (ptAt_data hx (by omega)))
    have LM : (s.force rsqrt over Q (.fin mv) g (.fin e2')).M.A.Laws := mode_laws L rsqrt
    unfold Force.total Force.unpadded
    rw [hsl a ha]
    congr 1
    · apply List.foldl_ext
      intro r l hl
      have := List.mem_range.1 ((before'_perm _ a).mem_iff.1 hl)
      rw [hsl l (by omega)]
    · rw [← List.range'_append_1, List.foldl_append]
      have e1 : (List.range' (a + 1) (cn.fin - cn.beg - (a + 1))).foldl (fun r l => selfUpd1 (s.force rsqrt over Q (.fin mv) g (.fin e2')).M (.fin e2')
            ((s.force rsqrt over Q (.fin mv) g (.fin e2')).pt (cn.beg + a)) ((s.force rsqrt over Q (.fin mv) g (.fin e2')).slot cn l) r) (resZero Q d) =
          (List.range' (cn.beg + a + 1) (cn.fin - (cn.beg + a + 1))).foldl (fun r l => selfUpd1 (s.force rsqrt over Q (.fin mv) g (.fin e2')).M (.fin e2')
            ((s.force rsqrt over Q (.fin mv) g (.fin e2')).pt (cn.beg + a)) ((s.force rsqrt over Q (.fin mv) g (.fin e2')).pt l) r) (resZero Q d) := by
        have e2 : List.range' (cn.beg + a + 1) (cn.fin - (cn.beg + a + 1)) = (List.range' (a + 1) (cn.fin - cn.beg - (a + 1))).map (cn.beg + ·) := by
          rw [List.map_add_range', show cn.beg + a + 1 = cn.beg + (a + 1) by omega, show cn.fin - (cn.beg + (a + 1)) = cn.fin - cn.beg - (a + 1) by omega]
        rw [e2, List.foldl_map]
        apply List.foldl_ext
        intro r l hl
        rw [List.mem_range'_1] at hl
        rw [hsl l (by omega)]
      have hz' : (resZero Q d : Res ℚ).Mach (s.force rsqrt over Q (.fin mv) g (.fin e2')).M.A ∧ (resZero Q d : Res ℚ).acc.length ≤ d := by
        refine ⟨mach_zero LM Q d, ?_⟩
        unfold resZero
        simp only
        split <;> simp
      refine Eq.trans ?_ e1
      refine fold_same (fun r : Res ℚ => r.Mach (s.force rsqrt over Q (.fin mv) g (.fin e2')).M.A ∧ r.acc.length ≤ d) ?_ ?_
      · refine fold_inv (fun r : Res ℚ => r.Mach (s.force rsqrt over Q (.fin mv) g (.fin e2')).M.A ∧ r.acc.length ≤ d) hz' ?_
        intro r l hl hr'
        refine ⟨mach_upd1 LM _ _ _ _, ?_⟩
        unfold selfUpd1
        simp only [List.length_zipWith]
        omega
      · intro r l hl hr'
        rw [List.mem_range'_1] at hl
        have hb := hok.hw.batch_pos d
        have e3 : (s.force rsqrt over Q (.fin mv) g (.fin e2')).slot cn l = mkPt d (fun _ => P) 0 := by
          unfold Force.slot
          rw [if_neg (by omega), hP, replicate_arr]
          rfl
        rw [e3, hpt]
        have hrep' : ∀ {a : ℚ}, (f.ieee fused).Repr a → ((⟨f.ieee fused, simd, rsqrt⟩ : Hw ℚ).mode d).A.Repr a := by
          intro a ha
          rw [hfu]; exact ha
        have hk : cn.beg + a < s.n := by omega
        refine upd1_massless LM (hfu ▸ Format.ieee_model hf fu) R mode_vec hfast he ⟨fun j hj => hrep' (hrep j hj _ hk), fun j hj => hrep' hPr, (hPd _ hk).1, (hPd _ hk).2, ?_, ?_⟩ hr'.2 hr'.1
        · exact ⟨.inr (by have := T.mass _ hk; rw [pow_one, abs_of_pos (T.mass_pos hk)]; linarith), by rw [pow_one, abs_of_pos (T.mass_pos hk)]; exact T.mass_le hk⟩
        · exact ⟨.inl (by norm_num), by rw [Rat.cast_zero, abs_zero]; have := R.b1; positivity⟩

end

/-- The particles of `geoInp` with larger critical nodes. -/
def pairInp : Input geoEnv := ⟨some (.fin 64), 1, 2, [[-30, 22, 20], [-30, 22, 20], [-30, 22, 20], [1, 65, 3]].map (·.map .fin)⟩

def pairS : TS geoEnv := okOr pairInp.exec (TS.default _)

theorem pairS_reach : Reach _ pairS := reach_exec _ rfl (by decide +kernel) (by decide +kernel)

theorem pair_data : IsData 3 3 pairS.parts farX := isData_of_eq (by decide +kernel)

theorem pair_n : pairS.n = 3 := by decide +kernel

theorem pair_in : BoxIn pairS farX (2 ^ 200) 64 1 0 := by
  have T := geo_in (t := 1) (by norm_num) le_rfl
  obtain ⟨_, h2, h3, h4, h5, h6, h7, h8, h9⟩ := T
  rw [geo_n] at h5 h6 h7 h8
  refine ⟨by decide +kernel, h2, h3, h4, ?_, ?_, ?_, ?_, h9⟩ <;> rw [pair_n] <;> assumption

/-- The second critical node of the sample has two particles, and three padding slots with AVX. The operations of the code for its last particle include one with a padding slot; the results are those without it. -/
example :
    let S := pairS.force none (maskedShift 32) .both (.fin 1) (.fin 1) (.fin 0)
    pairS.crit = [⟨8, 0, 1⟩, ⟨15, 1, 3⟩] ∧ S.hw.batch 3 = 4 ∧ S.hw.pad = 3 ∧
    ∃ vs, travGo (maskedShift 32) 32 3 pairS.tree 15 (fun i => [1, 2].all (fun k => !S.failsAt i (S.pt k))) pairS.tree.length 0 = some (.ok vs) ∧
      S.node ⟨15, 1, 3⟩ = .ok (Arr 2 (fun a => S.scaled (S.unpadded ⟨15, 1, 3⟩ vs a))) := by
  have hS : ∀ S, some avx64 = some S → S.Adds (binary64.ieee true) := by rintro S ⟨⟩; exact avx64_adds
  have hrep : ∀ k < 3, ∀ j < 3, (binary64.ieee true).rnd (farX j k) = .fin (farX j k) := by decide +kernel
  refine ⟨by decide +kernel, by decide +kernel, by decide +kernel, ?_⟩
  exact C24_ieee_values_partial pair_in (cn := ⟨15, 1, 3⟩) (rsqrt := none) (over := maskedShift 32) binary64_std hS ⟨.inl rfl, by decide⟩ pairS_reach (by decide +kernel) (maskedShift_small 32) (by decide +kernel)
    (by rw [pair_n]; exact pair_data) (by rw [pair_n]; exact fun j hj k hk => hrep k hk j hj) (by rw [pair_n]; exact geo_span) (fun r h => by cases h) .both (by decide +kernel) (by decide +kernel)

end Rakau
