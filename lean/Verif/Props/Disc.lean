import Verif.Proof.RoundEdge
import Verif.Spec.Geom

/-! Properties C08, C09 and C10: discretisation of coordinates and deduction of the box size. -/
set_option linter.unusedSectionVars false

namespace Rakau

open Spec

variable {K : Type} [Field K] [LinearOrder K] [IsStrictOrderedRing K] [FloorRing K]

/-- Exact rational arithmetic, used in examples. -/
def exactQ : Arith ℚ := ⟨.fin, .fin, true⟩
theorem exactQ_exact : exactQ.Exact := fun _ => rfl

/-- `double` with and without a fused multiply-add, used in examples. -/
def dbl (fused : Bool) : Arith ℚ := binary64.arith fused .fin

/-- C08: for every coordinate and inverse box size (NaN and infinities included) and whatever the arithmetic, discretisation
yields an index in range or throws `invalid_argument`; the conversion to integer is never undefined. -/
theorem C08_range (A : Arith K) {w cb : Nat} (hcb : cb ≤ w) (x inv : Fl K) :
    (∃ v, discSingle A w cb x inv = .ok v ∧ v < 2 ^ cb) ∨ discSingle A w cb x inv = .error .invalidArg := by
  rcases discSingle_cases A hcb x inv with ⟨q, _, h0, h1, e⟩ | ⟨_, e⟩
  · exact .inl ⟨_, e, (castUInt_ok hcb h0 h1).2⟩
  · exact .inr e

example : discSingle (dbl true) 64 21 (.fin (3 / 8)) (.fin 1) = .ok 1835008 ∧ 1835008 < 2 ^ 21 ∧
    discSingle (dbl false) 64 21 (.inf true) (.fin 1) = .error .invalidArg ∧
    discSingle (dbl false) 64 21 (.fin 0) (.inf false) = .error .invalidArg := by decide +kernel

/-- C08: NaN and infinite coordinates (or inverse box sizes) are rejected. -/
theorem C08_nonfinite (A : Arith K) {w cb : Nat} (hcb : cb ≤ w) {x inv : Fl K} (h : x.isFinite = false ∨ inv.isFinite = false) :
    discSingle A w cb x inv = .error .invalidArg := by
  have hn := discScaled_nonfin (cb := cb) A h
  rcases discSingle_cases A hcb x inv with ⟨q, hq, _⟩ | ⟨_, e⟩
  · rw [hq] at hn; simp [Fl.isFinite] at hn
  · exact e

example : discSingle (dbl true) 64 21 .nan (.fin 1) = .error .invalidArg := C08_nonfinite _ (by decide) (.inl rfl)

/-- C08: a larger coordinate never gets a smaller index, for every arithmetic that rounds monotonically. -/
theorem C08_monotone {A : Arith K} (L : A.Laws) {w cb : Nat} (hcb : cb ≤ w) {box x y : K} (hb : 0 ≤ box) (hxy : x ≤ y) {v v' : Nat}
    (hx : discSingle A w cb (.fin x) (invBox A (.fin box)) = .ok v) (hy : discSingle A w cb (.fin y) (invBox A (.fin box)) = .ok v') :
    v ≤ v' := by
  cases hi : invBox A (.fin box) with
  | nan => rw [hi, C08_nonfinite A hcb (.inr rfl)] at hx; simp at hx
  | inf s => rw [hi, C08_nonfinite A hcb (.inr rfl)] at hx; simp at hx
  | fin i =>
    rw [hi] at hx hy
    have hm := discScaled_mono L (cb := cb) (invBox_nonneg L hb hi) hxy
    rcases discSingle_cases A hcb (.fin x) (.fin i) with ⟨q, e, h0, h1, e'⟩ | ⟨_, e'⟩
    · rcases discSingle_cases A hcb (.fin y) (.fin i) with ⟨r, f, k0, k1, f'⟩ | ⟨_, f'⟩
      · rw [e, f] at hm
        rw [e'] at hx; rw [f'] at hy
        simp only [Except.ok.injEq] at hx hy
        have : q ≤ r := by simpa using hm
        rw [← hx, ← hy]
        exact Int.toNat_le_toNat (Int.floor_mono this)
      · rw [f'] at hy; simp at hy
    · rw [e'] at hx; simp at hx

/-- C08: monotonicity in every binary format (`float`, `double`, `long double`), with or without fused multiply-add. -/
theorem C08_monotone_ieee {f : Format} (h : f.Ok) (fused : Bool) (sqrt : ℚ → Fl ℚ) {w cb : Nat} (hcb : cb ≤ w) {box x y : ℚ}
    (hb : 0 ≤ box) (hxy : x ≤ y) {v v' : Nat}
    (hx : discSingle (f.arith fused sqrt) w cb (.fin x) (invBox (f.arith fused sqrt) (.fin box)) = .ok v)
    (hy : discSingle (f.arith fused sqrt) w cb (.fin y) (invBox (f.arith fused sqrt) (.fin box)) = .ok v') : v ≤ v' :=
  C08_monotone (Format.arith_laws h fused sqrt) hcb hb hxy hx hy

example : discSingle (dbl false) 64 21 (.fin (3 / 10)) (invBox (dbl false) (.fin (7 / 10))) = .ok 1947355 ∧
    discSingle (dbl false) 64 21 (.fin (301 / 1000)) (invBox (dbl false) (.fin (7 / 10))) = .ok 1950351 := by decide +kernel

/-- C08: the coordinates that are accepted form an interval. -/
theorem C08_interval {A : Arith K} (L : A.Laws) {w cb : Nat} (hcb : cb ≤ w) {box x y z : K} (hb : 0 ≤ box) (hxy : x ≤ y) (hyz : y ≤ z)
    {v v' : Nat} (hx : discSingle A w cb (.fin x) (invBox A (.fin box)) = .ok v)
    (hz : discSingle A w cb (.fin z) (invBox A (.fin box)) = .ok v') :
    ∃ u, discSingle A w cb (.fin y) (invBox A (.fin box)) = .ok u ∧ v ≤ u ∧ u ≤ v' := by
  cases hi : invBox A (.fin box) with
  | nan => rw [hi, C08_nonfinite A hcb (.inr rfl)] at hx; simp at hx
  | inf s => rw [hi, C08_nonfinite A hcb (.inr rfl)] at hx; simp at hx
  | fin i =>
    have hi0 := invBox_nonneg L hb hi
    have key : ∃ u, discSingle A w cb (.fin y) (.fin i) = .ok u := by
      rw [hi] at hx hz
      have m1 := discScaled_mono L (cb := cb) hi0 hxy
      have m2 := discScaled_mono L (cb := cb) hi0 hyz
      rcases discSingle_cases A hcb (.fin x) (.fin i) with ⟨q, e, h0, _, _⟩ | ⟨_, e'⟩
      swap
      · rw [e'] at hx; simp at hx
      rcases discSingle_cases A hcb (.fin z) (.fin i) with ⟨r, f, _, k1, _⟩ | ⟨_, f'⟩
      swap
      · rw [f'] at hz; simp at hz
      rcases discSingle_cases A hcb (.fin y) (.fin i) with ⟨s, _, _, _, e'⟩ | ⟨hs, _⟩
      · exact ⟨_, e'⟩
      · exfalso
        rw [e] at m1
        rw [f] at m2
        cases hy : discScaled A cb (.fin y) (.fin i) with
        | nan => rw [hy] at m1; simp [Fl.le, Fl.ge] at m1
        | inf t => rw [hy] at m1 m2; cases t <;> simp [Fl.le, Fl.ge, Fl.lt] at m1 m2
        | fin s =>
          rw [hy] at m1 m2
          have m1 : q ≤ s := by simpa using m1
          have m2 : s ≤ r := by simpa using m2
          rcases hs s hy with h | h <;> linarith
    obtain ⟨u, hu⟩ := key
    rw [← hi] at hu
    exact ⟨u, by rw [← hi]; exact hu, C08_monotone L hcb hb hxy hx hu, C08_monotone L hcb hb hyz hu hz⟩

example : (discSingle (dbl true) 32 10 (.fin (-1)) (invBox (dbl true) (.fin 3))) = .ok 170 ∧
    discSingle (dbl true) 32 10 (.fin (1 / 10)) (invBox (dbl true) (.fin 3)) = .ok 546 ∧
    discSingle (dbl true) 32 10 (.fin (7 / 5)) (invBox (dbl true) (.fin 3)) = .ok 989 := by decide +kernel

/-- C08: with clamping (as used for the bounding boxes of the collision graph) every coordinate with a finite scaled value gets
an index in range, the same as without clamping if that one accepts it, and otherwise the smallest or the largest index of all
accepted coordinates. `top` is the largest representable value below `2 ^ cb`. -/
theorem C08_clamp (A : Arith K) {w cb : Nat} (hcb : cb ≤ w) {top : K} (h0 : 0 ≤ top) (h1 : top < 2 ^ cb)
    (hrep : ∀ y x i, discScaled A cb x i = .fin y → y < 2 ^ cb → y ≤ top) (x inv : Fl K) :
    (∃ v, discClamp A w cb top x inv = .ok v ∧ v < 2 ^ cb ∧ (∀ u, discSingle A w cb x inv = .ok u → u = v) ∧
      (discSingle A w cb x inv = .error .invalidArg → v = 0 ∨ ∀ y u, discSingle A w cb y inv = .ok u → u ≤ v)) ∨
    (discClamp A w cb top x inv = .error .invalidArg ∧ discSingle A w cb x inv = .error .invalidArg) := by
  rcases discClamp_cases A hcb h0 h1 x inv with ⟨q, e1, e2, e3⟩ | ⟨e1, e2⟩
  · left
    refine ⟨_, e2, e3, ?_, ?_⟩
    · intro u hu
      rcases discSingle_cases A hcb x inv with ⟨q', f1, f2, f3, f4⟩ | ⟨_, f4⟩
      · rw [e1] at f1
        simp only [Fl.fin.injEq] at f1; subst f1
        rw [f4, Except.ok.injEq] at hu
        rw [← hu, min_eq_left (hrep q x inv e1 f3), max_eq_right f2]
      · rw [f4] at hu; simp at hu
    · intro hu
      rcases discSingle_cases A hcb x inv with ⟨q', f1, f2, f3, f4⟩ | ⟨f1, _⟩
      · rw [f4] at hu; simp at hu
      · rcases f1 q e1 with h | h
        · left
          rw [min_eq_left (by linarith), max_eq_left (by linarith)]; simp
        · right
          intro y u hy
          rw [min_eq_right (by linarith), max_eq_right h0]
          rcases discSingle_cases A hcb y inv with ⟨q', f1, f2, f3, f4⟩ | ⟨_, f4⟩
          · rw [f4, Except.ok.injEq] at hy
            rw [← hy]
            exact Int.toNat_le_toNat (Int.floor_mono (hrep q' y inv f1 f3))
          · rw [f4] at hy; simp at hy
  · right
    refine ⟨e2, ?_⟩
    rcases discSingle_cases A hcb x inv with ⟨q, f1, _⟩ | ⟨_, f⟩
    · rw [f1] at e1; simp [Fl.isFinite] at e1
    · exact f

/-- C08: clamping in a binary format, where `nextafter(2 ^ cb, -1)` is `(1 - u) * 2 ^ cb`. -/
theorem C08_clamp_ieee {f : Format} (h : f.Std) (fused : Bool) (sqrt : ℚ → Fl ℚ) {w cb : Nat} (hcb : cb ≤ w) (x inv : Fl ℚ) :
    f.near ((1 - f.unit) * 2 ^ cb) = (1 - f.unit) * 2 ^ cb ∧ (∀ y, f.near y = y → y < 2 ^ cb → y ≤ (1 - f.unit) * 2 ^ cb) ∧
    ((∃ v, discClamp (f.arith fused sqrt) w cb ((1 - f.unit) * 2 ^ cb) x inv = .ok v ∧ v < 2 ^ cb ∧
      (∀ u, discSingle (f.arith fused sqrt) w cb x inv = .ok u → u = v) ∧
      (discSingle (f.arith fused sqrt) w cb x inv = .error .invalidArg →
        v = 0 ∨ ∀ y u, discSingle (f.arith fused sqrt) w cb y inv = .ok u → u ≤ v)) ∨
    (discClamp (f.arith fused sqrt) w cb ((1 - f.unit) * 2 ^ cb) x inv = .error .invalidArg ∧
      discSingle (f.arith fused sqrt) w cb x inv = .error .invalidArg)) := by
  have he : f.emin ≤ -(f.prec : ℤ) - 1 := by have := h.emin2; omega
  have hu := Format.unit_pos (f := f)
  have hu2 := Format.unit_le h.prec
  have hp : (0 : ℚ) < 2 ^ cb := by positivity
  refine ⟨Format.near_one_sub h.toOk he cb, fun y hy hlt => Format.le_pred_pow h.toOk he hy hlt, ?_⟩
  refine C08_clamp _ hcb (by nlinarith) (by nlinarith) ?_ x inv
  intro y x i hy hlt
  refine Format.le_pred_pow h.toOk he ?_ hlt
  unfold discScaled Arith.mul at hy
  split at hy
  · simp at hy
  · simp at hy
  · obtain ⟨rfl, _⟩ := Format.rnd_eq_fin (show f.rnd _ = _ from hy)
    exact Format.near_idem h.prec _

/-- C08: clamped discretisation is monotone as well. -/
theorem C08_clamp_monotone {A : Arith K} (L : A.Laws) {w cb : Nat} (hcb : cb ≤ w) {top : K} (h0 : 0 ≤ top) (h1 : top < 2 ^ cb)
    {box x y : K} (hb : 0 ≤ box) (hxy : x ≤ y) {v v' : Nat}
    (hx : discClamp A w cb top (.fin x) (invBox A (.fin box)) = .ok v)
    (hy : discClamp A w cb top (.fin y) (invBox A (.fin box)) = .ok v') : v ≤ v' := by
  rcases discClamp_cases A hcb h0 h1 (.fin x) (invBox A (.fin box)) with ⟨q, e1, e2, _⟩ | ⟨_, e2⟩
  swap
  · rw [e2] at hx; simp at hx
  rcases discClamp_cases A hcb h0 h1 (.fin y) (invBox A (.fin box)) with ⟨r, f1, f2, _⟩ | ⟨_, f2⟩
  swap
  · rw [f2] at hy; simp at hy
  cases hi : invBox A (.fin box) with
  | nan => rw [hi] at e1; have := discScaled_nonfin (cb := cb) A (x := .fin x) (inv := .nan) (.inr rfl); rw [e1] at this; simp [Fl.isFinite] at this
  | inf s => rw [hi] at e1; have := discScaled_nonfin (cb := cb) A (x := .fin x) (inv := .inf s) (.inr rfl); rw [e1] at this; simp [Fl.isFinite] at this
  | fin i =>
    have hm := discScaled_mono L (cb := cb) (invBox_nonneg L hb hi) hxy
    rw [hi] at e1 f1
    rw [e1, f1] at hm
    have hm : q ≤ r := by simpa using hm
    rw [e2, Except.ok.injEq] at hx
    rw [f2, Except.ok.injEq] at hy
    rw [← hx, ← hy]
    exact Int.toNat_le_toNat (Int.floor_mono (max_le_max (le_refl _) (min_le_min_right _ hm)))

example : discClamp (dbl true) 64 21 (2097152 - 1 / 4294967296) (.fin 5) (.fin 1) = .ok 2097151 ∧
    discSingle (dbl true) 64 21 (.fin 5) (.fin 1) = .error .invalidArg ∧
    discClamp (dbl true) 64 21 (2097152 - 1 / 4294967296) (.fin (-5)) (.fin 1) = .ok 0 ∧
    discClamp (dbl true) 64 21 (2097152 - 1 / 4294967296) (.fin (3 / 8)) (.fin 1) = .ok 1835008 := by decide +kernel

theorem exact_accept {A : Arith K} (hA : A.Exact) {w cb : Nat} (hcb : cb ≤ w) {b x : K} (hb : 0 < b) :
    (∃ r, discSingle A w cb (.fin x) (invBox A (.fin b)) = .ok r ∧ InBox b x ∧ IsCell b cb x r) ∨
    (discSingle A w cb (.fin x) (invBox A (.fin b)) = .error .invalidArg ∧ ¬ InBox b x) := by
  have hs := ex_discScaled hA (cb := cb) (x := x) hb.ne'
  have hp : (0 : K) < 2 ^ cb := by positivity
  rcases discSingle_cases A hcb (.fin x) (invBox A (.fin b)) with ⟨q, e, h0, h1, e'⟩ | ⟨hq, e'⟩
  · left
    rw [hs, Fl.fin.injEq] at e
    have hx : x = (q / 2 ^ cb - 1 / 2) * b := by
      rw [← e, mul_div_cancel_right₀ _ hp.ne']; field_simp; ring
    refine ⟨_, e', ?_, ?_⟩
    · have l1 : 0 ≤ q / 2 ^ cb := by positivity
      have l2 : q / 2 ^ cb < 1 := by rw [div_lt_one hp]; exact h1
      unfold InBox
      rw [hx]
      constructor <;> nlinarith
    · have hf : 0 ≤ ⌊q⌋ := Int.floor_nonneg.2 h0
      have hc : ((⌊q⌋.toNat : ℕ) : K) = ((⌊q⌋ : ℤ) : K) := by
        have : ((⌊q⌋.toNat : ℕ) : ℤ) = ⌊q⌋ := Int.toNat_of_nonneg hf
        exact_mod_cast congrArg (Int.cast : ℤ → K) this
      have l1 := Int.floor_le q
      have l2 := Int.lt_floor_add_one q
      unfold IsCell
      rw [hc, hx]
      have hbp : 0 < b / 2 ^ cb := by positivity
      have e1 : (q / 2 ^ cb - 1 / 2) * b = -(b / 2) + q * (b / 2 ^ cb) := by field_simp; ring
      rw [e1]
      constructor
      · have := mul_le_mul_of_nonneg_right l1 hbp.le; linarith
      · have := mul_lt_mul_of_pos_right l2 hbp; linarith
  · right
    refine ⟨e', fun hin => ?_⟩
    obtain ⟨i1, i2⟩ := hin
    have t1 : 0 ≤ x / b + 1 / 2 := by
      have : -(1 / 2) ≤ x / b := by rw [le_div_iff₀ hb]; linarith
      linarith
    have t2 : x / b + 1 / 2 < 1 := by
      have : x / b < 1 / 2 := by rw [div_lt_iff₀ hb]; linarith
      linarith
    rcases hq _ hs with h | h <;> nlinarith

/-- If a particle has a code then each coordinate has been discretised. -/
theorem codeOf_single {A : Arith K} {w d : Nat} (hs : Supported w d) {box : Fl K} {c : List K} (hc : c.length = d) {v : Nat}
    (hv : codeOf A w d box (c.map .fin) = .ok v) : ∀ x ∈ c, ∃ r, discSingle A w (cbits w d) (.fin x) (invBox A box) = .ok r := by
  rcases codeOf_cases A hs (box := box) (c := c.map .fin) (by simpa using hc) with ⟨xs, _, h1, _⟩ | ⟨_, h2⟩
  · intro x hx
    have hf : List.Forall₂ (fun x r => discSingle A w (cbits w d) (.fin x) (invBox A box) = .ok r) c xs := List.forall₂_map_left_iff.1 h1
    obtain ⟨i, hi, rfl⟩ := List.getElem_of_mem hx
    exact ⟨_, (forall₂_getElem hf).2 i hi (by have := hf.length_eq; omega)⟩
  · rw [h2] at hv; cases hv

/-- C09 in exact arithmetic: a particle gets a code exactly when all its coordinates lie in `[-b/2, b/2)`; the code then
interleaves the indices of the cells its coordinates are in; every other particle is rejected with `invalid_argument`.
The full claim (for the floating-point types) is false, see `C09_ieee_fails`; `C09_ieee_partial` says what holds. -/
theorem C09_exact_partial {A : Arith K} (hA : A.Exact) {w d : Nat} (hs : Supported w d) {b : K} (hb : 0 < b) {c : List K}
    (hc : c.length = d) :
    (∃ xs v, codeOf A w d (.fin b) (c.map .fin) = .ok v ∧ (∀ x ∈ c, InBox b x) ∧ xs.length = d ∧
      List.Forall₂ (IsCell b (cbits w d)) c xs ∧ Interleaves (cbits w d) xs v) ∨
    (codeOf A w d (.fin b) (c.map .fin) = .error .invalidArg ∧ ∃ x ∈ c, ¬ InBox b x) := by
  rcases codeOf_cases A hs (box := .fin b) (c := c.map .fin) (by simpa using hc) with ⟨xs, v, h1, h2, h3, h4, h5⟩ | ⟨⟨x, hx, he⟩, h2⟩
  · left
    have hf : List.Forall₂ (fun x r => discSingle A w (cbits w d) (.fin x) (invBox A (.fin b)) = .ok r) c xs :=
      List.forall₂_map_left_iff.1 h1
    have hlen : xs.length = d := by rw [← hf.length_eq]; exact hc
    refine ⟨xs, v, h5, ?_, hlen, ?_, h4⟩
    · intro x hx
      obtain ⟨i, hi, rfl⟩ := List.getElem_of_mem hx
      have := (forall₂_getElem hf).2 i hi (by omega)
      rcases exact_accept hA (cbits_le w d) (x := c[i]) hb with ⟨r, _, hin, _⟩ | ⟨e, _⟩
      · exact hin
      · rw [e] at this; simp at this
    · refine hf.imp fun x r hr => ?_
      rcases exact_accept hA (cbits_le w d) (x := x) hb with ⟨r', e, _, hcell⟩ | ⟨e, _⟩
      · rw [e, Except.ok.injEq] at hr; rw [← hr]; exact hcell
      · rw [e] at hr; simp at hr
  · right
    refine ⟨h2, ?_⟩
    simp only [List.mem_map] at hx
    obtain ⟨y, hy, rfl⟩ := hx
    refine ⟨y, hy, ?_⟩
    rcases exact_accept hA (cbits_le w d) (x := y) hb with ⟨r', e, _, _⟩ | ⟨_, hn⟩
    · rw [e] at he; simp at he
    · exact hn

example : codeOf exactQ 64 3 (.fin 10) [.fin (-5), .fin 0, .fin (49 / 10)] = .ok 7576323448847220992 ∧
    codeOf exactQ 64 3 (.fin 10) [.fin 5, .fin 0, .fin (49 / 10)] = .error .invalidArg := by decide +kernel

/-- C09 in a binary format (`u` the rounding unit, `2 ^ -53` for `double`): coordinates in `[-b/2, b/2)` are accepted except
possibly within a relative distance of about `3 u` of the ends; whatever is accepted lies in `[-b/2, b/2)` except for a relative
distance of about `3 u` beyond the ends. The inverse of the box size has to be a normal number. -/
theorem C09_ieee_partial {f : Format} (h : f.Std) (fused : Bool) (sqrt : ℚ → Fl ℚ) {w d : Nat} (hs : Supported w d) {b : ℚ} (hb : 0 < b)
    (h1 : f.minNormal ≤ 1 / b) (h2 : 1 / b ≤ 2 ^ (f.emax - 1)) {c : List ℚ} (hc : c.length = d) :
    ((∀ x ∈ c, |x| * (1 + f.unit) ≤ (1 / 2 - f.unit) * b) → ∃ v, codeOf (f.arith fused sqrt) w d (.fin b) (c.map .fin) = .ok v) ∧
    (∀ v, codeOf (f.arith fused sqrt) w d (.fin b) (c.map .fin) = .ok v →
      ∀ x ∈ c, -((1 / 2 + f.unit) * b) < x * (1 - f.unit) ∧ x * (1 - f.unit) < b / 2) := by
  have hcb : cbits w d ≤ w := cbits_le w d
  have hcb2 : cbits w d ≤ 64 := by rcases hs.1 with h | h <;> omega
  have he : f.emin ≤ -(f.prec : ℤ) - 1 := by have := h.emin2; omega
  rcases codeOf_cases (f.arith fused sqrt) hs (box := .fin b) (c := c.map .fin) (by simpa using hc) with
    ⟨xs, v, k1, k2, k3, k4, k5⟩ | ⟨⟨x, hx, hex⟩, k2⟩
  · refine ⟨fun _ => ⟨v, k5⟩, fun v' _ x hx => ?_⟩
    have hf : List.Forall₂ (fun x r => discSingle (f.arith fused sqrt) w (cbits w d) (.fin x) (invBox (f.arith fused sqrt) (.fin b)) = .ok r) c xs :=
      List.forall₂_map_left_iff.1 k1
    obtain ⟨i, hi, rfl⟩ := List.getElem_of_mem hx
    have := (forall₂_getElem hf).2 i hi (by have := hf.length_eq; omega)
    exact Format.disc_accepted h.toOk he hcb hcb2 hb h1 h2 this
  · refine ⟨fun hall => ?_, fun v hv => ?_⟩
    · exfalso
      simp only [List.mem_map] at hx
      obtain ⟨y, hy, rfl⟩ := hx
      obtain ⟨r, hr⟩ := Format.disc_accepts (fused := fused) (sqrt := sqrt) h.toOk he hcb hcb2 hb h1 h2 (hall y hy)
      rw [hr] at hex; simp at hex
    · rw [k2] at hv; simp at hv

example : codeOf (dbl false) 64 3 (.fin 10) [.fin (-4), .fin 0, .fin (49 / 10)] = .ok 7578857342263939337 ∧
    ∀ x ∈ [(-4 : ℚ), 0, 49 / 10], |x| * (1 + binary64.unit) ≤ (1 / 2 - binary64.unit) * 10 := by decide +kernel

/-- C09 does not hold for the floating-point types: with `double`, the largest number below 1/2 lies in a box of size 1
but is rejected, with and without fused multiply-add, because it is rounded to 1 when shifted by 1/2. -/
theorem C09_ieee_fails (fused : Bool) : (∀ x ∈ [1 / 2 - 1 / 2 ^ 54, 0, (0 : ℚ)], InBox 1 x) ∧
    codeOf (dbl fused) 64 3 (.fin 1) [.fin (1 / 2 - 1 / 2 ^ 54), .fin 0, .fin 0] = .error .invalidArg := by
  cases fused <;> decide +kernel

/-- C09 in a binary format: a coordinate that is accepted is less than `b / 2`, exactly. `f.Std` and the bound on the exponents hold for `float`, `double` and `long double`. -/
theorem C09_below {f : Format} (h : f.Std) (fused : Bool) (sqrt : ℚ → Fl ℚ) {w d : Nat} (hs : Supported w d) {b : ℚ} (hb : 0 < b)
    (h1 : f.minNormal ≤ 1 / b) (h2 : 1 / b ≤ 2 ^ (f.emax - 1)) {c : List ℚ} (hc : c.length = d) {v : Nat}
    (hv : codeOf (f.arith fused sqrt) w d (.fin b) (c.map .fin) = .ok v) : ∀ x ∈ c, x < b / 2 := by
  intro x hx
  obtain ⟨r, hr⟩ := codeOf_single hs hc hv x hx
  exact Format.disc_below h.toOk (by have := h.emin2; omega) (cbits_le w d) hb h1 h2 hr

example : codeOf (dbl false) 64 3 (.fin 10) [.fin (-4), .fin 0, .fin (49 / 10)] = .ok 7578857342263939337 ∧ ∀ x ∈ [(-4 : ℚ), 0, 49 / 10], x < 10 / 2 := by
  have h : codeOf (dbl false) 64 3 (.fin 10) ([(-4 : ℚ), 0, 49 / 10].map .fin) = .ok 7578857342263939337 := by decide +kernel
  exact ⟨h, C09_below binary64_std false .fin ⟨.inr rfl, .inr rfl⟩ (by norm_num) (by decide +kernel) (by decide +kernel) rfl h⟩

/-- C09 in a binary format with fused multiply-add: a coordinate that is accepted lies in the box, exactly. The box size and the coordinates are numbers of the format. -/
theorem C09_fused {f : Format} (h : f.Std) (he : f.emin ≤ -2 * (f.prec : ℤ) - 1) (sqrt : ℚ → Fl ℚ) {w d : Nat} (hs : Supported w d) {b : ℚ} (hb : 0 < b)
    (h1 : f.minNormal ≤ 1 / b) (h2 : 1 / b ≤ 2 ^ (f.emax - 1)) (h3 : 2 * f.minNormal ≤ b) (hbr : f.near b = b) {c : List ℚ} (hc : c.length = d)
    (hcr : ∀ x ∈ c, f.near x = x) {v : Nat} (hv : codeOf (f.arith true sqrt) w d (.fin b) (c.map .fin) = .ok v) : ∀ x ∈ c, InBox b x := by
  intro x hx
  obtain ⟨r, hr⟩ := codeOf_single hs hc hv x hx
  exact ⟨Format.disc_above h.toOk he (cbits_le w d) hb h1 h2 h3 hbr (hcr x hx) hr,
    Format.disc_below h.toOk (by have := h.emin2; omega) (cbits_le w d) hb h1 h2 hr⟩

/-- The three formats meet the condition on the exponents. -/
example : binary32.emin ≤ -2 * (binary32.prec : ℤ) - 1 ∧ binary64.emin ≤ -2 * (binary64.prec : ℤ) - 1 ∧ x87.emin ≤ -2 * (x87.prec : ℤ) - 1 := by decide

/-- The coordinate of `C09_outside_fails` is rejected with fused multiply-add, the one after it is accepted. -/
example : codeOf (dbl true) 64 3 (.fin 3) [.fin (-(3 / 2 + 1 / 2 ^ 52)), .fin 0, .fin 0] = .error .invalidArg ∧
    codeOf (dbl true) 64 3 (.fin 3) [.fin (-(3 / 2)), .fin 0, .fin 0] = .ok 6917529027641081856 ∧ InBox (3 : ℚ) (-(3 / 2)) := by
  refine ⟨by decide +kernel, by decide +kernel, C09_fused binary64_std (by decide) .fin ⟨.inr rfl, .inr rfl⟩ (c := [-(3 / 2), 0, 0]) (by norm_num) (by decide +kernel)
    (by decide +kernel) (by decide +kernel) (by decide +kernel) rfl (by decide +kernel) (show codeOf (dbl true) 64 3 (.fin 3) [.fin (-(3 / 2)), .fin 0, .fin 0] = .ok 6917529027641081856 by decide +kernel) _ (by simp)⟩

/-- C09 without fused multiply-add: coordinates outside of the box are accepted. With `double` and a box of size 3, the number before -1.5 is, because its product with the rounded
inverse of 3 is rounded to -0.5. -/
theorem C09_outside_fails : ¬ InBox (3 : ℚ) (-(3 / 2 + 1 / 2 ^ 52)) ∧
    codeOf (dbl false) 64 3 (.fin 3) [.fin (-(3 / 2 + 1 / 2 ^ 52)), .fin 0, .fin 0] = .ok 6917529027641081856 := by
  decide +kernel

/-- C10: the outcome of the parallel reduction in the box size deduction does not depend on how the range is split, nor on
which task throws first. -/
theorem C10_schedule {d n : Nat} {parts : List (List (Fl K))} (harr : d ≤ parts.length) (hlen : ∀ v ∈ parts, v.length = n)
    {r r' : Except Err (List (Fl K))} (h : MaxReduce d parts 0 n r) (h' : MaxReduce d parts 0 n r') : r = r' :=
  reduce_unique ⟨harr, hlen⟩ h h'

/-- C10: a non-finite coordinate makes the deduction fail with `invalid_argument`, whatever the schedule. -/
theorem C10_nonfinite {d n : Nat} {parts : List (List (Fl K))} (hd : 0 < d) (harr : d ≤ parts.length) (hlen : ∀ v ∈ parts, v.length = n)
    {r : Except Err (List (Fl K))} (h : MaxReduce d parts 0 n r) (hx : ∃ v ∈ parts.take d, ∃ x ∈ v, x.isFinite = false) :
    r = .error .invalidArg := by
  rcases reduce_cases hd ⟨harr, hlen⟩ h with ⟨mc, m, _, _, h3, _⟩ | ⟨h1, _⟩
  · exfalso
    obtain ⟨v, hv, x, hxv, hxf⟩ := hx
    obtain ⟨q, rfl, _⟩ := h3.2.1 x (List.mem_flatten.2 ⟨v, hv, hxv⟩)
    simp [Fl.isFinite] at hxf
  · exact h1

/-- C10 in exact arithmetic: if not all coordinates are zero, the deduced box size is 2.1 times the largest absolute
coordinate `m`, and every particle is accepted. Missing from the full claim: particles that are all at the origin are rejected
(`C10_origin_fails`). -/
theorem C10_exact_partial {A : Arith K} (hA : A.Exact) {w d n : Nat} (hs : Supported w d) {parts : List (List K)} (harr : d ≤ parts.length)
    (hlen : ∀ v ∈ parts, v.length = n) (hne : ∃ v ∈ parts.take d, ∃ x ∈ v, x ≠ 0) :
    ∃ m, (∃ v ∈ parts.take d, ∃ x ∈ v, |x| = m) ∧ (∀ v ∈ parts.take d, ∀ x ∈ v, |x| ≤ m) ∧
      deduceBox A d (parts.map (·.map .fin)) = .ok (.fin (21 / 10 * m)) ∧
      ∀ c : List K, c.length = d → (∀ x ∈ c, |x| ≤ m) → ∃ v, codeOf A w d (.fin (21 / 10 * m)) (c.map .fin) = .ok v := by
  have hd : 0 < d := by rcases hs.2 with h | h <;> omega
  have hR : Rect d n (parts.map (·.map (Fl.fin (K := K)))) := by
    refine ⟨by simpa using harr, ?_⟩
    intro v hv
    simp only [List.mem_map] at hv
    obtain ⟨u, hu, rfl⟩ := hv
    rw [List.length_map]; exact hlen u hu
  have hmem : ∀ x : Fl K, x ∈ ((parts.map (·.map Fl.fin)).take d).flatten ↔ ∃ v ∈ parts.take d, ∃ q ∈ v, x = .fin q := by
    intro x
    simp only [List.mem_flatten, ← List.map_take, List.mem_map]
    constructor
    · rintro ⟨l, ⟨a, ha, rfl⟩, hx⟩
      obtain ⟨q, hq, rfl⟩ := List.mem_map.1 hx
      exact ⟨a, ha, q, hq, rfl⟩
    · rintro ⟨v, hv, q, hq, rfl⟩
      exact ⟨_, ⟨v, hv, rfl⟩, List.mem_map_of_mem hq⟩
  rcases deduceBox_cases A hd hR with ⟨m, ⟨i1, i2, i3⟩, e⟩ | ⟨⟨x, hx, hxf⟩, _⟩
  · have hle : ∀ v ∈ parts.take d, ∀ x ∈ v, |x| ≤ m := by
      intro v hv x hx
      obtain ⟨q, e, hq⟩ := i2 (.fin x) ((hmem _).2 ⟨v, hv, x, hx, rfl⟩)
      rw [Fl.fin.injEq] at e; rw [e]; exact hq
    have hm : 0 < m := by
      obtain ⟨v, hv, x, hx, hx0⟩ := hne
      exact lt_of_lt_of_le (abs_pos.2 hx0) (hle v hv x hx)
    refine ⟨m, ?_, hle, ?_, ?_⟩
    · rcases i3 with rfl | ⟨q, hq, rfl⟩
      · exact absurd hm (lt_irrefl _)
      · obtain ⟨v, hv, x, hx, e⟩ := (hmem _).1 hq
        rw [Fl.fin.injEq] at e; exact ⟨v, hv, x, hx, by rw [e]⟩
    · rw [e]
      unfold boxFromMax
      simp only [maxElement, List.foldl_nil, ofUB, bind, Except.bind]
      rw [ex_mul hA, ex_div hA (by norm_num), ex_fma hA]
      simp only [Fl.isFinite, Bool.not_true, Bool.false_eq_true, if_false]
      congr 2; ring
    · intro c hc hcm
      rcases C09_exact_partial hA hs (b := 21 / 10 * m) (by positivity) hc with ⟨xs, v, h, _⟩ | ⟨_, x, hx, hn⟩
      · exact ⟨v, h⟩
      · exfalso
        apply hn
        have := abs_le.1 (hcm x hx)
        constructor <;> linarith
  · exfalso
    obtain ⟨v, hv, q, hq, rfl⟩ := (hmem _).1 hx
    simp [Fl.isFinite] at hxf

example : deduceBox exactQ 2 [[.fin 1, .fin (-7)], [.fin 3, .fin 2], [.fin 100, .fin 200]] = .ok (.fin (147 / 10)) ∧
    codeOf exactQ 64 2 (.fin (147 / 10)) [.fin (-7), .fin 2] = .ok 2451973430565296679 := by decide +kernel

/-- C10 in a binary format: if the largest absolute coordinate `m` is not extremely small or large (`2 ^ -1017 ≤ m ≤ 2 ^ 1020`
for `double`), the deduced box size is 2.1 times `m` up to a relative error of less than `3 u`, and every particle is accepted.
Missing from the full claim: the cases outside this range, where `C10_origin_fails` and `C10_overflow_fails` apply. -/
theorem C10_ieee_partial {f : Format} (h : f.Std) (fused : Bool) (sqrt : ℚ → Fl ℚ) {w d n : Nat} (hs : Supported w d)
    {parts : List (List ℚ)} (harr : d ≤ parts.length) (hlen : ∀ v ∈ parts, v.length = n) {m : ℚ}
    (hm : ∃ v ∈ parts.take d, ∃ x ∈ v, |x| = m) (hle : ∀ v ∈ parts.take d, ∀ x ∈ v, |x| ≤ m)
    (h1 : (2 : ℚ) ^ (f.emin + f.prec + 4) ≤ m) (h2 : m ≤ 2 ^ (f.emax - 3)) (h3 : m ≤ 2 ^ (-f.emin - f.prec - 1)) :
    ∃ b, deduceBox (f.arith fused sqrt) d (parts.map (·.map .fin)) = .ok (.fin b) ∧ |b - 21 / 10 * m| ≤ 5 * f.unit * m ∧
      ∀ c : List ℚ, c.length = d → (∀ x ∈ c, |x| ≤ m) → ∃ v, codeOf (f.arith fused sqrt) w d (.fin b) (c.map .fin) = .ok v := by
  have hd : 0 < d := by rcases hs.2 with h | h <;> omega
  have hcb2 : cbits w d ≤ 64 := by have := cbits_le w d; rcases hs.1 with h | h <;> omega
  have hR : Rect d n (parts.map (·.map (Fl.fin (K := ℚ)))) := by
    refine ⟨by simpa using harr, ?_⟩
    intro v hv
    simp only [List.mem_map] at hv
    obtain ⟨u, hu, rfl⟩ := hv
    rw [List.length_map]; exact hlen u hu
  have hmem : ∀ x : Fl ℚ, x ∈ ((parts.map (·.map Fl.fin)).take d).flatten ↔ ∃ v ∈ parts.take d, ∃ q ∈ v, x = .fin q := by
    intro x
    simp only [List.mem_flatten, ← List.map_take, List.mem_map]
    constructor
    · rintro ⟨l, ⟨a, ha, rfl⟩, hx⟩
      obtain ⟨q, hq, rfl⟩ := List.mem_map.1 hx
      exact ⟨a, ha, q, hq, rfl⟩
    · rintro ⟨v, hv, q, hq, rfl⟩
      exact ⟨_, ⟨v, hv, rfl⟩, List.mem_map_of_mem hq⟩
  have hIs : IsMaxAbs ((parts.map (·.map (Fl.fin (K := ℚ)))).take d).flatten m := by
    refine ⟨?_, ?_, ?_⟩
    · obtain ⟨v, hv, x, hx, rfl⟩ := hm; exact abs_nonneg _
    · intro x hx
      obtain ⟨v, hv, q, hq, rfl⟩ := (hmem _).1 hx
      exact ⟨q, rfl, hle v hv q hq⟩
    · obtain ⟨v, hv, x, hx, hxm⟩ := hm
      exact .inr ⟨x, (hmem _).2 ⟨v, hv, x, hx, rfl⟩, hxm⟩
  rcases deduceBox_cases (f.arith fused sqrt) hd hR with ⟨m', hm', e⟩ | ⟨⟨x, hx, hxf⟩, _⟩
  · rw [← hIs.unique hm'] at e
    obtain ⟨b, eb, hb⟩ := Format.boxFromMax_ieee (fused := fused) (sqrt := sqrt) h h1 h2
    refine ⟨b, by rw [e, eb], hb, ?_⟩
    intro c hc hcm
    rcases codeOf_cases (f.arith fused sqrt) hs (box := .fin b) (c := c.map .fin) (by simpa using hc) with
      ⟨xs, v, _, _, _, _, k5⟩ | ⟨⟨x, hx, hex⟩, _⟩
    · exact ⟨v, k5⟩
    · exfalso
      simp only [List.mem_map] at hx
      obtain ⟨y, hy, rfl⟩ := hx
      obtain ⟨r, hr⟩ := Format.deduced_accepts (fused := fused) (sqrt := sqrt) h (cbits_le w d) hcb2 h1 h3 hb (hcm y hy)
      rw [hr] at hex; simp at hex
  · exfalso
    obtain ⟨v, hv, q, hq, rfl⟩ := (hmem _).1 hx
    simp [Fl.isFinite] at hxf

example : (2 : ℚ) ^ (binary64.emin + binary64.prec + 4) ≤ 7 ∧ 7 ≤ (2 : ℚ) ^ (binary64.emax - 3) ∧
    7 ≤ (2 : ℚ) ^ (-binary64.emin - binary64.prec - 1) ∧
    deduceBox (dbl true) 2 [[.fin 1, .fin (-7)], [.fin 3, .fin 2], [.fin 100, .fin 200]] = .ok (.fin (4137682157646643 / 281474976710656)) := by
  decide +kernel

/-- C10 does not hold for particles that are all at the origin: the deduced box has size 0 and every particle is rejected,
in any arithmetic that is exact on zero. -/
theorem C10_origin_fails {A : Arith K} (L : A.Laws) {w d n : Nat} (hs : Supported w d) {parts : List (List (Fl K))} (harr : d ≤ parts.length)
    (hlen : ∀ v ∈ parts, v.length = n) (hz : ∀ v ∈ parts.take d, ∀ x ∈ v, x = .fin 0) (h20 : ∃ c, A.rnd (1 / 20) = .fin c) :
    deduceBox A d parts = .ok (.fin 0) ∧ codeOf A w d (.fin 0) (List.replicate d (.fin 0)) = .error .invalidArg := by
  have hd : 0 < d := by rcases hs.2 with h | h <;> omega
  constructor
  · rcases deduceBox_cases A hd ⟨harr, hlen⟩ with ⟨m, ⟨i1, i2, i3⟩, e⟩ | ⟨⟨x, hx, hxf⟩, _⟩
    · have hm : m = 0 := by
        rcases i3 with h | ⟨q, hq, h⟩
        · exact h
        · obtain ⟨v, hv, hx⟩ := List.mem_flatten.1 hq
          have := hz v hv _ hx
          rw [Fl.fin.injEq] at this
          rw [← h, this, abs_zero]
      subst hm
      obtain ⟨c, hc⟩ := h20
      rw [e]
      unfold boxFromMax
      simp only [maxElement, List.foldl_nil, ofUB, bind, Except.bind]
      have e1 : A.mul (.fin 0) (.fin 2) = .fin 0 := by
        show A.rnd (0 * 2) = _; rw [zero_mul]; exact L.zero
      have e2 : A.div (.fin 1) (.fin 20) = .fin c := by
        show (if (20 : K) = 0 then _ else A.rnd (1 / 20)) = _
        rw [if_neg (by norm_num), hc]
      have e3 : A.fma (.fin 0) (.fin c) (.fin 0) = .fin 0 := by
        unfold Arith.fma
        split
        · show A.rnd (0 * c + 0) = _; rw [zero_mul, zero_add]; exact L.zero
        · have : A.mul (.fin 0) (.fin c) = .fin 0 := by show A.rnd (0 * c) = _; rw [zero_mul]; exact L.zero
          rw [this]; show A.rnd (0 + 0) = _; rw [zero_add]; exact L.zero
      rw [e1, e2, e3]; rfl
    · obtain ⟨v, hv, hx⟩ := List.mem_flatten.1 hx
      rw [hz v hv x hx] at hxf; simp [Fl.isFinite] at hxf
  · have hinv : invBox A (.fin 0) = .inf false := by
      unfold invBox Arith.div
      simp
    rcases codeOf_cases A hs (box := .fin 0) (c := List.replicate d (.fin 0)) (by simp) with ⟨xs, v, k1, _⟩ | ⟨_, k2⟩
    · exfalso
      rw [hinv] at k1
      have := (forall₂_getElem k1).2 0 (by simpa using hd) (by have := k1.length_eq; simp at this; omega)
      rw [C08_nonfinite A (cbits_le w d) (.inr rfl)] at this
      simp at this
    · exact k2

example : deduceBox (dbl true) 3 (List.replicate 4 [.fin 0, .fin 0]) = .ok (.fin 0) ∧
    codeOf (dbl true) 64 3 (.fin 0) [.fin 0, .fin 0, .fin 0] = .error .invalidArg := by decide +kernel

/-- C10 does not hold for extreme coordinates either: with `double`, the deduction overflows for a coordinate of `2 ^ 1023`; and
for a particle at distance `2 ^ -1074` the deduced box is so small that its inverse overflows, and the particle is rejected. -/
theorem C10_overflow_fails (fused : Bool) :
    deduceBox (dbl fused) 3 [[.fin (2 ^ 1023)], [.fin 0], [.fin 0], [.fin 1]] = .error .invalidArg ∧
    deduceBox (dbl fused) 3 [[.fin (1 / 2 ^ 1074)], [.fin 0], [.fin 0], [.fin 1]] = .ok (.fin (2 / 2 ^ 1074)) ∧
    codeOf (dbl fused) 64 3 (.fin (2 / 2 ^ 1074)) [.fin (1 / 2 ^ 1074), .fin 0, .fin 0] = .error .invalidArg := by
  cases fused <;> decide +kernel

end Rakau
