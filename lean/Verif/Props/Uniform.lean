import Verif.Proof.Uniform
import Verif.Props.Ctor

/-!
C88: the initial data of the tests (test/test_utils.hpp:39-59), uniform in a box, and the tree in the same box.
-/
namespace Rakau
open Spec

section
variable {K : Type} [Field K] [LinearOrder K]

/-- The places of the data in the vector. -/
theorem uniformParts_get {A : Arith K} {d n : Nat} {size : Fl K} {u : Nat → Fl K} (hd : 1 ≤ d) (hn : n * (d + 1) < 2 ^ 64) :
    ∃ v, uniformParts A d n size u = .ok v ∧ v.length = n * (d + 1) ∧ (∀ l < n, v[l]? = some (uniformReal A (.fin 0) (.fin 1) (u l))) ∧
      ∀ j < d, ∀ l < n, v[(j + 1) * n + l]? = some (uniformReal A (A.div size.neg (.fin 2)) (A.div size (.fin 2)) (u ((j + 1) * n + l))) := by
  have h2 : n * 2 ≤ n * (d + 1) := Nat.mul_le_mul_left _ (by omega)
  have hmd : n * (d + 1) = n * d + n := by ring
  unfold uniformParts
  simp only [Nat.mod_eq_of_lt hn]
  rw [if_neg (by omega), if_neg (by omega)]
  refine ⟨_, rfl, by simp; omega, fun l hl => ?_, fun j hj l hl => ?_⟩
  · rw [List.getElem?_append_left (by simpa using hl)]
    simp [hl]
  · have hj2 : (j + 1) * n + l < n * (d + 1) := by
      have : (j + 1) * n ≤ d * n := Nat.mul_le_mul_right _ hj
      rw [hmd, mul_comm n d]; omega
    have hj3 : n ≤ (j + 1) * n := Nat.le_mul_of_pos_left _ (by omega)
    rw [List.getElem?_append_right (by simp; omega)]
    simp only [List.length_map, List.length_range]
    rw [List.getElem?_map, List.getElem?_range (by omega), Option.map_some, show n + ((j + 1) * n + l - n) = (j + 1) * n + l by omega]

variable [IsStrictOrderedRing K] [FloorRing K]

/-- The checks of the constructor and the codes: fine if each coordinate is accepted. -/
theorem prepare_test {A : Arith K} {simd : Option (Simd K)} {mac : Mac} {w d n maxLeaf ncrit : Nat} {size : Fl K} {v : List (Fl K)} (hs : Supported w d) (hb : boxOkFl size = true)
    (hml : maxLeaf ≠ 0) (hnc : ncrit ≠ 0) (hv : v.length = n * (d + 1))
    (hc : ∀ j < d, ∀ l < n, ∃ x, v[(j + 1) * n + l]? = some x ∧ ∃ r, discSingle A w (cbits w d) x (invBox A size) = .ok r) :
    ∃ raw, (testInp A simd mac w d n maxLeaf ncrit size v).prepare = .ok (size, raw) := by
  have hlen : ∀ p ∈ benchParts d n v, p.length = n := by
    intro p hp
    unfold benchParts at hp
    rcases List.mem_append.1 hp with h | h
    · obtain ⟨j, hj, rfl⟩ := List.mem_map.1 h
      rw [List.mem_range] at hj
      rw [List.length_take, List.length_drop, hv]
      have : (j + 2) * n ≤ n * (d + 1) := by rw [mul_comm n]; exact Nat.mul_le_mul_right _ (by omega)
      have e : (j + 2) * n = (j + 1) * n + n := by ring
      omega
    · rw [List.mem_singleton.1 h, List.length_take, hv]
      have : n * 1 ≤ n * (d + 1) := Nat.mul_le_mul_left _ (by omega)
      omega
  have hne : benchParts d n v ≠ [] := by simp [benchParts]
  have hhead : ((benchParts d n v).headD []).length = n := by
    cases hb : benchParts d n v with
    | nil => exact absurd hb hne
    | cons p l => exact hlen p (by rw [hb]; simp)
  have hchk : (testInp A simd mac w d n maxLeaf ncrit size v).check = .ok () := by
    unfold Input.check
    rw [if_neg, if_neg, if_neg (show (testInp A simd mac w d n maxLeaf ncrit size v).maxLeaf ≠ 0 from hml), if_neg (show (testInp A simd mac w d n maxLeaf ncrit size v).ncrit ≠ 0 from hnc)]
    · simpa [testInp] using hb
    · simp only [List.any_eq_true, not_exists, not_and]
      intro p hp
      show ¬ ((p.length != ((benchParts d n v).headD []).length) = true)
      rw [hhead, hlen p hp]
      simp
  have hraw : ∃ raw, rawCodes (rakauEnv A simd mac w d) size (benchParts d n v) n = .ok raw := by
    unfold rawCodes
    refine mapM_ok_of (fun l hl => ?_)
    rw [List.mem_range] at hl
    have hco : ∃ c, coordsAt d (benchParts d n v) l = some c ∧ c.length = d ∧ ∀ x ∈ c, ∃ j < d, v[(j + 1) * n + l]? = some x := by
      refine ⟨(List.range d).map (fun j => (v[(j + 1) * n + l]?).getD .nan), ?_, by simp, ?_⟩
      · unfold coordsAt benchParts
        rw [List.take_left' (by simp), List.mapM_map]
        have : ∀ l' : List Nat, (∀ j ∈ l', j < d) → l'.mapM ((fun p : List (Fl K) => p[l]?) ∘ fun j => (v.drop ((j + 1) * n)).take n) = some (l'.map (fun j => (v[(j + 1) * n + l]?).getD .nan)) := by
          intro l'
          induction l' with
          | nil => intro _; rfl
          | cons j l' ih =>
            intro h
            obtain ⟨x, hx, _⟩ := hc j (h j (by simp)) l hl
            rw [List.mapM_cons, ih (fun i hi => h i (by simp [hi]))]
            simp only [Function.comp, List.getElem?_take, List.getElem?_drop, if_pos hl, hx, List.map_cons]
            rfl
        exact this _ (fun j hj => List.mem_range.1 hj)
      · intro x hx
        obtain ⟨j, hj, rfl⟩ := List.mem_map.1 hx
        obtain ⟨y, hy, _⟩ := hc j (List.mem_range.1 hj) l hl
        exact ⟨j, List.mem_range.1 hj, by rw [hy]; rfl⟩
    obtain ⟨c, e, hcl, hcm⟩ := hco
    show ∃ b, (ofUB (coordsAt d (benchParts d n v) l) >>= fun c => codeOf A w d size c) = .ok b
    rw [e]
    show ∃ b, codeOf A w d size c = .ok b
    rcases codeOf_cases A hs (box := size) hcl with ⟨_, b, _, _, _, _, k⟩ | ⟨⟨x, hx, hex⟩, _⟩
    · exact ⟨b, k⟩
    · obtain ⟨j, hj, ej⟩ := hcm x hx
      obtain ⟨y, ey, r, hr⟩ := hc j hj l hl
      rw [ey, Option.some.injEq] at ej
      rw [ej, hex] at hr
      cases hr
  obtain ⟨raw, hr⟩ := hraw
  refine ⟨raw, ?_⟩
  unfold Input.prepare
  rw [hchk]
  show (rawCodes (rakauEnv A simd mac w d) size (benchParts d n v) ((benchParts d n v).headD []).length >>= fun raw => pure (size, raw)) = _
  rw [hhead, hr]
  rfl

end

variable {f : Format} {fused : Bool} {sqrt : ℚ → Fl ℚ} {w d n maxLeaf ncrit : Nat} {s : ℚ} {u : Nat → ℚ}

/-- The data of the tests in a binary format, for any random numbers in `[0, 1)`: `n` masses, the numbers that were drawn, then the coordinates of all the particles, dimension by dimension. Each coordinate lies in the
box `[-size/2, size/2)`, without its upper end in spite of rounding, and within
`3/2 unit * size` of its value without rounding, from a random number of its own. The size is a number of the format and not tiny. -/
theorem C88_data (h : f.Std) (hd : 1 ≤ d) (hn : n * (d + 1) < 2 ^ 64) (hs : f.near s = s) (h1 : 2 * f.minNormal ≤ s) (h2 : s < 2 ^ f.emax)
    (hu : ∀ i, f.near (u i) = u i ∧ 0 ≤ u i ∧ u i < 1) :
    ∃ v, uniformParts (f.arith fused sqrt) d n (.fin s) (fun i => .fin (u i)) = .ok v ∧ v.length = n * (d + 1) ∧ (∀ l < n, v[l]? = some (.fin (u l))) ∧
      ∀ j < d, ∀ l < n, ∃ x, v[(j + 1) * n + l]? = some (.fin x) ∧ InBox s x ∧ |x - (u ((j + 1) * n + l) * s - s / 2)| ≤ 3 / 2 * f.unit * s := by
  have he : f.emin ≤ -(f.prec : ℤ) - 1 := by have := h.emin2; omega
  obtain ⟨v, e, hl, hm, hc⟩ := uniformParts_get (A := f.arith fused sqrt) (size := .fin s) (u := fun i => .fin (u i)) hd hn
  refine ⟨v, e, hl, fun l hl => ?_, fun j hj l hl => ?_⟩
  · rw [hm l hl]
    obtain ⟨a, b, c⟩ := hu l
    have hem := Format.two_le_emax h.toOk
    have n1 : f.near 1 = 1 := by simpa using Format.near_pow (f := f) h.prec (k := 0) (by have := h.emin; omega)
    have r1 : f.rnd 1 = .fin 1 := by rw [Format.rnd_fin (by rw [n1, abs_one]; linarith), n1]
    have ru : f.rnd (u l) = .fin (u l) := by rw [Format.rnd_fin (by rw [a, abs_of_nonneg b]; linarith), a]
    congr 1
    unfold uniformReal
    have e1 : (f.arith fused sqrt).sub (.fin 1) (.fin 0) = .fin 1 := by
      show f.rnd (1 + -0) = _
      rw [neg_zero, add_zero, r1]
    have e2 : (f.arith fused sqrt).mul (.fin (u l)) (.fin 1) = .fin (u l) := by
      show f.rnd (u l * 1) = _
      rw [mul_one, ru]
    rw [e1, e2]
    show f.rnd (u l + 0) = _
    rw [add_zero, ru]
  · obtain ⟨a, b, c⟩ := hu ((j + 1) * n + l)
    obtain ⟨e1, e2, e3⟩ := Format.draw_val (fused := fused) (sqrt := sqrt) h.toOk he hs h1 h2 a b c
    exact ⟨_, by rw [hc j hj l hl, e1], ⟨e2, e3⟩, Format.draw_close h.toOk he h1 a b c⟩

/-- If the size is a power of two (it is 1 in most tests), the constructor accepts the data with the same box size: all its checks pass and all the codes exist, for any random numbers, with and without fused
multiply-add. Missing from the full claim (all sizes): it is false, see `C88_fails_fused` and `C88_fails_plain`; what holds for all sizes is `C88_inner`. -/
theorem C88_accept_partial (h : f.Std) (hw : Supported w d) (hn : n * (d + 1) < 2 ^ 64) {k : ℤ} (k1 : f.emin + (f.prec : ℤ) ≤ k) (k2 : f.emin ≤ -k) (k3 : k < f.emax) (k4 : -k < f.emax)
    (hu : ∀ i, f.near (u i) = u i ∧ 0 ≤ u i ∧ u i < 1) (simd : Option (Simd ℚ)) (mac : Mac) (hml : maxLeaf ≠ 0) (hnc : ncrit ≠ 0) :
    ∃ v, uniformParts (f.arith fused sqrt) d n (.fin (2 ^ k)) (fun i => .fin (u i)) = .ok v ∧
      ∃ raw, (testInp (f.arith fused sqrt) simd mac w d n maxLeaf ncrit (.fin (2 ^ k)) v).prepare = .ok (.fin (2 ^ k), raw) := by
  have he : f.emin ≤ -(f.prec : ℤ) - 1 := by have := h.emin2; omega
  have hd : 1 ≤ d := by rcases hw.2 with h | h <;> omega
  have hp : (0 : ℚ) < 2 ^ k := by positivity
  have hpr := h.prec
  have hs : f.near (2 ^ k) = 2 ^ k := Format.near_pow hpr (by omega)
  have hi : f.near (2 ^ (-k)) = 2 ^ (-k) := Format.near_pow hpr k2
  have h1 : 2 * f.minNormal ≤ 2 ^ k := by
    have e1 : 2 * f.minNormal = (2 : ℚ) ^ (f.emin + (f.prec : ℤ)) := by
      unfold Format.minNormal
      rw [show f.emin + (f.prec : ℤ) = (f.emin + ((f.prec : ℤ) - 1)) + 1 by ring, zpow_add₀ (by norm_num) (f.emin + ((f.prec : ℤ) - 1))]; ring
    rw [e1]
    exact zpow_le_zpow_right₀ (by norm_num) k1
  have h2 : (2 : ℚ) ^ k < 2 ^ f.emax := by rw [← zpow_natCast]; exact zpow_lt_zpow_right₀ (by norm_num) k3
  have h3 : (2 : ℚ) ^ (-k) < 2 ^ f.emax := by rw [← zpow_natCast]; exact zpow_lt_zpow_right₀ (by norm_num) k4
  have hinv : invBox (f.arith fused sqrt) (.fin (2 ^ k)) = .fin (2 ^ (-k)) := by
    unfold invBox Arith.div
    simp only [if_neg hp.ne']
    show f.rnd (1 / 2 ^ k) = _
    rw [one_div, ← zpow_neg, Format.rnd_fin (by rw [hi, abs_of_pos (by positivity)]; exact h3), hi]
  obtain ⟨v, e, hl, _, hc⟩ := uniformParts_get (A := f.arith fused sqrt) (size := .fin (2 ^ k)) (u := fun i => .fin (u i)) hd hn
  refine ⟨v, e, prepare_test hw ?_ hml hnc hl (fun j hj l hl => ⟨_, hc j hj l hl, ?_⟩)⟩
  · simp [boxOkFl, Fl.isFinite, Fl.lt, hp.le]
  · obtain ⟨a, b, c⟩ := hu ((j + 1) * n + l)
    obtain ⟨e1, e2, _⟩ := Format.draw_val (fused := fused) (sqrt := sqrt) h.toOk he hs h1 h2 a b c
    have e3 := Format.draw_pow h.toOk he k1 a c
    rw [e1, hinv]
    have hk : (2 : ℚ) ^ k * 2 ^ (-k) = 1 := by rw [← zpow_add₀ (by norm_num)]; simp
    have hq : (0 : ℚ) < 2 ^ (-k) := by positivity
    refine Format.discSingle_closed h.toOk he (cbits_le w d) (by rcases hw.1 with h | h <;> have := cbits_le w d <;> omega) ?_ ?_
    · have := mul_le_mul_of_nonneg_right e2 hq.le
      calc -(1 / 2 : ℚ) = -(2 ^ k / 2) * 2 ^ (-k) := by rw [neg_mul, div_mul_eq_mul_div, hk]
        _ ≤ _ := this
    · have := mul_le_mul_of_nonneg_right e3 hq.le
      rwa [mul_assoc, hk, mul_one] at this

/-- For every size whose inverse is a normal number, only random numbers within `3 unit` of 0 or 1 (`unit` is `2 ^ -53` for `double`) give coordinates that may be rejected: the constructor accepts all other data. -/
theorem C88_inner (h : f.Std) (hw : Supported w d) (hn : n * (d + 1) < 2 ^ 64) (hs : f.near s = s) (h1 : 2 * f.minNormal ≤ s) (h2 : s < 2 ^ f.emax) (h3 : f.minNormal ≤ 1 / s)
    (h4 : 1 / s ≤ 2 ^ (f.emax - 1)) (hu : ∀ i, f.near (u i) = u i ∧ 3 * f.unit ≤ u i ∧ u i ≤ 1 - 3 * f.unit) (simd : Option (Simd ℚ)) (mac : Mac) (hml : maxLeaf ≠ 0) (hnc : ncrit ≠ 0) :
    ∃ v, uniformParts (f.arith fused sqrt) d n (.fin s) (fun i => .fin (u i)) = .ok v ∧
      ∃ raw, (testInp (f.arith fused sqrt) simd mac w d n maxLeaf ncrit (.fin s) v).prepare = .ok (.fin s, raw) := by
  have he : f.emin ≤ -(f.prec : ℤ) - 1 := by have := h.emin2; omega
  have hd : 1 ≤ d := by rcases hw.2 with h | h <;> omega
  have hm : 0 < f.minNormal := by unfold Format.minNormal; positivity
  have hs0 : 0 < s := by linarith
  have hun := Format.unit_pos (f := f)
  obtain ⟨v, e, hl, _, hc⟩ := uniformParts_get (A := f.arith fused sqrt) (size := .fin s) (u := fun i => .fin (u i)) hd hn
  refine ⟨v, e, prepare_test hw ?_ hml hnc hl (fun j hj l hl => ⟨_, hc j hj l hl, ?_⟩)⟩
  · simp [boxOkFl, Fl.isFinite, Fl.lt, hs0.le]
  · obtain ⟨a, b, c⟩ := hu ((j + 1) * n + l)
    obtain ⟨e1, _, _⟩ := Format.draw_val (fused := fused) (sqrt := sqrt) h.toOk he hs h1 h2 a (by linarith) (by linarith)
    rw [e1]
    exact Format.disc_accepts h.toOk he (cbits_le w d) (by rcases hw.1 with h | h <;> have := cbits_le w d <;> omega) hs0 h3 h4 (Format.draw_inner h.toOk he h1 a b c)

/-- Sizes 10 and 117 in `double`, and random numbers not far from the ends. -/
example : (∀ s ∈ [(10 : ℚ), 117], binary64.near s = s ∧ 2 * binary64.minNormal ≤ s ∧ s < 2 ^ binary64.emax ∧ binary64.minNormal ≤ 1 / s ∧ 1 / s ≤ 2 ^ (binary64.emax - 1)) ∧
    ∀ q ∈ [(3 / 2 ^ 53 : ℚ), 1 / 3 - 1 / (3 * 2 ^ 54), 1 - 3 / 2 ^ 53], binary64.near q = q ∧ 3 * binary64.unit ≤ q ∧ q ≤ 1 - 3 * binary64.unit := by decide +kernel

/-- Without rounding, the constructor accepts the data for every positive size. -/
theorem C88_exact {K : Type} [Field K] [LinearOrder K] [IsStrictOrderedRing K] [FloorRing K] {A : Arith K} (hA : A.Exact) (hw : Supported w d) (hn : n * (d + 1) < 2 ^ 64) {s : K} (hs : 0 < s) {u : Nat → K}
    (hu : ∀ i, 0 ≤ u i ∧ u i < 1) (simd : Option (Simd K)) (mac : Mac) (hml : maxLeaf ≠ 0) (hnc : ncrit ≠ 0) :
    ∃ v, uniformParts A d n (.fin s) (fun i => .fin (u i)) = .ok v ∧ ∃ raw, (testInp A simd mac w d n maxLeaf ncrit (.fin s) v).prepare = .ok (.fin s, raw) := by
  have hd : 1 ≤ d := by rcases hw.2 with h | h <;> omega
  obtain ⟨v, e, hl, _, hc⟩ := uniformParts_get (A := A) (size := .fin s) (u := fun i => .fin (u i)) hd hn
  refine ⟨v, e, prepare_test hw ?_ hml hnc hl (fun j hj l hl => ⟨_, hc j hj l hl, ?_⟩)⟩
  · simp [boxOkFl, Fl.isFinite, Fl.lt, hs.le]
  · obtain ⟨b, c⟩ := hu ((j + 1) * n + l)
    have hx : uniformReal A (A.div (Fl.fin s).neg (.fin 2)) (A.div (.fin s) (.fin 2)) (.fin (u ((j + 1) * n + l))) = .fin (u ((j + 1) * n + l) * s - s / 2) := by
      unfold uniformReal
      rw [show (Fl.fin s).neg = .fin (-s) from rfl, ex_div hA two_ne_zero, ex_div hA two_ne_zero, ex_sub hA, ex_mul hA, ex_add hA]
      congr 1
      ring
    rw [hx]
    rcases exact_accept hA (cbits_le w d) (x := u ((j + 1) * n + l) * s - s / 2) hs with ⟨r, e, _, _⟩ | ⟨_, hno⟩
    · exact ⟨r, e⟩
    · exact absurd ⟨by nlinarith, by nlinarith⟩ hno

/-- A particle that the tests may draw but not use: with fused multiply-add, `double` and the size 10 (test/basic.cpp:44, test/zero_masses.cpp:41), a random number 0 gives the coordinate -5. It lies in the box, but the
constructor throws `std::invalid_argument`: the rounded inverse of 10 is too large. -/
theorem C88_fails_fused : ∃ v, uniformParts (dbl true) 3 1 (.fin 10) (fun i => if i = 1 then .fin 0 else .fin (1 / 2)) = .ok v ∧ v = [.fin (1 / 2), .fin (-5), .fin 0, .fin 0] ∧ InBox (10 : ℚ) (-5) ∧
    ∀ r, Construct (testInp (dbl true) none .bh 64 3 1 16 128 (.fin 10) v) r → r = .error .invalidArg := by
  refine ⟨[.fin (1 / 2), .fin (-5), .fin 0, .fin 0], by decide +kernel, rfl, by decide +kernel, fun r hr => ?_⟩
  have hp : (testInp (dbl true) none .bh 64 3 1 16 128 (.fin 10) [.fin (1 / 2), .fin (-5), .fin 0, .fin 0]).prepare = .error .invalidArg := by decide +kernel
  cases hr with
  | early e he => rw [hp] at he; cases he; rfl
  | run _ _ _ _ _ _ _ he => rw [hp] at he; cases he

/-- Without fused multiply-add: the same for the size 117 and the largest random number below 1, which gives a coordinate below 117/2 that is rounded to the end of the box. -/
theorem C88_fails_plain : ∃ x, ∃ v, uniformParts (dbl false) 3 1 (.fin 117) (fun i => if i = 1 then .fin (1 - 1 / 2 ^ 53) else .fin (1 / 2)) = .ok v ∧ v = [.fin (1 / 2), .fin x, .fin 0, .fin 0] ∧ InBox (117 : ℚ) x ∧
    ∀ r, Construct (testInp (dbl false) none .bh 64 3 1 16 128 (.fin 117) v) r → r = .error .invalidArg := by
  refine ⟨117 / 2 - 1 / 2 ^ 46, _, by decide +kernel, rfl, by decide +kernel, fun r hr => ?_⟩
  have hp : (testInp (dbl false) none .bh 64 3 1 16 128 (.fin 117) [.fin (1 / 2), .fin (117 / 2 - 1 / 2 ^ 46), .fin 0, .fin 0]).prepare = .error .invalidArg := by decide +kernel
  cases hr with
  | early e he => rw [hp] at he; cases he; rfl
  | run _ _ _ _ _ _ _ he => rw [hp] at he; cases he

/-- The number of elements wraps around to zero, and the masses are written beyond the end of the vector. -/
theorem C88_fails_wrap {K : Type} [Field K] [LinearOrder K] (A : Arith K) (size : Fl K) (u : Nat → Fl K) : uniformParts A 3 (2 ^ 62) size u = .error .ub := by
  unfold uniformParts
  rw [if_neg (by decide), if_pos (by decide)]

/-- The hypotheses of `C88_data` for the sizes of the tests, `float` and `double`. -/
example : (∀ s ∈ [(1 : ℚ), 10, 100], binary32.near s = s ∧ 2 * binary32.minNormal ≤ s ∧ s < 2 ^ binary32.emax ∧ binary64.near s = s ∧ 2 * binary64.minNormal ≤ s ∧ s < 2 ^ binary64.emax) ∧
    ∀ q ∈ [(0 : ℚ), 1 / 2, 1 - 1 / 2 ^ 24], binary32.near q = q ∧ 0 ≤ q ∧ q < 1 := by decide +kernel

/-- A run with two particles in three dimensions, `float`. -/
example : ∃ v, uniformParts (binary32.arith false .fin) 3 2 (.fin 10) (fun i => .fin (if i = 3 then 1 - 1 / 2 ^ 24 else i / 8)) = .ok v ∧
    v = [.fin 0, .fin (1 / 8), .fin (-(5 / 2)), .fin (5 - 1 / 2 ^ 20), .fin 0, .fin (5 / 4), .fin (5 / 2), .fin (15 / 4)] ∧ ∀ x ∈ v.drop 2, ∃ q, x = .fin q ∧ InBox 10 q := by
  refine ⟨_, by decide +kernel, rfl, ?_⟩
  simp [InBox]
  norm_num

/-- The size 1 meets the hypotheses of `C88_accept_partial`. -/
example : ∃ raw, (testInp (binary32.arith true .fin) none .bh 64 3 1 16 128 (.fin 1) [.fin 0, .fin (-(1 / 2)), .fin (1 / 2 - 1 / 2 ^ 24), .fin 0]).prepare = .ok (.fin 1, raw) := by
  obtain ⟨v, e, raw, h⟩ := C88_accept_partial (f := binary32) (fused := true) (sqrt := .fin) (w := 64) (d := 3) (n := 1) (maxLeaf := 16) (ncrit := 128) (k := 0)
    (u := fun i => if i = 2 then 1 - 1 / 2 ^ 24 else if i = 3 then 1 / 2 else 0) binary32_std ⟨.inr rfl, .inr rfl⟩ (by decide) (by decide) (by decide) (by decide) (by decide)
    (fun i => by
      split
      · decide +kernel
      · split <;> decide +kernel) none .bh (by decide) (by decide)
  have hv : v = [.fin 0, .fin (-(1 / 2)), .fin (1 / 2 - 1 / 2 ^ 24), .fin 0] := by
    have : uniformParts (binary32.arith true .fin) 3 1 (.fin (2 ^ (0 : ℤ))) (fun i => .fin (if i = 2 then 1 - 1 / 2 ^ 24 else if i = 3 then 1 / 2 else 0)) =
        .ok [.fin 0, .fin (-(1 / 2)), .fin (1 / 2 - 1 / 2 ^ 24), .fin 0] := by decide +kernel
    rw [e] at this
    exact Except.ok.inj this
  subst hv
  exact ⟨raw, by simpa using h⟩

example : exactQ.Exact ∧ (0 : ℚ) < 117 ∧ ∀ i : Nat, (0 : ℚ) ≤ i / (i + 1) ∧ (i : ℚ) / (i + 1) < 1 :=
  ⟨exactQ_exact, by norm_num, fun i => ⟨by positivity, by rw [div_lt_one (by positivity)]; linarith⟩⟩

end Rakau
