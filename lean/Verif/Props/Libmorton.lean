import Verif.Spec.Libmorton
import Verif.Proof.LibmortonEnc
import Verif.Proof.LibmortonDec

/-! Property theorems C75: the encoding and decoding methods of the bundled libmorton. -/

namespace Rakau
open Spec

/-- C75: the search for the first bit finds it for 64-bit types, and for all types with the Microsoft compiler. -/
theorem C75_first_bit_partial {p : Plat} {w x : Nat} (hw : w = 16 ∨ w = 32 ∨ w = 64) (hp : p.comp = .gcc → w = 64) (h0 : x ≠ 0) (hx : x < 2 ^ w) :
    ∃ k, firstSetBit p w x = some k ∧ HighestBit x k :=
  ⟨_, firstSetBit_eq hw hp h0 hx, Nat.succ_pos _, Nat.log2_self_le h0, lt_of_log2 h0⟩

example : firstSetBit ⟨.gcc, 64⟩ 64 1000000007 = some 30 ∧ firstSetBit ⟨.win32, 32⟩ 64 (2 ^ 40 + 5) = some 41 := by decide +kernel

/-- C75 is false for this search in general: with gcc it finds the first bit of no 32-bit number. -/
theorem C75_first_bit_fails {p : Plat} {x k : Nat} (hp : p.comp = .gcc) (h0 : x ≠ 0) (hx : x < 2 ^ 32) (h : firstSetBit p 32 x = some k) :
    ¬ HighestBit x k := by
  rw [firstSetBit_gcc32 hp h0 hx] at h
  have hl : x.log2 < 32 := (Nat.log2_lt h0).2 hx
  rintro ⟨h1, h2, h3⟩
  have e : x.log2 = k - 1 := by
    rw [Nat.log2_eq_iff h0]
    exact ⟨h2, by rwa [show k - 1 + 1 = k by omega]⟩
  have h := Option.some.inj h
  omega

example : firstSetBit ⟨.gcc, 64⟩ 32 5 = some (2 ^ 64 - 29) ∧ firstSetBit ⟨.gcc, 64⟩ 32 (2 ^ 31) = some 0 := by decide +kernel

theorem forET_ok {p : Plat} {mw : Nat} {xs : List Nat} (hmw : mw = 32 ∨ mw = 64) (hd : xs.length = 2 ∨ xs.length = 3)
    (hx : ∀ x ∈ xs, x < 2 ^ (mw / xs.length)) : ∀ x ∈ xs, x < 2 ^ forETBits p mw xs := by
  have loc : ∀ x ∈ xs, (firstSetBit p mw (x % 2 ^ mw)).getD 0 + 1 < 2 ^ 64 ∧
      x < 2 ^ min (mw / xs.length) ((firstSetBit p mw (x % 2 ^ mw)).getD 0 + 1) := by
    intro x hm
    have hb := hx x hm
    have hle : mw / xs.length ≤ mw / 2 := by rcases hd with h | h <;> rw [h] <;> omega
    have hxw : x < 2 ^ mw := lt_of_lt_of_le hb (Nat.pow_le_pow_right (by norm_num) (by omega))
    rw [Nat.mod_eq_of_lt hxw]
    by_cases h0 : x = 0
    · subst h0
      rw [firstSetBit_zero]
      exact ⟨by norm_num, Nat.two_pow_pos _⟩
    · have hl : x.log2 < mw / xs.length := (Nat.log2_lt h0).2 hb
      by_cases hg : p.comp = .gcc → mw = 64
      · rw [firstSetBit_eq (by omega) hg h0 hxw]
        refine ⟨by simp only [Option.getD_some]; omega, ?_⟩
        refine lt_of_lt_of_le (lt_of_log2 h0) (Nat.pow_le_pow_right (by norm_num) ?_)
        simp only [Option.getD_some]
        omega
      · obtain ⟨hp, h64⟩ := Classical.not_imp.1 hg
        obtain rfl : mw = 32 := by omega
        rw [firstSetBit_gcc32 hp h0 hxw]
        simp only [Option.getD_some]
        refine ⟨by omega, ?_⟩
        rw [min_eq_left (by omega)]
        exact hb
  have mx : ∀ l : List Nat, (∀ a ∈ l, a + 1 < 2 ^ 64) → l.foldr max 0 + 1 < 2 ^ 64 ∧ ∀ a ∈ l, a ≤ l.foldr max 0 := by
    intro l
    induction l with
    | nil => intro _; simp
    | cons a l ih =>
      intro h
      obtain ⟨i1, i2⟩ := ih (fun b hb => h b (List.mem_cons_of_mem _ hb))
      have ha := h a List.mem_cons_self
      rw [List.foldr_cons]
      refine ⟨by omega, ?_⟩
      intro b hb
      rcases List.mem_cons.1 hb with rfl | hb
      · exact le_max_left _ _
      · exact le_trans (i2 b hb) (le_max_right _ _)
  obtain ⟨m1, m2⟩ := mx (xs.map (fun x => (firstSetBit p mw (x % 2 ^ mw)).getD 0)) (by
    intro a ha
    obtain ⟨x, hm, rfl⟩ := List.mem_map.1 ha
    exact (loc x hm).1)
  intro x hm
  refine lt_of_lt_of_le (loc x hm).2 (Nat.pow_le_pow_right (by norm_num) ?_)
  have := m2 _ (List.mem_map.2 ⟨x, hm, rfl⟩)
  unfold forETBits forBits
  rw [Nat.mod_eq_of_lt m1]
  omega

/-- C75: the encoders. Coordinates with at most `mw / NDim` bits are interleaved by all methods, with these exceptions: the magic bits method needs an array of
masks of the type of the codes; the table methods with early termination need a right count of bits (with gcc only for 64-bit coordinates), and in two dimensions
coordinates with one bit less. -/
theorem C75_encode_partial {p : Plat} {t : Method} {mw cw : Nat} {xs : List Nat} (ht : LibTypes mw cw xs.length)
    (hx : ∀ x ∈ xs, x < 2 ^ (mw / xs.length)) (hmagic : t = .magic → mw = 64 ∨ p.fast = 32)
    (het : t = .sLUTET ∨ t = .lutET → (p.comp = .gcc → cw = 64) ∧ (xs.length = 2 → ∀ x ∈ xs, x < 2 ^ (mw / 2 - 1))) :
    ∃ m, libEncode p t mw cw xs = some m ∧ Interleaves (mw / xs.length) xs m := by
  obtain ⟨hmw, hcw, hc2, hd⟩ := ht
  have h8 : cw / 8 * 8 = cw := by omega
  have hfor := forET_ok (p := p) hmw hd hx
  have hn : forETBits p mw xs ≤ mw / xs.length := by unfold forETBits forBits; exact min_le_left _ _
  rcases hd with h2 | h3
  · obtain ⟨x, y, rfl⟩ := List.length_eq_two.1 h2
    have bx : x < 2 ^ (mw / 2) := hx x (by simp)
    have by' : y < 2 ^ (mw / 2) := hx y (by simp)
    have le : ∀ {v}, v < 2 ^ (mw / 2) → v < 2 ^ cw := fun h => lt_of_lt_of_le h (Nat.pow_le_pow_right (by norm_num) (by omega))
    have tab : Interleaves (mw / 2) [x, y] (encLUT mw cw [x, y]) := by
      refine interleaves_of_bits (xs := [x, y]) (by simp) hx ?_
      intro k
      rw [encLUT2_bits h8 (le bx) (le by'), crd2_getD]; rfl
    cases t with
    | sLUT => exact ⟨_, rfl, tab⟩
    | lut => exact ⟨_, rfl, by rw [encL_eq]; exact tab⟩
    | bmi =>
      refine ⟨_, rfl, interleaves_of_bits (xs := [x, y]) (by simp) hx ?_⟩
      intro k
      rw [encBMI2_bits hmw, crd2_getD]; rfl
    | loop =>
      obtain ⟨a, e1, h1⟩ := encForC_spread (mw := mw) (cw := cw) (d := 2) (j := 0) (x := x) (by norm_num) le_rfl bx
      obtain ⟨b, e2, h2⟩ := encForC_spread (mw := mw) (cw := cw) (d := 2) (j := 1) (x := y) (by norm_num) le_rfl by'
      refine ⟨a ||| b, ?_, spread2 hx h1 h2⟩
      simp [libEncode, forBits, orAll, e1, e2]
    | loopET =>
      obtain ⟨a, e1, h1⟩ := encForC_spread (mw := mw) (cw := cw) (d := 2) (j := 0) (x := x) (by norm_num) hn (hfor x (by simp))
      obtain ⟨b, e2, h2⟩ := encForC_spread (mw := mw) (cw := cw) (d := 2) (j := 1) (x := y) (by norm_num) hn (hfor y (by simp))
      refine ⟨a ||| b, ?_, spread2 hx h1 h2⟩
      simp [libEncode, orAll, e1, e2]
    | sLUTET =>
      obtain ⟨hg, hr⟩ := het (Or.inl rfl)
      obtain ⟨a, e1, h1⟩ := et2_spread (p := p) tab2ex hmw hcw hc2 hg (hr rfl x (by simp))
      obtain ⟨b, e2, h2⟩ := et2_spread (p := p) tab2ey hmw hcw hc2 hg (hr rfl y (by simp))
      refine ⟨a ||| b, ?_, spread2 hx h1 h2⟩
      simp [libEncode, orAll, e1, e2]
    | lutET =>
      obtain ⟨hg, hr⟩ := het (Or.inr rfl)
      obtain ⟨a, e1, h1⟩ := et2_spread (p := p) tab2ex hmw hcw hc2 hg (hr rfl x (by simp))
      obtain ⟨b, e2, h2⟩ := et2_spread (p := p) tab2ex hmw hcw hc2 hg (hr rfl y (by simp))
      refine ⟨_, ?_, spread2 hx h1 (spread_shift (s := 1) (by norm_num) h2 (by norm_num) rfl)⟩
      simp [libEncode, orAll, e1, e2]
    | magic =>
      refine ⟨_, ?_, spread2 hx (split2_spread hmw bx) (spread_shift (s := 1) (by norm_num) (split2_spread hmw by') (by norm_num) rfl)⟩
      simp [libEncode, masks_some m2m32 m2m64 hmw (hmagic rfl)]
  · obtain ⟨x, y, z, rfl⟩ := List.length_eq_three.1 h3
    have bx : x < 2 ^ (mw / 3) := hx x (by simp)
    have by' : y < 2 ^ (mw / 3) := hx y (by simp)
    have bz : z < 2 ^ (mw / 3) := hx z (by simp)
    have le : ∀ {v}, v < 2 ^ (mw / 3) → v < 2 ^ cw := fun h => lt_of_lt_of_le h (Nat.pow_le_pow_right (by norm_num) (by omega))
    have tab : Interleaves (mw / 3) [x, y, z] (encLUT mw cw [x, y, z]) := by
      refine interleaves_of_bits (xs := [x, y, z]) (by simp) hx ?_
      intro k
      rw [encLUT3_bits h8 (le bx) (le by') (le bz), crd3_getD]; rfl
    cases t with
    | sLUT => exact ⟨_, rfl, tab⟩
    | lut => exact ⟨_, rfl, by rw [encL_eq]; exact tab⟩
    | bmi =>
      refine ⟨_, rfl, interleaves_of_bits (xs := [x, y, z]) (by simp) hx ?_⟩
      intro k
      rw [encBMI3_bits hmw, crd3_getD]; rfl
    | loop =>
      obtain ⟨a, e1, h1⟩ := encForC_spread (mw := mw) (cw := cw) (d := 3) (j := 0) (x := x) (by norm_num) le_rfl bx
      obtain ⟨b, e2, h2⟩ := encForC_spread (mw := mw) (cw := cw) (d := 3) (j := 1) (x := y) (by norm_num) le_rfl by'
      obtain ⟨c, e3, h3⟩ := encForC_spread (mw := mw) (cw := cw) (d := 3) (j := 2) (x := z) (by norm_num) le_rfl bz
      refine ⟨a ||| b ||| c, ?_, spread3 hx h1 h2 h3⟩
      simp [libEncode, forBits, orAll, e1, e2, e3, Nat.or_assoc]
    | loopET =>
      obtain ⟨a, e1, h1⟩ := encForC_spread (mw := mw) (cw := cw) (d := 3) (j := 0) (x := x) (by norm_num) hn (hfor x (by simp))
      obtain ⟨b, e2, h2⟩ := encForC_spread (mw := mw) (cw := cw) (d := 3) (j := 1) (x := y) (by norm_num) hn (hfor y (by simp))
      obtain ⟨c, e3, h3⟩ := encForC_spread (mw := mw) (cw := cw) (d := 3) (j := 2) (x := z) (by norm_num) hn (hfor z (by simp))
      refine ⟨a ||| b ||| c, ?_, spread3 hx h1 h2 h3⟩
      simp [libEncode, orAll, e1, e2, e3, Nat.or_assoc]
    | sLUTET =>
      obtain ⟨hg, -⟩ := het (Or.inl rfl)
      obtain ⟨a, e1, h1⟩ := et3_spread (p := p) tab3ex hmw hcw hc2 hg bx
      obtain ⟨b, e2, h2⟩ := et3_spread (p := p) tab3ey hmw hcw hc2 hg by'
      obtain ⟨c, e3, h3⟩ := et3_spread (p := p) tab3ez hmw hcw hc2 hg bz
      refine ⟨a ||| b ||| c, ?_, spread3 hx h1 h2 h3⟩
      simp [libEncode, orAll, e1, e2, e3, Nat.or_assoc]
    | lutET =>
      obtain ⟨hg, -⟩ := het (Or.inr rfl)
      obtain ⟨a, e1, h1⟩ := et3_spread (p := p) tab3ex hmw hcw hc2 hg bx
      obtain ⟨b, e2, h2⟩ := et3_spread (p := p) tab3ex hmw hcw hc2 hg by'
      obtain ⟨c, e3, h3⟩ := et3_spread (p := p) tab3ex hmw hcw hc2 hg bz
      refine ⟨_, ?_, spread3 hx h1 (spread_shift (s := 1) (by norm_num) h2 (by norm_num) rfl) (spread_shift (s := 2) (by norm_num) h3 (by norm_num) rfl)⟩
      simp [libEncode, orAll, e1, e2, e3, Nat.or_assoc]
    | magic =>
      refine ⟨_, ?_, spread3 hx (split3_spread hmw bx) (spread_shift (s := 1) (by norm_num) (split3_spread hmw by') (by norm_num) rfl)
        (spread_shift (s := 2) (by norm_num) (split3_spread hmw bz) (by norm_num) rfl)⟩
      simp [libEncode, masks_some m3e32 m3e64 hmw (hmagic rfl)]

/-- All methods on the largest coordinates of 3 dimensions, gcc with 64-bit `uint_fast32_t`. -/
example : LibTypes 64 64 [2097151, 12345, 1048576].length ∧ (∀ x ∈ [2097151, 12345, 1048576], x < 2 ^ (64 / 3)) ∧
    ∀ t ∈ [Method.sLUT, .lut, .sLUTET, .lutET, .magic, .loop, .loopET, .bmi],
      libEncode ⟨.gcc, 64⟩ t 64 64 [2097151, 12345, 1048576] = some 5929311832071583307 := by
  refine ⟨⟨Or.inr rfl, Or.inr (Or.inr rfl), by norm_num, Or.inr rfl⟩, ?_⟩
  decide +kernel

/-- All methods in 2 dimensions with the Microsoft compiler, 16-bit coordinates and 32-bit codes. -/
example : LibTypes 32 16 [32767, 12345].length ∧ (∀ x ∈ [32767, 12345], x < 2 ^ (32 / 2 - 1)) ∧
    ∀ t ∈ [Method.sLUT, .lut, .sLUTET, .lutET, .magic, .loop, .loopET, .bmi], libEncode ⟨.win32, 32⟩ t 32 16 [32767, 12345] = some 525688791 := by
  refine ⟨⟨Or.inl rfl, Or.inl rfl, by norm_num, Or.inl rfl⟩, ?_⟩
  decide +kernel

/-- C75 is false for the table methods with early termination in two dimensions: a coordinate with its highest bit makes a shift undefined. -/
theorem C75_encode_ET_fails {p : Plat} {t : Method} {mw cw x y : Nat} (ht : LibTypes mw cw 2) (hm : t = .sLUTET ∨ t = .lutET) (hp : p.comp = .gcc → cw = 64)
    (hx : 2 ^ (mw / 2 - 1) ≤ x) (hx' : x < 2 ^ (mw / 2)) : libEncode p t mw cw [x, y] = none := by
  obtain ⟨hmw, hcw, hc2, -⟩ := ht
  have e := et2_none (p := p) lut2ex hmw hcw hc2 hp hx hx'
  rcases hm with rfl | rfl <;> simp [libEncode, orAll, e]

example : libEncode ⟨.gcc, 64⟩ .sLUTET 64 64 [2 ^ 31, 7] = none ∧ libEncode ⟨.gcc, 64⟩ .sLUT 64 64 [2 ^ 31, 7] = some 4611686018427387946 := by decide +kernel

/-- C75 is false for the magic bits methods with 32-bit codes where `uint_fast32_t` has 64 bits: the masks are read through a pointer to another type. -/
theorem C75_magic_fails {p : Plat} {cw d m : Nat} {xs : List Nat} (hp : p.fast = 64) (hd : d = 2 ∨ d = 3) (hl : xs.length = d) :
    libEncode p .magic 32 cw xs = none ∧ libDecode p .magic 32 cw d m = none := by
  have e : ∀ a b, masks p 32 a b = none := by intro a b; simp [masks, hp]
  rcases hd with rfl | rfl
  · obtain ⟨x, y, rfl⟩ := List.length_eq_two.1 hl
    constructor <;> simp [libEncode, libDecode, e]
  · obtain ⟨x, y, z, rfl⟩ := List.length_eq_three.1 hl
    constructor <;> simp [libEncode, libDecode, e]

example : libEncode ⟨.gcc, 64⟩ .magic 32 32 [3, 5] = none ∧ libEncode ⟨.gcc, 32⟩ .magic 32 32 [3, 5] = some 39 := by decide +kernel

/-- C75: the decoders. A code with `mw / NDim` bits for each coordinate is taken apart by all methods, with these exceptions: the loop without early termination;
the magic bits method needs masks of the type of the codes; the methods with early termination need a right count of bits (with gcc only for 64-bit codes), and
the loop with early termination a code without its highest bit. -/
theorem C75_decode_partial {p : Plat} {t : Method} {mw cw d m : Nat} (ht : LibTypes mw cw d) (hm : m < 2 ^ (mw / d * d)) (hloop : t ≠ .loop)
    (hmagic : t = .magic → mw = 64 ∨ p.fast = 32) (het : t = .sLUTET ∨ t = .lutET ∨ t = .loopET → p.comp = .gcc → mw = 64)
    (hlast : t = .loopET → m < 2 ^ (mw / d * d - 1)) :
    ∃ xs, libDecode p t mw cw d m = some xs ∧ xs.length = d ∧ (∀ x ∈ xs, x < 2 ^ (mw / d)) ∧ Interleaves (mw / d) xs m := by
  obtain ⟨hmw, hcw, hc2, hd⟩ := ht
  show ∃ xs, libDecode p t mw cw d m = some xs ∧ Decoded (mw / d) d m xs
  cases t with
  | loop => exact absurd rfl hloop
  | bmi =>
    rcases hd with rfl | rfl
    · exact decBMI_decoded hmw (Or.inl rfl) hc2 hm
    · exact decBMI_decoded hmw (Or.inr rfl) hc2 hm
  | loopET =>
    have hdef : libDecode p .loopET mw cw d m = match firstSetBit p mw m with
        | none => some (List.replicate d 0)
        | some loc => (List.range d).mapM (fun j => decForC mw cw d j (decForETBits mw d loc) m) := by
      rcases hd with rfl | rfl <;> rfl
    rw [hdef]
    by_cases h0 : m = 0
    · subst h0
      rw [firstSetBit_zero]
      refine ⟨_, rfl, decoded_of hm (by simp) ?_⟩
      intro j hj k
      simp
    · have hl := (Nat.log2_lt h0).2 (hlast rfl)
      have hm' : m < 2 ^ mw := lt_of_lt_of_le hm (Nat.pow_le_pow_right (by norm_num) (Nat.div_mul_le_self mw d))
      rw [firstSetBit_eq (by omega) (het (Or.inr (Or.inr rfl))) h0 hm']
      exact loopET_decoded hd hc2 (lt_of_log2 h0) (by omega)
  | magic =>
    rcases hd with rfl | rfl
    · refine ⟨[_, _], by simp only [libDecode, masks_some m2m32 m2m64 hmw (hmagic rfl)]; rfl, decoded2 hm (get2_gather hmw hcw hc2 hm)
        (gather_shift (j := 0) (get2_gather hmw hcw hc2 (shiftRight_lt hm)))⟩
    · refine ⟨[_, _, _], by simp only [libDecode, masks_some m3d32 m3d64 hmw (hmagic rfl)]; rfl, decoded3 hm (get3_gather hmw hcw hc2 hm)
        (gather_shift (j := 0) (get3_gather hmw hcw hc2 (shiftRight_lt hm))) (gather_shift (j := 0) (get3_gather hmw hcw hc2 (shiftRight_lt hm)))⟩
  | sLUT =>
    rcases hd with rfl | rfl
    · have g : ∀ j o (t : List Nat), decTabOk 2 4 j t = true → j + o < 2 → ∃ x, decLUT mw cw 8 4 (mw / 8) t m o = some x ∧ Gather 2 (j + o) m x :=
        fun j o t h1 h2 => decLUT_gather (d := 2) (s := 4) (b := mw / 2) h1 (by norm_num) (by omega) (by intro i hi; omega) (by omega) (by omega) (by omega) hm
      obtain ⟨x, e1, h1⟩ := g 0 0 _ tab2dx (by norm_num)
      obtain ⟨y, e2, h2⟩ := g 1 0 _ tab2dy (by norm_num)
      exact ⟨[x, y], mapM_pair e1 e2, decoded2 hm h1 h2⟩
    · have g : ∀ j o (t : List Nat), decTabOk 3 3 j t = true → j + o < 3 →
          ∃ x, decLUT mw cw 9 3 (if mw ≤ 32 then 4 else 7) t m o = some x ∧ Gather 3 (j + o) m x :=
        fun j o t h1 h2 => decLUT_gather (d := 3) (s := 3) (b := mw / 3) h1 (by norm_num) (by omega)
          (by rcases hmw with rfl | rfl <;> simp <;> omega) (by rcases hmw with rfl | rfl <;> simp) (by omega) (by omega) hm
      obtain ⟨x, e1, h1⟩ := g 0 0 _ tab3dx (by norm_num)
      obtain ⟨y, e2, h2⟩ := g 1 0 _ tab3dy (by norm_num)
      obtain ⟨z, e3, h3⟩ := g 2 0 _ tab3dz (by norm_num)
      exact ⟨[x, y, z], mapM_triple e1 e2 e3, decoded3 hm h1 h2 h3⟩
  | lut =>
    rcases hd with rfl | rfl
    · have g : ∀ j o (t : List Nat), decTabOk 2 4 j t = true → j + o < 2 → ∃ x, decLUT mw cw 8 4 (mw / 8) t m o = some x ∧ Gather 2 (j + o) m x :=
        fun j o t h1 h2 => decLUT_gather (d := 2) (s := 4) (b := mw / 2) h1 (by norm_num) (by omega) (by intro i hi; omega) (by omega) (by omega) (by omega) hm
      obtain ⟨x, e1, h1⟩ := g 0 0 _ tab2dx (by norm_num)
      obtain ⟨y, e2, h2⟩ := g 0 1 _ tab2dx (by norm_num)
      exact ⟨[x, y], mapM_pair e1 e2, decoded2 hm h1 h2⟩
    · have g : ∀ j o (t : List Nat), decTabOk 3 3 j t = true → j + o < 3 →
          ∃ x, decLUT mw cw 9 3 (if mw ≤ 32 then 4 else 7) t m o = some x ∧ Gather 3 (j + o) m x :=
        fun j o t h1 h2 => decLUT_gather (d := 3) (s := 3) (b := mw / 3) h1 (by norm_num) (by omega)
          (by rcases hmw with rfl | rfl <;> simp <;> omega) (by rcases hmw with rfl | rfl <;> simp) (by omega) (by omega) hm
      obtain ⟨x, e1, h1⟩ := g 0 0 _ tab3dx (by norm_num)
      obtain ⟨y, e2, h2⟩ := g 0 1 _ tab3dx (by norm_num)
      obtain ⟨z, e3, h3⟩ := g 0 2 _ tab3dx (by norm_num)
      exact ⟨[x, y, z], mapM_triple e1 e2 e3, decoded3 hm h1 h2 h3⟩
  | sLUTET =>
    have hg := het (Or.inl rfl)
    rcases hd with rfl | rfl
    · obtain ⟨x, e1, h1⟩ := decET_gather (p := p) (o := 0) tab2dx (Or.inl ⟨rfl, rfl⟩) (by norm_num) hmw hc2 hg hm
      obtain ⟨y, e2, h2⟩ := decET_gather (p := p) (o := 0) tab2dy (Or.inl ⟨rfl, rfl⟩) (by norm_num) hmw hc2 hg hm
      exact ⟨[x, y], mapM_pair e1 e2, decoded2 hm h1 h2⟩
    · obtain ⟨x, e1, h1⟩ := decET_gather (p := p) (o := 0) tab3dx (Or.inr ⟨rfl, rfl⟩) (by norm_num) hmw hc2 hg hm
      obtain ⟨y, e2, h2⟩ := decET_gather (p := p) (o := 0) tab3dy (Or.inr ⟨rfl, rfl⟩) (by norm_num) hmw hc2 hg hm
      obtain ⟨z, e3, h3⟩ := decET_gather (p := p) (o := 0) tab3dz (Or.inr ⟨rfl, rfl⟩) (by norm_num) hmw hc2 hg hm
      exact ⟨[x, y, z], mapM_triple e1 e2 e3, decoded3 hm h1 h2 h3⟩
  | lutET =>
    have hg := het (Or.inr (Or.inl rfl))
    rcases hd with rfl | rfl
    · obtain ⟨x, e1, h1⟩ := decET_gather (p := p) (o := 0) tab2dx (Or.inl ⟨rfl, rfl⟩) (by norm_num) hmw hc2 hg hm
      obtain ⟨y, e2, h2⟩ := decET_gather (p := p) (o := 1) tab2dx (Or.inl ⟨rfl, rfl⟩) (by norm_num) hmw hc2 hg hm
      exact ⟨[x, y], mapM_pair e1 e2, decoded2 hm h1 h2⟩
    · obtain ⟨x, e1, h1⟩ := decET_gather (p := p) (o := 0) tab3dx (Or.inr ⟨rfl, rfl⟩) (by norm_num) hmw hc2 hg hm
      obtain ⟨y, e2, h2⟩ := decET_gather (p := p) (o := 1) tab3dx (Or.inr ⟨rfl, rfl⟩) (by norm_num) hmw hc2 hg hm
      obtain ⟨z, e3, h3⟩ := decET_gather (p := p) (o := 2) tab3dx (Or.inr ⟨rfl, rfl⟩) (by norm_num) hmw hc2 hg hm
      exact ⟨[x, y, z], mapM_triple e1 e2 e3, decoded3 hm h1 h2 h3⟩

/-- All methods but one on a 62-bit code in 3 dimensions. -/
example : LibTypes 64 32 3 ∧ 2 ^ 61 + 987654321 < 2 ^ (64 / 3 * 3 - 1) ∧
    ∀ t ∈ [Method.sLUT, .lut, .sLUTET, .lutET, .magic, .loopET, .bmi], libDecode ⟨.gcc, 64⟩ t 64 32 3 (2 ^ 61 + 987654321) = some [577, 1049558, 762] := by
  refine ⟨⟨Or.inr rfl, Or.inr (Or.inl rfl), by norm_num, Or.inr rfl⟩, ?_⟩
  decide +kernel

/-- The same with 32-bit codes in 2 dimensions and the Microsoft compiler. -/
example : LibTypes 32 16 2 ∧ 805306445 < 2 ^ (32 / 2 * 2 - 1) ∧
    ∀ t ∈ [Method.sLUT, .lut, .sLUTET, .lutET, .magic, .loopET, .bmi], libDecode ⟨.win32, 32⟩ t 32 16 2 805306445 = some [16395, 16386] := by
  refine ⟨⟨Or.inl rfl, Or.inl rfl, by norm_num, Or.inl rfl⟩, ?_⟩
  decide +kernel

/-- C75 is false for the decoding loop without early termination: its last round shifts by the width of the code, for every code. -/
theorem C75_loop_fails {p : Plat} {mw cw d m : Nat} (ht : LibTypes mw cw d) : libDecode p .loop mw cw d m = none := by
  obtain ⟨hmw, -, -, hd⟩ := ht
  have := loop_none (cw := cw) (m := m) hmw hd
  rcases hd with rfl | rfl <;> exact this

example : libDecode ⟨.gcc, 64⟩ .loop 64 32 3 0 = none := by decide +kernel

/-- C75 is false for the decoding loop with early termination: it shifts too far for every code with its highest bit. -/
theorem C75_loopET_fails {p : Plat} {mw cw d m : Nat} (ht : LibTypes mw cw d) (hp : p.comp = .gcc → mw = 64) (hm : 2 ^ (mw / d * d - 1) ≤ m)
    (hm' : m < 2 ^ (mw / d * d)) : libDecode p .loopET mw cw d m = none := by
  obtain ⟨hmw, -, -, hd⟩ := ht
  have h0 : m ≠ 0 := by rintro rfl; simp at hm
  have hpos : 0 < mw / d * d := by rcases hd with rfl | rfl <;> omega
  have hl : m.log2 = mw / d * d - 1 := by
    rw [Nat.log2_eq_iff h0]
    exact ⟨hm, by rwa [show mw / d * d - 1 + 1 = mw / d * d by omega]⟩
  have hmm : m < 2 ^ mw := lt_of_lt_of_le hm' (Nat.pow_le_pow_right (by norm_num) (Nat.div_mul_le_self mw d))
  have e := firstSetBit_eq (p := p) (by omega) hp h0 hmm
  have hb : decForETBits mw d (m.log2 + 1) = mw / d := by
    unfold decForETBits
    rw [hl, show mw / d * d - 1 + 1 = mw / d * d by omega, Nat.mul_div_cancel _ (by omega), min_self]
  have key := loop_none (cw := cw) (m := m) hmw hd
  rcases hd with rfl | rfl <;>
  · simp only [libDecode, e, hb]
    exact key

example : libDecode ⟨.gcc, 64⟩ .loopET 64 32 2 (2 ^ 63 + 5) = none ∧ libDecode ⟨.gcc, 64⟩ .loopET 64 32 2 (2 ^ 62 + 5) = some [2 ^ 31 + 3, 0] := by decide +kernel

/-- C75 is false for the decoders with early termination on 32-bit codes with gcc: the wrong count of bits makes them shift too far for every code but 0. -/
theorem C75_decode_narrow_fails {p : Plat} {t : Method} {cw d m : Nat} (ht : LibTypes 32 cw d) (hm : t = .sLUTET ∨ t = .lutET ∨ t = .loopET)
    (hp : p.comp = .gcc) (h0 : m ≠ 0) (hm' : m < 2 ^ 31) : libDecode p t 32 cw d m = none := by
  obtain ⟨-, -, -, hd⟩ := ht
  have h8 := fun (t : List Nat) => decET_narrow (cw := cw) (s := 4) (o := 0) t hp (Or.inl rfl) h0 hm'
  have h9 := fun (t : List Nat) => decET_narrow (cw := cw) (s := 3) (o := 0) t hp (Or.inr rfl) h0 hm'
  rcases hm with rfl | rfl | rfl
  · rcases hd with rfl | rfl
    · exact libMapM_none (a := (lut2dx, 0)) (by simp) (h8 _)
    · exact libMapM_none (a := (lut3dx, 0)) (by simp) (h9 _)
  · rcases hd with rfl | rfl
    · exact libMapM_none (a := (lut2dx, 0)) (by simp) (h8 _)
    · exact libMapM_none (a := (lut3dx, 0)) (by simp) (h9 _)
  · have hl : m.log2 < 31 := (Nat.log2_lt h0).2 hm'
    have e := firstSetBit_gcc32 (p := p) hp h0 (by omega)
    have e' : (2 ^ 64 - 31 + m.log2) % 2 ^ 64 = 2 ^ 64 - 31 + m.log2 := Nat.mod_eq_of_lt (by omega)
    have key := loop_none (cw := cw) (m := m) (Or.inl rfl : (32 : Nat) = 32 ∨ (32 : Nat) = 64) hd
    have hb : decForETBits 32 d (2 ^ 64 - 31 + m.log2) = 32 / d := by
      unfold decForETBits
      rcases hd with rfl | rfl <;> omega
    rcases hd with rfl | rfl <;>
    · simp only [libDecode, e, e', hb]
      exact key

example : libDecode ⟨.gcc, 64⟩ .sLUTET 32 32 3 1 = none ∧ libDecode ⟨.gcc, 64⟩ .loopET 32 32 2 77 = none ∧
    libDecode ⟨.gcc, 64⟩ .sLUTET 32 32 2 (2 ^ 31 + 5) = some [0, 0] := by decide +kernel

/-- C75: on the coordinates of rakau every encoder (apart from the exceptions of types) gives the code of rakau's own encoder. -/
theorem C75_same_code {p : Plat} {t : Method} {mw cw : Nat} {xs : List Nat} (ht : LibTypes mw cw xs.length)
    (hx : ∀ x ∈ xs, x < 2 ^ cbits mw xs.length) (hmagic : t = .magic → mw = 64 ∨ p.fast = 32)
    (het : t = .sLUTET ∨ t = .lutET → p.comp = .gcc → cw = 64) :
    libEncode p t mw cw xs = mortonEncode mw xs := by
  have hs : Supported mw xs.length := ⟨ht.1, ht.2.2.2⟩
  have hc : cbits mw xs.length ≤ mw / xs.length := by unfold cbits; exact Nat.sub_le _ _
  have hx' : ∀ x ∈ xs, x < 2 ^ (mw / xs.length) := fun x h => lt_of_lt_of_le (hx x h) (Nat.pow_le_pow_right (by norm_num) hc)
  obtain ⟨m, e, h⟩ := C75_encode_partial (p := p) (t := t) ht hx' hmagic (fun h => ⟨het h, fun h2 x hx1 => by
    have := hx x hx1
    rw [h2] at this
    have e : cbits mw 2 = mw / 2 - 1 := by rcases ht.1 with rfl | rfl <;> rfl
    rwa [e] at this⟩)
  obtain ⟨m', e', h'⟩ := mortonEncode_interleaves hs hx
  rw [e, e']
  congr 1
  have hd : 0 < xs.length := by rcases hs.2 with h | h <;> omega
  apply Nat.eq_of_testBit_eq
  intro k
  have hdm := Nat.div_add_mod k xs.length
  have hj := Nat.mod_lt k hd
  have a1 : ∀ {b n}, Interleaves b xs n → (∀ x ∈ xs, x < 2 ^ b) → n.testBit k = (xs[k % xs.length]).testBit (k / xs.length) := by
    intro b n hn hb
    by_cases hk : k / xs.length < b
    · rw [← hn.2 _ hk _ hj, hdm]
    · rw [testBit_of_lt (hb _ (List.getElem_mem hj)) (by omega), testBit_of_lt hn.1]
      rw [← Nat.le_div_iff_mul_le hd]; omega
  rw [a1 h hx', a1 h' hx]

example : mortonEncode 64 [2147483647, 123] = libEncode ⟨.gcc, 64⟩ .lutET 64 64 [2147483647, 123] ∧
    (mortonEncode 64 [2147483647, 123]).isSome := by decide +kernel

/-- C75: decoding what was encoded gives the coordinates back, whatever the two methods (within their ranges). -/
theorem C75_roundtrip {p : Plat} {t u : Method} {mw cw : Nat} {xs : List Nat} {m : Nat} (ht : LibTypes mw cw xs.length)
    (hx : ∀ x ∈ xs, x < 2 ^ (mw / xs.length)) (hmagic : t = .magic ∨ u = .magic → mw = 64 ∨ p.fast = 32)
    (het : t = .sLUTET ∨ t = .lutET → (p.comp = .gcc → cw = 64) ∧ (xs.length = 2 → ∀ x ∈ xs, x < 2 ^ (mw / 2 - 1)))
    (hloop : u ≠ .loop) (hdet : u = .sLUTET ∨ u = .lutET ∨ u = .loopET → p.comp = .gcc → mw = 64)
    (he : libEncode p t mw cw xs = some m) (hlast : u = .loopET → m < 2 ^ (mw / xs.length * xs.length - 1)) :
    libDecode p u mw cw xs.length m = some xs := by
  obtain ⟨m', e, h⟩ := C75_encode_partial (p := p) (t := t) ht hx (fun h => hmagic (Or.inl h)) het
  obtain rfl : m' = m := Option.some.inj (e.symm.trans he)
  obtain ⟨ys, e1, h1, h2, h3⟩ := C75_decode_partial (p := p) (t := u) ht h.1 hloop (fun h => hmagic (Or.inr h)) hdet hlast
  rw [e1, interleaves_inj h1 h2 hx h3 h]

example : (libEncode ⟨.gcc, 64⟩ .magic 64 32 [4000000000, 5]).bind (libDecode ⟨.gcc, 64⟩ .lutET 64 32 2) = some [4000000000, 5] := by decide +kernel

theorem genEnc2_ok : genEnc2 ⟨.gcc, 32⟩ 16 8 = some (lut2ex, lut2ey) ∧ genEnc2 ⟨.gcc, 32⟩ 32 8 = some (lut2ex, lut2ey) ∧
    genEnc2 ⟨.gcc, 32⟩ 64 8 = some (lut2ex, lut2ey) ∧ genEnc2 ⟨.gcc, 64⟩ 16 8 = some (lut2ex, lut2ey) ∧
    genEnc2 ⟨.gcc, 64⟩ 32 8 = some (lut2ex, lut2ey) ∧ genEnc2 ⟨.gcc, 64⟩ 64 8 = some (lut2ex, lut2ey) := by
  refine ⟨?_, ?_, ?_, ?_, ?_, ?_⟩ <;> decide +kernel

theorem genEnc3_ok : genEnc3 ⟨.gcc, 32⟩ 16 8 = some (lut3ex, lut3ey, lut3ez) ∧ genEnc3 ⟨.gcc, 32⟩ 32 8 = some (lut3ex, lut3ey, lut3ez) ∧
    genEnc3 ⟨.gcc, 32⟩ 64 8 = some (lut3ex, lut3ey, lut3ez) ∧ genEnc3 ⟨.gcc, 64⟩ 16 8 = some (lut3ex, lut3ey, lut3ez) ∧
    genEnc3 ⟨.gcc, 64⟩ 32 8 = some (lut3ex, lut3ey, lut3ez) ∧ genEnc3 ⟨.gcc, 64⟩ 64 8 = some (lut3ex, lut3ey, lut3ez) := by
  refine ⟨?_, ?_, ?_, ?_, ?_, ?_⟩ <;> decide +kernel

theorem genDec3_ok : genDec3 ⟨.gcc, 32⟩ 9 = some ((List.range 512).map (fun i => [lut lut3dx i, lut lut3dy i, lut lut3dz i])) ∧
    genDec3 ⟨.gcc, 64⟩ 9 = some ((List.range 512).map (fun i => [lut lut3dx i, lut lut3dy i, lut lut3dz i])) := by
  refine ⟨?_, ?_⟩ <;> decide +kernel

/-- C75: the generators of the encoding tables and of the decoding tables for 3 dimensions produce the tables that the library contains. -/
theorem C75_tables {p : Plat} {f16 : Nat} (hp : p.fast = 32 ∨ p.fast = 64) (hf : f16 = 16 ∨ f16 = 32 ∨ f16 = 64) :
    genEnc2 p f16 8 = some (lut2ex, lut2ey) ∧ genEnc3 p f16 8 = some (lut3ex, lut3ey, lut3ez) ∧
    genDec3 p 9 = some ((List.range 512).map (fun i => [lut lut3dx i, lut lut3dy i, lut lut3dz i])) := by
  obtain ⟨c, f⟩ := p
  have hp : f = 32 ∨ f = 64 := hp
  have c2 : genEnc2 ⟨c, f⟩ = genEnc2 ⟨.gcc, f⟩ := rfl
  have c3 : genEnc3 ⟨c, f⟩ = genEnc3 ⟨.gcc, f⟩ := rfl
  have d3 : genDec3 ⟨c, f⟩ = genDec3 ⟨.gcc, f⟩ := rfl
  rw [c2, c3, d3]
  refine ⟨?_, ?_, ?_⟩
  · rcases hp with rfl | rfl <;> rcases hf with rfl | rfl | rfl
    exacts [genEnc2_ok.1, genEnc2_ok.2.1, genEnc2_ok.2.2.1, genEnc2_ok.2.2.2.1, genEnc2_ok.2.2.2.2.1, genEnc2_ok.2.2.2.2.2]
  · rcases hp with rfl | rfl <;> rcases hf with rfl | rfl | rfl
    exacts [genEnc3_ok.1, genEnc3_ok.2.1, genEnc3_ok.2.2.1, genEnc3_ok.2.2.2.1, genEnc3_ok.2.2.2.2.1, genEnc3_ok.2.2.2.2.2]
  · rcases hp with rfl | rfl
    exacts [genDec3_ok.1, genDec3_ok.2]

example : genEnc3 ⟨.win64, 32⟩ 16 8 = some (lut3ex, lut3ey, lut3ez) ∧ lut lut3ez 255 = 9586980 :=
  ⟨(C75_tables (Or.inl rfl) (Or.inl rfl)).2.1, by decide +kernel⟩

/-- C75 is false for the generator of the decoding tables for 2 dimensions: it uses the loop that shifts too far. -/
theorem C75_tables_fails (p : Plat) (bits : Nat) : genDec2 p bits = none :=
  libMapM_none (a := 0) (List.mem_range.2 (Nat.two_pow_pos bits)) (by
    have := loop_none (mw := 64) (cw := 8) (d := 2) (m := 0) (Or.inr rfl) (Or.inl rfl)
    exact this)

example : genDec2 ⟨.gcc, 64⟩ 8 = none := C75_tables_fails _ _

end Rakau
