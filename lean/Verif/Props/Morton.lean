import Verif.Proof.Morton

/-! Property theorems C06 (Morton encoding/decoding) and C07 (code prefixes are cells). -/

namespace Rakau
open Spec

/-- C06: on every in-range coordinate tuple of every supported (dimension, code width) the table-driven encoder
returns the bit interleaving of the coordinates, a code of `cbits*NDim` bits, and the table-driven decoder returns
the coordinates. -/
theorem C06_encode {w : Nat} {xs : List Nat} (hs : Supported w xs.length)
    (hx : ∀ x ∈ xs, x < 2 ^ cbits w xs.length) :
    ∃ m, mortonEncode w xs = some m ∧ Interleaves (cbits w xs.length) xs m ∧ mortonDecode w xs.length m = some xs := by
  obtain ⟨m, h1, h2⟩ := mortonEncode_interleaves hs hx
  refine ⟨m, h1, h2, ?_⟩
  obtain ⟨ys, g1, g2, g3, g4⟩ := mortonDecode_interleaves hs h2.1
  rw [g1, interleaves_inj g2 g3 hx g4 h2]

example : Supported 64 [2097151, 0, 1234567].length ∧ (∀ x ∈ [2097151, 0, 1234567], x < 2 ^ cbits 64 3) ∧
    mortonEncode 64 [2097151, 0, 1234567] = some 5938476403768202093 := by
  refine ⟨⟨Or.inr rfl, Or.inr rfl⟩, ?_⟩
  decide +kernel

/-- C06: the decoder is defined on every particle code, its results are in range, and encoding them gives the code
back; so encoder and decoder are inverse bijections between cells and codes. -/
theorem C06_decode {w d m : Nat} (hs : Supported w d) (hm : m < 2 ^ (cbits w d * d)) :
    ∃ xs, mortonDecode w d m = some xs ∧ xs.length = d ∧ (∀ x ∈ xs, x < 2 ^ cbits w d) ∧ mortonEncode w xs = some m := by
  obtain ⟨xs, g1, g2, g3, g4⟩ := mortonDecode_interleaves hs hm
  refine ⟨xs, g1, g2, g3, ?_⟩
  subst g2
  obtain ⟨m', h1, h2⟩ := mortonEncode_interleaves hs g3
  rw [h1, interleaves_unique (by rcases hs.2 with h | h <;> omega) h2 g4]

example : Supported 32 2 ∧ 1000000007 < 2 ^ (cbits 32 2 * 2) ∧
    mortonDecode 32 2 1000000007 = some [21635, 31665] ∧ mortonEncode 32 [21635, 31665] = some 1000000007 := by
  refine ⟨⟨Or.inl rfl, Or.inl rfl⟩, ?_⟩
  decide +kernel

/-- C06: distinct cells have distinct codes. -/
theorem C06_injective {w : Nat} {xs ys : List Nat} (hs : Supported w xs.length) (hl : ys.length = xs.length)
    (hx : ∀ x ∈ xs, x < 2 ^ cbits w xs.length) (hy : ∀ y ∈ ys, y < 2 ^ cbits w xs.length)
    (h : mortonEncode w xs = mortonEncode w ys) : xs = ys := by
  obtain ⟨m, h1, h2⟩ := mortonEncode_interleaves hs hx
  obtain ⟨m', h3, h4⟩ := mortonEncode_interleaves (xs := ys) (by rw [hl]; exact hs) (by rw [hl]; exact hy)
  have : m = m' := by simpa [h1, h3] using h
  subst this
  rw [hl] at h4
  exact interleaves_inj hl.symm hx hy h2 h4

example : mortonEncode 32 [3, 5, 1023] ≠ mortonEncode 32 [5, 3, 1023] := by decide +kernel

/-- C07: two particles are in the same level-`L` node (their codes agree after dropping `(cbits-L)*NDim` bits)
exactly when in every dimension their discretised coordinates agree after dropping the lowest `cbits-L` bits. -/
theorem C07_prefix_cell {w L : Nat} {xs ys : List Nat} {m m' : Nat} (hs : Supported w xs.length)
    (hl : ys.length = xs.length) (hL : L ≤ cbits w xs.length)
    (hx : ∀ x ∈ xs, x < 2 ^ cbits w xs.length) (hy : ∀ y ∈ ys, y < 2 ^ cbits w xs.length)
    (hm : mortonEncode w xs = some m) (hm' : mortonEncode w ys = some m') :
    m >>> ((cbits w xs.length - L) * xs.length) = m' >>> ((cbits w xs.length - L) * xs.length) ↔
      ∀ j, ∀ h : j < xs.length, xs[j] >>> (cbits w xs.length - L) = (ys[j]'(by omega)) >>> (cbits w xs.length - L) := by
  obtain ⟨n, h1, h2⟩ := mortonEncode_interleaves hs hx
  obtain ⟨n', h3, h4⟩ := mortonEncode_interleaves (xs := ys) (by rw [hl]; exact hs) (by rw [hl]; exact hy)
  obtain rfl : n = m := by simpa [h1] using hm
  obtain rfl : n' = m' := by simpa [h3] using hm'
  rw [hl] at h4
  rw [interleaves_prefix hl.symm (by rcases hs.2 with h | h <;> omega) hL hx hy h2 h4]
  constructor
  · intro e j hj
    have := congrArg (fun l => l[j]?) e
    simpa [hj, hl] using this
  · intro h
    apply List.ext_getElem (by simp [hl])
    intro j h1 h2
    simpa using h j (by simpa using h1)

example : ∃ m m', mortonEncode 32 [13, 900] = some m ∧ mortonEncode 32 [12, 902] = some m' ∧
    m >>> ((15 - 13) * 2) = m' >>> ((15 - 13) * 2) ∧ m >>> ((15 - 14) * 2) ≠ m' >>> ((15 - 14) * 2) :=
  ⟨_, _, rfl, rfl, by decide +kernel, by decide +kernel⟩

/-- C07: the codes below a level-`L` node prefix `q` are those of the cells in an axis-aligned cube: with `c` the
decoded corner of the node (the decoding of `q` padded with zeros), the particle with cell `xs` is in the node iff
`c_j ≤ x_j < c_j + 2^(cbits-L)` for all `j`. -/
theorem C07_node_cube {w L q : Nat} {xs : List Nat} {m : Nat} (hs : Supported w xs.length)
    (hL : L ≤ cbits w xs.length) (hx : ∀ x ∈ xs, x < 2 ^ cbits w xs.length) (hm : mortonEncode w xs = some m)
    (hq : q < 2 ^ (L * xs.length)) :
    ∃ c, mortonDecode w xs.length (q <<< ((cbits w xs.length - L) * xs.length)) = some c ∧ ∃ hc : c.length = xs.length,
      (m >>> ((cbits w xs.length - L) * xs.length) = q ↔
        ∀ j, ∀ h : j < xs.length, c[j] ≤ xs[j] ∧ xs[j] < c[j] + 2 ^ (cbits w xs.length - L)) := by
  have hd : 0 < xs.length := by rcases hs.2 with h | h <;> omega
  have hq' : q <<< ((cbits w xs.length - L) * xs.length) < 2 ^ (cbits w xs.length * xs.length) := by
    rw [Nat.shiftLeft_eq]
    have e : cbits w xs.length * xs.length = L * xs.length + (cbits w xs.length - L) * xs.length := by
      rw [← Nat.add_mul, Nat.add_sub_cancel' hL]
    rw [e, pow_add]
    exact Nat.mul_lt_mul_of_pos_right hq (Nat.two_pow_pos _)
  obtain ⟨c, g1, g2, g3, g4⟩ := mortonDecode_interleaves hs hq'
  obtain ⟨n, h1, h2⟩ := mortonEncode_interleaves hs hx
  obtain rfl : n = m := by simpa [h1] using hm
  refine ⟨c, g1, g2, ?_⟩
  have hcs : ∀ j, ∀ h : j < c.length, 2 ^ (cbits w xs.length - L) ∣ c[j] := by
    intro j hj
    have hb : ∀ i < cbits w xs.length - L, (c[j]).testBit i = false := by
      intro i hi
      rw [← g4.2 i (by omega) j hj, g2, Nat.testBit_shiftLeft]
      have : ¬ (cbits w xs.length - L) * xs.length ≤ xs.length * i + j := by
        rw [not_le]
        calc xs.length * i + j < xs.length * i + xs.length := by omega
          _ = (i + 1) * xs.length := by ring
          _ ≤ _ := Nat.mul_le_mul_right _ hi
      simp [this]
    rw [Nat.dvd_iff_mod_eq_zero]
    apply Nat.eq_of_testBit_eq
    intro i
    rw [Nat.testBit_mod_two_pow, Nat.zero_testBit]
    by_cases hi : i < cbits w xs.length - L
    · simp [hb i hi]
    · simp [hi]
  have key := interleaves_prefix g2.symm hd hL hx g3 h2 g4
  have esh : (q <<< ((cbits w xs.length - L) * xs.length)) >>> ((cbits w xs.length - L) * xs.length) = q :=
    Nat.shiftLeft_shiftRight _ _
  rw [esh] at key
  rw [key]
  constructor
  · intro e j hj
    have h := congrArg (fun l => l[j]?) e
    have h : xs[j] >>> (cbits w xs.length - L) = (c[j]'(by omega)) >>> (cbits w xs.length - L) := by
      simpa [hj, g2] using h
    obtain ⟨k, hk⟩ := hcs j (by omega)
    rw [Nat.shiftRight_eq_div_pow, Nat.shiftRight_eq_div_pow, hk, Nat.mul_div_cancel_left _ (Nat.two_pow_pos _)] at h
    have := Nat.div_add_mod xs[j] (2 ^ (cbits w xs.length - L))
    have := Nat.mod_lt xs[j] (Nat.two_pow_pos (cbits w xs.length - L))
    rw [h] at *
    omega
  · intro h
    apply List.ext_getElem (by simp [g2])
    intro j h1 h2
    rw [List.getElem_map, List.getElem_map]
    have hj : j < xs.length := by simpa using h1
    obtain ⟨a, b⟩ := h j hj
    obtain ⟨k, hk⟩ := hcs j (by omega)
    rw [Nat.shiftRight_eq_div_pow, Nat.shiftRight_eq_div_pow, hk, Nat.mul_div_cancel_left _ (Nat.two_pow_pos _)]
    rw [hk] at a b
    apply Nat.div_eq_of_lt_le
    · rw [mul_comm]; exact a
    · rw [add_mul, one_mul, mul_comm k]; exact b

example : mortonDecode 32 2 (5 <<< ((15 - 2) * 2)) = some [24576, 0] ∧ 5 < 2 ^ (2 * 2) ∧
    mortonEncode 32 [24577, 8191] = some 380283563 ∧ 380283563 >>> ((15 - 2) * 2) = 5 := by decide +kernel

end Rakau
