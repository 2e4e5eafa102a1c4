import Verif.Model.Morton
import Verif.Spec.Morton
import Verif.Proof.Bits

namespace Rakau
open Spec

/-- An encoding table of a `d`-dimensional encoder, checked entry by entry. -/
def encTabOk (d j : Nat) (t : List Nat) : Bool :=
  t.length == 256 && t.zipIdx.all fun (e, v) =>
    decide (e < 2 ^ (8 * d)) && (List.range (8 * d)).all fun k => e.testBit k == (decide (k % d = j) && v.testBit (k / d))

/-- A decoding table: `s` bits per entry from `s*d` code bits. -/
def decTabOk (d s j : Nat) (t : List Nat) : Bool :=
  t.length == 2 ^ (s * d) && t.zipIdx.all fun (e, v) =>
    decide (e < 2 ^ s) && (List.range s).all fun k => e.testBit k == v.testBit (k * d + j)

theorem tab2ex : encTabOk 2 0 lut2ex = true := by decide +kernel
theorem tab2ey : encTabOk 2 1 lut2ey = true := by decide +kernel
theorem tab3ex : encTabOk 3 0 lut3ex = true := by decide +kernel
theorem tab3ey : encTabOk 3 1 lut3ey = true := by decide +kernel
theorem tab3ez : encTabOk 3 2 lut3ez = true := by decide +kernel
theorem tab2dx : decTabOk 2 4 0 lut2dx = true := by decide +kernel
theorem tab2dy : decTabOk 2 4 1 lut2dy = true := by decide +kernel
theorem tab3dx : decTabOk 3 3 0 lut3dx = true := by decide +kernel
theorem tab3dy : decTabOk 3 3 1 lut3dy = true := by decide +kernel
theorem tab3dz : decTabOk 3 3 2 lut3dz = true := by decide +kernel

theorem all_zipIdx {t : List Nat} {P : Nat × Nat → Bool} (h : t.zipIdx.all P = true) {v : Nat} (hv : v < t.length) :
    P (lut t v, v) = true := by
  rw [List.all_eq_true] at h
  apply h
  have : lut t v = t[v] := by unfold lut; simp [hv]
  rw [this, List.mem_zipIdx_iff_getElem?]
  simp [hv]

theorem testBit_of_lt {n k b : Nat} (h : n < 2 ^ b) (hk : b ≤ k) : n.testBit k = false :=
  Nat.testBit_lt_two_pow (lt_of_lt_of_le h (Nat.pow_le_pow_right (by norm_num) hk))

theorem encTab_testBit {d j : Nat} {t : List Nat} (h : encTabOk d j t = true) (hd : 0 < d) {v : Nat} (hv : v < 2 ^ 8) (k : Nat) :
    (lut t v).testBit k = (decide (k % d = j) && v.testBit (k / d)) := by
  unfold encTabOk at h
  rw [Bool.and_eq_true] at h
  have hlen : t.length = 256 := by simpa using h.1
  have := all_zipIdx h.2 (v := v) (by rw [hlen]; simpa using hv)
  simp only [Bool.and_eq_true, decide_eq_true_eq, List.all_eq_true, List.mem_range, beq_iff_eq] at this
  by_cases hk : k < 8 * d
  · exact this.2 k hk
  · rw [testBit_of_lt this.1 (by omega), testBit_of_lt hv, Bool.and_false]
    rw [Nat.le_div_iff_mul_le hd]; omega

theorem decTab_testBit {d s j : Nat} {t : List Nat} (h : decTabOk d s j t = true) {v : Nat} (hv : v < 2 ^ (s * d))
    (k : Nat) : (lut t v).testBit k = (decide (k < s) && v.testBit (k * d + j)) := by
  unfold decTabOk at h
  rw [Bool.and_eq_true] at h
  have hlen : t.length = 2 ^ (s * d) := by simpa using h.1
  have := all_zipIdx h.2 (v := v) (by rw [hlen]; exact hv)
  simp only [Bool.and_eq_true, decide_eq_true_eq, List.all_eq_true, List.mem_range, beq_iff_eq] at this
  by_cases hk : k < s
  · simpa [hk] using this.2 k hk
  · rw [testBit_of_lt this.1 (by omega)]; simp [hk]

theorem byte_lt (x s : Nat) : (x >>> s) &&& 0xFF < 2 ^ 8 := by
  have : (x >>> s) &&& (2 ^ 8 - 1) = (x >>> s) % 2 ^ 8 := Nat.and_two_pow_sub_one_eq_mod _ 8
  have e : (0xFF : Nat) = 2 ^ 8 - 1 := rfl
  rw [e, this]; exact Nat.mod_lt _ (by norm_num)

theorem byte_testBit (x s k : Nat) : ((x >>> s) &&& 0xFF).testBit k = (decide (k < 8) && x.testBit (s + k)) := by
  have : (x >>> s) &&& (2 ^ 8 - 1) = (x >>> s) % 2 ^ 8 := Nat.and_two_pow_sub_one_eq_mod _ 8
  have e : (0xFF : Nat) = 2 ^ 8 - 1 := rfl
  rw [e, this, Nat.testBit_mod_two_pow, Nat.testBit_shiftRight]

/-- Bits of one encoder step, from the bits of the running answer. -/
theorem enc_step_bits {w d : Nat} (hd : 0 < d) {a o : Nat} {x : Nat → Nat} {s : Nat}
    (ha : ∀ k, a.testBit k = (decide (k < w) && (x (k % d)).testBit (s + 8 + k / d)))
    (ho : ∀ k, o.testBit k = (decide (k / d < 8) && (x (k % d)).testBit (s + k / d))) (k : Nat) :
    (((a <<< (8 * d)) % 2 ^ w ||| o) % 2 ^ w).testBit k = (decide (k < w) && (x (k % d)).testBit (s + k / d)) := by
  rw [Nat.testBit_mod_two_pow, Nat.testBit_or, Nat.testBit_mod_two_pow, Nat.testBit_shiftLeft, ho]
  by_cases hk : k < w
  · by_cases hk8 : 8 * d ≤ k
    · have h8 : ¬ k / d < 8 := by
        rw [not_lt, Nat.le_div_iff_mul_le hd]; omega
      obtain ⟨k', rfl⟩ : ∃ k', k = k' + d * 8 := ⟨k - d * 8, by rw [mul_comm d 8]; omega⟩
      have e1 : k' + d * 8 - 8 * d = k' := by rw [mul_comm d 8]; omega
      have e2 : (k' + d * 8) / d = k' / d + 8 := Nat.add_mul_div_left _ _ hd
      have e3 : (k' + d * 8) % d = k' % d := Nat.add_mul_mod_self_left _ _ _
      rw [e1, ha, e2, e3]
      have e4 : s + 8 + k' / d = s + (k' / d + 8) := by omega
      have hk' : k' < w := by omega
      rw [e4]
      simp [hk, hk', hk8]
    · have h8 : k / d < 8 := by rw [Nat.div_lt_iff_lt_mul hd]; omega
      simp [hk, hk8, h8]
  · simp [hk]

/-- The coordinates as a function. -/
def crd2 (x y : Nat) : Nat → Nat := fun j => if j = 0 then x else y
def crd3 (x y z : Nat) : Nat → Nat := fun j => if j = 0 then x else if j = 1 then y else z

theorem or2_bits (x y s k : Nat) :
    (lut lut2ey ((y >>> s) &&& 0xFF) ||| lut lut2ex ((x >>> s) &&& 0xFF)).testBit k
      = (decide (k / 2 < 8) && (crd2 x y (k % 2)).testBit (s + k / 2)) := by
  rw [Nat.testBit_or, encTab_testBit tab2ey (by norm_num) (byte_lt _ _), encTab_testBit tab2ex (by norm_num) (byte_lt _ _),
    byte_testBit, byte_testBit]
  have h : k % 2 = 0 ∨ k % 2 = 1 := by omega
  rcases h with h | h <;> simp [h, crd2]

theorem or3_bits (x y z s k : Nat) :
    (lut lut3ez ((z >>> s) &&& 0xFF) ||| lut lut3ey ((y >>> s) &&& 0xFF) ||| lut lut3ex ((x >>> s) &&& 0xFF)).testBit k
      = (decide (k / 3 < 8) && (crd3 x y z (k % 3)).testBit (s + k / 3)) := by
  rw [Nat.testBit_or, Nat.testBit_or, encTab_testBit tab3ez (by norm_num) (byte_lt _ _),
    encTab_testBit tab3ey (by norm_num) (byte_lt _ _), encTab_testBit tab3ex (by norm_num) (byte_lt _ _),
    byte_testBit, byte_testBit, byte_testBit]
  have h : k % 3 = 0 ∨ k % 3 = 1 ∨ k % 3 = 2 := by omega
  rcases h with h | h | h <;> simp [h, crd3]

theorem crd2_lt {x y : Nat} (hx : x < 2 ^ 32) (hy : y < 2 ^ 32) (j : Nat) : crd2 x y j < 2 ^ 32 := by
  unfold crd2; split <;> assumption

theorem crd3_lt {x y z : Nat} (hx : x < 2 ^ 32) (hy : y < 2 ^ 32) (hz : z < 2 ^ 32) (j : Nat) :
    crd3 x y z j < 2 ^ 32 := by
  unfold crd3; split <;> [assumption; split <;> assumption]

theorem zero_bits {d w : Nat} {x : Nat → Nat} (h : ∀ j, x j < 2 ^ 32) (k : Nat) :
    (0 : Nat).testBit k = (decide (k < w) && (x (k % d)).testBit (24 + 8 + k / d)) := by
  rw [testBit_of_lt (h (k % d)) (Nat.le_add_right 32 _)]; simp

theorem enc2_bits {w x y : Nat} (hx : x < 2 ^ 32) (hy : y < 2 ^ 32) (k : Nat) :
    (enc2 w x y).testBit k = (decide (k < w) && (crd2 x y (k % 2)).testBit (k / 2)) := by
  have step : ∀ a s, (∀ k, a.testBit k = (decide (k < w) && (crd2 x y (k % 2)).testBit (s + 8 + k / 2))) →
      ∀ k, (enc2Step w x y a s).testBit k = (decide (k < w) && (crd2 x y (k % 2)).testBit (s + k / 2)) := by
    intro a s ha k
    have := enc_step_bits (w := w) (d := 2) (by norm_num) ha (or2_bits x y s) k
    unfold enc2Step; rw [Nat.or_assoc]; exact this
  have h0 := step 0 24 (zero_bits (crd2_lt hx hy))
  have h1 := step _ 16 h0
  have h2 := step _ 8 h1
  have h3 := step _ 0 h2 k
  rw [Nat.zero_add] at h3
  exact h3

theorem enc3_bits {w x y z : Nat} (hx : x < 2 ^ 32) (hy : y < 2 ^ 32) (hz : z < 2 ^ 32) (k : Nat) :
    (enc3 w x y z).testBit k = (decide (k < w) && (crd3 x y z (k % 3)).testBit (k / 3)) := by
  have step : ∀ a s, (∀ k, a.testBit k = (decide (k < w) && (crd3 x y z (k % 3)).testBit (s + 8 + k / 3))) →
      ∀ k, (enc3Step w x y z a s).testBit k = (decide (k < w) && (crd3 x y z (k % 3)).testBit (s + k / 3)) := by
    intro a s ha k
    exact enc_step_bits (w := w) (d := 3) (by norm_num) ha (or3_bits x y z s) k
  have h0 := step 0 24 (zero_bits (crd3_lt hx hy hz))
  have h1 := step _ 16 h0
  have h2 := step _ 8 h1
  have h3 := step _ 0 h2 k
  rw [Nat.zero_add] at h3
  exact h3

/-! ### Decoders -/

theorem mask_lt (m s b : Nat) : (m >>> s) &&& (2 ^ b - 1) < 2 ^ b := by
  rw [Nat.and_two_pow_sub_one_eq_mod]; exact Nat.mod_lt _ (Nat.two_pow_pos b)

theorem mask_testBit (m s b k : Nat) :
    ((m >>> s) &&& (2 ^ b - 1)).testBit k = (decide (k < b) && m.testBit (s + k)) := by
  rw [Nat.and_two_pow_sub_one_eq_mod, Nat.testBit_mod_two_pow, Nat.testBit_shiftRight]

theorem dec_fold_bits {w d s j : Nat} {t : List Nat} (ht : decTabOk d s j t = true) (hs : 0 < s) (hj : j < d)
    (m : Nat) (n : Nat) (k : Nat) :
    ((List.range n).foldl (fun a i => a ||| (lut t ((m >>> (i * (s * d))) &&& (2 ^ (s * d) - 1)) <<< (s * i)) % 2 ^ w) 0).testBit k
      = (decide (k < s * n) && decide (k < w) && m.testBit (d * k + j)) := by
  induction n with
  | zero => simp
  | succ n ih =>
    rw [List.range_succ, List.foldl_append, List.foldl_cons, List.foldl_nil, Nat.testBit_or, ih,
      Nat.testBit_mod_two_pow, Nat.testBit_shiftLeft, decTab_testBit ht (mask_lt _ _ _), mask_testBit]
    by_cases hw : k < w
    · by_cases h1 : k < s * n
      · have h2 : ¬ (s * n ≤ k) := by omega
        have h3 : k < s * (n + 1) := by rw [mul_add]; omega
        simp [hw, h1, h2, h3]
      · have h2 : s * n ≤ k := by omega
        obtain ⟨r, rfl⟩ : ∃ r, k = s * n + r := ⟨k - s * n, by omega⟩
        have e : s * n + r - s * n = r := by omega
        rw [e]
        by_cases hr : r < s
        · have h3 : s * n + r < s * (n + 1) := by rw [mul_add]; omega
          have h4 : r * d + j < s * d := by
            calc r * d + j < r * d + d := by omega
              _ = (r + 1) * d := by ring
              _ ≤ s * d := Nat.mul_le_mul_right _ hr
          have h5 : n * (s * d) + (r * d + j) = d * (s * n + r) + j := by ring
          rw [h5]
          simp [hw, h3, h4, hr]
        · have h3 : ¬ s * n + r < s * (n + 1) := by rw [mul_add]; omega
          simp [h3, hr]
    · simp [hw]

theorem dec2_bits {w cw j : Nat} {t : List Nat} (ht : decTabOk 2 4 j t = true) (hj : j < 2) (m k : Nat) :
    (dec2 w cw t m).testBit k
      = (decide (k < cw) && (decide (k < 4 * (w / 8)) && decide (k < w) && m.testBit (2 * k + j))) := by
  unfold dec2
  rw [Nat.testBit_mod_two_pow]
  congr 1
  exact dec_fold_bits ht (by norm_num) hj m (w / 8) k

theorem dec3_bits {w cw j : Nat} {t : List Nat} (ht : decTabOk 3 3 j t = true) (hj : j < 3) (m k : Nat) :
    (dec3 w cw t m).testBit k
      = (decide (k < cw) && (decide (k < 3 * (if w ≤ 32 then 4 else 7)) && decide (k < w) && m.testBit (3 * k + j))) := by
  unfold dec3
  rw [Nat.testBit_mod_two_pow]
  congr 1
  exact dec_fold_bits ht (by norm_num) hj m _ k

/-! ### Interleaving: uniqueness and order facts -/

theorem lt_two_pow_of_testBit {n b : Nat} (h : ∀ k, b ≤ k → n.testBit k = false) : n < 2 ^ b :=
  Nat.lt_pow_two_of_testBit n h

theorem interleaves_unique {b : Nat} {xs : List Nat} {m m' : Nat} (h0 : 0 < xs.length)
    (h : Interleaves b xs m) (h' : Interleaves b xs m') : m = m' := by
  apply Nat.eq_of_testBit_eq
  intro k
  by_cases hk : k < b * xs.length
  · have hj := Nat.mod_lt k h0
    have hi : k / xs.length < b := by rw [Nat.div_lt_iff_lt_mul h0]; exact hk
    have e := Nat.div_add_mod k xs.length
    rw [← e, h.2 _ hi _ hj, h'.2 _ hi _ hj]
  · rw [testBit_of_lt h.1 (by omega), testBit_of_lt h'.1 (by omega)]

theorem interleaves_inj {b : Nat} {xs ys : List Nat} {m : Nat} (hl : xs.length = ys.length)
    (hx : ∀ x ∈ xs, x < 2 ^ b) (hy : ∀ x ∈ ys, x < 2 ^ b)
    (h : Interleaves b xs m) (h' : Interleaves b ys m) : xs = ys := by
  apply List.ext_getElem hl
  intro j h1 h2
  apply Nat.eq_of_testBit_eq
  intro i
  by_cases hi : i < b
  · rw [← h.2 i hi j h1, ← h'.2 i hi j h2, hl]
  · rw [testBit_of_lt (hx _ (List.getElem_mem _)) (by omega), testBit_of_lt (hy _ (List.getElem_mem _)) (by omega)]

/-- Dropping the lowest `d*(b-L)` bits of an interleaved code drops the lowest `b-L` bits of each coordinate. -/
theorem interleaves_shift {b L : Nat} {xs : List Nat} {m : Nat} (hL : L ≤ b) (h : Interleaves b xs m) :
    Interleaves L (xs.map (· >>> (b - L))) (m >>> ((b - L) * xs.length)) := by
  refine ⟨?_, ?_⟩
  · rw [List.length_map, Nat.shiftRight_eq_div_pow, Nat.div_lt_iff_lt_mul (Nat.two_pow_pos _), ← pow_add,
      ← Nat.add_mul, Nat.add_sub_cancel' hL]
    exact h.1
  · intro i hi j hj
    have hj' : j < xs.length := by simpa using hj
    rw [Nat.testBit_shiftRight, List.length_map]
    have e : (b - L) * xs.length + (xs.length * i + j) = xs.length * (b - L + i) + j := by ring
    rw [e, h.2 (b - L + i) (by omega) j hj', List.getElem_map, Nat.testBit_shiftRight]

theorem interleaves_prefix {b L : Nat} {xs ys : List Nat} {m m' : Nat} (hl : xs.length = ys.length)
    (h0 : 0 < xs.length) (hL : L ≤ b) (hx : ∀ x ∈ xs, x < 2 ^ b) (hy : ∀ x ∈ ys, x < 2 ^ b)
    (h : Interleaves b xs m) (h' : Interleaves b ys m') :
    m >>> ((b - L) * xs.length) = m' >>> ((b - L) * xs.length) ↔
      xs.map (· >>> (b - L)) = ys.map (· >>> (b - L)) := by
  have s := interleaves_shift hL h
  have s' := interleaves_shift hL h'
  have lt : ∀ zs : List Nat, (∀ x ∈ zs, x < 2 ^ b) → ∀ x ∈ zs.map (· >>> (b - L)), x < 2 ^ L := by
    intro zs hz x hx
    obtain ⟨y, hy, rfl⟩ := List.mem_map.1 hx
    have := hz y hy
    show y >>> (b - L) < 2 ^ L
    rw [Nat.shiftRight_eq_div_pow, Nat.div_lt_iff_lt_mul (Nat.two_pow_pos _), ← pow_add, Nat.add_sub_cancel' hL]
    exact this
  constructor
  · intro e
    rw [← hl] at s'
    rw [← e] at s'
    exact interleaves_inj (by simp [hl]) (lt xs hx) (lt ys hy) s s'
  · intro e
    rw [← hl, ← e] at s'
    exact interleaves_unique (by simpa using h0) s s'

/-- The supported (code width, dimension) pairs. -/
def Supported (w d : Nat) : Prop := (w = 32 ∨ w = 64) ∧ (d = 2 ∨ d = 3)

theorem mod32 {w d x : Nat} (hs : Supported w d) (hx : x < 2 ^ cbits w d) : x < 2 ^ 32 ∧ x % 2 ^ 32 = x := by
  have h : x < 2 ^ 32 := by
    refine lt_of_lt_of_le hx (Nat.pow_le_pow_right (by norm_num) ?_)
    rcases hs with ⟨rfl | rfl, rfl | rfl⟩ <;> decide
  exact ⟨h, Nat.mod_eq_of_lt h⟩

theorem mortonEncode_interleaves {w : Nat} {xs : List Nat} (hs : Supported w xs.length)
    (hx : ∀ x ∈ xs, x < 2 ^ cbits w xs.length) :
    ∃ m, mortonEncode w xs = some m ∧ Interleaves (cbits w xs.length) xs m := by
  have hw := hs.1
  have hd : 0 < xs.length ∧ xs.length < w := by
    rcases hs with ⟨h1, h2⟩; omega
  have hcb := cbits_mul_lt hd.1 hd.2
  rcases hs.2 with h2 | h3
  · obtain ⟨x, y, rfl⟩ := List.length_eq_two.1 h2
    simp only [List.length_cons, List.length_nil, Nat.zero_add, Nat.reduceAdd, List.mem_cons, List.not_mem_nil, or_false,
      forall_eq_or_imp, forall_eq] at *
    obtain ⟨hx1, ex⟩ := mod32 hs hx.1
    obtain ⟨hy1, ey⟩ := mod32 hs hx.2
    refine ⟨enc2 w x y, by unfold mortonEncode; simp only [if_pos hw, ex, ey], ?_, ?_⟩
    · apply lt_two_pow_of_testBit
      intro k hk
      rw [enc2_bits hx1 hy1, testBit_of_lt (b := cbits w 2), Bool.and_false]
      · unfold crd2; split; exact hx.1; exact hx.2
      · simp only [List.length_cons, List.length_nil] at hk; omega
    · intro i hi j hj
      have hj' : j < 2 := hj
      simp only [List.length_cons, List.length_nil, Nat.zero_add, Nat.reduceAdd] at hi ⊢
      rw [enc2_bits hx1 hy1]
      have hkw : 2 * i + j < w := by omega
      have : j = 0 ∨ j = 1 := by omega
      rcases this with rfl | rfl
      · have e1 : (2 * i + 0) % 2 = 0 := by omega
        have e2 : (2 * i + 0) / 2 = i := by omega
        rw [e1, e2]; simp [crd2]; intro; omega
      · have e1 : (2 * i + 1) % 2 = 1 := by omega
        have e2 : (2 * i + 1) / 2 = i := by omega
        rw [e1, e2]; simp [crd2, hkw]
  · obtain ⟨x, y, z, rfl⟩ := List.length_eq_three.1 h3
    simp only [List.length_cons, List.length_nil, Nat.zero_add, Nat.reduceAdd, List.mem_cons, List.not_mem_nil, or_false,
      forall_eq_or_imp, forall_eq] at *
    obtain ⟨hx1, ex⟩ := mod32 hs hx.1
    obtain ⟨hy1, ey⟩ := mod32 hs hx.2.1
    obtain ⟨hz1, ez⟩ := mod32 hs hx.2.2
    refine ⟨enc3 w x y z, by unfold mortonEncode; simp only [if_pos hw, ex, ey, ez], ?_, ?_⟩
    · apply lt_two_pow_of_testBit
      intro k hk
      rw [enc3_bits hx1 hy1 hz1, testBit_of_lt (b := cbits w 3), Bool.and_false]
      · unfold crd3; split; exact hx.1; split; exact hx.2.1; exact hx.2.2
      · simp only [List.length_cons, List.length_nil] at hk; omega
    · intro i hi j hj
      have hj' : j < 3 := hj
      simp only [List.length_cons, List.length_nil, Nat.zero_add, Nat.reduceAdd] at hi ⊢
      rw [enc3_bits hx1 hy1 hz1]
      have hkw : 3 * i + j < w := by omega
      have : j = 0 ∨ j = 1 ∨ j = 2 := by omega
      rcases this with rfl | rfl | rfl
      · have e1 : (3 * i + 0) % 3 = 0 := by omega
        have e2 : (3 * i + 0) / 3 = i := by omega
        rw [e1, e2]; simp [crd3]; intro; omega
      · have e1 : (3 * i + 1) % 3 = 1 := by omega
        have e2 : (3 * i + 1) / 3 = i := by omega
        rw [e1, e2]; simp [crd3, hkw]
      · have e1 : (3 * i + 2) % 3 = 2 := by omega
        have e2 : (3 * i + 2) / 3 = i := by omega
        rw [e1, e2]; simp [crd3, hkw]

theorem mortonDecode_interleaves {w d m : Nat} (hs : Supported w d) (hm : m < 2 ^ (cbits w d * d)) :
    ∃ xs, mortonDecode w d m = some xs ∧ xs.length = d ∧ (∀ x ∈ xs, x < 2 ^ cbits w d) ∧
      Interleaves (cbits w d) xs m := by
  have hw := hs.1
  rcases hs.2 with rfl | rfl
  · refine ⟨[dec2 w (w / 2) lut2dx m, dec2 w (w / 2) lut2dy m], by simp [mortonDecode, hw], rfl, ?_, hm, ?_⟩
    · intro x hx
      apply lt_two_pow_of_testBit
      intro k hk
      have key : ∀ j, j < 2 → m.testBit (2 * k + j) = false := by
        intro j _; apply testBit_of_lt hm; omega
      rcases List.mem_cons.1 hx with rfl | hx
      · rw [dec2_bits tab2dx (by norm_num), key 0 (by norm_num)]; simp
      · obtain rfl := by simpa using hx
        rw [dec2_bits tab2dy (by norm_num), key 1 (by norm_num)]; simp
    · intro i hi j hj
      have hi' : i < w / 2 ∧ i < 4 * (w / 8) ∧ i < w := by
        rcases hw with rfl | rfl
        · rw [show cbits 32 2 = 15 from rfl] at hi; omega
        · rw [show cbits 64 2 = 31 from rfl] at hi; omega
      have hj' : j < 2 := hj
      simp only [List.length_cons, List.length_nil, Nat.zero_add, Nat.reduceAdd]
      have : j = 0 ∨ j = 1 := by omega
      rcases this with rfl | rfl
      · simp [dec2_bits tab2dx, hi']
      · simp [dec2_bits tab2dy, hi']
  · refine ⟨[dec3 w (w / 2) lut3dx m, dec3 w (w / 2) lut3dy m, dec3 w (w / 2) lut3dz m], by simp [mortonDecode, hw], rfl,
      ?_, hm, ?_⟩
    · intro x hx
      apply lt_two_pow_of_testBit
      intro k hk
      have key : ∀ j, j < 3 → m.testBit (3 * k + j) = false := by
        intro j _; apply testBit_of_lt hm; omega
      rcases List.mem_cons.1 hx with rfl | hx
      · rw [dec3_bits tab3dx (by norm_num), key 0 (by norm_num)]; simp
      · rcases List.mem_cons.1 hx with rfl | hx
        · rw [dec3_bits tab3dy (by norm_num), key 1 (by norm_num)]; simp
        · obtain rfl := by simpa using hx
          rw [dec3_bits tab3dz (by norm_num), key 2 (by norm_num)]; simp
    · intro i hi j hj
      have hi' : i < w / 2 ∧ i < 3 * (if w ≤ 32 then 4 else 7) ∧ i < w := by
        rcases hw with rfl | rfl
        · rw [show cbits 32 3 = 10 from rfl] at hi; simp; omega
        · rw [show cbits 64 3 = 21 from rfl] at hi; simp; omega
      have hi'' : i < if w ≤ 32 then 12 else 21 := by have := hi'.2.1; split_ifs at this ⊢ <;> omega
      have hj' : j < 3 := hj
      simp only [List.length_cons, List.length_nil, Nat.zero_add, Nat.reduceAdd]
      have : j = 0 ∨ j = 1 ∨ j = 2 := by omega
      rcases this with rfl | rfl | rfl
      · simp [dec3_bits tab3dx, hi', hi'']
      · simp [dec3_bits tab3dy, hi', hi'']
      · simp [dec3_bits tab3dz, hi', hi'']

end Rakau
