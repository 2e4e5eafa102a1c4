import Verif.Model.Asserts
import Verif.Proof.Morton

/-! The encoders of the assertions agree with the table-driven ones. -/
namespace Rakau
open Spec

theorem chk_true {p : Place} {b : Bool} (h : b = true) : chk p b = .ok () := by simp [chk, h]

/-- The number of one bits of `m` below position `k`. -/
def onesBelow (m : Nat) : Nat → Nat
  | 0 => 0
  | k + 1 => (if m % 2 = 1 then 1 else 0) + onesBelow (m / 2) k

theorem pdep_testBit (n : Nat) : ∀ (src mask k : Nat), (pdep n src mask).testBit k
    = (decide (k < n) && mask.testBit k && src.testBit (onesBelow mask k)) := by
  induction n with
  | zero => intro src mask k; simp [pdep]
  | succ n ih =>
    intro src mask k
    unfold pdep
    cases k with
    | zero =>
      by_cases h : mask % 2 = 1
      · have e : (src % 2 + 2 * pdep n (src / 2) (mask / 2)) % 2 = src % 2 := by omega
        simp [h, Nat.testBit_zero, onesBelow, e]
      · have e : (2 * pdep n src (mask / 2)) % 2 = 0 := by omega
        simp [h, Nat.testBit_zero, e]
    | succ k =>
      by_cases h : mask % 2 = 1
      · have e : (src % 2 + 2 * pdep n (src / 2) (mask / 2)) / 2 = pdep n (src / 2) (mask / 2) := by omega
        simp only [h, if_true, Nat.testBit_succ, onesBelow, e]
        rw [ih, Nat.add_comm 1, Nat.testBit_succ]
        simp
      · have e : (2 * pdep n src (mask / 2)) / 2 = pdep n src (mask / 2) := by omega
        simp only [h, if_false, Nat.testBit_succ, onesBelow, e]
        rw [ih, Nat.zero_add]
        simp

/-- A mask that selects the positions `≡ j` modulo `d`. -/
def maskOk (mw d j m : Nat) : Bool :=
  (List.range mw).all (fun k => m.testBit k == decide (k % d = j) && (k % d != j || onesBelow m k == k / d))

theorem pdep_bits {mw d j m : Nat} (h : maskOk mw d j m = true) (x k : Nat) :
    (pdep mw x m).testBit k = (decide (k < mw) && decide (k % d = j) && x.testBit (k / d)) := by
  rw [pdep_testBit]
  by_cases hk : k < mw
  · have := List.all_eq_true.1 h k (List.mem_range.2 hk)
    simp only [Bool.and_eq_true, beq_iff_eq, Bool.or_eq_true, bne_iff_ne] at this
    rw [this.1]
    by_cases hj : k % d = j
    · have h2 := this.2.resolve_left (by simpa using hj)
      rw [h2]
    · simp [hj]
  · simp [hk]

theorem mask2x {mw : Nat} (h : mw = 32 ∨ mw = 64) : maskOk mw 2 0 (0x5555555555555555 % 2 ^ mw) = true := by
  rcases h with rfl | rfl <;> decide +kernel
theorem mask2y {mw : Nat} (h : mw = 32 ∨ mw = 64) : maskOk mw 2 1 (0xAAAAAAAAAAAAAAAA % 2 ^ mw) = true := by
  rcases h with rfl | rfl <;> decide +kernel
theorem mask3x {mw : Nat} (h : mw = 32 ∨ mw = 64) : maskOk mw 3 0 (0x9249249249249249 % 2 ^ mw) = true := by
  rcases h with rfl | rfl <;> decide +kernel
theorem mask3y {mw : Nat} (h : mw = 32 ∨ mw = 64) : maskOk mw 3 1 (0x2492492492492492 % 2 ^ mw) = true := by
  rcases h with rfl | rfl <;> decide +kernel
theorem mask3z {mw : Nat} (h : mw = 32 ∨ mw = 64) : maskOk mw 3 2 (0x4924924924924924 % 2 ^ mw) = true := by
  rcases h with rfl | rfl <;> decide +kernel

theorem encBMI2_bits {mw : Nat} (h : mw = 32 ∨ mw = 64) (x y k : Nat) :
    (encBMI mw [x, y]).testBit k = (decide (k < mw) && (crd2 x y (k % 2)).testBit (k / 2)) := by
  unfold encBMI
  rw [Nat.testBit_or, pdep_bits (mask2x h), pdep_bits (mask2y h)]
  have h : k % 2 = 0 ∨ k % 2 = 1 := by omega
  rcases h with h | h <;> simp [h, crd2]

theorem encBMI3_bits {mw : Nat} (h : mw = 32 ∨ mw = 64) (x y z k : Nat) :
    (encBMI mw [x, y, z]).testBit k = (decide (k < mw) && (crd3 x y z (k % 3)).testBit (k / 3)) := by
  unfold encBMI
  rw [Nat.testBit_or, Nat.testBit_or, pdep_bits (mask3x h), pdep_bits (mask3y h), pdep_bits (mask3z h)]
  have h : k % 3 = 0 ∨ k % 3 = 1 ∨ k % 3 = 2 := by omega
  rcases h with h | h | h <;> simp [h, crd3]

/-- The loop of the table-driven encoders, for any number of bytes. -/
theorem enc_loop {w d n : Nat} {x : Nat → Nat} {f : Nat → Nat → Nat} (hx : ∀ j, x j < 2 ^ (n * 8))
    (step : ∀ a s, (∀ k, a.testBit k = (decide (k < w) && (x (k % d)).testBit (s + 8 + k / d))) →
      ∀ k, (f a s).testBit k = (decide (k < w) && (x (k % d)).testBit (s + k / d))) (k : Nat) :
    (((List.range n).map (· * 8)).reverse.foldl f 0).testBit k = (decide (k < w) && (x (k % d)).testBit (k / d)) := by
  have key : ∀ (n a : Nat), (∀ k, a.testBit k = (decide (k < w) && (x (k % d)).testBit (n * 8 + k / d))) →
      ∀ k, (((List.range n).map (· * 8)).reverse.foldl f a).testBit k = (decide (k < w) && (x (k % d)).testBit (k / d)) := by
    intro n
    induction n with
    | zero => intro a ha k; simpa using ha k
    | succ n ih =>
      intro a ha k
      rw [List.range_succ, List.map_append, List.reverse_append, List.map_cons, List.map_nil, List.reverse_singleton, List.foldl_append,
        List.foldl_cons, List.foldl_nil]
      refine ih _ (fun k => step a (n * 8) (fun k => ?_) k) k
      rw [ha k]
      congr 2
      ring
  refine key n 0 (fun k => ?_) k
  rw [testBit_of_lt (hx (k % d)) (Nat.le_add_right _ _)]
  simp

theorem encLUT2_bits {mw cw x y : Nat} (h8 : cw / 8 * 8 = cw) (hx : x < 2 ^ cw) (hy : y < 2 ^ cw) (k : Nat) :
    (encLUT mw cw [x, y]).testBit k = (decide (k < mw) && (crd2 x y (k % 2)).testBit (k / 2)) := by
  unfold encLUT lutShifts
  refine enc_loop (d := 2) (x := crd2 x y) ?_ ?_ k
  · intro j; rw [h8]; unfold crd2; split <;> assumption
  · intro a s ha k
    have := enc_step_bits (w := mw) (d := 2) (by norm_num) ha (or2_bits x y s) k
    unfold enc2Step; rw [Nat.or_assoc]; exact this

theorem encLUT3_bits {mw cw x y z : Nat} (h8 : cw / 8 * 8 = cw) (hx : x < 2 ^ cw) (hy : y < 2 ^ cw) (hz : z < 2 ^ cw) (k : Nat) :
    (encLUT mw cw [x, y, z]).testBit k = (decide (k < mw) && (crd3 x y z (k % 3)).testBit (k / 3)) := by
  unfold encLUT lutShifts
  refine enc_loop (d := 3) (x := crd3 x y z) ?_ ?_ k
  · intro j; rw [h8]; unfold crd3; split <;> [assumption; split <;> assumption]
  · intro a s ha k
    exact enc_step_bits (w := mw) (d := 3) (by norm_num) ha (or3_bits x y z s) k

theorem bits_widen {w mw d cb : Nat} {x : Nat → Nat} {a b : Nat} (hd : 0 < d) (hwm : w ≤ mw) (hcb : cb * d ≤ w) (hx : ∀ j, x j < 2 ^ cb)
    (ha : ∀ k, a.testBit k = (decide (k < mw) && (x (k % d)).testBit (k / d)))
    (hb : ∀ k, b.testBit k = (decide (k < w) && (x (k % d)).testBit (k / d))) : a = b := by
  apply Nat.eq_of_testBit_eq
  intro k
  rw [ha, hb]
  by_cases hk : k < w
  · have : k < mw := by omega
    simp [hk, this]
  · rw [testBit_of_lt (hx (k % d)) ((Nat.le_div_iff_mul_le hd).2 (by omega))]
    simp

theorem fastEncode_eq {f : Fast} {w : Nat} {xs : List Nat} {m : Nat} (hs : Supported w xs.length) (hf : f.Ok w)
    (hx : ∀ x ∈ xs, x < 2 ^ cbits w xs.length) (he : mortonEncode w xs = some m) : fastEncode f.bmi f.mw f.cw xs = m := by
  obtain ⟨hmw, hwm, hcw, hc2⟩ := hf
  have h8 : f.cw / 8 * 8 = f.cw := by rcases hcw with h | h | h <;> rw [h]
  have hw := hs.1
  rcases hs.2 with h2 | h3
  · obtain ⟨x, y, rfl⟩ := List.length_eq_two.1 h2
    simp only [List.length_cons, List.length_nil, Nat.zero_add, Nat.reduceAdd, List.mem_cons, List.not_mem_nil, or_false,
      forall_eq_or_imp, forall_eq] at *
    have hcb : cbits w 2 * 2 ≤ w ∧ cbits w 2 ≤ f.cw ∧ cbits w 2 ≤ 32 := by
      rcases hw with rfl | rfl
      · rw [show cbits 32 2 = 15 from rfl]; omega
      · rw [show cbits 64 2 = 31 from rfl]; omega
    have lt : ∀ {x}, x < 2 ^ cbits w 2 → x < 2 ^ f.cw := fun h => lt_of_lt_of_le h (Nat.pow_le_pow_right (by norm_num) hcb.2.1)
    obtain ⟨hx1, ex⟩ := mod32 hs hx.1
    obtain ⟨hy1, ey⟩ := mod32 hs hx.2
    unfold mortonEncode at he
    simp only [if_pos hw, ex, ey, Option.some.injEq] at he
    subst he
    have fx := Nat.mod_eq_of_lt (lt hx.1)
    have fy := Nat.mod_eq_of_lt (lt hx.2)
    refine bits_widen (x := crd2 x y) (cb := cbits w 2) (d := 2) (by norm_num) hwm hcb.1 (fun j => ?_) ?_ (enc2_bits hx1 hy1)
    · unfold crd2; split; exact hx.1; exact hx.2
    · intro k
      unfold fastEncode
      simp only [List.map_cons, List.map_nil, fx, fy]
      split
      · exact encBMI2_bits hmw x y k
      · exact encLUT2_bits h8 (lt hx.1) (lt hx.2) k
  · obtain ⟨x, y, z, rfl⟩ := List.length_eq_three.1 h3
    simp only [List.length_cons, List.length_nil, Nat.zero_add, Nat.reduceAdd, List.mem_cons, List.not_mem_nil, or_false,
      forall_eq_or_imp, forall_eq] at *
    have hcb : cbits w 3 * 3 ≤ w ∧ cbits w 3 ≤ f.cw ∧ cbits w 3 ≤ 32 := by
      rcases hw with rfl | rfl
      · rw [show cbits 32 3 = 10 from rfl]; omega
      · rw [show cbits 64 3 = 21 from rfl]; omega
    have lt : ∀ {x}, x < 2 ^ cbits w 3 → x < 2 ^ f.cw := fun h => lt_of_lt_of_le h (Nat.pow_le_pow_right (by norm_num) hcb.2.1)
    obtain ⟨hx1, ex⟩ := mod32 hs hx.1
    obtain ⟨hy1, ey⟩ := mod32 hs hx.2.1
    obtain ⟨hz1, ez⟩ := mod32 hs hx.2.2
    unfold mortonEncode at he
    simp only [if_pos hw, ex, ey, ez, Option.some.injEq] at he
    subst he
    have fx := Nat.mod_eq_of_lt (lt hx.1)
    have fy := Nat.mod_eq_of_lt (lt hx.2.1)
    have fz := Nat.mod_eq_of_lt (lt hx.2.2)
    refine bits_widen (x := crd3 x y z) (cb := cbits w 3) (d := 3) (by norm_num) hwm hcb.1 (fun j => ?_) ?_ (enc3_bits hx1 hy1 hz1)
    · unfold crd3; split; exact hx.1; split; exact hx.2.1; exact hx.2.2
    · intro k
      unfold fastEncode
      simp only [List.map_cons, List.map_nil, fx, fy, fz]
      split
      · exact encBMI3_bits hmw x y z k
      · exact encLUT3_bits h8 (lt hx.1) (lt hx.2.1) (lt hx.2.2) k

/-- The encoder in a debug build: no assertion fails. -/
theorem encodeD_eq {f : Fast} {w : Nat} {xs : List Nat} (hs : Supported w xs.length) (hf : f.Ok w)
    (hx : ∀ x ∈ xs, x < 2 ^ cbits w xs.length) : encodeD f w xs = dbg (ofUB (mortonEncode w xs)) := by
  obtain ⟨m, he, hm⟩ := mortonEncode_interleaves hs hx
  have hfe := fastEncode_eq hs hf hx he
  have hlt : m < 2 ^ (w - 1) := by
    refine lt_of_lt_of_le hm.1 (Nat.pow_le_pow_right (by norm_num) ?_)
    have hd : 0 < xs.length ∧ xs.length < w := by rcases hs with ⟨h1, h2⟩; omega
    have := cbits_mul_lt hd.1 hd.2
    omega
  unfold encodeD
  rw [chk_true (List.all_eq_true.2 (fun x h => decide_eq_true (hx x h)))]
  simp only [he, ofUB, dbg]
  show (do chk (.tree 233) (m >>> (w - 1) == 0); chk (.tree 236) (fastEncode f.bmi f.mw f.cw xs == m); Except.ok m : Dbg Nat) = .ok m
  rw [chk_true (by rw [Nat.shiftRight_eq_div_pow, Nat.div_eq_of_lt hlt]; rfl), hfe, chk_true (by simp)]
  rfl

/-- The decoder in a debug build: no assertion fails for a code of the right size. -/
theorem decodeD_eq {w d m : Nat} (hs : Supported w d) (hm : m < 2 ^ (cbits w d * d)) : decodeD w d m = dbg (ofUB (mortonDecode w d m)) := by
  obtain ⟨xs, he, -, hx, -⟩ := mortonDecode_interleaves hs hm
  have hd : 0 < d ∧ d < w := by rcases hs with ⟨h1, h2⟩; omega
  have hcb := cbits_mul_lt hd.1 hd.2
  have e : shl w 1 (cbits w d * d) = some (2 ^ (cbits w d * d)) := by
    unfold shl
    have : cbits w d * d < w := hcb
    simp only [this, if_true, Nat.one_shiftLeft]
    rw [Nat.mod_eq_of_lt (Nat.pow_lt_pow_right (by norm_num) hcb)]
  unfold decodeD
  rw [e]
  simp only [he, ofUB, dbg]
  show (do chk (.tree 312) (decide (m < 2 ^ (cbits w d * d))); chk (.tree 315) (xs.all (fun x => decide (x < 2 ^ cbits w d))); Except.ok xs : Dbg _) = _
  rw [chk_true (decide_eq_true hm), chk_true (List.all_eq_true.2 (fun x h => decide_eq_true (hx x h)))]
  rfl

end Rakau
