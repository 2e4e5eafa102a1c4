import Verif.Model.Libmorton
import Verif.Proof.Morton
import Verif.Proof.Asserts

namespace Rakau
open Spec

/-! ### Functions that move bits -/

/-- A function that respects `|` and moves each single bit of `N` moves all bits. -/
theorem moves_or {f : Nat → Nat} {N : Nat} {g : Nat → Nat} {c : Nat → Bool} (h0 : f 0 = 0)
    (hom : ∀ a b, f (a ||| b) = f a ||| f b) (basis : ∀ n < N, ∀ k, (f (2 ^ n)).testBit k = (c k && decide (g k = n))) :
    ∀ a < 2 ^ N, ∀ k, (f a).testBit k = (c k && a.testBit (g k)) := by
  induction N with
  | zero =>
    intro a ha k
    obtain rfl : a = 0 := by simpa using ha
    simp [h0]
  | succ N ih =>
    intro a ha k
    have ih := ih (fun n hn => basis n (by omega))
    have hlt : a % 2 ^ N < 2 ^ N := Nat.mod_lt _ (Nat.two_pow_pos N)
    by_cases hb : a.testBit N
    · have e : a = a % 2 ^ N ||| 2 ^ N := by
        apply Nat.eq_of_testBit_eq
        intro i
        rw [Nat.testBit_or, Nat.testBit_mod_two_pow, Nat.testBit_two_pow]
        rcases Nat.lt_trichotomy i N with h | h | h
        · simp [h, Nat.ne_of_gt h]
        · subst h; simp [hb]
        · rw [testBit_of_lt ha h]; simp [Nat.not_lt_of_gt h, Nat.ne_of_lt h]
      rw [e, hom, Nat.testBit_or, ih _ hlt, basis N (by omega), Nat.testBit_or, Nat.testBit_two_pow]
      cases c k <;> simp [eq_comm]
    · have hb : a.testBit N = false := by simpa using hb
      have : a < 2 ^ N := by
        apply lt_two_pow_of_testBit
        intro i hi
        rcases Nat.eq_or_lt_of_le hi with h | h
        · subst h; exact hb
        · exact testBit_of_lt ha h
      exact ih a this k

/-- The same for a function that respects `^`. -/
theorem moves_xor {f : Nat → Nat} {N : Nat} {g : Nat → Nat} {c : Nat → Bool} (h0 : f 0 = 0)
    (hom : ∀ a b, f (a ^^^ b) = f a ^^^ f b) (basis : ∀ n < N, ∀ k, (f (2 ^ n)).testBit k = (c k && decide (g k = n))) :
    ∀ a < 2 ^ N, ∀ k, (f a).testBit k = (c k && a.testBit (g k)) := by
  induction N with
  | zero =>
    intro a ha k
    obtain rfl : a = 0 := by simpa using ha
    simp [h0]
  | succ N ih =>
    intro a ha k
    have ih := ih (fun n hn => basis n (by omega))
    have hlt : a % 2 ^ N < 2 ^ N := Nat.mod_lt _ (Nat.two_pow_pos N)
    by_cases hb : a.testBit N
    · have e : a = a % 2 ^ N ^^^ 2 ^ N := by
        apply Nat.eq_of_testBit_eq
        intro i
        rw [Nat.testBit_xor, Nat.testBit_mod_two_pow, Nat.testBit_two_pow]
        rcases Nat.lt_trichotomy i N with h | h | h
        · simp [h, Nat.ne_of_gt h]
        · subst h; simp [hb]
        · rw [testBit_of_lt ha h]; simp [Nat.not_lt_of_gt h, Nat.ne_of_lt h]
      rw [e, hom, Nat.testBit_xor, ih _ hlt, basis N (by omega), Nat.testBit_xor, Nat.testBit_two_pow]
      cases c k <;> simp [eq_comm]
    · have hb : a.testBit N = false := by simpa using hb
      have : a < 2 ^ N := by
        apply lt_two_pow_of_testBit
        intro i hi
        rcases Nat.eq_or_lt_of_le hi with h | h
        · subst h; exact hb
        · exact testBit_of_lt ha h
      exact ih a this k

/-! ### The parts of an encoder and of a decoder -/

/-- `a` has the bits of `x` at the places of coordinate `j` of `d`. -/
def Spread (mw d j x a : Nat) : Prop := ∀ k, a.testBit k = (decide (k < mw) && decide (k % d = j) && x.testBit (k / d))

/-- `x` has the bits of `m` at the places of coordinate `j` of `d`. -/
def Gather (d j m x : Nat) : Prop := ∀ k, x.testBit k = m.testBit (d * k + j)

theorem getD_lt' {xs : List Nat} {j : Nat} (h : j < xs.length) : xs.getD j 0 = xs[j] := by simp [h]

theorem interleaves_of_bits {mw m : Nat} {xs : List Nat} (hd : 0 < xs.length) (hx : ∀ x ∈ xs, x < 2 ^ (mw / xs.length))
    (h : ∀ k, m.testBit k = (decide (k < mw) && (xs.getD (k % xs.length) 0).testBit (k / xs.length))) :
    Interleaves (mw / xs.length) xs m := by
  constructor
  · apply lt_two_pow_of_testBit
    intro k hk
    rw [h]
    have hj := Nat.mod_lt k hd
    have : (xs.getD (k % xs.length) 0) < 2 ^ (mw / xs.length) := by
      rw [getD_lt' hj]; exact hx _ (List.getElem_mem hj)
    rw [testBit_of_lt this, Bool.and_false]
    rw [Nat.le_div_iff_mul_le hd]; exact hk
  · intro i hi j hj
    have e1 : (xs.length * i + j) % xs.length = j := by rw [Nat.mul_add_mod, Nat.mod_eq_of_lt hj]
    have e2 : (xs.length * i + j) / xs.length = i := by
      rw [Nat.mul_add_div hd, Nat.div_eq_of_lt hj, Nat.add_zero]
    rw [h, e1, e2, getD_lt' hj]
    have : xs.length * i + j < mw := by
      have h1 : xs.length * (i + 1) ≤ xs.length * (mw / xs.length) := Nat.mul_le_mul_left _ hi
      have h2 := Nat.mul_div_le mw xs.length
      rw [Nat.mul_add] at h1; omega
    simp [this]

theorem spread2 {mw x y a b : Nat} (hx : ∀ v ∈ [x, y], v < 2 ^ (mw / 2)) (ha : Spread mw 2 0 x a) (hb : Spread mw 2 1 y b) :
    Interleaves (mw / 2) [x, y] (a ||| b) := by
  refine interleaves_of_bits (xs := [x, y]) (by simp) hx ?_
  intro k
  rw [Nat.testBit_or, ha, hb]
  have h : k % 2 = 0 ∨ k % 2 = 1 := by omega
  rcases h with h | h <;> simp [h]

theorem spread3 {mw x y z a b c : Nat} (hx : ∀ v ∈ [x, y, z], v < 2 ^ (mw / 3)) (ha : Spread mw 3 0 x a) (hb : Spread mw 3 1 y b)
    (hc : Spread mw 3 2 z c) : Interleaves (mw / 3) [x, y, z] (a ||| b ||| c) := by
  refine interleaves_of_bits (xs := [x, y, z]) (by simp) hx ?_
  intro k
  rw [Nat.testBit_or, Nat.testBit_or, ha, hb, hc]
  have h : k % 3 = 0 ∨ k % 3 = 1 ∨ k % 3 = 2 := by omega
  rcases h with h | h | h <;> simp [h]

theorem gather_lt {b d j m x : Nat} (hm : m < 2 ^ (b * d)) (h : Gather d j m x) : x < 2 ^ b := by
  apply lt_two_pow_of_testBit
  intro k hk
  rw [h]
  apply testBit_of_lt hm
  have := Nat.mul_le_mul_left d hk
  rw [Nat.mul_comm b d]; omega

theorem gather_mod {b d j m x cw : Nat} (hm : m < 2 ^ (b * d)) (hc : b ≤ cw) (h : Gather d j m x) : Gather d j m (x % 2 ^ cw) := by
  have := lt_of_lt_of_le (gather_lt hm h) (Nat.pow_le_pow_right (by norm_num) hc)
  rw [Nat.mod_eq_of_lt this]; exact h

/-- What a decoder has to return. -/
def Decoded (b d m : Nat) (xs : List Nat) : Prop := xs.length = d ∧ (∀ x ∈ xs, x < 2 ^ b) ∧ Interleaves b xs m

theorem decoded_of {b d m : Nat} {xs : List Nat} (hm : m < 2 ^ (b * d)) (hl : xs.length = d)
    (h : ∀ j, ∀ hj : j < xs.length, Gather d j m xs[j]) : Decoded b d m xs := by
  refine ⟨hl, ?_, ?_, ?_⟩
  · intro x hx
    obtain ⟨j, hj, rfl⟩ := List.getElem_of_mem hx
    exact gather_lt hm (h j hj)
  · rw [hl]; exact hm
  · intro i _ j hj
    rw [h j hj, hl]

theorem decoded2 {b m x y : Nat} (hm : m < 2 ^ (b * 2)) (h0 : Gather 2 0 m x) (h1 : Gather 2 1 m y) : Decoded b 2 m [x, y] := by
  refine decoded_of hm rfl ?_
  intro j hj
  have : j = 0 ∨ j = 1 := by simp at hj; omega
  rcases this with rfl | rfl
  · exact h0
  · exact h1

theorem decoded3 {b m x y z : Nat} (hm : m < 2 ^ (b * 3)) (h0 : Gather 3 0 m x) (h1 : Gather 3 1 m y) (h2 : Gather 3 2 m z) :
    Decoded b 3 m [x, y, z] := by
  refine decoded_of hm rfl ?_
  intro j hj
  have : j = 0 ∨ j = 1 ∨ j = 2 := by simp at hj; omega
  rcases this with rfl | rfl | rfl
  · exact h0
  · exact h1
  · exact h2

/-! ### The location of the first bit -/

/-- The count is right for 64-bit types, and for all types with the Microsoft compiler. -/
theorem firstSetBit_eq {p : Plat} {w x : Nat} (hw : w = 16 ∨ w = 32 ∨ w = 64) (hp : p.comp = .gcc → w = 64) (h0 : x ≠ 0) (hx : x < 2 ^ w) :
    firstSetBit p w x = some (x.log2 + 1) := by
  have hl : x.log2 < w := (Nat.log2_lt h0).2 hx
  have hw64 : w ≤ 64 := by omega
  have hx64 : x < 2 ^ 64 := lt_of_lt_of_le hx (Nat.pow_le_pow_right (by norm_num) hw64)
  unfold firstSetBit
  rcases hc : p.comp with _ | _ | _
  · have := hp hc; subst this
    simp only [h0, if_false]
    rw [builtinClz_eq h0 hx64]
    unfold subW
    exact congrArg some (by omega)
  · dsimp only
    split
    · next h => rw [bitScanReverse_eq h0 (lt_of_lt_of_le hx (Nat.pow_le_pow_right (by norm_num) h))]; rfl
    · next h =>
      have hw : w = 64 := by omega
      subst hw
      by_cases hh : x >>> 32 = 0
      · have hx32 : x < 2 ^ 32 := by
          rw [Nat.shiftRight_eq_div_pow] at hh
          exact (Nat.div_eq_zero_iff_lt (Nat.two_pow_pos 32)).1 hh
        have e : x &&& 0xFFFFFFFF = x := by
          rw [show (0xFFFFFFFF : Nat) = 2 ^ 32 - 1 from rfl, Nat.and_two_pow_sub_one_eq_mod, Nat.mod_eq_of_lt hx32]
        rw [hh, e, bitScanReverse_eq h0 hx32]
        rfl
      · have hs : x >>> 32 < 2 ^ 32 := by rw [Nat.shiftRight_eq_div_pow]; omega
        rw [bitScanReverse_eq hh hs]
        have : (x >>> 32).log2 + 32 = x.log2 := by
          have h1 : x ≥ 2 ^ 32 := by
            rw [Nat.shiftRight_eq_div_pow] at hh
            by_contra hc
            exact hh (Nat.div_eq_of_lt (by omega))
          have a1 := Nat.log2_self_le hh
          have a2 : x >>> 32 < 2 ^ ((x >>> 32).log2 + 1) := (Nat.log2_lt hh).1 (Nat.lt_succ_self _)
          symm
          rw [Nat.log2_eq_iff h0]
          rw [Nat.shiftRight_eq_div_pow] at a1 a2 ⊢
          constructor
          · rw [Nat.pow_add]; exact Nat.mul_le_of_le_div _ _ _ a1
          · have a3 := (Nat.div_lt_iff_lt_mul (Nat.two_pow_pos 32)).1 a2
            rw [← Nat.pow_add, Nat.add_right_comm] at a3
            exact a3
        simp only; rw [this]
  · dsimp only
    rw [bitScanReverse_eq h0 hx64]; rfl

/-- With gcc the location for a 32-bit type is 32 too small; for all but the largest numbers it wraps around. -/
theorem firstSetBit_gcc32 {p : Plat} {x : Nat} (hp : p.comp = .gcc) (h0 : x ≠ 0) (hx : x < 2 ^ 32) :
    firstSetBit p 32 x = some ((2 ^ 64 - 31 + x.log2) % 2 ^ 64) := by
  have hl : x.log2 < 32 := (Nat.log2_lt h0).2 hx
  unfold firstSetBit
  rw [hp]
  simp only [h0, if_false]
  rw [builtinClz_eq h0 (by omega)]
  unfold subW
  exact congrArg some (by omega)

theorem firstSetBit_zero (p : Plat) (w : Nat) : firstSetBit p w 0 = none := by
  have h : ∀ w, bitScanReverse w 0 = none := by
    intro w
    induction w with
    | zero => rfl
    | succ w ih => unfold bitScanReverse; simp [ih]
  unfold firstSetBit
  rcases p.comp with _ | _ | _ <;> simp [h]

theorem lt_of_log2 {x : Nat} (h0 : x ≠ 0) : x < 2 ^ (x.log2 + 1) := (Nat.log2_lt h0).1 (Nat.lt_succ_self _)

end Rakau
