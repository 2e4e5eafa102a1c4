import Verif.Model.Bits
import Verif.Spec.Path
import Mathlib.Tactic.Ring
import Mathlib.Tactic.Linarith
import Mathlib.Data.Nat.Log
import Mathlib.Data.List.Lex

namespace Rakau
open Spec

/-! ### Leading zeros -/

theorem log2_eq_of_testBit {w n : Nat} (h : n < 2 ^ (w + 1)) (hb : n.testBit w = true) : n.log2 = w := by
  have h1 : 2 ^ w ≤ n := Nat.ge_two_pow_of_testBit hb
  have hn : n ≠ 0 := by have := Nat.two_pow_pos w; omega
  have h2 : n.log2 < w + 1 := (Nat.log2_lt hn).2 h
  have h3 : w ≤ n.log2 := (Nat.le_log2 hn).2 h1
  omega

theorem lt_of_not_testBit {w n : Nat} (h : n < 2 ^ (w + 1)) (hb : ¬ n.testBit w = true) : n < 2 ^ w := by
  by_contra hc
  apply hb
  have h1 : 2 ^ w ≤ n := by omega
  rw [Nat.testBit_eq_decide_div_mod_eq]
  have : n / 2 ^ w = 1 := by
    apply Nat.div_eq_of_lt_le
    · omega
    · rw [pow_succ] at h; omega
  simp [this]

theorem builtinClz_eq {w n : Nat} (hn : n ≠ 0) (h : n < 2 ^ w) : builtinClz w n = w - 1 - n.log2 := by
  induction w with
  | zero => simp at h; omega
  | succ w ih =>
    unfold builtinClz
    split
    · rename_i hb; rw [log2_eq_of_testBit h hb]; omega
    · rename_i hb
      have h' := lt_of_not_testBit h hb
      rw [ih h']
      have : n.log2 < w := (Nat.log2_lt hn).2 h'
      omega

theorem bitScanReverse_eq {w n : Nat} (hn : n ≠ 0) (h : n < 2 ^ w) : bitScanReverse w n = some n.log2 := by
  induction w with
  | zero => simp at h; omega
  | succ w ih =>
    unfold bitScanReverse
    split
    · rename_i hb; rw [log2_eq_of_testBit h hb]
    · rename_i hb; exact ih (lt_of_not_testBit h hb)

theorem testBit_log2 {n : Nat} (hn : n ≠ 0) : n.testBit n.log2 = true := by
  have h1 : 2 ^ n.log2 ≤ n := Nat.log2_self_le hn
  have h2 : n < 2 ^ (n.log2 + 1) := Nat.lt_log2_self
  rw [Nat.testBit_eq_decide_div_mod_eq]
  have : n / 2 ^ n.log2 = 1 := by
    apply Nat.div_eq_of_lt_le
    · omega
    · rw [pow_succ] at h2; omega
  simp [this]

theorem testBit_above_log2 {n j : Nat} (h : n.log2 < j) : n.testBit j = false := by
  apply Nat.testBit_lt_two_pow
  exact lt_of_lt_of_le Nat.lt_log2_self (Nat.pow_le_pow_right (by norm_num) h)

theorem isLeadingZeros_log2 {w n : Nat} (hn : n ≠ 0) (h : n < 2 ^ w) :
    IsLeadingZeros w n (w - 1 - n.log2) := by
  have h1 : n.log2 < w := (Nat.log2_lt hn).2 h
  have h2 : w - 1 - (w - 1 - n.log2) = n.log2 := by omega
  refine ⟨by omega, ?_, ?_⟩
  · rw [h2]; exact testBit_log2 hn
  · rw [h2]; intro j hj; exact testBit_above_log2 hj

theorem log2_shiftRight {n k : Nat} (hn : n >>> k ≠ 0) : (n >>> k).log2 = n.log2 - k ∧ k ≤ n.log2 := by
  have hn0 : n ≠ 0 := by rintro rfl; simp at hn
  rw [Nat.shiftRight_eq_div_pow] at *
  have hk : 0 < 2 ^ k := Nat.two_pow_pos k
  have h0 := Nat.log2_self_le hn
  have h1 : n / 2 ^ k < 2 ^ ((n / 2 ^ k).log2 + 1) := Nat.lt_log2_self
  have e1 : 2 ^ ((n / 2 ^ k).log2 + k) ≤ n := by
    rw [pow_add]
    exact (Nat.le_div_iff_mul_le hk).1 h0
  have e2 : n < 2 ^ ((n / 2 ^ k).log2 + 1 + k) := by
    rw [pow_add]
    exact (Nat.div_lt_iff_lt_mul hk).1 h1
  have a1 : (n / 2 ^ k).log2 + k ≤ n.log2 := (Nat.le_log2 hn0).2 e1
  have a2 : n.log2 < (n / 2 ^ k).log2 + 1 + k := (Nat.log2_lt hn0).2 e2
  omega

/-! ### Path codes -/

theorem code_append (d : Nat) (p : Path) (i : Nat) : Path.code d (p ++ [i]) = Path.code d p * 2 ^ d + i := by
  simp [Path.code, List.foldl_append]

/-- Positional value of a path padded to `L` digits. -/
def posVal (d : Nat) : Nat → Path → Nat
  | _, [] => 0
  | 0, _ :: _ => 0
  | L + 1, i :: p => i * 2 ^ (L * d) + posVal d L p

theorem foldl_code (d : Nat) (p : Path) (c : Nat) :
    p.foldl (fun c i => c * 2 ^ d + i) c = c * 2 ^ (p.length * d) + posVal d p.length p := by
  induction p generalizing c with
  | nil => simp [posVal]
  | cons i p ih =>
    simp only [List.foldl_cons, List.length_cons, posVal]
    rw [ih]
    have : (p.length + 1) * d = d + p.length * d := by ring
    rw [this, pow_add]; ring

theorem code_eq (d : Nat) (p : Path) : Path.code d p = 2 ^ (p.length * d) + posVal d p.length p := by
  unfold Path.code; rw [foldl_code]; ring

theorem posVal_lt (d : Nat) (L : Nat) (p : Path) (hp : Path.Ok d p) (hl : p.length ≤ L) :
    posVal d L p < 2 ^ (L * d) := by
  induction p generalizing L with
  | nil => simp [posVal]
  | cons i p ih =>
    cases L with
    | zero => simp at hl
    | succ L =>
      simp only [posVal]
      have h1 := ih L (fun j hj => hp j (List.mem_cons_of_mem _ hj)) (by simpa using hl)
      have h2 : i < 2 ^ d := hp i (List.mem_cons_self)
      have e : 2 ^ ((L + 1) * d) = 2 ^ d * 2 ^ (L * d) := by rw [← pow_add]; congr 1; ring
      rw [e]
      calc i * 2 ^ (L * d) + posVal d L p < i * 2 ^ (L * d) + 2 ^ (L * d) := by omega
        _ = (i + 1) * 2 ^ (L * d) := by ring
        _ ≤ _ := Nat.mul_le_mul_right _ h2

theorem posVal_pad (d : Nat) (k : Nat) (p : Path) :
    posVal d p.length p * 2 ^ (k * d) = posVal d (p.length + k) p := by
  induction p with
  | nil => simp [posVal]
  | cons i p ih =>
    have h1 : (i :: p).length + k = (p.length + k) + 1 := by simp; omega
    rw [h1]
    simp only [List.length_cons, posVal]
    rw [add_mul, ih, Nat.add_mul p.length k d, pow_add]; ring

theorem code_shift (d L : Nat) (p : Path) (hl : p.length ≤ L) :
    Path.code d p * 2 ^ ((L - p.length) * d) = 2 ^ (L * d) + posVal d L p := by
  rw [code_eq, add_mul, posVal_pad, ← pow_add]
  congr 2
  · rw [← add_mul]; congr 1; omega
  · omega

theorem code_pos (d : Nat) (p : Path) : 0 < Path.code d p := by
  rw [code_eq]; have := Nat.two_pow_pos (p.length * d); omega

theorem code_lt (d : Nat) (p : Path) (hp : Path.Ok d p) : Path.code d p < 2 ^ (p.length * d + 1) := by
  rw [code_eq, pow_succ]; have := posVal_lt d p.length p hp le_rfl; omega

theorem code_log2 (d : Nat) (p : Path) (hp : Path.Ok d p) : (Path.code d p).log2 = p.length * d := by
  have hn : Path.code d p ≠ 0 := (code_pos d p).ne'
  have h1 : p.length * d ≤ (Path.code d p).log2 := (Nat.le_log2 hn).2 (by rw [code_eq]; omega)
  have h2 : (Path.code d p).log2 < p.length * d + 1 := (Nat.log2_lt hn).2 (code_lt d p hp)
  omega

/-! ### cbits -/

theorem cbits_mul_lt {w d : Nat} (hd : 0 < d) (hw : d < w) : cbits w d * d < w := by
  unfold cbits
  have h := Nat.div_add_mod w d
  split
  · rename_i h0
    have : 1 ≤ w / d := by rw [Nat.le_div_iff_mul_le hd]; omega
    rw [Nat.sub_mul]
    have : w / d * d = w := by rw [mul_comm]; omega
    omega
  · have : w / d * d = d * (w / d) := mul_comm _ _
    simp; omega

/-- `cbits` is the largest level count that leaves room for the leading one bit. -/
theorem lt_cbits_succ_mul {w d : Nat} (hd : 0 < d) (hw : d < w) : w ≤ (cbits w d + 1) * d := by
  unfold cbits
  have h := Nat.div_add_mod w d
  have hm := Nat.mod_lt w hd
  have e : w / d * d = d * (w / d) := mul_comm _ _
  split
  · rename_i h0
    have : 1 ≤ w / d := by rw [Nat.le_div_iff_mul_le hd]; omega
    have : w / d - 1 + 1 = w / d := by omega
    rw [this]; omega
  · simp only [Nat.sub_zero]; rw [add_mul]; omega

theorem code_lt_two_pow {w d : Nat} (hd : 0 < d) (hw : d < w) (p : Path) (hp : Path.Ok d p)
    (hl : p.length ≤ cbits w d) : Path.code d p < 2 ^ w := by
  refine lt_of_lt_of_le (code_lt d p hp) (Nat.pow_le_pow_right (by norm_num) ?_)
  have := cbits_mul_lt hd hw
  have : p.length * d ≤ cbits w d * d := Nat.mul_le_mul_right _ hl
  omega

theorem treeLevel_code {w d : Nat} (hd : 0 < d) (hw : d < w) (p : Path) (hp : Path.Ok d p)
    (hl : p.length ≤ cbits w d) : treeLevel w d (Path.code d p) = p.length := by
  unfold treeLevel clz
  rw [builtinClz_eq (code_pos d p).ne' (code_lt_two_pow hd hw p hp hl), code_log2 d p hp]
  have := cbits_mul_lt hd hw
  have : p.length * d ≤ cbits w d * d := Nat.mul_le_mul_right _ hl
  have : w - 1 - (w - 1 - p.length * d) = p.length * d := by omega
  rw [this, Nat.mul_div_cancel _ hd]

/-! ### Comparison of padded paths -/

theorem lex_posVal (d : Nat) (L : Nat) (p q : Path) (hp : Path.Ok d p) (hq : Path.Ok d q)
    (hpl : p.length ≤ L) (hql : q.length ≤ L) :
    (posVal d L p < posVal d L q ∨ (posVal d L p = posVal d L q ∧ p.length < q.length)) ↔ Path.Before p q := by
  induction L generalizing p q with
  | zero =>
    have h1 : p = [] := List.length_eq_zero_iff.1 (by omega)
    have h2 : q = [] := List.length_eq_zero_iff.1 (by omega)
    subst h1 h2; simp [posVal]
  | succ L ih =>
    cases p with
    | nil =>
      cases q with
      | nil => simp [posVal]
      | cons j q =>
        simp only [posVal, List.length_nil, List.length_cons]
        constructor
        · intro _; exact List.Lex.nil
        · intro _; omega
    | cons i p =>
      have hp' : Path.Ok d p := fun j hj => hp j (List.mem_cons_of_mem _ hj)
      cases q with
      | nil =>
        constructor
        · intro h; simp [posVal] at h
        · intro h; cases h
      | cons j q =>
        have hq' : Path.Ok d q := fun j hj => hq j (List.mem_cons_of_mem _ hj)
        have hpl' : p.length ≤ L := by simpa using hpl
        have hql' : q.length ≤ L := by simpa using hql
        have hP := posVal_lt d L p hp' hpl'
        have hQ := posVal_lt d L q hq' hql'
        simp only [posVal, List.length_cons]
        rcases lt_trichotomy i j with hij | hij | hij
        · have : i * 2 ^ (L * d) + 2 ^ (L * d) ≤ j * 2 ^ (L * d) := by
            rw [← Nat.succ_mul]; exact Nat.mul_le_mul_right _ hij
          constructor
          · intro _; exact List.Lex.rel hij
          · intro _; left; omega
        · subst hij
          have := ih p q hp' hq' hpl' hql'
          constructor
          · intro h; exact List.Lex.cons (this.1 (by omega))
          · intro h
            have h' : Path.Before p q := by
              cases h with
              | cons h => exact h
              | rel h => exact absurd h (lt_irrefl _)
            have := this.2 h'; omega
        · have : j * 2 ^ (L * d) + 2 ^ (L * d) ≤ i * 2 ^ (L * d) := by
            rw [← Nat.succ_mul]; exact Nat.mul_le_mul_right _ hij
          constructor
          · intro h; omega
          · intro h
            cases h with
            | cons h => exact absurd hij (lt_irrefl _)
            | rel h => omega

theorem subW_eq {w a b : Nat} (hb : b ≤ a) (ha : a < 2 ^ w) : subW w a b = a - b := by
  unfold subW
  have : a + 2 ^ w - b = (a - b) + 2 ^ w := by omega
  rw [this, Nat.add_mod_right, Nat.mod_eq_of_lt (by omega)]

theorem cbits_le (w d : Nat) : cbits w d ≤ w := by
  unfold cbits; have := Nat.div_le_self w d; omega

theorem cbits_lt_two_pow (w d : Nat) : cbits w d < 2 ^ w :=
  lt_of_le_of_lt (cbits_le w d) Nat.lt_two_pow_self

theorem shl_code {w d : Nat} (hd : 0 < d) (hw : d < w) (hw64 : w ≤ 64) (p : Path) (hp : Path.Ok d p)
    (hl : p.length ≤ cbits w d) :
    shl w (Path.code d p) (mulSz (subW w (cbits w d) (treeLevel w d (Path.code d p))) d)
      = some (2 ^ (cbits w d * d) + posVal d (cbits w d) p) := by
  rw [treeLevel_code hd hw p hp hl, subW_eq hl (cbits_lt_two_pow w d)]
  have hcb := cbits_mul_lt hd hw
  have hle : (cbits w d - p.length) * d ≤ cbits w d * d := Nat.mul_le_mul_right _ (Nat.sub_le _ _)
  have hk : mulSz (cbits w d - p.length) d = (cbits w d - p.length) * d := by
    unfold mulSz; apply Nat.mod_eq_of_lt
    have : (64 : Nat) < 2 ^ 64 := Nat.lt_two_pow_self
    omega
  rw [hk]
  unfold shl
  rw [if_pos (by omega), Nat.shiftLeft_eq, code_shift d _ p hl, Nat.mod_eq_of_lt]
  have := posVal_lt d (cbits w d) p hp hl
  calc 2 ^ (cbits w d * d) + posVal d (cbits w d) p < 2 ^ (cbits w d * d + 1) := by rw [pow_succ]; omega
    _ ≤ 2 ^ w := Nat.pow_le_pow_right (by norm_num) hcb

theorem nodeCompare_code {w d : Nat} (hd : 0 < d) (hw : d < w) (hw64 : w ≤ 64) (p q : Path) (hp : Path.Ok d p)
    (hq : Path.Ok d q) (hpl : p.length ≤ cbits w d) (hql : q.length ≤ cbits w d) :
    ∃ b, nodeCompare w d (Path.code d p) (Path.code d q) = some b ∧ (b = true ↔ Path.Before p q) := by
  unfold nodeCompare
  have h1 := shl_code hd hw hw64 p hp hpl
  have h2 := shl_code hd hw hw64 q hq hql
  rw [treeLevel_code hd hw p hp hpl] at h1
  rw [treeLevel_code hd hw q hq hql] at h2
  simp only [treeLevel_code hd hw p hp hpl, treeLevel_code hd hw q hq hql, h1, h2]
  refine ⟨_, rfl, ?_⟩
  rw [← lex_posVal d (cbits w d) p q hp hq hpl hql]
  simp

/-- Distinct paths have distinct codes. -/
theorem code_inj (d : Nat) (hd : 0 < d) (p q : Path) (hp : Path.Ok d p) (hq : Path.Ok d q)
    (h : Path.code d p = Path.code d q) : p = q := by
  have hl : p.length = q.length := by
    have h1 := code_log2 d p hp
    have h2 := code_log2 d q hq
    rw [h] at h1
    exact Nat.eq_of_mul_eq_mul_right hd (h1.symm.trans h2)
  have hv : posVal d p.length p = posVal d p.length q := by
    have e1 := code_eq d p; have e2 := code_eq d q
    rw [← hl] at e2; omega
  rcases lt_trichotomy p q with hlt | heq | hgt
  · have := (lex_posVal d p.length p q hp hq le_rfl hl.symm.le).2 hlt
    omega
  · exact heq
  · have := (lex_posVal d p.length q p hq hp hl.symm.le le_rfl).2 hgt
    omega

/-- Every positive number whose bit length is `1 + L*d` is the code of a path of length `L`. -/
theorem exists_path (d : Nat) (L n : Nat) (h1 : 2 ^ (L * d) ≤ n) (h2 : n < 2 ^ (L * d + 1)) :
    ∃ p : Path, p.length = L ∧ Path.Ok d p ∧ Path.code d p = n := by
  induction L generalizing n with
  | zero => simp at h1 h2; exact ⟨[], rfl, by simp [Path.Ok], by simp [Path.code]; omega⟩
  | succ L ih =>
    have e : (L + 1) * d = L * d + d := by ring
    have hpos := Nat.two_pow_pos d
    have g1 : 2 ^ (L * d) ≤ n / 2 ^ d := by
      rw [Nat.le_div_iff_mul_le hpos, ← pow_add, ← e]; exact h1
    have g2 : n / 2 ^ d < 2 ^ (L * d + 1) := by
      rw [Nat.div_lt_iff_lt_mul hpos, ← pow_add]
      have : L * d + 1 + d = (L + 1) * d + 1 := by rw [e]; omega
      rw [this]; exact h2
    obtain ⟨p, hp1, hp2, hp3⟩ := ih (n / 2 ^ d) g1 g2
    refine ⟨p ++ [n % 2 ^ d], by simp [hp1], ?_, ?_⟩
    · intro i hi
      rcases List.mem_append.1 hi with hi | hi
      · exact hp2 i hi
      · simp at hi; rw [hi]; exact Nat.mod_lt _ hpos
    · rw [code_append, hp3]; rw [mul_comm]; exact Nat.div_add_mod n (2 ^ d)

end Rakau
