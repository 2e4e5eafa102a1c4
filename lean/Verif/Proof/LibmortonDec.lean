import Verif.Proof.Libmorton

namespace Rakau
open Spec

/-! ### Tables -/

theorem foldlM_some {α β : Type} {f : β → α → Option β} {g : β → α → β} {l : List α} {b : β} (h : ∀ b, ∀ a ∈ l, f b a = some (g b a)) :
    l.foldlM f b = some (l.foldl g b) := by
  induction l generalizing b with
  | nil => rfl
  | cons a l ih =>
    rw [List.foldlM_cons, h b a List.mem_cons_self]
    simp only [Option.bind_eq_bind, Option.bind_some, List.foldl_cons]
    exact ih (fun b a ha => h b a (List.mem_cons_of_mem _ ha))

theorem decLUT_gather {mw cw d s j o b loops m : Nat} {t : List Nat} (ht : decTabOk d s j t = true) (hs : 0 < s) (hj : j < d)
    (hl : ∀ i < loops, i * (s * d) + o < mw) (hb : b ≤ s * loops) (hbm : b ≤ mw) (hc : b ≤ cw) (hm : m < 2 ^ (b * d)) :
    ∃ x, decLUT mw cw (s * d) s loops t m o = some x ∧ Gather d (j + o) m x := by
  unfold decLUT
  have e : (List.range loops).foldlM (fun a i => do
      let u ← shr mw m (i * (s * d) + o)
      return a ||| (lut t (u &&& (2 ^ (s * d) - 1)) <<< (s * i)) % 2 ^ mw) 0
      = some ((List.range loops).foldl (fun a i => a ||| (lut t (((m >>> o) >>> (i * (s * d))) &&& (2 ^ (s * d) - 1)) <<< (s * i)) % 2 ^ mw) 0) := by
    refine foldlM_some ?_
    intro a i hi
    have : shr mw m (i * (s * d) + o) = some ((m >>> o) >>> (i * (s * d))) := by
      unfold shr
      rw [if_pos (hl i (List.mem_range.1 hi)), ← Nat.shiftRight_add, Nat.add_comm o]
    rw [this]
    rfl
  rw [e]
  refine ⟨_, rfl, ?_⟩
  refine gather_mod hm hc ?_
  intro k
  rw [dec_fold_bits ht hs hj, Nat.testBit_shiftRight, show o + (d * k + j) = d * k + (j + o) by omega]
  by_cases hk : k < b
  · have h1 : k < s * loops := by omega
    have h2 : k < mw := by omega
    simp [h1, h2]
  · have : m.testBit (d * k + (j + o)) = false := by
      apply testBit_of_lt hm
      have : d * b ≤ d * k := Nat.mul_le_mul_left _ (by omega)
      rw [Nat.mul_comm b d]; omega
    simp [this]

theorem decETLoop_gather {mw cw d s j o b m loc : Nat} {t : List Nat} (ht : decTabOk d s j t = true) (hs : 0 < s) (hj : j + o < d)
    (hmw : ∀ r, r * (s * d) < loc → r * (s * d) + o < mw) (hcw : ∀ r, r * (s * d) < loc → s * r < max cw 32)
    (hc : b ≤ cw) (hm : m < 2 ^ (b * d)) (hloc : m < 2 ^ loc) :
    ∀ n r x, loc ≤ (r + n) * (s * d) → (∀ k, x.testBit k = (decide (k < s * r) && m.testBit (d * k + (j + o)))) →
      ∃ y, decETLoop mw cw (s * d) s t m o loc (n + 1) (r * (s * d)) (s * r) x = some y ∧ Gather d (j + o) m y := by
  have fin : ∀ r x, loc ≤ r * (s * d) → (∀ k, x.testBit k = (decide (k < s * r) && m.testBit (d * k + (j + o)))) → Gather d (j + o) m x := by
    intro r x hr hx k
    rw [hx]
    by_cases hk : k < s * r
    · simp [hk]
    · have : m.testBit (d * k + (j + o)) = false := by
        apply testBit_of_lt hloc
        have h1 : d * (s * r) ≤ d * k := Nat.mul_le_mul_left _ (by omega)
        have h2 : r * (s * d) = d * (s * r) := by ring
        omega
      simp [this]
  intro n
  induction n with
  | zero =>
    intro r x hr hx
    refine ⟨x, ?_, fin r x hr hx⟩
    unfold decETLoop
    rw [if_neg (by simpa using hr)]
  | succ n ih =>
    intro r x hr hx
    by_cases hi : r * (s * d) < loc
    · unfold decETLoop
      have e1 : shr mw m (r * (s * d) + o) = some (m >>> (r * (s * d) + o)) := by unfold shr; rw [if_pos (hmw r hi)]
      have e2 : ∀ v, shl (max cw 32) v (s * r) = some ((v <<< (s * r)) % 2 ^ max cw 32) := by
        intro v; unfold shl; rw [if_pos (hcw r hi)]
      rw [if_pos hi, e1]
      simp only [Option.bind_eq_bind, Option.bind_some, e2]
      rw [show r * (s * d) + s * d = (r + 1) * (s * d) by ring, show s * r + s = s * (r + 1) by ring]
      refine ih (r + 1) _ (by rw [show r + 1 + n = r + (n + 1) by omega]; exact hr) ?_
      intro k
      rw [Nat.testBit_mod_two_pow, Nat.testBit_or, hx, Nat.testBit_mod_two_pow, Nat.testBit_shiftLeft, decTab_testBit ht (mask_lt _ _ _), mask_testBit]
      by_cases hk : k < b
      · have h1 : k < cw := by omega
        have h2 : k < max cw 32 := lt_of_lt_of_le h1 (le_max_left _ _)
        by_cases h3 : k < s * r
        · have h4 : ¬ s * r ≤ k := by omega
          have h5 : k < s * (r + 1) := by rw [Nat.mul_add]; omega
          simp [h1, h3, h4, h5]
        · have h4 : s * r ≤ k := by omega
          obtain ⟨q, rfl⟩ : ∃ q, k = s * r + q := ⟨k - s * r, by omega⟩
          have e : s * r + q - s * r = q := by omega
          rw [e]
          by_cases hq : q < s
          · have h5 : s * r + q < s * (r + 1) := by rw [Nat.mul_add]; omega
            have h6 : q * d + j < s * d := by
              calc q * d + j < q * d + d := by omega
                _ = (q + 1) * d := by ring
                _ ≤ s * d := Nat.mul_le_mul_right _ hq
            have h7 : r * (s * d) + o + (q * d + j) = d * (s * r + q) + (j + o) := by ring
            rw [h7]
            simp [h1, h2, h5, h6, hq]
          · have h5 : ¬ s * r + q < s * (r + 1) := by rw [Nat.mul_add]; omega
            simp [h5, hq]
      · have h3 : m.testBit (d * k + (j + o)) = false := by
          apply testBit_of_lt hm
          have : d * b ≤ d * k := Nat.mul_le_mul_left _ (by omega)
          rw [Nat.mul_comm b d]; omega
        rw [h3]
        by_cases h4 : s * r ≤ k
        · obtain ⟨q, rfl⟩ : ∃ q, k = s * r + q := ⟨k - s * r, by omega⟩
          have e : s * r + q - s * r = q := by omega
          have h7 : r * (s * d) + o + (q * d + j) = d * (s * r + q) + (j + o) := by ring
          rw [e, h7, h3]
          simp
        · simp [h4]
    · refine ⟨x, ?_, fin r x (by omega) hx⟩
      unfold decETLoop
      rw [if_neg hi]

theorem decET_gather {p : Plat} {mw cw d s j o m : Nat} {t : List Nat} (ht : decTabOk d s j t = true) (hds : d = 2 ∧ s = 4 ∨ d = 3 ∧ s = 3)
    (hj : j + o < d) (hmw : mw = 32 ∨ mw = 64) (hcw : mw ≤ 2 * cw) (hp : p.comp = .gcc → mw = 64) (hm : m < 2 ^ (mw / d * d)) :
    ∃ y, decET p mw cw (s * d) s t m o = some y ∧ Gather d (j + o) m y := by
  unfold decET
  by_cases h0 : m = 0
  · subst h0
    rw [firstSetBit_zero]
    exact ⟨0, rfl, fun k => by simp⟩
  · have hle : mw / d * d ≤ mw := Nat.div_mul_le_self mw d
    have hm' : m < 2 ^ mw := lt_of_lt_of_le hm (Nat.pow_le_pow_right (by norm_num) hle)
    have hl : m.log2 < mw / d * d := (Nat.log2_lt h0).2 hm
    rw [firstSetBit_eq (by omega) hp h0 hm']
    dsimp only
    have key := decETLoop_gather (mw := mw) (cw := cw) (o := o) (b := mw / d) (m := m) (loc := m.log2 + 1) ht (by omega) hj
      (by rcases hds with ⟨rfl, rfl⟩ | ⟨rfl, rfl⟩ <;> rcases hmw with rfl | rfl <;> intro r hr <;> omega)
      (by
        intro r hr
        have : s * r < 32 := by rcases hds with ⟨rfl, rfl⟩ | ⟨rfl, rfl⟩ <;> rcases hmw with rfl | rfl <;> omega
        exact lt_of_lt_of_le this (le_max_right _ _))
      (by rcases hds with ⟨rfl, rfl⟩ | ⟨rfl, rfl⟩ <;> omega) hm (lt_of_log2 h0) 8 0 0
      (by rcases hds with ⟨rfl, rfl⟩ | ⟨rfl, rfl⟩ <;> omega) (by simp)
    simpa using key

/-- With gcc and 32-bit codes, the loops do not stop before the shift of the code is undefined. -/
theorem decET_narrow {p : Plat} {cw c s m o : Nat} (t : List Nat) (hp : p.comp = .gcc) (hc : c = 8 ∨ c = 9) (h0 : m ≠ 0) (hm : m < 2 ^ 31) :
    decET p 32 cw c s t m o = none := by
  have hl : m.log2 < 31 := (Nat.log2_lt h0).2 hm
  unfold decET
  rw [firstSetBit_gcc32 hp h0 (by omega)]
  dsimp only
  have e : (2 ^ 64 - 31 + m.log2) % 2 ^ 64 = 2 ^ 64 - 31 + m.log2 := Nat.mod_eq_of_lt (by omega)
  rw [e]
  have key : ∀ n i back x, i + n * c < 2 ^ 63 → 32 ≤ i + n * c → decETLoop 32 cw c s t m o (2 ^ 64 - 31 + m.log2) (n + 1) i back x = none := by
    intro n
    induction n with
    | zero =>
      intro i back x h1 h2
      unfold decETLoop
      rw [if_pos (by omega)]
      have : shr 32 m (i + o) = none := by unfold shr; rw [if_neg (by omega)]
      rw [this]; rfl
    | succ n ih =>
      intro i back x h1 h2
      have e : (n + 1) * c = n * c + c := by ring
      unfold decETLoop
      rw [if_pos (by omega)]
      rcases shr 32 m (i + o) with _ | u
      · rfl
      · simp only [Option.bind_eq_bind, Option.bind_some]
        rcases shl (max cw 32) (lut t (u &&& (2 ^ c - 1))) back with _ | v
        · rfl
        · simp only [Option.bind_some]
          exact ih _ _ _ (by omega) (by omega)
  exact key 8 0 0 0 (by omega) (by omega)

/-! ### Magic bits -/

theorem gatherStep_xor (s mask a b : Nat) : gatherStep s mask (a ^^^ b) = gatherStep s mask a ^^^ gatherStep s mask b := by
  unfold gatherStep
  apply Nat.eq_of_testBit_eq
  intro k
  simp only [Nat.testBit_and, Nat.testBit_xor, Nat.testBit_shiftRight]
  generalize a.testBit k = a1; generalize b.testBit k = b1; generalize a.testBit (s + k) = a2; generalize b.testBit (s + k) = b2
  generalize mask.testBit k = c
  revert a1 b1 a2 b2 c; decide

theorem mod_xor (w a b : Nat) : (a ^^^ b) % 2 ^ w = a % 2 ^ w ^^^ b % 2 ^ w := by
  apply Nat.eq_of_testBit_eq
  intro k
  simp only [Nat.testBit_xor, Nat.testBit_mod_two_pow]
  cases decide (k < w) <;> simp

theorem and_xor (m a b : Nat) : (a ^^^ b) &&& m = (a &&& m) ^^^ (b &&& m) := by
  apply Nat.eq_of_testBit_eq
  intro k
  simp only [Nat.testBit_xor, Nat.testBit_and]
  cases m.testBit k <;> simp

theorem get2_xor (mw cw : Nat) (k : List Nat) (a b : Nat) : get2 mw cw k (a ^^^ b) = get2 mw cw k a ^^^ get2 mw cw k b := by
  unfold get2
  dsimp only
  rw [and_xor]
  split <;> simp only [gatherStep_xor, mod_xor]

theorem get3_xor (mw cw : Nat) (k : List Nat) (a b : Nat) : get3 mw cw k (a ^^^ b) = get3 mw cw k a ^^^ get3 mw cw k b := by
  unfold get3
  dsimp only
  rw [and_xor]
  split <;> simp only [gatherStep_xor, mod_xor]

theorem gather_of_basis {b d j : Nat} (hj : j < d) {f : Nat → Nat} (h0 : f 0 = 0) (hom : ∀ a b, f (a ^^^ b) = f a ^^^ f b)
    (basis : ∀ n < b * d, f (2 ^ n) = if n % d = j then 2 ^ (n / d) else 0) {m : Nat} (hm : m < 2 ^ (b * d)) : Gather d j m (f m) := by
  have hd : 0 < d := by omega
  have h := moves_xor (f := f) (N := b * d) (g := fun k => d * k + j) (c := fun k => true) h0 hom (by
    intro n hn k
    rw [basis n hn]
    have hdm := Nat.div_add_mod n d
    by_cases h : d * k + j = n
    · have e1 : n % d = j := by rw [← h, Nat.mul_add_mod, Nat.mod_eq_of_lt hj]
      have e2 : n / d = k := by rw [← h, Nat.mul_add_div hd, Nat.div_eq_of_lt hj, Nat.add_zero]
      simp [e1, e2, h]
    · by_cases h1 : n % d = j
      · have : ¬ n / d = k := by rintro rfl; omega
        simp [h, h1, this]
      · simp [h, h1]) m hm
  intro k
  rw [h]; simp

theorem gather_shift {d j m x s : Nat} (h : Gather d j (m >>> s) x) : Gather d (j + s) m x := by
  intro k
  rw [h, Nat.testBit_shiftRight, show s + (d * k + j) = d * k + (j + s) by omega]

theorem get2_basis32 : ∀ cw ∈ [16, 32, 64], ∀ n < 16 * 2, get2 32 cw m2m32 (2 ^ n) = if n % 2 = 0 then 2 ^ (n / 2) else 0 := by decide +kernel
theorem get2_basis64 : ∀ cw ∈ [32, 64], ∀ n < 32 * 2, get2 64 cw m2m64 (2 ^ n) = if n % 2 = 0 then 2 ^ (n / 2) else 0 := by decide +kernel
theorem get3_basis32 : ∀ cw ∈ [16, 32, 64], ∀ n < 10 * 3, get3 32 cw m3d32 (2 ^ n) = if n % 3 = 0 then 2 ^ (n / 3) else 0 := by decide +kernel
theorem get3_basis64 : ∀ cw ∈ [32, 64], ∀ n < 21 * 3, get3 64 cw m3d64 (2 ^ n) = if n % 3 = 0 then 2 ^ (n / 3) else 0 := by decide +kernel

theorem get2_gather {mw cw m : Nat} (hmw : mw = 32 ∨ mw = 64) (hcw : cw = 16 ∨ cw = 32 ∨ cw = 64) (hc2 : mw ≤ 2 * cw) (hm : m < 2 ^ (mw / 2 * 2)) :
    Gather 2 0 m (get2 mw cw (if mw = 32 then m2m32 else m2m64) m) := by
  rcases hmw with rfl | rfl
  · exact gather_of_basis (b := 16) (by norm_num) (by rcases hcw with rfl | rfl | rfl <;> rfl) (get2_xor _ _ _)
      (get2_basis32 cw (by simpa using hcw)) hm
  · exact gather_of_basis (b := 32) (by norm_num) (by rcases hcw with rfl | rfl | rfl <;> rfl) (get2_xor _ _ _)
      (get2_basis64 cw (by simp; omega)) hm

theorem get3_gather {mw cw m : Nat} (hmw : mw = 32 ∨ mw = 64) (hcw : cw = 16 ∨ cw = 32 ∨ cw = 64) (hc2 : mw ≤ 2 * cw) (hm : m < 2 ^ (mw / 3 * 3)) :
    Gather 3 0 m (get3 mw cw (if mw = 32 then m3d32 else m3d64) m) := by
  rcases hmw with rfl | rfl
  · exact gather_of_basis (b := 10) (by norm_num) (by rcases hcw with rfl | rfl | rfl <;> rfl) (get3_xor _ _ _)
      (get3_basis32 cw (by simpa using hcw)) hm
  · exact gather_of_basis (b := 21) (by norm_num) (by rcases hcw with rfl | rfl | rfl <;> rfl) (get3_xor _ _ _)
      (get3_basis64 cw (by simp; omega)) hm

theorem shiftRight_lt {m N s : Nat} (h : m < 2 ^ N) : m >>> s < 2 ^ N := by
  rw [Nat.shiftRight_eq_div_pow]
  exact lt_of_le_of_lt (Nat.div_le_self _ _) h

/-! ### `pext` -/

theorem pext_xor : ∀ (n a b mask : Nat), pext n (a ^^^ b) mask = pext n a mask ^^^ pext n b mask := by
  intro n
  induction n with
  | zero => intros; simp [pext]
  | succ n ih =>
    intro a b mask
    have e : (a ^^^ b) / 2 = a / 2 ^^^ b / 2 := by
      apply Nat.eq_of_testBit_eq
      intro i
      simp only [Nat.testBit_div_two, Nat.testBit_xor]
    have step : ∀ u v, (u % 2 + 2 * v).testBit 0 = u.testBit 0 ∧ ∀ k, (u % 2 + 2 * v).testBit (k + 1) = v.testBit k := by
      intro u v
      constructor
      · rw [Nat.testBit_zero, Nat.testBit_zero, show (u % 2 + 2 * v) % 2 = u % 2 by omega]
      · intro k; rw [Nat.testBit_succ, show (u % 2 + 2 * v) / 2 = v by omega]
    unfold pext
    split
    · rw [e, ih]
      apply Nat.eq_of_testBit_eq
      intro k
      cases k with
      | zero => rw [Nat.testBit_xor, (step _ _).1, (step _ _).1, (step _ _).1, Nat.testBit_xor]
      | succ k => rw [Nat.testBit_xor, (step _ _).2, (step _ _).2, (step _ _).2, Nat.testBit_xor]
    · rw [e, ih]

theorem pext_zero : ∀ n mask, pext n 0 mask = 0 := by
  intro n
  induction n with
  | zero => intros; rfl
  | succ n ih => intro mask; unfold pext; simp [ih]

theorem pext2_basis32 : ∀ n < 16 * 2, pext 32 (2 ^ n) (0x5555555555555555 % 2 ^ 32) = (if n % 2 = 0 then 2 ^ (n / 2) else 0) ∧
    pext 32 (2 ^ n) (0xAAAAAAAAAAAAAAAA % 2 ^ 32) = (if n % 2 = 1 then 2 ^ (n / 2) else 0) := by decide +kernel
theorem pext2_basis64 : ∀ n < 32 * 2, pext 64 (2 ^ n) (0x5555555555555555 % 2 ^ 64) = (if n % 2 = 0 then 2 ^ (n / 2) else 0) ∧
    pext 64 (2 ^ n) (0xAAAAAAAAAAAAAAAA % 2 ^ 64) = (if n % 2 = 1 then 2 ^ (n / 2) else 0) := by decide +kernel
theorem pext3_basis32 : ∀ n < 10 * 3, pext 32 (2 ^ n) (0x9249249249249249 % 2 ^ 32) = (if n % 3 = 0 then 2 ^ (n / 3) else 0) ∧
    pext 32 (2 ^ n) (0x2492492492492492 % 2 ^ 32) = (if n % 3 = 1 then 2 ^ (n / 3) else 0) ∧
    pext 32 (2 ^ n) (0x4924924924924924 % 2 ^ 32) = (if n % 3 = 2 then 2 ^ (n / 3) else 0) := by decide +kernel
theorem pext3_basis64 : ∀ n < 21 * 3, pext 64 (2 ^ n) (0x9249249249249249 % 2 ^ 64) = (if n % 3 = 0 then 2 ^ (n / 3) else 0) ∧
    pext 64 (2 ^ n) (0x2492492492492492 % 2 ^ 64) = (if n % 3 = 1 then 2 ^ (n / 3) else 0) ∧
    pext 64 (2 ^ n) (0x4924924924924924 % 2 ^ 64) = (if n % 3 = 2 then 2 ^ (n / 3) else 0) := by decide +kernel

theorem decBMI_decoded {mw cw d m : Nat} (hmw : mw = 32 ∨ mw = 64) (hd : d = 2 ∨ d = 3) (hc2 : mw ≤ 2 * cw) (hm : m < 2 ^ (mw / d * d)) :
    ∃ xs, decBMI mw cw d m = some xs ∧ Decoded (mw / d) d m xs := by
  unfold decBMI
  have hb : mw / d ≤ cw := by rcases hd with rfl | rfl <;> omega
  rcases hd with rfl | rfl
  · rw [if_pos rfl]
    refine ⟨_, rfl, decoded2 hm (gather_mod hm hb ?_) (gather_mod hm hb ?_)⟩
    · rcases hmw with rfl | rfl
      · exact gather_of_basis (b := 16) (f := fun m => pext 32 m (0x5555555555555555 % 2 ^ 32)) (by norm_num) (pext_zero _ _)
          (fun a b => pext_xor _ a b _) (fun n h => (pext2_basis32 n h).1) hm
      · exact gather_of_basis (b := 32) (f := fun m => pext 64 m (0x5555555555555555 % 2 ^ 64)) (by norm_num) (pext_zero _ _)
          (fun a b => pext_xor _ a b _) (fun n h => (pext2_basis64 n h).1) hm
    · rcases hmw with rfl | rfl
      · exact gather_of_basis (b := 16) (f := fun m => pext 32 m (0xAAAAAAAAAAAAAAAA % 2 ^ 32)) (by norm_num) (pext_zero _ _)
          (fun a b => pext_xor _ a b _) (fun n h => (pext2_basis32 n h).2) hm
      · exact gather_of_basis (b := 32) (f := fun m => pext 64 m (0xAAAAAAAAAAAAAAAA % 2 ^ 64)) (by norm_num) (pext_zero _ _)
          (fun a b => pext_xor _ a b _) (fun n h => (pext2_basis64 n h).2) hm
  · rw [if_neg (by norm_num), if_pos rfl]
    refine ⟨_, rfl, decoded3 hm (gather_mod hm hb ?_) (gather_mod hm hb ?_) (gather_mod hm hb ?_)⟩
    · rcases hmw with rfl | rfl
      · exact gather_of_basis (b := 10) (f := fun m => pext 32 m (0x9249249249249249 % 2 ^ 32)) (by norm_num) (pext_zero _ _)
          (fun a b => pext_xor _ a b _) (fun n h => (pext3_basis32 n h).1) hm
      · exact gather_of_basis (b := 21) (f := fun m => pext 64 m (0x9249249249249249 % 2 ^ 64)) (by norm_num) (pext_zero _ _)
          (fun a b => pext_xor _ a b _) (fun n h => (pext3_basis64 n h).1) hm
    · rcases hmw with rfl | rfl
      · exact gather_of_basis (b := 10) (f := fun m => pext 32 m (0x2492492492492492 % 2 ^ 32)) (by norm_num) (pext_zero _ _)
          (fun a b => pext_xor _ a b _) (fun n h => (pext3_basis32 n h).2.1) hm
      · exact gather_of_basis (b := 21) (f := fun m => pext 64 m (0x2492492492492492 % 2 ^ 64)) (by norm_num) (pext_zero _ _)
          (fun a b => pext_xor _ a b _) (fun n h => (pext3_basis64 n h).2.1) hm
    · rcases hmw with rfl | rfl
      · exact gather_of_basis (b := 10) (f := fun m => pext 32 m (0x4924924924924924 % 2 ^ 32)) (by norm_num) (pext_zero _ _)
          (fun a b => pext_xor _ a b _) (fun n h => (pext3_basis32 n h).2.2) hm
      · exact gather_of_basis (b := 21) (f := fun m => pext 64 m (0x4924924924924924 % 2 ^ 64)) (by norm_num) (pext_zero _ _)
          (fun a b => pext_xor _ a b _) (fun n h => (pext3_basis64 n h).2.2) hm

/-! ### For loops -/

theorem decForC_gather {mw cw d j m b : Nat} (hj : j < d) (hb : b ≤ cw) (hm : m < 2 ^ (b * d)) :
    ∀ n, (∀ i < n, d * i + j < mw) → ∃ x, (List.range n).foldlM (fun x i => do
        let one ← shl mw 1 (d * i + j)
        let v ← shr mw (m &&& one) ((d - 1) * i + j)
        return (x ||| v) % 2 ^ cw) 0 = some x ∧ ∀ k, x.testBit k = (decide (k < n) && m.testBit (d * k + j)) := by
  have hd : 0 < d := by omega
  intro n
  induction n with
  | zero => intro _; exact ⟨0, rfl, by simp⟩
  | succ n ih =>
    intro h
    obtain ⟨a, e, ha⟩ := ih (fun i hi => h i (by omega))
    have hn := h n (by omega)
    have hs : (d - 1) * n + j + n = d * n + j := by
      obtain ⟨e', rfl⟩ : ∃ e', d = e' + 1 := ⟨d - 1, by omega⟩
      simp only [Nat.add_sub_cancel, Nat.add_mul, Nat.one_mul]; omega
    refine ⟨(a ||| (m &&& 2 ^ (d * n + j)) >>> ((d - 1) * n + j)) % 2 ^ cw, ?_, ?_⟩
    · rw [List.range_succ, List.foldlM_append, e]
      have e1 : shl mw 1 (d * n + j) = some (2 ^ (d * n + j)) := by
        unfold shl
        rw [if_pos hn, Nat.one_shiftLeft, Nat.mod_eq_of_lt (Nat.pow_lt_pow_right (by norm_num) hn)]
      have e2 : shr mw (m &&& 2 ^ (d * n + j)) ((d - 1) * n + j) = some ((m &&& 2 ^ (d * n + j)) >>> ((d - 1) * n + j)) := by
        unfold shr; rw [if_pos (by omega)]
      simp [e1, e2]
    · intro k
      rw [Nat.testBit_mod_two_pow, Nat.testBit_or, ha, Nat.testBit_shiftRight, Nat.testBit_and, Nat.testBit_two_pow]
      by_cases hk : k < b
      · have h1 : k < cw := by omega
        by_cases h2 : k = n
        · subst h2
          rw [hs]; simp [h1]
        · have h3 : ¬ d * n + j = (d - 1) * n + j + k := by omega
          have h4 : decide (k < n + 1) = decide (k < n) := by simp only [decide_eq_decide]; omega
          simp [h1, h3, h4]
      · have h3 : m.testBit (d * k + j) = false := by
          apply testBit_of_lt hm
          have : d * b ≤ d * k := Nat.mul_le_mul_left _ (by omega)
          rw [Nat.mul_comm b d]; omega
        rw [h3]
        by_cases h2 : d * n + j = (d - 1) * n + j + k
        · have : k = n := by omega
          subst this
          rw [hs, h3]; simp
        · simp [h2]

theorem decForC_none {mw cw d j n m : Nat} (h : mw ≤ d * n + j) : decForC mw cw d j n m = none := by
  unfold decForC
  rw [List.range_succ, List.foldlM_append]
  have e1 : shl mw 1 (d * n + j) = none := by unfold shl; rw [if_neg (by omega)]
  rw [Option.bind_eq_bind, Option.bind_eq_none_iff]
  intro a _
  simp [e1]

theorem libMapM_none {α β : Type} {f : α → Option β} {l : List α} {a : α} (ha : a ∈ l) (h : f a = none) : l.mapM f = none := by
  induction l with
  | nil => cases ha
  | cons b l ih =>
    rw [List.mapM_cons]
    rcases List.mem_cons.1 ha with rfl | ha
    · rw [h]; rfl
    · rw [ih ha]; cases f b <;> rfl

theorem mapM_pair {α β : Type} {f : α → Option β} {a b : α} {x y : β} (h1 : f a = some x) (h2 : f b = some y) : [a, b].mapM f = some [x, y] := by
  simp [h1, h2]

theorem mapM_triple {α β : Type} {f : α → Option β} {a b c : α} {x y z : β} (h1 : f a = some x) (h2 : f b = some y) (h3 : f c = some z) :
    [a, b, c].mapM f = some [x, y, z] := by
  simp [h1, h2, h3]

theorem loopET_decoded {mw cw d m loc : Nat} (hd : d = 2 ∨ d = 3) (hc2 : mw ≤ 2 * cw) (hm : m < 2 ^ loc)
    (hl : loc < mw / d * d) :
    ∃ xs, (List.range d).mapM (fun j => decForC mw cw d j (decForETBits mw d loc) m) = some xs ∧ Decoded (mw / d) d m xs := by
  have hm' : m < 2 ^ (mw / d * d) := lt_trans hm (Nat.pow_lt_pow_right (by norm_num) hl)
  have hb : mw / d ≤ cw := by rcases hd with rfl | rfl <;> omega
  have hn : decForETBits mw d loc = loc / d := by
    unfold decForETBits
    exact min_eq_right (by rcases hd with rfl | rfl <;> omega)
  have key : ∀ j < d, ∃ x, decForC mw cw d j (decForETBits mw d loc) m = some x ∧ Gather d j m x := by
    intro j hj
    rw [hn]
    obtain ⟨x, e, h⟩ := decForC_gather (mw := mw) (cw := cw) hj hb hm' (loc / d + 1) (by
      intro i hi
      rcases hd with rfl | rfl <;> omega)
    refine ⟨x, e, ?_⟩
    intro k
    rw [h]
    by_cases hk : k < loc / d + 1
    · simp [hk]
    · have : m.testBit (d * k + j) = false := testBit_of_lt hm (by rcases hd with rfl | rfl <;> omega)
      simp [this]
  rcases hd with rfl | rfl
  · obtain ⟨x, e1, h1⟩ := key 0 (by norm_num)
    obtain ⟨y, e2, h2⟩ := key 1 (by norm_num)
    exact ⟨[x, y], mapM_pair e1 e2, decoded2 hm' h1 h2⟩
  · obtain ⟨x, e1, h1⟩ := key 0 (by norm_num)
    obtain ⟨y, e2, h2⟩ := key 1 (by norm_num)
    obtain ⟨z, e3, h3⟩ := key 2 (by norm_num)
    exact ⟨[x, y, z], mapM_triple e1 e2 e3, decoded3 hm' h1 h2 h3⟩

/-- A loop with all bits of the code: the last round shifts too far. -/
theorem loop_none {mw cw d m : Nat} (hmw : mw = 32 ∨ mw = 64) (hd : d = 2 ∨ d = 3) :
    (List.range d).mapM (fun j => decForC mw cw d j (mw / d) m) = none := by
  refine libMapM_none (a := d - 1) (List.mem_range.2 (by omega)) (decForC_none ?_)
  rcases hd with rfl | rfl <;> rcases hmw with rfl | rfl <;> norm_num

end Rakau
