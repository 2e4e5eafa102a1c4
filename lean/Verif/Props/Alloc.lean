import Verif.Model.Alloc
import Mathlib.Data.Nat.Bitwise
import Mathlib.Tactic.Positivity

/-! Property theorems about the allocator of the particle vectors (C45). -/
namespace Rakau

/-- C45: for every number of elements up to `max_size()`, the size in bytes that is requested has room for all elements, it is the
smallest multiple of the alignment with room for all elements, and its computation does not wrap around. -/
theorem C45_bytes {al sz n : Nat} (hal : al < 2 ^ 64) (hsz : 0 < sz) (hn : n ≤ allocMaxSize al sz) :
    n * sz ≤ (allocCall al sz n).bytes ∧ (allocCall al sz n).bytes < 2 ^ 64 ∧
    (al = 0 → allocCall al sz n = .malloc (n * sz)) ∧
    (al ≠ 0 → ∃ b, allocCall al sz n = .aligned al b ∧ al ∣ b ∧ ∀ b', n * sz ≤ b' → al ∣ b' → b ≤ b') := by
  have h64 : (2 : Nat) ^ 64 = 18446744073709551616 := rfl
  have hmx : allocMaxSize al sz = (2 ^ 64 - 1 - al) / sz := by
    unfold allocMaxSize subW szMax
    congr 1
    rw [show 2 ^ 64 - 1 + 2 ^ 64 - al = (2 ^ 64 - 1 - al) + 2 ^ 64 by omega, Nat.add_mod_right, Nat.mod_eq_of_lt (by omega)]
  have hb : n * sz ≤ 2 ^ 64 - 1 - al := by
    rw [hmx, Nat.le_div_iff_mul_le hsz] at hn
    exact hn
  have hsize : n * sz % 2 ^ 64 = n * sz := Nat.mod_eq_of_lt (by omega)
  by_cases h0 : al = 0
  · have e : allocCall al sz n = .malloc (n * sz) := by
      unfold allocCall
      simp only [hsize]
      rw [if_pos h0]
    rw [e]
    exact ⟨Nat.le_refl _, by show n * sz < _; omega, fun _ => rfl, fun h => absurd h0 h⟩
  · have hpos : 0 < al := by omega
    have hr : n * sz % al < al := Nat.mod_lt _ hpos
    by_cases hrem : n * sz % al = 0
    · have e : allocCall al sz n = .aligned al (n * sz) := by
        unfold allocCall
        simp only [hsize]
        rw [if_neg h0, if_neg (by simpa using hrem)]
      rw [e]
      exact ⟨Nat.le_refl _, by show n * sz < _; omega, fun h => absurd h h0,
        fun _ => ⟨_, rfl, Nat.dvd_of_mod_eq_zero hrem, fun b' h _ => h⟩⟩
    · have e : allocCall al sz n = .aligned al (n * sz + (al - n * sz % al)) := by
        unfold allocCall
        simp only [hsize]
        rw [if_neg h0, if_pos (by simpa using hrem)]
        have h1 : subW 64 al (n * sz % al) = al - n * sz % al := by
          unfold subW
          rw [show al + 2 ^ 64 - n * sz % al = (al - n * sz % al) + 2 ^ 64 by omega, Nat.add_mod_right, Nat.mod_eq_of_lt (by omega)]
        rw [h1, Nat.mod_eq_of_lt (by omega)]
      rw [e]
      have hq : n * sz + (al - n * sz % al) = al * (n * sz / al + 1) := by
        have := Nat.div_add_mod (n * sz) al
        rw [Nat.mul_add]
        omega
      refine ⟨by show n * sz ≤ n * sz + (al - n * sz % al); omega, by show n * sz + (al - n * sz % al) < _; omega, fun h => absurd h h0,
        fun _ => ⟨_, rfl, ?_, ?_⟩⟩
      · rw [hq]; exact Nat.dvd_mul_right _ _
      · rintro b' h ⟨k, rfl⟩
        rw [hq]
        apply Nat.mul_le_mul_left
        by_contra hk
        have h1 : al * k ≤ al * (n * sz / al) := Nat.mul_le_mul_left _ (by omega)
        have := Nat.div_add_mod (n * sz) al
        omega

example : alignOk 8 64 ∧ 5 ≤ allocMaxSize 64 8 ∧ allocCall 64 8 5 = .aligned 64 64 ∧ allocCall 0 8 5 = .malloc 40 ∧
    allocCall 16 8 3 = .aligned 16 32 := by decide +kernel

/-- C45: the static assertion makes every alignment other than 0 a power of 2 that is at least the natural alignment, as `aligned_alloc` requires. -/
theorem C45_alignment {nat al : Nat} (h : alignOk nat al) (h0 : al ≠ 0) : nat ≤ al ∧ ∃ k, al = 2 ^ k := by
  rcases h with h | ⟨h1, h2⟩
  · exact absurd h h0
  · refine ⟨h1, al.log2, ?_⟩
    have hlo : 2 ^ al.log2 ≤ al := Nat.log2_self_le h0
    have hhi : al < 2 ^ (al.log2 + 1) := Nat.lt_log2_self
    by_contra hne
    have hbit : ∀ m, 2 ^ al.log2 ≤ m → m < 2 ^ (al.log2 + 1) → m.testBit al.log2 = true := by
      intro m hm hm'
      rw [Nat.testBit_eq_decide_div_mod_eq, decide_eq_true_eq]
      have : m / 2 ^ al.log2 = 1 := by
        rw [Nat.div_eq_iff (Nat.two_pow_pos _)]
        rw [Nat.pow_succ] at hm'
        omega
      rw [this]
    have h3 := hbit al hlo hhi
    have h4 := hbit (al - 1) (by omega) (by omega)
    have h5 : (al &&& (al - 1)).testBit al.log2 = true := by rw [Nat.testBit_and, h3, h4]; rfl
    rw [h2] at h5
    simp at h5

example : alignOk 8 64 ∧ ¬ alignOk 8 4 ∧ ¬ alignOk 8 24 := by decide +kernel

end Rakau
