import Verif.Model.Checked
import Mathlib.Algebra.BigOperators.Group.List.Basic

/-! Property theorems C43: checked additions. -/
namespace Rakau

/-- C43: a checked increment of in-range values fails exactly when the true sum is not representable; otherwise it
stores the exact sum. -/
theorem C43_checked_uinc (mx out add : Nat) (ha : add ≤ mx) :
    (out + add ≤ mx → checkedUInc mx out add = .ok (out + add)) ∧
    (mx < out + add → checkedUInc mx out add = .error .overflow) := by
  unfold checkedUInc
  constructor
  · intro h; rw [if_neg (by omega)]
  · intro h; rw [if_pos (by omega)]

example : checkedUInc 255 200 55 = .ok 255 ∧ checkedUInc 255 200 56 = .error .overflow := ⟨rfl, rfl⟩

/-- C43: a sequence of checked increments succeeds, with the exact total, exactly when the total is representable. -/
theorem C43_sequence (mx v : Nat) (adds : List Nat) (hv : v ≤ mx) (ha : ∀ a ∈ adds, a ≤ mx) :
    (v + adds.sum ≤ mx → plainRun mx v adds = .ok (v + adds.sum)) ∧
    (mx < v + adds.sum → plainRun mx v adds = .error .overflow) := by
  induction adds generalizing v with
  | nil => simp [plainRun]; omega
  | cons a as ih =>
    have h1 := ha a List.mem_cons_self
    have hc := C43_checked_uinc mx v a h1
    simp only [plainRun, List.sum_cons]
    by_cases h : v + a ≤ mx
    · rw [hc.1 h]
      have := ih (v + a) h (fun x hx => ha x (List.mem_cons_of_mem _ hx))
      simp only [bind, Except.bind]
      rw [← Nat.add_assoc]
      exact this
    · rw [hc.2 (by omega)]
      simp only [bind, Except.bind]
      exact ⟨fun h' => by omega, fun _ => by simp⟩

/-- C43: concurrent increments, in whatever order they take effect: if the total is representable no call throws and
the final value is the exact total; if it is not, at least one call throws, so an overflow is never silent. -/
theorem C43_atomic (mx v : Nat) (adds order : List Nat) (hp : order.Perm adds) (hv : v ≤ mx) (ha : ∀ a ∈ adds, a ≤ mx) :
    (v + adds.sum ≤ mx → (atomicRun mx v order).1 = v + adds.sum ∧ ∀ t ∈ (atomicRun mx v order).2, t = false) ∧
    (mx < v + adds.sum → true ∈ (atomicRun mx v order).2) := by
  have ha' : ∀ a ∈ order, a ≤ mx := fun a h => ha a (hp.subset h)
  rw [← hp.sum_eq]
  clear hp ha
  induction order generalizing v with
  | nil => simp [atomicRun]; omega
  | cons a as ih =>
    have h1 := ha' a List.mem_cons_self
    simp only [atomicRun, atomicUInc, List.sum_cons]
    by_cases h : v + a ≤ mx
    · rw [Nat.mod_eq_of_lt (by omega)]
      have := ih (v + a) h (fun x hx => ha' x (List.mem_cons_of_mem _ hx))
      rw [← Nat.add_assoc]
      refine ⟨fun hs => ⟨(this.1 hs).1, ?_⟩, fun hs => List.mem_cons_of_mem _ (this.2 hs)⟩
      intro t ht
      rcases List.mem_cons.1 ht with rfl | ht
      · simp; omega
      · exact (this.1 hs).2 t ht
    · refine ⟨fun hs => by omega, fun _ => ?_⟩
      have : decide (v > mx - a) = true := by simp; omega
      rw [this]; exact List.mem_cons_self

example : [3, 200, 50].Perm [200, 50, 3] ∧ atomicRun 255 2 [3, 200, 50] = (255, [false, false, false]) ∧
    atomicRun 255 2 [200, 100, 3] = (49, [false, true, false]) := by decide

/-- C43: whatever the order, the number of calls that throw is exactly the number of times the running total crosses
the maximum, and the final value is the total modulo `max + 1`. -/
theorem C43_atomic_count (mx v : Nat) (adds order : List Nat) (hp : order.Perm adds) (hv : v ≤ mx) (ha : ∀ a ∈ adds, a ≤ mx) :
    (atomicRun mx v order).2.count true = (v + adds.sum) / (mx + 1) ∧
    (atomicRun mx v order).1 = (v + adds.sum) % (mx + 1) := by
  have ha' : ∀ a ∈ order, a ≤ mx := fun a h => ha a (hp.subset h)
  rw [← hp.sum_eq]
  clear hp ha
  induction order generalizing v with
  | nil => simp [atomicRun, Nat.div_eq_of_lt (by omega : v < mx + 1), Nat.mod_eq_of_lt (by omega : v < mx + 1)]
  | cons a as ih =>
    have h1 := ha' a List.mem_cons_self
    simp only [atomicRun, atomicUInc, List.sum_cons, List.count_cons]
    have hi := ih ((v + a) % (mx + 1)) (by have := Nat.mod_lt (v + a) (by omega : 0 < mx + 1); omega)
      (fun x hx => ha' x (List.mem_cons_of_mem _ hx))
    rw [hi.1, hi.2]
    by_cases h : v + a ≤ mx
    · rw [Nat.mod_eq_of_lt (by omega : v + a < mx + 1), Nat.add_assoc]
      have : decide (v > mx - a) = false := by simp; omega
      simp [this]
    · have h2 : (v + a) % (mx + 1) = v + a - (mx + 1) := by
        rw [Nat.mod_eq_sub_mod (by omega), Nat.mod_eq_of_lt (by omega)]
      have h3 : v + (a + as.sum) = (v + a - (mx + 1) + as.sum) + (mx + 1) := by omega
      have : decide (v > mx - a) = true := by simp; omega
      rw [h2, h3, this, Nat.add_div_right _ (by omega), Nat.add_mod_right]
      simp

example : [3, 200, 50].Perm [200, 50, 3] ∧ (atomicRun 255 9 [3, 200, 50]).2.count true = (9 + 253) / 256 := by decide

/-- C43: the iterator check accepts exactly the sizes representable in the difference type. -/
theorem C43_it_diff_check (dmax n : Nat) : itDiffCheck dmax n = .ok () ↔ n ≤ dmax := by
  unfold itDiffCheck
  split
  · simp; omega
  · simp; omega

example : itDiffCheck (2 ^ 63 - 1) (2 ^ 63 - 1) = .ok () ∧ itDiffCheck (2 ^ 63 - 1) (2 ^ 63) = .error .overflow := by decide

end Rakau
