import Verif.Proof.Loops

/-!
Property theorems on the batched loops: C23 (self-interactions). They hold for any operations on the lanes, so in any arithmetic.
-/
namespace Rakau

variable {P R : Type}

/-- C23: buffers of `size + batch - 1` elements are enough (no access beyond them), and the result for particle `a` is made of the effects
of a list `before` (through `upd2`, in the pairs with `a` second) and of a list `after` (through `upd1`, in the pairs with `a` first).
Among real particles, the two lists hold every particle other than `a` exactly once, smaller indices in `before` and larger ones in `after`: each pair is
used once in each direction. The padding that appears in `after` follows the real particles. -/
theorem C23_pairs (O : PairOps P R) {b size : Nat} (hb : 0 < b) (p : Nat → P) (g : Nat → R) :
    ∃ (f : Nat → R) (before after : Nat → List Nat),
      selfLoop O b size (Arr (size + (b - 1)) p) (Arr (size + (b - 1)) g) = some (Arr (size + (b - 1)) f) ∧
      ∀ a < size, f a = O.add ((before a).foldl (fun r c => O.upd2 (p c) (p a) r) (g a))
          ((after a).foldl (fun r c => O.upd1 (p a) (p c) r) O.zero) ∧
        (before a).Perm (List.range a) ∧
        (after a).filter (· < size) = List.range' (a + 1) (size - (a + 1)) ∧
        (before a ++ (after a).filter (· < size)).Perm ((List.range size).filter (· ≠ a)) ∧
        ∀ c ∈ after a, c < size + (b - 1) := by
  obtain ⟨f, h1, h2⟩ := selfLoop_arr O hb (le_refl (size + (b - 1))) p g
  refine ⟨f, before' b, fun a => List.range' (a + 1) (size - (a + 1) + a % b), h1, ?_⟩
  intro a ha
  have hf : (List.range' (a + 1) (size - (a + 1) + a % b)).filter (· < size) = List.range' (a + 1) (size - (a + 1)) := by
    rw [← List.range'_append_1, List.filter_append]
    have e1 : (List.range' (a + 1) (size - (a + 1))).filter (· < size) = List.range' (a + 1) (size - (a + 1)) := by
      rw [List.filter_eq_self]; intro y hy; rw [List.mem_range'_1] at hy; simp; omega
    have e2 : (List.range' (a + 1 + (size - (a + 1))) (a % b)).filter (· < size) = [] := by
      rw [List.filter_eq_nil_iff]; intro y hy; rw [List.mem_range'_1] at hy; simp; omega
    rw [e1, e2, List.append_nil]
  refine ⟨h2 a ha, before'_perm b a, hf, ?_, ?_⟩
  · rw [hf]
    have e : List.range size = List.range a ++ [a] ++ List.range' (a + 1) (size - (a + 1)) := by
      rw [← List.range_succ, List.range_eq_range', List.range_eq_range']
      have := List.range'_append_1 (s := 0) (m := a + 1) (n := size - (a + 1))
      rw [Nat.zero_add] at this
      rw [this]; congr 1; omega
    rw [e, List.filter_append, List.filter_append]
    have f1 : (List.range a).filter (· ≠ a) = List.range a := by
      rw [List.filter_eq_self]; intro y hy; rw [List.mem_range] at hy; simp; omega
    have f2 : (List.range' (a + 1) (size - (a + 1))).filter (· ≠ a) = List.range' (a + 1) (size - (a + 1)) := by
      rw [List.filter_eq_self]; intro y hy; rw [List.mem_range'_1] at hy; simp; omega
    rw [f1, f2]
    simp only [ne_eq, decide_not, List.filter_cons, List.filter_nil, decide_true, Bool.not_true, Bool.false_eq_true, if_false, List.append_nil]
    exact List.Perm.append_right _ (before'_perm b a)
  · intro c hc
    rw [List.mem_range'_1] at hc
    have := Nat.mod_lt a hb
    omega

/-- The trace of the self-interactions: every result lists the particles that acted on it. -/
def traceOps : PairOps Nat (List Nat) := ⟨fun _ q r => r ++ [q], fun p _ r => r ++ [p], fun r a => r ++ a, []⟩

/-- Seven particles (`0, …, 6`) and three padding slots (`7, 8, 9`) in batches of four: particle 5 gets 3, 2, 1, 0 from the first batch, 4 from its own, then 6
and one padding slot. -/
example : (selfLoop traceOps 4 7 (List.range 10) (List.replicate 10 [])).map (·.take 7) =
    some [[1, 2, 3, 4, 5, 6], [0, 2, 3, 4, 5, 6, 7], [1, 0, 3, 4, 5, 6, 7, 8], [2, 1, 0, 4, 5, 6, 7, 8, 9], [3, 2, 1, 0, 5, 6],
      [3, 2, 1, 0, 4, 6, 7], [3, 2, 1, 0, 5, 4, 7, 8]] := by decide +kernel

/-- C23: one element less is not enough: with at least one pair of particles, the loop then leaves the buffer. -/
theorem C23_room_needed (O : PairOps P R) {b size : Nat} (hb : 1 < b) (hs : 1 < size) {tgt : List P} {res : List R}
    (ht : tgt.length = size + (b - 1) - 1) : selfLoop O b size tgt res = none := by
  have hlast : ∀ (st : List R × List R) (p1 : List P), selfInner O b tgt p1 st (size - 1) = none := by
    intro st p1
    unfold selfInner loadB
    rw [if_neg (by omega)]
    rfl
  have houter : selfOuter O b size tgt res (0 * b) = none := by
    unfold selfOuter
    cases h1 : loadB tgt (0 * b) b with
    | none => rfl
    | some p1 =>
      simp only [Option.bind_eq_bind, Option.bind_some, Nat.zero_mul, Nat.zero_add]
      obtain ⟨m, hm⟩ : ∃ m, size - 1 = m + 1 := ⟨size - 2, by omega⟩
      have : (List.range' 1 (size - 1)).foldlM (selfInner O b tgt p1) (List.replicate b O.zero, res) = none := by
        rw [hm, foldlM_option_append]
        cases (List.range' 1 m).foldlM (selfInner O b tgt p1) (List.replicate b O.zero, res) with
        | none => rfl
        | some st =>
          rw [Option.bind_some, show 1 + m = size - 1 by omega]
          exact hlast st p1
      rw [this]; rfl
  unfold selfLoop
  have hst : 0 < steps size b := (steps_bound (by omega)).2 (by omega)
  obtain ⟨m, hm⟩ : ∃ m, steps size b = m + 1 := ⟨steps size b - 1, by omega⟩
  rw [hm, List.range_succ_eq_map, List.foldlM_cons, houter]
  rfl

/-- Nine elements for seven particles in batches of four. -/
example : selfLoop traceOps 4 7 (List.range 9) (List.replicate 10 []) = none := C23_room_needed _ (by decide) (by decide) (by decide)

end Rakau
