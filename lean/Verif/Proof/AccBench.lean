import Verif.Model.AccBench
import Verif.Proof.MoveBench
import Verif.Props.User

/-! The results of the two orders compared, for C85. -/
namespace Rakau
open Spec
variable {K : Type} [Field K] [LinearOrder K] [IsStrictOrderedRing K] [FloorRing K] {A : Arith K} {simd : Option (Simd K)} {mac : Mac} {w d : Nat}

/-- Either the checks before the parallel loop fail, in the same way for both orders, or they are passed. -/
theorem accPot_cases (s : TS (rakauEnv A simd mac w d)) (rsqrt : Option (Fl K → Fl K)) (over : Overshift) (Q : Quant) (theta G eps : Fl K) (split : List (Fl K)) :
    (∃ e, ∀ o order out, s.accPot rsqrt over Q o theta G eps split order out = .error e) ∨
    ∃ mv eps2, checkParams A mac theta G eps = .ok (mv, eps2) ∧ checkSplit split = .ok () ∧ (s.force rsqrt over Q mv G eps2).padCoord.isFinite = true := by
  unfold TS.accPot
  cases hp : checkParams A mac theta G eps with
  | error e => exact .inl ⟨e, fun _ _ _ => rfl⟩
  | ok v =>
    obtain ⟨mv, eps2⟩ := v
    cases hsp : checkSplit split with
    | error e => exact .inl ⟨e, fun _ _ _ => rfl⟩
    | ok u =>
      cases hpad : (s.force rsqrt over Q mv G eps2).padCoord.isFinite with
      | true => exact .inr ⟨mv, eps2, rfl, rfl, hpad⟩
      | false =>
        refine .inl ⟨.invalidArg, fun o order out => ?_⟩
        simp only [bind, Except.bind]
        unfold Force.cpuRun
        rw [if_pos (by simp [hpad])]

theorem benchParts_length {F : Type} (d n : Nat) (v : List F) : (benchParts d n v).length = d + 1 := by simp [benchParts]

/-- The masses are the first `n` numbers, coordinate `j` the `n` numbers from `(j + 1) n`. -/
theorem benchParts_at {F : Type} {d n : Nat} {v : List F} {j k : Nat} (hk : k < n) (hj : j ≤ d) :
    at2 (benchParts d n v) j k = if j = d then v[k]? else v[(j + 1) * n + k]? := by
  unfold at2 benchParts
  by_cases h : j = d
  · subst h
    rw [if_pos rfl, List.getElem?_append_right (by simp)]
    simp [hk]
  · rw [if_neg h, List.getElem?_append_left (by simp; omega)]
    simp [show j < d by omega, hk]

theorem benchParts_head {F : Type} {d n : Nat} {v : List F} (hd : 1 ≤ d) (hv : v.length = (d + 1) * n) : ((benchParts d n v).headD []).length = n := by
  obtain ⟨d, rfl⟩ : ∃ e, d = e + 1 := ⟨d - 1, by omega⟩
  unfold benchParts
  rw [List.range_succ_eq_map]
  simp only [List.map_cons, List.cons_append, List.headD_cons, List.length_take, List.length_drop, hv]
  have : (d + 1 + 1) * n = d * n + 2 * n := by ring
  omega

end Rakau
