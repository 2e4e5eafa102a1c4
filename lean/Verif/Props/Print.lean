import Verif.Model.Print
import Verif.Props.State

/-! Property theorems about the textual output (C47). -/
namespace Rakau
open Spec

variable {env : Env}

def nodeLine (w : Nat) (x : Node × env.Props) : Line env := .node (bitset w x.1.code) x.1.beg x.1.fin x.1.nChildren x.2

theorem printLoop_eq (w mx : Nat) (hmx : mx < 2 ^ 64) (l : List (Node × env.Props)) (k : Nat) (hk : k + l.length < 2 ^ 64)
    (hkm : mx = 0 ∨ k < mx) : 
    let t := if mx = 0 then l.length else min (mx - k) l.length
    printLoop w mx l k = ((l.take t).map (nodeLine w), k + t) := by
  induction l generalizing k with
  | nil => simp [printLoop]
  | cons x l ih =>
    obtain ⟨nd, p⟩ := x
    simp only [List.length_cons] at hk ⊢
    unfold printLoop
    simp only
    rw [Nat.mod_eq_of_lt (show k + 1 < 2 ^ 64 by omega)]
    by_cases h : k + 1 = mx
    · rw [if_pos h, if_neg (by omega)]
      have : min (mx - k) (l.length + 1) = 1 := by omega
      rw [this]
      simp [nodeLine]
    · rw [if_neg h]
      have ih := ih (k + 1) (by omega) (by omega)
      simp only at ih
      rw [ih]
      by_cases h0 : mx = 0
      · rw [if_pos h0, if_pos h0]
        simp only [List.take_succ_cons, List.map_cons, nodeLine, Prod.mk.injEq, List.cons.injEq, true_and]
        omega
      · rw [if_neg h0, if_neg h0]
        have : min (mx - k) (l.length + 1) = min (mx - (k + 1)) l.length + 1 := by omega
        rw [this]
        simp only [List.take_succ_cons, List.map_cons, nodeLine, Prod.mk.injEq, List.cons.injEq, true_and]
        omega

/-- C47: the output of `pprint(os, mx)` for a tree (with fewer than 2^64 nodes): the box size, the number of particles and the number of nodes;
then, unless the tree is empty, a title, the first nodes of the tree in order with their properties, and an ellipsis in the end if and only if nodes
have been left out. All nodes are printed if `mx` is 0 or at least the number of nodes, otherwise exactly `mx`. -/
theorem C47_pprint {s : TS env} (h : Reach env s) (hn : s.tree.length < 2 ^ 64) {mx : Nat} (hmx : mx < 2 ^ 64) :
    (s.tree = [] → pprint s mx = [.box s.box s.deduced, .nParticles s.n, .nNodes 0]) ∧
    (s.tree ≠ [] → mx = 0 ∨ s.tree.length ≤ mx → pprint s mx = [.box s.box s.deduced, .nParticles s.n, .nNodes s.tree.length, .all] ++
      List.zipWith (fun nd p => .node (bitset env.w nd.code) nd.beg nd.fin nd.nChildren p) s.tree s.props) ∧
    (s.tree ≠ [] → 0 < mx → mx < s.tree.length → pprint s mx = [.box s.box s.deduced, .nParticles s.n, .nNodes s.tree.length, .first mx] ++
      List.zipWith (fun nd p => .node (bitset env.w nd.code) nd.beg nd.fin nd.nChildren p) (s.tree.take mx) (s.props.take mx) ++ [.ellipsis]) ∧
    s.props.length = s.tree.length := by
  have I := reach_inv h
  have hp : s.props.length = s.tree.length := (mapM_ok_iff.1 I.props).length_eq.symm
  have hc : s.codes.length = s.n := by
    have := (mapM_ok_iff.1 I.codes).length_eq
    simpa using this.symm
  have hz : (s.tree.zip s.props).length = s.tree.length := by rw [List.length_zip, hp, min_self]
  have hloop := printLoop_eq (env := env) env.w mx hmx (s.tree.zip s.props) 0 (by rw [hz]; omega) (by omega)
  simp only [hz] at hloop
  have hzw : ∀ (a : List Node) (b : List env.Props),
      List.zipWith (fun nd p => (.node (bitset env.w nd.code) nd.beg nd.fin nd.nChildren p : Line env)) a b = (a.zip b).map (nodeLine env.w) := by
    intro a b
    rw [List.zip, List.map_zipWith]
    rfl
  refine ⟨?_, ?_, ?_, hp⟩
  · intro h0
    unfold pprint
    simp [h0, hc]
  · intro h0 hm
    have hl : s.tree.length ≠ 0 := by simpa using h0
    unfold pprint
    simp only [hloop, hzw]
    rw [if_neg hl, if_neg (show ¬ (mx ≠ 0 ∧ mx < s.tree.length) by omega)]
    have ht : (if mx = 0 then s.tree.length else min (mx - 0) s.tree.length) = s.tree.length := by split <;> omega
    rw [ht, if_neg (by omega), List.take_of_length_le (by omega), hc]
    simp
  · intro h0 hm hm'
    have hl : s.tree.length ≠ 0 := by simpa using h0
    unfold pprint
    simp only [hloop, hzw]
    rw [if_neg hl, if_pos (show (mx ≠ 0 ∧ mx < s.tree.length) by omega)]
    have ht : (if mx = 0 then s.tree.length else min (mx - 0) s.tree.length) = mx := by rw [if_neg (by omega)]; omega
    rw [ht, if_pos (by omega), hc, show (s.tree.take mx).zip (s.props.take mx) = (s.tree.zip s.props).take mx from List.take_zipWith.symm]
    simp

example : Reach toyEnv toyS ∧ toyS.tree.length = 20 ∧ (pprint toyS 3).length = 8 ∧ (pprint toyS 0).length = 24 ∧ (stream toyS).length = 24 := by
  refine ⟨toy_reach, ?_⟩
  decide +kernel

/-- C47: `operator<<` prints at most 20 nodes. -/
theorem C47_stream (s : TS env) : stream s = pprint s 20 := rfl

theorem bitset_value (w a t : Nat) (ht : t ≤ w) :
    ((List.range t).map (fun i => a.testBit (w - 1 - i))).foldl (fun n b => 2 * n + b.toNat) 0 = (a % 2 ^ w) >>> (w - t) := by
  induction t with
  | zero => simp [Nat.shiftRight_eq_div_pow, Nat.div_eq_of_lt, Nat.mod_lt]
  | succ t ih =>
    rw [List.range_succ, List.map_append, List.foldl_append, ih (by omega)]
    simp only [List.map_cons, List.map_nil, List.foldl_cons, List.foldl_nil]
    have h1 : (a % 2 ^ w).testBit (w - 1 - t) = a.testBit (w - 1 - t) := by
      rw [Nat.testBit_mod_two_pow]
      simp; omega
    rw [← h1]
    have h2 : w - t = (w - (t + 1)) + 1 := by omega
    rw [h2, Nat.shiftRight_add, Nat.testBit_eq_decide_div_mod_eq, show w - 1 - t = w - (t + 1) by omega,
      ← Nat.shiftRight_eq_div_pow]
    generalize (a % 2 ^ w) >>> (w - (t + 1)) = y
    rw [Nat.shiftRight_eq_div_pow]
    rcases Nat.mod_two_eq_zero_or_one y with h | h <;> simp [h] <;> omega

/-- C47: the digits printed for a node are as many as the bits of the code type, and are the binary digits of the code. -/
theorem C47_digits {w a : Nat} (ha : a < 2 ^ w) :
    (bitset w a).length = w ∧ (bitset w a).foldl (fun n b => 2 * n + b.toNat) 0 = a := by
  refine ⟨by simp [bitset], ?_⟩
  unfold bitset
  rw [bitset_value w a w (Nat.le_refl _), Nat.mod_eq_of_lt ha]
  simp

example : bitset 8 0b1011 = [false, false, false, false, true, false, true, true] := by decide +kernel

end Rakau
