import Verif.Proof.AssertsState
import Verif.Props.Split

/-! The distribution of the work in a debug build. -/
set_option linter.unusedSectionVars false

namespace Rakau
open Spec

variable {K : Type} [Field K] [LinearOrder K] [IsStrictOrderedRing K] [FloorRing K] {A : Arith K} {simd : Option (Simd K)} {mac : Mac} {w d : Nat}
  {s : TS (rakauEnv A simd mac w d)}

theorem cpuRunD_ok (hs : Supported w d) (hr : Reach (rakauEnv A simd mac w d) s) (hz : s.n * cbits w d < 2 ^ 64) {c : Nat} (hc : c ≤ s.crit.length) :
    cpuRunD w d s.tree s.crit c = .ok () := by
  obtain ⟨hd, hw, _⟩ := hs.dim
  have E := rakauEnv_ok A simd mac hs
  have I := reach_inv hr
  have hcl := (rawCodes_spec.1 I.codes).1
  unfold cpuRunD
  rw [chk_true (by simp), bind_ok', chk_true (decide_eq_true hc), bind_ok']
  refine forM_ok (fun cn hcn => ?_)
  have hcn' := List.mem_of_mem_take hcn
  have hpos := crit_pos hr hcn'
  have hne : s.codes ≠ [] := by intro e; rw [e] at hcl; simp at hcl; omega
  obtain ⟨split, hb⟩ := I.built
  have B : BuildInput s.cfg s.codes := ⟨E.dim, I.sorted, codes_bound E I.codes, by rw [hcl]; exact hz, hne⟩
  obtain ⟨ps, hlen, h1, h2, _⟩ := C13_critical_nodes B hb
  obtain ⟨i, hi, rfl⟩ := List.getElem_of_mem hcn'
  obtain ⟨e, _, nd, hnd, _⟩ := h2 i hi
  have hp := (h1 _).1 (List.getElem_mem (show i < ps.length by omega))
  rw [chk_true (by
      have := List.ne_nil_of_mem hnd
      simpa using this), bind_ok', e]
  have := treeLevelD_code (w := w) hd hw (isNode_ok hp.1) hp.1.1
  erw [this]
  rfl

theorem onCpuD_eq (hs : Supported w d) (hr : Reach (rakauEnv A simd mac w d) s) (hz : s.n * cbits w d < 2 ^ 64) :
    onCpuD w d s.tree s.crit = .ok ⟨s.crit.length, []⟩ := by
  unfold onCpuD
  rw [cpuRunD_ok hs hr hz le_rfl]
  rfl

theorem rocmPlanD_eq (D : Arith K) (hs : Supported w d) (hr : Reach (rakauEnv A simd mac w d) s) (hz : s.n * cbits w d < 2 ^ 64) (m : Nat) (s0 s1 : Fl K) :
    rocmPlanD D w d m s.tree s.crit s.n s0 s1 = dbg (rocmPlan D m s.crit s.n s0 s1) := by
  have T := reach_tiled (rakauEnv_ok A simd mac hs) hr hz
  unfold rocmPlanD rocmPlan
  rw [dbg_bind]
  congr 1
  funext idx
  obtain ⟨c, hc, hb, _, _⟩ := T.boundary_eq idx
  rw [hb]
  simp only [ofUB, dbg_ok, bind_ok']
  split
  · rw [cpuRunD_ok hs hr hz hc, bind_ok', chk_true (decide_eq_true (T.cut_le c)), bind_ok', chk_true (by simp)]
    rfl
  · rw [onCpuD_eq hs hr hz]; rfl

theorem sorted_of_isSorted {l : List Nat} (h : isSorted idxLt l = true) : l.Pairwise (· ≤ ·) := by
  induction l with
  | nil => simp
  | cons a l ih =>
    cases l with
    | nil => simp
    | cons b l =>
      simp only [isSorted, Bool.and_eq_true, Bool.not_eq_true', idxLt, decide_eq_false_iff_not, not_lt] at h
      have hl := ih h.2
      refine List.pairwise_cons.2 ⟨fun x hx => ?_, hl⟩
      rcases List.mem_cons.1 hx with rfl | hx
      · exact h.1
      · exact le_trans h.1 ((List.pairwise_cons.1 hl).1 x hx)

theorem cudaIdx_length {D : Arith K} {np : Nat} {acc t : Fl K} {l : List (Fl K)} {idx : List Nat} (h : cudaIdx D A np acc t l = .ok idx) :
    idx.length = l.length + 1 := by
  induction l generalizing t idx with
  | nil => simp only [cudaIdx, Except.ok.injEq] at h; subst h; rfl
  | cons x l ih =>
    simp only [cudaIdx, bind, Except.bind] at h
    split at h
    · simp at h
    · split at h
      · simp at h
      · rename_i l' hl'
        simp only [Except.ok.injEq] at h
        subst h
        simp [ih hl']

/-- With CUDA: the assertion on the projected indices may fail, but no other one. -/
theorem cudaPlanD_cases (D : Arith K) (hs : Supported w d) (hr : Reach (rakauEnv A simd mac w d) s) (hz : s.n * cbits w d < 2 ^ 64) {devices : Nat}
    {split : List (Fl K)} (hdev : split.length - 1 ≤ devices) :
    cudaPlanD D A w d devices s.tree s.crit s.n split = dbg (cudaPlan D A s.crit s.n split) ∨
    cudaPlanD D A w d devices s.tree s.crit s.n split = .error (.failed (.tree 3165)) ∧
      ∃ idx, cudaIdx D A s.n (split.foldl D.add (.fin 0)) (split.headD .nan) split.tail = .ok idx ∧ ¬ idx.Pairwise (· ≤ ·) := by
  have T := reach_tiled (rakauEnv_ok A simd mac hs) hr hz
  unfold cudaPlanD cudaPlan
  dsimp only
  cases hi : cudaIdx D A s.n (split.foldl D.add (.fin 0)) (split.headD .nan) split.tail with
  | error e => exact .inl rfl
  | ok idx =>
    simp only [dbg_ok, bind_ok']
    by_cases hsort : idx.Pairwise (· ≤ ·)
    · left
      rw [chk_true (isSorted_of hsort), bind_ok']
      obtain ⟨c, hc, hb, _, _⟩ := T.boundary_eq (idx.headD 0)
      rw [hb]
      simp only [ofUB, dbg_ok, bind_ok']
      have hfs := forward_sorted (k := cut s.crit s.n c) (l := idx.tail) (by
        cases idx with
        | nil => simp
        | cons a l => exact (List.pairwise_cons.1 hsort).2)
      rw [chk_true (isSorted_of hfs), bind_ok']
      have hlen := cudaIdx_length hi
      split
      · rw [cpuRunD_ok hs hr hz hc, bind_ok', chk_true]
        · rfl
        · simp only [List.isEmpty_cons, Bool.not_false, Bool.true_and, decide_eq_true_eq, List.length_cons, List.length_map, List.length_tail]
          rw [List.length_tail] at hlen
          omega
      · rw [onCpuD_eq hs hr hz]; rfl
    · right
      refine ⟨?_, idx, rfl, hsort⟩
      have : isSorted idxLt idx = false := by
        by_contra hc
        exact hsort (sorted_of_isSorted (by simpa using hc))
      simp only [chk, this]
      rfl

/-- The distribution of the work: the outcome is that of other builds, or the assertion on the projected indices fails (with CUDA). -/
theorem splitPlanD_cases (B : Backend) (D : Arith K) (types : Bool) (hs : Supported w d) (hr : Reach (rakauEnv A simd mac w d) s)
    (hz : s.n * cbits w d < 2 ^ 64) (split : List (Fl K)) :
    splitPlanD B D A types w d s.tree s.crit s.n split = dbg (splitPlan B D A types s.crit s.n split) ∨
    (∃ m, B = .cuda m) ∧ splitPlanD B D A types w d s.tree s.crit s.n split = .error (.failed (.tree 3165)) ∧ splitCommon split = .ok () ∧
      1 < split.length ∧ ∃ idx, cudaIdx D A s.n (split.foldl D.add (.fin 0)) (split.headD .nan) split.tail = .ok idx ∧ ¬ idx.Pairwise (· ≤ ·) := by
  unfold splitPlanD splitPlan
  cases hc : splitCommon split with
  | error e => exact .inl rfl
  | ok u =>
    simp only [dbg_ok, bind_ok']
    cases B with
    | none =>
      left
      dsimp only
      rw [onCpuD_eq hs hr hz]
      split <;> rfl
    | rocm present m =>
      left
      dsimp only
      rw [onCpuD_eq hs hr hz]
      split
      · rfl
      · split
        · rfl
        · split
          · rcases split with _ | ⟨a, _ | ⟨b, _ | ⟨c, l⟩⟩⟩
            · rfl
            · rfl
            · exact rocmPlanD_eq D hs hr hz m _ _
            · rfl
          · split <;> rfl
    | cuda devices =>
      dsimp only
      rw [onCpuD_eq hs hr hz]
      by_cases h1 : (!split.isEmpty && decide (devices < split.length - 1)) = true
      · left; rw [if_pos h1, if_pos h1]; rfl
      · rw [if_neg h1, if_neg h1]
        by_cases h3 : 1 < split.length
        · have hne : split.isEmpty = false := by cases split <;> simp at h3 ⊢
          simp only [hne, Bool.not_false, Bool.true_and, decide_eq_true_eq, not_lt] at h1
          cases types with
          | true =>
            simp only [if_true, if_pos h3]
            rcases cudaPlanD_cases D hs hr hz h1 with h | ⟨h, h'⟩
            · exact .inl h
            · exact .inr ⟨⟨devices, rfl⟩, h, trivial, h3, h'⟩
          | false => left; simp only [Bool.false_eq_true, if_false, if_pos h3]; rfl
        · left
          simp only [if_neg h3]
          split <;> rfl

end Rakau
