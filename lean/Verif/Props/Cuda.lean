import Verif.Proof.CudaOut
import Verif.Props.Gpu

/-! C73: the host side of the CUDA computation. -/
namespace Rakau
open Cuda Spec

/-- The arguments fit (`Fits`) if the split indices cut the particles from `k0` on (`Cuts`, as they do by `C29_partial`), and the numbers of particles and nodes are below `2 ^ 31`. -/
theorem C73_fits {c : CuCall} {k0 : Nat} (hc : Cuts c.n k0 c.split) (hn : c.n < 2 ^ 31) (ht : c.nodes < 2 ^ 31) (h1 : c.szNode ≤ 2 ^ 32) (h2 : c.szF ≤ 2 ^ 32) (h3 : c.szU ≤ 2 ^ 32)
    (p1 : 0 < c.szNode) (p2 : 0 < c.szF) (p3 : 0 < c.szU) : Fits c ∧ c.idx 0 = k0 ∧ c.idx c.ngpus = c.n := by
  have hne : c.split ≠ [] := by intro e; have := hc.first; rw [e] at this; cases this
  have hlen : 0 < c.split.length := List.length_pos_of_ne_nil hne
  have hle : ∀ i ≤ c.ngpus, c.idx i ≤ c.n := by
    intro i hi
    have hl : i < c.split.length := by unfold CuCall.ngpus at hi; omega
    unfold CuCall.idx
    rw [getD_lt hl]
    exact Gpu.cuts_le hc.sorted hc.last _ (List.getElem_mem hl)
  have key : ∀ {a s : Nat}, a < 2 ^ 31 → s ≤ 2 ^ 32 → 0 < s → a ≤ (2 ^ 64 - 1) / s := by
    intro a s ha hs hp
    rw [Nat.le_div_iff_mul_le hp]
    calc a * s ≤ (2 ^ 31 - 1) * 2 ^ 32 := Nat.mul_le_mul (by omega) hs
      _ ≤ 2 ^ 64 - 1 := by norm_num
  refine ⟨⟨fun i hi => lt_of_le_of_lt (hle i hi) hn, ?_, ht, key ht h1 p1, key hn h2 p2, key hn h3 p3, hle⟩, ?_, ?_⟩
  · intro i hi
    have hl : i + 1 < c.split.length := by unfold CuCall.ngpus at hi; omega
    unfold CuCall.idx
    rw [getD_lt hl, getD_lt (show i < c.split.length by omega)]
    exact List.pairwise_iff_getElem.1 hc.sorted i (i + 1) (by omega) hl (by omega)
  · unfold CuCall.idx
    rw [getD_lt hlen]
    have := hc.first
    rw [List.head?_eq_getElem?, List.getElem?_eq_getElem hlen] at this
    exact Option.some.inj this
  · unfold CuCall.idx CuCall.ngpus
    rw [getD_lt (by omega)]
    have := hc.last
    rw [List.getLast?_eq_getElem?, List.getElem?_eq_getElem (by omega)] at this
    exact Option.some.inj this

/-- C73: whatever the calls of the runtime return, the sequence of calls is legal (`Spec.step`: nothing is used before it exists or after it is gone, no memory is freed or unpinned while an operation
in progress uses it, kernels run on the device of their stream and of their arrays, which are long enough, and streams are waited for before they are destroyed). If the function returns or throws,
no memory, stream or pinned area is left. `g` is the number of devices. -/
theorem C73_cleanup (c : CuCall) {g : Nat} (hg : c.ngpus ≤ g) (dev : Nat) (rt : Nat → Rc) :
    ∃ r, run g (.empty dev) (cudaHost c rt 0).evs = some r ∧ ((cudaHost c rt 0).out ≠ .terminate → r.pinned = [] ∧ r.arrs = [] ∧ r.streams = []) := by
  obtain ⟨r, h1, _, h2⟩ := trip_cudaHost c hg dev rt
  refine ⟨r, h1, fun hn => ?_⟩
  have : Sim (Held.empty 0) r := by
    cases ho : (cudaHost c rt 0).out with
    | ok a => rw [ho] at h2; exact h2
    | throw e => rw [ho] at h2; exact h2
    | terminate => exact absurd ho hn
  exact ⟨this.pinned, this.arrs, this.streams⟩

/-- C73: with arguments that fit, the function returns exactly if no call failed, other than kernel launches and errors that are reported when a stream is waited for.

What is missing: those failures are not noticed (`C73_silent_fails`). -/
theorem C73_outcome_partial {c : CuCall} (hf : Fits c) (rt : Nat → Rc) :
    (cudaHost c rt 0).out = .ok () ↔ ∀ e ∈ (cudaHost c rt 0).evs, failed e = true → isAsync e = true := by
  have h := rep_cudaHost hf rt 0
  have e : (cudaHost c rt 0).out = .ok () ↔ ∃ a, (cudaHost c rt 0).out = .ok a := ⟨fun h => ⟨_, h⟩, fun ⟨_, h⟩ => h⟩
  rw [e, h]
  refine forall_congr' fun e => forall_congr' fun _ => ?_
  rw [noticed_eq]
  cases failed e <;> cases isAsync e <;> simp

/-- C73: with arguments that fit, if nothing failed, the function returns and the results are on the host: result `j` of particle `p` of the devices, in the array `j`, at position `p`
(counted from the first particle that has a place there). All other host memory is as before. `kern` are the values that the kernels compute. -/
theorem C73_results {V : Type} (kern : Nat → Nat → V) {c : CuCall} (hf : Fits c) (rt : Nat → Rc) (hs : ∀ e ∈ (cudaHost c rt 0).evs, failed e = false) (m : Contents V) :
    (cudaHost c rt 0).out = .ok () ∧
    (∀ j < c.nres, ∀ p, c.idx 0 ≤ p → p < c.idx c.ngpus → (effects kern m (cudaHost c rt 0).evs).host (.out j) (p - c.off) = kern j p) ∧
    ∀ a q, (∀ j < c.nres, ∀ p, c.idx 0 ≤ p → p < c.idx c.ngpus → (a, q) ≠ (.out j, p - c.off)) → (effects kern m (cudaHost c rt 0).evs).host a q = m.host a q := by
  have hok := (C73_outcome_partial hf rt).2 fun e he h => by rw [hs e he] at h; cases h
  have h0 := off_le hf (Nat.zero_le _)
  refine ⟨hok, ?_, ?_⟩
  · intro j hj p h1 h2
    have := (cudaHost_results kern hf rt hok hs m (.out j) (p - c.off)).1 j hj rfl (by omega) (by omega)
    rwa [show p - c.off + c.off = p by omega] at this
  · intro a q hno
    refine (cudaHost_results kern hf rt hok hs m a q).2 ?_
    rintro j hj ⟨rfl, h1, h2⟩
    exact hno j hj (q + c.off) h1 h2 (by rw [Nat.add_sub_cancel])

/-- C73: operations of different streams, which take place in any order, do not conflict: none of them writes what another one reads or writes. -/
theorem C73_streams {c : CuCall} (hf : Fits c) (rt : Nat → Rc) (hok : (cudaHost c rt 0).out = .ok ()) {e e' : Cuda.Ev} (he : e ∈ (cudaHost c rt 0).evs)
    (he' : e' ∈ (cudaHost c rt 0).evs) {s s' : Nat} (hs : streamOf e = some s) (hs' : streamOf e' = some s') (hne : s ≠ s') :
    writes e ∩ (writes e' ∪ reads e') = ∅ := by
  ext x
  simp only [Set.mem_inter_iff, Set.mem_union, Set.mem_empty_iff_false, iff_false, not_and, not_or]
  exact fun hw => cudaHost_streams hf rt hok he he' hs hs' hne x hw

/-- C73: the elements of host memory that are read and written exist, for any results of the calls. Those that are registered exist too, if the result arrays begin with the first particle of all.

What is missing: otherwise the registered areas go beyond the end of the result arrays (`C73_bounds_fails`). -/
theorem C73_bounds_partial {c : CuCall} (hf : Fits c) (rt : Nat → Rc) {e : Cuda.Ev} (he : e ∈ (cudaHost c rt 0).evs) {a : Area} {pos len : Nat} (hu : hostUse e = some (a, pos, len))
    (hp : (∃ len rc, e = .pin a len rc) → (∀ j, a ≠ .out j) ∨ c.off = 0) : pos + len ≤ areaLen c.n c.nodes c.off a := by
  have h := good_cudaHost (c := c) rt 0 e he
  cases e <;> simp only [hostUse, Option.some.injEq, Prod.mk.injEq, reduceCtorEq] at hu
  · obtain ⟨rfl, rfl, rfl⟩ := hu
    rename_i a len rc
    have ha : (a, len) ∈ c.areas := h
    have hq := hp ⟨_, _, rfl⟩
    clear hp
    simp only [CuCall.areas, List.mem_append, List.mem_map, List.mem_cons, Prod.mk.injEq, List.not_mem_nil, or_false] at ha
    rcases ha with (⟨j, _, rfl, rfl⟩ | ⟨rfl, rfl⟩ | ⟨rfl, rfl⟩) | ⟨j, _, rfl, rfl⟩
    · rcases hq with hq | hq
      · exact absurd rfl (hq j)
      · rw [hq]; simp [areaLen]
    all_goals simp [areaLen]
  · obtain ⟨rfl, rfl, rfl⟩ := hu
    have h : _ = _ := h
    omega
  · obtain ⟨rfl, rfl, rfl⟩ := hu
    obtain ⟨j, rfl, h⟩ := h
    exact h hf

/-- C73, finding: with temporary result arrays, of which the first element belongs to particle `idx 0 > 0`, more elements are registered than exist, always. -/
theorem C73_bounds_fails {c : CuCall} (hres : 0 < c.nres) (ho : c.offset = false) (h0 : 0 < c.idx 0) (hn : 0 < c.n) (rt : Nat → Rc) :
    ∃ len rc, Cuda.Ev.pin (.out 0) len rc ∈ (cudaHost c rt 0).evs ∧ areaLen c.n c.nodes c.off (.out 0) < len := by
  obtain ⟨rc, h⟩ := cudaHost_pin c rt (a := .out 0) (len := c.n) (by
    simp only [CuCall.areas, List.mem_append, List.mem_map, List.mem_range]
    exact .inl (.inl ⟨0, hres, rfl⟩))
  refine ⟨c.n, rc, h, ?_⟩
  unfold CuCall.off
  rw [ho]
  simp only [areaLen]
  simp only [Bool.false_eq_true, if_false]
  omega

/-- C73: `std::terminate` is called only if a device could not be selected.

What is missing: then it may be called (`C73_terminate_fails`). -/
theorem C73_terminate_partial (c : CuCall) (rt : Nat → Rc) (h : (cudaHost c rt 0).out = .terminate) :
    ∃ i rc, Cuda.Ev.setDevice i rc ∈ (cudaHost c rt 0).evs ∧ rc ≠ .success :=
  term_cudaHost c rt 0 h

/-! ### Examples and findings -/

/-- Two devices with 4 and 3 particles out of 10, two dimensions, accelerations. -/
def cuC (offset : Bool) : CuCall := ⟨2, 2, 10, 6, [3, 7, 10], offset, 48, 4, 4⟩

/-- All calls succeed. -/
def cuFine : Nat → Rc := fun _ => .success

/-- Only call `k` fails. -/
def cuFail (k : Nat) : Nat → Rc := fun i => if i = k then .failure else .success

theorem cuC_fits (o : Bool) : Fits (cuC o) :=
  (C73_fits (c := cuC o) (k0 := 3) ⟨rfl, by simp [cuC], rfl⟩ (by decide +revert) (by decide +revert) (by decide +revert) (by decide +revert) (by decide +revert) (by decide +revert) (by decide +revert) (by decide +revert)).1

/-- C73, finding: a kernel that could not be started, or whose error is reported when its stream is waited for, goes unnoticed. The function returns, and the results on the host are not those of the
kernel. -/
theorem C73_silent_fails :
    (∃ e ∈ (cudaHost (cuC false) (cuFail 42) 0).evs, failed e = true) ∧ (cudaHost (cuC false) (cuFail 42) 0).out = .ok () ∧
    (effects (fun _ _ => 1) ⟨fun _ _ => 0, fun _ _ => 0⟩ (cudaHost (cuC false) (cuFail 42) 0).evs).host (.out 0) 0 = 0 ∧
    (∃ e ∈ (cudaHost (cuC false) (cuFail 50) 0).evs, failed e = true) ∧ (cudaHost (cuC false) (cuFail 50) 0).out = .ok () := by
  decide +kernel

/-- C73, finding: if a device cannot be selected when the streams are destroyed, `std::terminate` is called. It makes no difference that everything succeeded before. Memory and streams are left. -/
theorem C73_terminate_fails :
    (cudaHost (cuC true) (cuFail 49) 0).out = .terminate ∧
    (run 2 (.empty 0) (cudaHost (cuC true) (cuFail 49) 0).evs).map (fun r => (r.pinned.length, r.arrs.length, r.streams.length)) = some (7, 9, 2) := by
  decide +kernel

example : ∃ r, run 2 (.empty 0) (cudaHost (cuC false) (cuFail 45) 0).evs = some r ∧
    ((cudaHost (cuC false) (cuFail 45) 0).out ≠ .terminate → r.pinned = [] ∧ r.arrs = [] ∧ r.streams = []) := C73_cleanup _ (by decide) 0 _
example : (cudaHost (cuC false) (cuFail 45) 0).out = .throw .runtime ∧ (cudaHost (cuC false) (cuFail 45) 0).evs.length = 68 ∧
    (cudaHost (cuC false) (cuFail 12) 0).out = .throw .badAlloc := by decide +kernel
example : (cudaHost (cuC false) cuFine 0).out = .ok () ↔ ∀ e ∈ (cudaHost (cuC false) cuFine 0).evs, failed e = true → isAsync e = true := C73_outcome_partial (cuC_fits _) _
example : ∀ e ∈ (cudaHost (cuC false) cuFine 0).evs, failed e = false := by decide +kernel
example (m : Contents Nat) : (effects (fun j p => 100 * j + p) m (cudaHost (cuC false) cuFine 0).evs).host (.out 1) (7 - (cuC false).off) = 100 * 1 + 7 :=
  (C73_results (fun j p => 100 * j + p) (cuC_fits false) cuFine (by decide +kernel) m).2.1 1 (by decide) 7 (by decide) (by decide)
example (m : Contents Nat) : (effects (fun j p => 100 * j + p) m (cudaHost (cuC true) cuFine 0).evs).host (.out 1) 2 = m.host (.out 1) 2 :=
  (C73_results (fun j p => 100 * j + p) (cuC_fits true) cuFine (by decide +kernel) m).2.2 _ _ (by
    intro j _ p h1 _ he
    injection he with _ he
    have h1 : 3 ≤ p := h1
    have he : 2 = p - 0 := he
    omega)
example : Cuda.Ev.launch 38 [8, 9] [13, 29, 17, 21, 25] 3 7 .success ∈ (cudaHost (cuC true) cuFine 0).evs ∧ Cuda.Ev.copyOut 40 (.out 1) 7 12 3 .success ∈ (cudaHost (cuC true) cuFine 0).evs := by
  decide +kernel
example {e e' : Cuda.Ev} (he : e ∈ (cudaHost (cuC true) cuFine 0).evs) (he' : e' ∈ (cudaHost (cuC true) cuFine 0).evs) (hs : streamOf e = some 38) (hs' : streamOf e' = some 40) :
    writes e ∩ (writes e' ∪ reads e') = ∅ := C73_streams (cuC_fits true) cuFine (by decide +kernel) he he' hs hs' (by decide)
example {e : Cuda.Ev} (he : e ∈ (cudaHost (cuC true) cuFine 0).evs) {a : Area} {pos len : Nat} (hu : hostUse e = some (a, pos, len)) : pos + len ≤ areaLen 10 6 0 a :=
  C73_bounds_partial (cuC_fits true) cuFine he hu fun _ => .inr rfl
example : ∃ len rc, Cuda.Ev.pin (.out 0) len rc ∈ (cudaHost (cuC false) cuFine 0).evs ∧ 7 < len := C73_bounds_fails (c := cuC false) (by decide) rfl (by decide) (by decide) cuFine
example : ∃ i rc, Cuda.Ev.setDevice i rc ∈ (cudaHost (cuC true) (cuFail 49) 0).evs ∧ rc ≠ .success := C73_terminate_partial _ _ C73_terminate_fails.1

end Rakau
