import Verif.Proof.Builder
import Verif.Props.Build

/-!
C79: the tasks of the parallel tree builder, interleaved operation by operation. `blocks` says how `tbb::parallel_for` splits the children of each node, `split` is the number of particles
from which on a node is built in parallel.
-/
namespace Rakau
open Spec Builder

variable {g : Cfg} {codes : List Nat} {split : Nat} {blocks : Nat → List (List Nat)}

/-- C79: in every execution, up to any point, no two tasks are about to access the same element of a concurrent vector (or the root) with one of them writing to it. -/
theorem C79_no_race (I : BuildInput g codes) (hb : ∀ pc, Split (2 ^ g.d) (blocks pc)) {n : Nat} {p : B} {h : Heap} (he : Exec n (rootP g codes split blocks) (start g codes) p h) :
    ¬ Conflict p h := by
  obtain ⟨m', c', h1, h2⟩ := (rootP_sp I.hyp I.hsz split hb).exec he (start_owns g codes)
  refine no_conflict (h1.apart ?_ h)
  have := (h2.objs.map Prod.fst).nodup_iff.1 cells_nodup
  rwa [List.append_nil] at this

/-- What a conflict is, so that `C79_no_race` says something: a task about to write an object, and another about to read or write the same one. Two reads are none. -/
theorem C79_conflict (h : Heap) (r : Nat) (o o' : Obj) (p q : B) (k k' : Obj → B) :
    Conflict (.par (.set r o p) (.get r k)) h ∧ Conflict (.par (.get r k) (.set r o p)) h ∧ Conflict (.par (.set r o p) (.set r o' q)) h ∧ ¬ Conflict (.par (.get r k) (.get r k')) h := by
  refine ⟨⟨0, 1, _, _, r, true, false, by decide, rfl, rfl, rfl, rfl, .inl rfl⟩, ⟨0, 1, _, _, r, false, true, by decide, rfl, rfl, rfl, rfl, .inr rfl⟩,
    ⟨0, 1, _, _, r, true, true, by decide, rfl, rfl, rfl, rfl, .inl rfl⟩, ?_⟩
  rintro ⟨i, j, a, b, r', u, v, _, ha, hb, ea, eb, huv⟩
  have ha' := List.mem_of_getElem? ha
  have hb' := List.mem_of_getElem? hb
  simp only [B.steps, List.map_cons, List.map_nil, List.cons_append, List.nil_append, List.mem_cons, List.not_mem_nil, or_false] at ha' hb'
  have hu : u = false := by rcases ha' with rfl | rfl <;> simp at ea <;> exact ea.2
  have hv : v = false := by rcases hb' with rfl | rfl <;> simp at eb <;> exact eb.2
  simp [hu, hv] at huv

/-- C79: no task throws an exception, whichever the order of the additions to the counters, or does anything undefined. -/
theorem C79_no_error (I : BuildInput g codes) (hb : ∀ pc, Split (2 ^ g.d) (blocks pc)) {n : Nat} {p : B} {h : Heap} (he : Exec n (rootP g codes split blocks) (start g codes) p h) (e : Err) :
    ¬ Throws e p := by
  obtain ⟨m', c', h1, _⟩ := (rootP_sp I.hyp I.hsz split hb).exec he (start_owns g codes)
  exact h1.quiet

/-- C79: executions end, and only when all tasks have finished. -/
theorem C79_ends (I : BuildInput g codes) (hb : ∀ pc, Split (2 ^ g.d) (blocks pc)) :
    (∃ N, ∀ {n : Nat} {p : B} {h : Heap}, Exec n (rootP g codes split blocks) (start g codes) p h → n ≤ N) ∧
    ∀ {n : Nat} {p : B} {h : Heap}, Exec n (rootP g codes split blocks) (start g codes) p h → p.steps h = [] → Finished p := by
  refine ⟨?_, fun he hs => ?_⟩
  · obtain ⟨N, hN⟩ := rootP_bd (g := g) (codes := codes) split hb
    exact ⟨N, fun he => hN.exec he⟩
  · rcases steps_nil hs with h | ⟨e, h⟩
    · exact h
    · exact absurd h (C79_no_error I hb he e)

/-- C79: what the tasks leave is sorted and merged into the same tree and the same critical nodes in every run, whatever the interleaving, the blocks and the number of particles from which on
nodes are built in parallel: those of `IsBuild`, where the tasks run one after the other. -/
theorem C79_result (I : BuildInput g codes) (hb : ∀ pc, Split (2 ^ g.d) (blocks pc)) {r : Except Err (List Node × List CNode)} (h : Runs g codes split blocks r) :
    IsBuild g codes split r ∧ ∀ {split' : Nat} {blocks' : Nat → List (List Nat)} {r' : Except Err (List Node × List CNode)}, (∀ pc, Split (2 ^ g.d) (blocks' pc)) →
      Runs g codes split' blocks' r' → r' = r := by
  have h1 := runs_isBuild I.hyp I.hsz I.nonempty split hb h
  exact ⟨h1, fun hb' h' => C14_deterministic I (runs_isBuild I.hyp I.hsz I.nonempty _ hb' h') h1⟩

/-- C79: it is the result of the serial builder run from the root. -/
theorem C79_serial (I : BuildInput g codes) (hb : ∀ pc, Split (2 ^ g.d) (blocks pc)) (hm : g.maxLeaf < codes.length) {r : Except Err (List Node × List CNode)} (h : Runs g codes split blocks r) :
    ∃ tree crit cc, r = .ok (⟨0, codes.length, cc, 1, 0⟩ :: tree, crit) ∧
      buildSer g codes (cbits g.w g.d) 1 0 codes.length (rootCrit g codes) ⟨[], if rootCrit g codes then [⟨1, 0, codes.length⟩] else []⟩ = .ok (⟨tree, crit⟩, cc) := by
  have h1 := (C79_result I hb h).1
  obtain ⟨tree, crit, rfl, _⟩ := C44_no_overflow I h1
  obtain ⟨cc, h2, h3⟩ := C14_equals_serial I h1 hm
  cases tree with
  | nil => simp at h3
  | cons nd tree =>
    simp only [List.head?_cons, Option.some.injEq] at h3
    subst h3
    exact ⟨tree, crit, cc, rfl, h2⟩

/-- C79: there is a complete run. -/
theorem C79_exists (I : BuildInput g codes) (hb : ∀ pc, Split (2 ^ g.d) (blocks pc)) : ∃ r, Runs g codes split blocks r := by
  obtain ⟨N, hN⟩ := rootP_bd (g := g) (codes := codes) split hb
  obtain ⟨k, p, h, he, hs⟩ := hN.run (start g codes)
  have hf := (C79_ends I hb).2 he hs
  obtain ⟨ps, cc, h1, h2, h3, h4⟩ := left_pieces I.hyp I.hsz split (exec_left I.hyp I.hsz split hb he hf)
  obtain ⟨r, hr⟩ := C44_outcome_exists I split
  cases hr with
  | empty h => exact absurd h I.nonempty
  | fail e _ h => rw [h1] at h; simp at h
  | run ps' cc' trees crits _ h5 ht hc =>
    rw [h1] at h5
    simp only [Except.ok.injEq, Prod.mk.injEq] at h5
    obtain ⟨rfl, rfl⟩ := h5
    exact ⟨_, .ok he hf ((h4 _).2 rfl) ⟨ht.1.trans h2.symm, ht.2⟩ ⟨hc.1.trans h3.symm, hc.2⟩⟩

/-! ### Two executions of a small build -/

/-- The execution that takes the operations of the given numbers among those that can come next. -/
def follow : List Nat → B → Heap → Option (B × Heap)
  | [], p, h => some (p, h)
  | i :: l, p, h => do
    let s ← (p.steps h)[i]?
    follow l s.2.2 s.2.1

theorem follow_exec {l : List Nat} {p q : B} {h h' : Heap} (hf : follow l p h = some (q, h')) : Exec l.length p h q h' := by
  induction l generalizing p h with
  | nil =>
    simp only [follow, Option.some.injEq, Prod.mk.injEq] at hf
    obtain ⟨rfl, rfl⟩ := hf
    exact .refl _ _
  | cons i l ih =>
    simp only [follow, Option.bind_eq_bind, Option.bind_eq_some_iff] at hf
    obtain ⟨s, h1, h2⟩ := hf
    exact .step (List.mem_of_getElem? h1) (ih h2)

/-- Three particles in two quadrants. -/
def raceCodes : List Nat := [5, 2 ^ 28, 2 ^ 28 + 2 ^ 27]

/-- Each child in a task of its own. -/
def eachAlone : Nat → List (List Nat) := fun _ => [[0], [1], [2], [3]]

theorem eachAlone_split (pc : Nat) : Split (2 ^ exCfg.d) (eachAlone pc) := by
  show List.Perm _ _
  simp only [eachAlone]
  decide

theorem raceInput : BuildInput exCfg raceCodes where
  dim := by decide
  sorted := by decide
  bound := by decide
  size := by decide
  nonempty := by decide

/-- The last of the possible operations, each time. -/
def lastFirst : Nat → B → Heap → List Nat
  | 0, _, _ => []
  | n + 1, p, h => match (p.steps h).getLast? with
    | some s => ((p.steps h).length - 1) :: lastFirst n s.2.2 s.2.1
    | none => []

/-- Two executions push the pieces in different orders, both end without exceptions and conflicts after 40 operations, and all runs give one tree. -/
example : ∃ p q h h' r, Exec 40 (rootP exCfg raceCodes 2 eachAlone) (start exCfg raceCodes) p h ∧ Exec 40 (rootP exCfg raceCodes 2 eachAlone) (start exCfg raceCodes) q h' ∧
    Finished p ∧ Finished q ∧ h.trees.map (List.map (·.code)) = [[4], [5], [20], [22]] ∧ h'.trees.map (List.map (·.code)) = [[5], [22], [20], [4]] ∧
    ¬ Conflict p h ∧ (∀ e, ¬ Throws e p) ∧ (∀ r', Runs exCfg raceCodes 2 eachAlone r' → r' = .ok r) ∧ r.1.map (·.code) = [1, 4, 5, 20, 22] := by
  have e1 : ((follow (List.replicate 40 0) (rootP exCfg raceCodes 2 eachAlone) (start exCfg raceCodes)).map
      (fun x => (x.1.fin, x.2.trees.map (List.map (·.code))))) = some (true, [[4], [5], [20], [22]]) := by decide +kernel
  have e2 : ((follow (lastFirst 40 (rootP exCfg raceCodes 2 eachAlone) (start exCfg raceCodes)) (rootP exCfg raceCodes 2 eachAlone) (start exCfg raceCodes)).map
      (fun x => (x.1.fin, x.2.trees.map (List.map (·.code))))) = some (true, [[5], [22], [20], [4]]) := by decide +kernel
  have e3 : (lastFirst 40 (rootP exCfg raceCodes 2 eachAlone) (start exCfg raceCodes)).length = 40 := by decide +kernel
  rw [Option.map_eq_some_iff] at e1 e2
  obtain ⟨⟨p, h⟩, f1, g1⟩ := e1
  obtain ⟨⟨q, h'⟩, f2, g2⟩ := e2
  simp only [Prod.mk.injEq] at g1 g2
  have E1 := follow_exec f1
  have E2 := follow_exec f2
  rw [e3] at E2
  rw [List.length_replicate] at E1
  obtain ⟨r0, hr0⟩ := C79_exists (split := 2) raceInput eachAlone_split
  obtain ⟨tree, crit, cc, rfl, hs⟩ := C79_serial raceInput eachAlone_split (by decide) hr0
  refine ⟨p, q, h, h', _, E1, E2, fin_iff.1 g1.1, fin_iff.1 g2.1, g1.2, g2.2, C79_no_race raceInput eachAlone_split E1, fun e => C79_no_error raceInput eachAlone_split E1 e,
    fun r' hr' => (C79_result raceInput eachAlone_split hr0).2 eachAlone_split hr', ?_⟩
  have e4 : ((buildSer exCfg raceCodes (cbits exCfg.w exCfg.d) 1 0 raceCodes.length (rootCrit exCfg raceCodes)
      ⟨[], if rootCrit exCfg raceCodes then [⟨1, 0, raceCodes.length⟩] else []⟩).toOption.map (fun x => x.1.tree.map (·.code))) = some [4, 5, 20, 22] := by decide +kernel
  rw [hs] at e4
  simpa [Except.toOption] using e4

/-- No execution of this build has more than some number of operations, and there is one with 40. -/
example : ∃ N, 40 ≤ N ∧ ∀ {n : Nat} {p : B} {h : Heap}, Exec n (rootP exCfg raceCodes 2 eachAlone) (start exCfg raceCodes) p h → n ≤ N := by
  obtain ⟨N, hN⟩ := (C79_ends (split := 2) raceInput eachAlone_split).1
  refine ⟨N, ?_, hN⟩
  have e1 : (follow (List.replicate 40 0) (rootP exCfg raceCodes 2 eachAlone) (start exCfg raceCodes)).isSome = true := by decide +kernel
  obtain ⟨⟨p, h⟩, f1⟩ := Option.isSome_iff_exists.1 e1
  have := hN (follow_exec f1)
  simpa using this

end Rakau
