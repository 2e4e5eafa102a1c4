import Verif.Proof.Buffers
import Verif.Props.Overloads

/-!
# C76: results do not depend on what the temporary vectors contain

The vectors for temporary data belong to the threads and survive from one critical node, call and tree to the next. Whatever they contain, whatever values
new memory has, whichever thread handles which node, and whatever happened in earlier calls, exceptions included: a call gives the results of `Model/AccPot.lean`
(to which the theorems on forces refer), unless the system is out of memory.
-/
set_option linter.unusedSectionVars false

namespace Rakau
open Spec

variable {K : Type} [Field K] [LinearOrder K] [IsStrictOrderedRing K] [FloorRing K] {A : Arith K} {simd : Option (Simd K)} {mac : Mac} {w d : Nat}

/-- A tree of a program, of a size that it can have. -/
structure Spec.GoodTree (rsqrt : Option (Fl K → Fl K)) (s : TS (rakauEnv A simd mac w d)) : Prop where
  reach : Reach _ s
  size : s.n * cbits w d < 2 ^ 64
  room : s.n + (⟨A, simd, rsqrt⟩ : Hw K).pad < 2 ^ 64

section Tree
variable {s : TS (rakauEnv A simd mac w d)} (hS : SimdPos simd) (hs : Supported w d) (h : Reach _ s) (hz : s.n * cbits w d < 2 ^ 64)
include hS hs h hz

theorem force_full (rsqrt : Option (Fl K → Fl K)) (over : Overshift) (Q : Quant) (mv G e : Fl K) : (s.force rsqrt over Q mv G e).Full s.n where
  ok := force_ok hS hs h hz rsqrt over Q mv G e
  parts := by
    intro j hj
    have I := reach_inv h
    have hl : s.parts.length = d + 1 := I.arr
    have hj' : j < s.parts.length := by rw [hl]; exact Nat.lt_succ_of_le hj
    exact ⟨s.parts[j], List.getElem?_eq_getElem hj', I.len _ (List.getElem_mem hj')⟩
  pos := by
    intro k hk
    obtain ⟨p, hp⟩ := reach_pts h hk
    have : (s.force rsqrt over Q mv G e).pt k = p := by
      unfold Force.pt
      rw [show ptAt (s.force rsqrt over Q mv G e).d (s.force rsqrt over Q mv G e).parts k = some p from hp]
      rfl
    rw [this]
    exact (pos_reach hs h hk hp).2.1
  com := by
    intro i hi
    obtain ⟨hpl, hcl, _⟩ := reach_props hs h hz hi
    unfold Force.pr
    rw [List.getD_eq_getElem?_getD, show (s.force rsqrt over Q mv G e).props[i]? = some s.props[i] from List.getElem?_eq_getElem hpl]
    exact hcl

/-- A critical node on any vectors. -/
theorem nodeB_eq {rsqrt : Option (Fl K → Fl K)} {over : Overshift} (ho : over.Small) (hr : s.n + (⟨A, simd, rsqrt⟩ : Hw K).pad < 2 ^ 64)
    (Q : Quant) (mv G e : Fl K) {cn : CNode} (hc : cn ∈ s.crit) (H : Heap K) (t : Thr K) :
    Run H ((s.force rsqrt over Q mv G e).nodeB H cn) t (fun r _ => (s.force rsqrt over Q mv G e).node cn = .ok r) := by
  obtain ⟨g1, _⟩ := crit_tiling (rakauEnv_ok A simd mac hs) h hz
  obtain ⟨t', vs, ht, _, _, _, hv, _, htr, hnd, _⟩ := node_val hS hs h hz ho hr Q mv G e hc
  have hrg := g1 cn hc
  refine (run_nodeB (force_full hS hs h hz rsqrt over Q mv G e) (by omega) (by omega) hr htr ?_).mono ?_
  · intro a _
    exact total_shape hs h hz Q mv G e hc hv a
  · rintro r _ rfl
    exact hnd

theorem runB_eq {rsqrt : Option (Fl K → Fl K)} {over : Overshift} (ho : over.Small) (hr : s.n + (⟨A, simd, rsqrt⟩ : Hw K).pad < 2 ^ 64)
    (Q : Quant) (mv G e : Fl K) (H : Heap K) (ix : Nat → Option Nat) : ∀ (sched : List (Nat × Nat)) (out : List (Res K)) (m : Banks K),
      m.count ≤ ((s.force rsqrt over Q mv G e).runB H ix sched out m).2.count ∧
      (((s.force rsqrt over Q mv G e).runB H ix sched out m).1 = Halt.lift ((sched.map Prod.snd).foldlM (fun out i => do
          let cn ← ofUB (s.force rsqrt over Q mv G e).crit[i]?
          let res ← (s.force rsqrt over Q mv G e).node cn
          ofUB (Force.write ix out cn.beg res)) out) ∨
        ((s.force rsqrt over Q mv G e).runB H ix sched out m).1 = .error .badAlloc ∧
          ∃ r, m.count ≤ r ∧ r < ((s.force rsqrt over Q mv G e).runB H ix sched out m).2.count ∧ H.fails r = true) := by
  intro sched
  induction sched with
  | nil => intro out m; exact ⟨le_refl _, .inl rfl⟩
  | cons x l ih =>
    obtain ⟨th, i⟩ := x
    intro out m
    unfold Force.runB
    rw [List.map_cons, List.foldlM_cons]
    cases hcr : (s.force rsqrt over Q mv G e).crit[i]? with
    | none => exact ⟨le_refl _, .inl rfl⟩
    | some cn =>
      have hc : cn ∈ s.crit := List.mem_of_getElem? hcr
      simp only
      rcases nodeB_eq hS hs h hz ho hr Q mv G e hc H ⟨m.bank th, m.count⟩ with ⟨res, t', e1, e2, e3⟩ | ⟨t', e1, e2, e3⟩
      · unfold onThread
        rw [e1]
        simp only [ofUB, bind, Except.bind] at e3 ⊢
        rw [e3]
        simp only
        cases hw : Force.write ix out cn.beg res with
        | none => exact ⟨e2, .inl rfl⟩
        | some out' =>
          simp only
          obtain ⟨i1, i2⟩ := ih out' ⟨fun i => if i = th then t'.bufs else m.bank i, t'.count⟩
          refine ⟨e2.trans i1, ?_⟩
          rcases i2 with i2 | ⟨i2, r, r1, r2, r3⟩
          · exact .inl i2
          · exact .inr ⟨i2, r, e2.trans r1, r2, r3⟩
      · unfold onThread
        rw [e1]
        exact ⟨e2.le, .inr ⟨rfl, t'.count - 1, by simp only at e2; omega, by simp only at e2 ⊢; omega, e3⟩⟩

end Tree

/-- The call as in the theorems on forces: fresh buffers, the critical nodes in the order of the schedule. -/
def ForceCall.plain (k : ForceCall K A simd mac w d) (rsqrt : Option (Fl K → Fl K)) (over : Overshift) : Except Halt (List (Res K)) :=
  Halt.lift (k.s.accPot rsqrt over k.Q k.ordered k.theta k.G k.eps k.split (k.sched.map Prod.snd) k.out)

/-- C76: a call has the outcome that it would have with fresh buffers, or `std::bad_alloc` if a request for memory has failed during the call. -/
theorem C76_call (hS : SimdPos simd) (hs : Supported w d) {rsqrt : Option (Fl K → Fl K)} {over : Overshift} (ho : over.Small) (k : ForceCall K A simd mac w d)
    (hk : GoodTree rsqrt k.s) (H : Heap K) (m : Banks K) :
    m.count ≤ (k.run rsqrt over H m).2.count ∧
    ((k.run rsqrt over H m).1 = Halt.lift (k.s.accPot rsqrt over k.Q k.ordered k.theta k.G k.eps k.split (k.sched.map Prod.snd) k.out) ∨
      (k.run rsqrt over H m).1 = .error .badAlloc ∧ ∃ r, m.count ≤ r ∧ r < (k.run rsqrt over H m).2.count ∧ H.fails r = true) := by
  unfold ForceCall.run TS.accPot
  cases hp : checkParams A mac k.theta k.G k.eps with
  | error e => exact ⟨le_refl _, .inl rfl⟩
  | ok v =>
    obtain ⟨mv, eps2⟩ := v
    simp only
    cases hsp : checkSplit k.split with
    | error e => exact ⟨le_refl _, .inl rfl⟩
    | ok v =>
      simp only [bind, Except.bind]
      unfold Force.cpuRunB Force.cpuRun
      by_cases hpad : (!(k.s.force rsqrt over k.Q mv k.G eps2).padCoord.isFinite) = true
      · rw [if_pos hpad, if_pos hpad]
        exact ⟨le_refl _, .inl rfl⟩
      · rw [if_neg hpad, if_neg hpad]
        exact runB_eq hS hs hk.reach hk.size ho hk.room k.Q mv k.G eps2 H _ k.sched k.out m

/-- C76: the same for every call of any sequence of calls, also after calls that have failed. -/
theorem C76_history (hS : SimdPos simd) (hs : Supported w d) {rsqrt : Option (Fl K → Fl K)} {over : Overshift} (ho : over.Small) (H : Heap K) :
    ∀ (calls : List (ForceCall K A simd mac w d)) (m : Banks K), (∀ k ∈ calls, GoodTree rsqrt k.s) →
      List.Forall₂ (fun k o => o = k.plain rsqrt over ∨ o = .error .badAlloc ∧ ∃ r, H.fails r = true) calls (runCalls rsqrt over H calls m) := by
  intro calls
  induction calls with
  | nil => intro m _; exact .nil
  | cons k l ih =>
    intro m hk
    refine .cons ?_ (ih _ (fun x hx => hk x (List.mem_cons_of_mem _ hx)))
    rcases (C76_call hS hs ho k (hk k List.mem_cons_self) H m).2 with h | ⟨h, r, _, _, hr⟩
    · exact .inl h
    · exact .inr ⟨h, r, hr⟩

/-- C76: with enough memory, the outcomes of all the calls of a program are those with fresh buffers. -/
theorem C76_memory (hS : SimdPos simd) (hs : Supported w d) {rsqrt : Option (Fl K → Fl K)} {over : Overshift} (ho : over.Small) {H : Heap K}
    (hH : ∀ r, H.fails r = false) (calls : List (ForceCall K A simd mac w d)) (m : Banks K) (hk : ∀ k ∈ calls, GoodTree rsqrt k.s) :
    runCalls rsqrt over H calls m = calls.map (fun k => k.plain rsqrt over) := by
  have h := C76_history hS hs ho H calls m hk
  generalize runCalls rsqrt over H calls m = o at h
  clear hk
  induction h with
  | nil => rfl
  | cons h1 _ ih =>
    rw [List.map_cons, ih]
    rcases h1 with h1 | ⟨_, r, hr⟩
    · rw [h1]
    · rw [hH r] at hr; cases hr

/-- C76: the results of two calls on the same tree with the same parameters are the same, whatever the vectors and new memory contain, and however the critical
nodes are distributed over threads and time. -/
theorem C76_schedules (hS : SimdPos simd) (hs : Supported w d) {rsqrt : Option (Fl K → Fl K)} {over : Overshift} (ho : over.Small) {s : TS (rakauEnv A simd mac w d)}
    (hk : GoodTree rsqrt s) {H H' : Heap K} (hH : ∀ r, H.fails r = false) (hH' : ∀ r, H'.fails r = false) (m m' : Banks K) (Q : Quant) (ordered : Bool)
    (theta G eps : Fl K) (split : List (Fl K)) {sched sched' : List (Nat × Nat)} (hsc : (sched.map Prod.snd).Perm (List.range s.crit.length))
    (hsc' : (sched'.map Prod.snd).Perm (List.range s.crit.length)) {out out' : List (Res K)} (hout : out.length = s.n) (hout' : out'.length = s.n) :
    (ForceCall.run ⟨s, Q, ordered, theta, G, eps, split, sched, out⟩ rsqrt over H m).1 =
      (ForceCall.run ⟨s, Q, ordered, theta, G, eps, split, sched', out'⟩ rsqrt over H' m').1 := by
  have key : ∀ {H : Heap K}, (∀ r, H.fails r = false) → ∀ (m : Banks K) (sched : List (Nat × Nat)) (out : List (Res K)),
      (ForceCall.run ⟨s, Q, ordered, theta, G, eps, split, sched, out⟩ rsqrt over H m).1 =
        Halt.lift (s.accPot rsqrt over Q ordered theta G eps split (sched.map Prod.snd) out) := by
    intro H hH m sched out
    rcases (C76_call hS hs ho ⟨s, Q, ordered, theta, G, eps, split, sched, out⟩ hk H m).2 with h | ⟨_, r, _, _, hr⟩
    · exact h
    · rw [hH r] at hr; cases hr
  rw [key hH, key hH']
  congr 1
  cases hp : checkParams A mac theta G eps with
  | error e => unfold TS.accPot; rw [hp]; rfl
  | ok v =>
    obtain ⟨mv, eps2⟩ := v
    cases hsp : checkSplit split with
    | error e => unfold TS.accPot; rw [hp, hsp]; rfl
    | ok v =>
      by_cases hpad : (s.force rsqrt over Q mv G eps2).padCoord.isFinite = true
      · obtain ⟨val, _, hall⟩ := C27_outputs hS hs hk.reach hk.size ho hk.room Q hp hsp hpad
        obtain ⟨o1, a1, a2, a3⟩ := hall ordered _ out hsc hout
        obtain ⟨o2, b1, b2, b3⟩ := hall ordered _ out' hsc' hout'
        rw [a1, b1]
        congr 1
        apply List.ext_getElem (by omega)
        intro i h1 h2
        obtain ⟨π, ρ, hix, hρ, hρn, _⟩ := reach_positions hk.reach ordered
        obtain ⟨i1, e1, e2⟩ := a3 (ρ i) (hρn i (by omega))
        obtain ⟨i2, e3, e4⟩ := b3 (ρ i) (hρn i (by omega))
        obtain ⟨p1, _, _⟩ := hix (ρ i) (hρn i (by omega))
        obtain rfl : i = i1 := by rw [p1, hρ i (by omega), Option.some.injEq] at e1; exact e1
        obtain rfl : i = i2 := by rw [p1, hρ i (by omega), Option.some.injEq] at e3; exact e3
        have := e2.trans e4.symm
        rwa [List.getElem?_eq_getElem h1, List.getElem?_eq_getElem h2, Option.some.injEq] at this
      · unfold TS.accPot
        rw [hp, hsp]
        simp only [bind, Except.bind]
        unfold Force.cpuRun
        rw [if_pos (by simpa using hpad), if_pos (by simpa using hpad)]

/-! ### Examples -/

/-- Memory full of rubbish, of different sizes. -/
def rubbish : Banks ℚ := ⟨fun th => ⟨fun j => List.replicate (3 * j + th) .nan, fun _ j => List.replicate (20 - j) (.fin 77), fun _ j => List.replicate (th + j) (.inf true)⟩, 0⟩

/-- Every new element is an infinity; the request with number `bad` fails. -/
def rubbishHeap (bad : Nat) : Heap ℚ := ⟨fun _ _ => .inf false, fun r => r == bad⟩

/-- Calls on the sample tree: potentials with three threads, then accelerations and potentials with two, then accelerations with invalid parameters. -/
def callPot : ForceCall ℚ sqQ (some simd4) .bh 32 3 :=
  ⟨gS .bh, .pot, true, .fin (3 / 4), .fin 2, .fin 0, [], [(2, 3), (0, 1), (2, 0), (1, 2)], List.replicate 5 ⟨[], [.nan]⟩⟩
def callBoth : ForceCall ℚ sqQ (some simd4) .bh 32 3 :=
  ⟨gS .bh, .both, false, .fin (3 / 4), .fin 2, .fin 0, [], [(0, 0), (2, 1), (0, 2), (2, 3)], List.replicate 5 ⟨[.nan, .nan, .nan], [.nan]⟩⟩
def callBad : ForceCall ℚ sqQ (some simd4) .bh 32 3 := { callBoth with Q := .acc, theta := .fin (-1) }

theorem good_sample : GoodTree none (gS .bh) := ⟨g_reach .bh, g_size .bh, g_room .bh none⟩

/-- The potentials of the sample tree on vectors with rubbish; and with a request for memory that fails: an exception, then the right results from the retry. -/
example : (callPot.run none (maskedShift 32) (rubbishHeap 1000) rubbish).1 = .ok ([-251 / 60, -122 / 15, -72 / 5, -182 / 15, -175 / 12].map (fun v => ⟨[], [.fin v]⟩)) ∧
    (runCalls none (maskedShift 32) (rubbishHeap 5) [callPot, callPot] rubbish) =
      [.error .badAlloc, .ok ([-251 / 60, -122 / 15, -72 / 5, -182 / 15, -175 / 12].map (fun v => ⟨[], [.fin v]⟩))] := by
  decide +kernel

example : List.Forall₂ (fun k o => o = k.plain none (maskedShift 32) ∨ o = .error .badAlloc ∧ ∃ r, (rubbishHeap 5).fails r = true) [callPot, callBad, callBoth, callPot]
    (runCalls none (maskedShift 32) (rubbishHeap 5) [callPot, callBad, callBoth, callPot] rubbish) :=
  C76_history g_simd g_supp (maskedShift_small _) _ _ _ (by
    intro k hk
    simp only [List.mem_cons, List.not_mem_nil, or_false] at hk
    rcases hk with rfl | rfl | rfl | rfl <;> exact good_sample)

example : runCalls none (maskedShift 32) ⟨fun _ _ => .nan, fun _ => false⟩ [callPot, callBad, callBoth, callPot] rubbish =
    [callPot, callBad, callBoth, callPot].map (fun k => k.plain none (maskedShift 32)) :=
  C76_memory g_simd g_supp (maskedShift_small _) (fun _ => rfl) _ _ (by
    intro k hk
    simp only [List.mem_cons, List.not_mem_nil, or_false] at hk
    rcases hk with rfl | rfl | rfl | rfl <;> exact good_sample)

/-- One thread in the order of the nodes on empty vectors, and three threads in another order on vectors with rubbish. -/
example : (ForceCall.run ⟨gS .bh, .both, true, .fin (3 / 4), .fin 2, .fin 1, [], [(0, 0), (0, 1), (0, 2), (0, 3)], List.replicate 5 ⟨[.nan, .nan, .nan], [.nan]⟩⟩
      none (maskedShift 32) ⟨fun _ _ => .fin 0, fun _ => false⟩ ⟨fun _ => ⟨fun _ => [], fun _ _ => [], fun _ _ => []⟩, 0⟩).1 =
    (ForceCall.run ⟨gS .bh, .both, true, .fin (3 / 4), .fin 2, .fin 1, [], [(2, 3), (0, 1), (2, 0), (1, 2)], List.replicate 5 ⟨[.fin 8, .nan, .nan], [.fin 9]⟩⟩
      none (maskedShift 32) ⟨fun r i => .fin (r + i), fun _ => false⟩ rubbish).1 :=
  C76_schedules g_simd g_supp (maskedShift_small _) good_sample (fun _ => rfl) (fun _ => rfl) _ _ _ _ _ _ _ _ (by decide +kernel) (by decide +kernel)
    (by decide +kernel) (by decide +kernel)

end Rakau
