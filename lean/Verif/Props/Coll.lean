import Verif.Proof.CollMain
import Verif.Proof.CollExec
import Verif.Spec.Coll
import Verif.Props.NodeProps
import Mathlib.Tactic.IntervalCases

/-!
Property theorems on the collision graph: C31 (exact overlap graph), C32 (structure), C33 (schedule independence), C34 (shifts).
-/
namespace Rakau
open Spec

/-! ### Concrete cases -/

@[reducible] def collEnv : Env := rakauEnv exactQ none .bh 32 3

/-- Five particles, leaves of one particle: shallow tree. -/
def collData : List (List ℚ) := [[1, -1, 3, -2, 1 / 2], [1, 1, 3, -2, -1], [1, 1, 3, 0, 1], [1, 1, 1, 1, 1]]
def collInp : Input collEnv := ⟨some (.fin 8), 1, 1, collData.map (·.map .fin)⟩
def collS : TS collEnv := okOr collInp.exec (TS.default _)

theorem coll_reach : Reach collEnv collS := by
  have h : Construct collInp collInp.exec := construct_exec (by decide +kernel)
  rw [eq_okOr (d := TS.default _) (show isOk collInp.exec = true by decide +kernel)] at h
  exact .construct collInp collS rfl h

/-- The data of `collS`, in the order of the tree. -/
def collX (j k : Nat) : ℚ := (collData.getD j []).getD ([3, 4, 1, 0, 2].getD k 0) 0

theorem coll_data : IsData 3 collS.n collS.parts collX := isData_of_eq (by decide +kernel)

def collSize (i : Nat) : ℚ := [1, 1, 2, 0, 3].getD i 0

/-- Four particles, two of them coincident: the tree reaches the deepest level. -/
def deepData : List (List ℚ) := [[1 / 256, -1 / 2, 1 / 256, 3 / 2], [1 / 256, 3 / 4, 1 / 256, 3 / 2], [1 / 256, 3 / 4, 1 / 256, 3 / 2], [1, 1, 1, 1]]
def deepInp : Input collEnv := ⟨some (.fin 8), 1, 1, deepData.map (·.map .fin)⟩
def deepS : TS collEnv := okOr deepInp.exec (TS.default _)

theorem deep_reach : Reach collEnv deepS := by
  have h : Construct deepInp deepInp.exec := construct_exec (by decide +kernel)
  rw [eq_okOr (d := TS.default _) (show isOk deepInp.exec = true by decide +kernel)] at h
  exact .construct deepInp deepS rfl h

def deepX (j k : Nat) : ℚ := (deepData.getD j []).getD ([1, 0, 2, 3].getD k 0) 0

theorem deep_data : IsData 3 deepS.n deepS.parts deepX := isData_of_eq (by decide +kernel)

def deepSize (i : Nat) : ℚ := [1 / 200, 3 / 2, 1 / 200, 1].getD i 0

section Any

variable {K : Type} [Field K] [LinearOrder K] [IsStrictOrderedRing K] [FloorRing K] {A : Arith K} {simd : Option (Simd K)} {mac : Mac}
  {w d : Nat} {s : TS (rakauEnv A simd mac w d)} {over : Overshift} {top : K} {ordered : Bool} {sz : List (Fl K)}

omit [IsStrictOrderedRing K] in
theorem userIdx_iff (hr : Reach (rakauEnv A simd mac w d) s) {a i : Nat} :
    graphIdx s.perm s.n ordered a = some i ↔ a < s.n ∧ UserIdx s.perm ordered a i := by
  have I := reach_inv hr
  constructor
  · intro h
    refine ⟨graphIdx_lt hr h, ?_⟩
    obtain ⟨_, h2⟩ := graphIdx_some h
    unfold UserIdx
    cases ordered <;> simpa using h2
  · rintro ⟨h1, h2⟩
    obtain ⟨j, hj, h3, _⟩ := graphIdx_ok (ordered := ordered) (sz := []) hr h1
    obtain ⟨_, h4⟩ := graphIdx_some h3
    rw [h3]
    unfold UserIdx at h2
    cases ordered
    · simp at h2 h4; rw [← h2, h4]
    · simp at h2 h4; rw [h2] at h4; simpa using h4.symm

omit [IsStrictOrderedRing K] in
theorem aabbSize_user {a i : Nat} (h : UserIdx s.perm ordered a i) : aabbSize s.perm ordered sz a = sz[i]? := by
  unfold UserIdx at h
  unfold aabbSize
  cases ordered
  · simp at h; rw [h]; simp
  · simp at h; simp [h]

/-! ### C33 -/

omit [IsStrictOrderedRing K] in
/-- C33: if some execution returns a graph then all executions do, and it is the same graph: whatever the order of the concurrent pushes,
and whatever the output held before the call. In any arithmetic. -/
theorem C33_schedule {old old' : List (List Nat)} {g : List (List Nat)} {r : Except Err (List (List Nat))}
    (h : Cgraph s over top ordered sz old (.ok g)) (h' : Cgraph s over top ordered sz old' r) : r = .ok g := cgraph_unique h h'

example : ∀ r old, Cgraph collS strictShift 1023 true ((List.range 5).map (fun i => .fin (collSize i))) old r →
    r = .ok [[4], [4], [], [], [0, 1]] := by
  intro r old h
  have := coll_exec collS strictShift 1023 true ((List.range 5).map (fun i => .fin (collSize i))) [[7], [1, 2]]
  rw [show collExec collS strictShift 1023 true ((List.range 5).map (fun i => .fin (collSize i))) = .ok [[4], [4], [], [], [0, 1]]
    by decide +kernel] at this
  exact C33_schedule this h

omit [IsStrictOrderedRing K] in
/-- C33: there is an outcome for every input. -/
theorem C33_total (s : TS (rakauEnv A simd mac w d)) (over : Overshift) (top : K) (ordered : Bool) (sz : List (Fl K))
    (old : List (List Nat)) : ∃ r, Cgraph s over top ordered sz old r := cgraph_exists s over top ordered sz old

/-! ### C32 -/

/-- C32: the structure of the graph, in any arithmetic and for any meaning of over-wide shifts. -/
theorem C32_structure (hs : Supported w d) (hr : Reach (rakauEnv A simd mac w d) s) (hz : s.n * cbits w d < 2 ^ 64)
    {old g : List (List Nat)} (h : Cgraph s over top ordered sz old (.ok g)) :
    g.length = s.n ∧ ∀ i (hi : i < g.length), g[i].Pairwise (· < ·) ∧ i ∉ g[i] ∧
      (∀ j ∈ g[i], ∃ hj : j < g.length, i ∈ g[j]) ∧
      (∀ z, sz[i]? = some z → z.eq (.fin 0) = true → g[i] = []) := by
  obtain ⟨h1, h2, _⟩ := cgraph_edges h
  have hiff := fun i hi j => cgraph_iff (rakauEnv_ok A simd mac hs) hr hz h (i := i) hi j
  refine ⟨h1, fun i hi => ⟨h2 i hi, ?_, ?_, ?_⟩⟩
  · intro hc
    obtain ⟨_, a, b, _, _, hne, ha, hb, _⟩ := (hiff i hi i).1 hc
    exact hne (graphIdx_inj hr ha hb)
  · intro j hj
    obtain ⟨l, a, b, la, lb, hne, ha, hb, hl⟩ := (hiff i hi j).1 hj
    have hj' : j < g.length := by rw [h1]; exact (graphIdx_some hb).1
    exact ⟨hj', (hiff j hj' i).2 ⟨l, b, a, lb, la, hne.symm, hb, ha, hl.symm⟩⟩
  · intro z hz' hzero
    rw [List.eq_nil_iff_forall_not_mem]
    intro j hj
    obtain ⟨l, a, b, _, _, _, ha, _, sa, _, _, _, e1, _, e2, _⟩ := (hiff i hi j).1 hj
    rw [aabbSize_user ((userIdx_iff hr).1 ha).2, hz', Option.some.injEq] at e1
    rw [e1, e2] at hzero
    simp at hzero

example : ∃ g : List (List Nat), Cgraph collS strictShift 1023 true ((List.range 5).map (fun i => .fin (collSize i))) [] (.ok g) ∧
    g = [[4], [4], [], [], [0, 1]] ∧ g[4]?.map (List.Pairwise (· < ·)) = some True := by
  refine ⟨[[4], [4], [], [], [0, 1]], ?_, rfl, by simp⟩
  have := coll_exec collS strictShift 1023 true ((List.range 5).map (fun i => .fin (collSize i))) []
  rwa [show collExec collS strictShift 1023 true ((List.range 5).map (fun i => .fin (collSize i))) = .ok [[4], [4], [], [], [0, 1]]
    by decide +kernel] at this

/-- C31, in any arithmetic: every edge connects different particles with non-empty AABBs, for which the computed segments
`[fl(x - s/2), fl(x + s/2)]` overlap in every dimension. -/
theorem C31_sound (hs : Supported w d) (hr : Reach (rakauEnv A simd mac w d) s) (hz : s.n * cbits w d < 2 ^ 64)
    {old g : List (List Nat)} (h : Cgraph s over top ordered sz old (.ok g)) {i j : Nat} (hi : i < g.length) (hj : j ∈ g[i]) :
    ∃ a b sa sb pa pb, a ≠ b ∧ UserIdx s.perm ordered a i ∧ UserIdx s.perm ordered b j ∧ sz[i]? = some sa ∧ sz[j]? = some sb ∧
      sa.eq (.fin 0) = false ∧ sb.eq (.fin 0) = false ∧ coordsAt d s.parts a = some pa ∧ coordsAt d s.parts b = some pb ∧
      ∀ k (h : k < pa.length) (h' : k < pb.length),
        (A.fma sa (A.div (.fin (-1)) (.fin 2)) pa[k]).le (A.fma sb (A.div (.fin 1) (.fin 2)) pb[k]) = true ∧
        (A.fma sa (A.div (.fin 1) (.fin 2)) pa[k]).ge (A.fma sb (A.div (.fin (-1)) (.fin 2)) pb[k]) = true := by
  obtain ⟨_, a, b, _, _, hne, ha, hb, sa, sb, pa, pb, e1, e2, e3, e4, e5, e6, e7⟩ :=
    (cgraph_iff (rakauEnv_ok A simd mac hs) hr hz h hi j).1 hj
  have ua := ((userIdx_iff hr).1 ha).2
  have ub := ((userIdx_iff hr).1 hb).2
  rw [aabbSize_user ua] at e1
  rw [aabbSize_user ub] at e2
  refine ⟨a, b, sa, sb, pa, pb, hne, ua, ub, e1, e2, e3, e4, e5, e6, ?_⟩
  intro k hk hk'
  unfold overlap at e7
  rw [List.all_eq_true] at e7
  have := e7 (pa[k], pb[k]) (by rw [List.mem_iff_getElem]; exact ⟨k, by simp [hk, hk'], by simp⟩)
  simp only [segment, Bool.and_eq_true] at this
  exact ⟨this.2, this.1⟩

example : ∃ a b sa sb pa pb, a ≠ b ∧ UserIdx collS.perm true a 4 ∧ UserIdx collS.perm true b 1 ∧
    ((List.range 5).map (fun i => Fl.fin (collSize i)))[4]? = some sa ∧ ((List.range 5).map (fun i => Fl.fin (collSize i)))[1]? = some sb ∧
    coordsAt 3 collS.parts a = some pa ∧ coordsAt 3 collS.parts b = some pb ∧ pa.length = pb.length := by
  have := coll_exec collS strictShift 1023 true ((List.range 5).map (fun i => .fin (collSize i))) []
  rw [show collExec collS strictShift 1023 true ((List.range 5).map (fun i => .fin (collSize i))) = .ok [[4], [4], [], [], [0, 1]]
    by decide +kernel] at this
  obtain ⟨a, b, sa, sb, pa, pb, h1, h2, h3, h4, h5, _, _, h6, h7, _⟩ :=
    C31_sound ⟨.inl rfl, .inr rfl⟩ coll_reach (by decide +kernel) this (i := 4) (j := 1) (by simp) (by simp)
  refine ⟨a, b, sa, sb, pa, pb, h1, h2, h3, h4, h5, h6, h7, ?_⟩
  unfold coordsAt at h6 h7
  rw [← (forall₂_getElem (mapM_some_iff.1 h6)).1, ← (forall₂_getElem (mapM_some_iff.1 h7)).1]

/-! ### C34 -/

/-- C34 is false: the shift in the range computation is by the full width of the type, undefined, exactly for nodes of the deepest level. -/
theorem C34_iff (hs : Supported w d) {level code : Nat} (hl : level ≤ cbits w d) (hc : code < 2 ^ (level * d + 1)) :
    nodeRange strictShift w d code level = none ↔ level = cbits w d := by
  have hd := hs.dim
  rcases Nat.eq_or_lt_of_le hl with h | h
  · have hlt : code < 2 ^ w := lt_of_lt_of_le hc (Nat.pow_le_pow_right (by norm_num) (by
      have := cbits_mul_lt hd.1 hd.2.1
      rw [h]; omega))
    subst h
    rw [nodeRange_deep hd.1 hd.2.1 hd.2.2 hlt]
    simp [strictShift]
  · rw [nodeRange_ok hd.1 hd.2.1 hd.2.2 (.of_lt h) hc]
    simp only [reduceCtorEq, false_iff]
    omega

example : nodeRange strictShift 64 3 (2 ^ 63 + 5) 21 = none ∧ nodeRange strictShift 64 3 (2 ^ 60 + 5) 20 = some ((2 ^ 60 + 5) * 8, (2 ^ 60 + 5) * 8 + 7) := by
  decide +kernel

omit [IsStrictOrderedRing K] in
theorem levels_of_lt (h : ∀ nd ∈ s.tree, nd.nChildren = 0 → nd.level < cbits w d) : LevelsOk s over := by
  intro nd hnd
  obtain ⟨h1, h2⟩ := List.mem_filter.1 hnd
  exact .of_lt (h nd h1 (by simpa using h2))

/-- C34 (part): if the tree does not reach the deepest level, nor the levels computed from the AABB sizes, no execution has undefined
behaviour, in any arithmetic: every outcome is a graph or `std::invalid_argument`. The caller must supply a size for each particle.
Missing: the deepest level, where the statement is false (`C34_fails_leaf`, `C34_fails_size`). -/
theorem C34_partial (hs : Supported w d) (hr : Reach (rakauEnv A simd mac w d) s) (hz : s.n * cbits w d < 2 ^ 64)
    (htree : ∀ nd ∈ s.tree, nd.nChildren = 0 → nd.level < cbits w d) (h0 : 0 ≤ top) (h1 : top < 2 ^ cbits w d) (hsz : s.n ≤ sz.length)
    (hsize : ∀ i < s.n, ∀ a, sz[i]? = some a → a.isFinite = true → a.eq (.fin 0) = false → sizeToLevel A (cbits w d) a s.box < cbits w d)
    {old : List (List Nat)} {r : Except Err (List (List Nat))} (h : Cgraph s strictShift top ordered sz old r) :
    (∃ g, r = .ok g) ∨ r = .error .invalidArg :=
  cgraph_noUB hs hr hz (levels_of_lt htree) h0 h1 hsz (fun i hi a ha h1 h2 => .of_lt (hsize i hi a ha h1 h2)) h

example : ∀ r old, Cgraph collS strictShift 1023 false ((List.range 5).map (fun i => .fin (collSize i))) old r →
    (∃ g, r = .ok g) ∨ r = .error .invalidArg := fun r old h =>
  C34_partial ⟨.inl rfl, .inr rfl⟩ coll_reach (by decide +kernel) (by decide +kernel) (by norm_num) (by decide +kernel) (by decide +kernel)
    (fun i hi a ha _ hn => by
      have hi' : i < 5 := lt_of_lt_of_eq hi (by decide +kernel)
      interval_cases i
      all_goals simp [collSize] at ha; subst ha; revert hn; decide +kernel) h

/-- C33: without undefined behaviour the outcome is unique, also when it is an exception. -/
theorem C33_unique (hs : Supported w d) (hr : Reach (rakauEnv A simd mac w d) s) (hz : s.n * cbits w d < 2 ^ 64)
    (htree : ∀ nd ∈ s.tree, nd.nChildren = 0 → nd.level < cbits w d) (h0 : 0 ≤ top) (h1 : top < 2 ^ cbits w d) (hsz : s.n ≤ sz.length)
    (hsize : ∀ i < s.n, ∀ a, sz[i]? = some a → a.isFinite = true → a.eq (.fin 0) = false → sizeToLevel A (cbits w d) a s.box < cbits w d)
    {old old' : List (List Nat)} {r r' : Except Err (List (List Nat))} (h : Cgraph s strictShift top ordered sz old r)
    (h' : Cgraph s strictShift top ordered sz old' r') : r = r' := by
  rcases C34_partial hs hr hz htree h0 h1 hsz hsize h with ⟨g, rfl⟩ | e
  · exact (cgraph_unique h h').symm
  · rcases C34_partial hs hr hz htree h0 h1 hsz hsize h' with ⟨g, rfl⟩ | e'
    · exact cgraph_unique h' h
    · rw [e, e']

example : Cgraph collS strictShift 1023 true [.fin 1, .fin 1, .fin 2, .fin (-1), .fin 3] [] (.error .invalidArg) := by
  have := coll_exec collS strictShift 1023 true [.fin 1, .fin 1, .fin 2, .fin (-1), .fin 3] []
  rwa [show collExec collS strictShift 1023 true [.fin 1, .fin 1, .fin 2, .fin (-1), .fin 3] = .error .invalidArg by decide +kernel] at this

/-- C34: if shifting by the full width of the type gave zero, no execution would have undefined behaviour, without conditions on the tree
and on the sizes. -/
theorem C34_repaired (hs : Supported w d) (hr : Reach (rakauEnv A simd mac w d) s) (hz : s.n * cbits w d < 2 ^ 64)
    (hover : over (2 ^ w - 1) w = some 0) (h0 : 0 ≤ top) (h1 : top < 2 ^ cbits w d) (hsz : s.n ≤ sz.length)
    {old : List (List Nat)} {r : Except Err (List (List Nat))} (h : Cgraph s over top ordered sz old r) :
    (∃ g, r = .ok g) ∨ r = .error .invalidArg := by
  refine cgraph_noUB hs hr hz (fun nd hnd => ⟨?_, fun _ => hover⟩) h0 h1 hsz (fun i hi a ha h1 h2 => ⟨?_, fun _ => hover⟩) h
  · exact ((leaves_spec (rakauEnv_ok A simd mac hs) hr hz).1 nd hnd).lev
  · exact sizeLoop_le _ _ _ _

example : ∀ r old, Cgraph deepS (fun _ _ => some 0) 1023 false [.fin (1 / 1000), .fin 9, .fin 1, .inf true] old r →
    (∃ g, r = .ok g) ∨ r = .error .invalidArg := fun r old h =>
  C34_repaired ⟨.inl rfl, .inr rfl⟩ deep_reach (by decide +kernel) rfl (by norm_num) (by decide +kernel) (by decide +kernel) h

theorem collTask_of_lt (hs : Supported w d) (hr : Reach (rakauEnv A simd mac w d) s) (hz : s.n * cbits w d < 2 ^ 64) {x : Nat} (hx : x < s.n) :
    ∃ lf, (lf, x) ∈ collTasks s.tree := by
  obtain ⟨nd, h1, h2⟩ := (leaves_spec (rakauEnv_ok A simd mac hs) hr hz).2.2 x hx
  exact ⟨nd, mem_collTasks.2 ⟨h1, h2⟩⟩

/-- C34: an AABB size that is negative, infinite or NaN is reported, also before any undefined behaviour is possible for other particles:
no execution returns a graph. In any arithmetic. -/
theorem C34_invalid_size (hs : Supported w d) (hr : Reach (rakauEnv A simd mac w d) s) (hz : s.n * cbits w d < 2 ^ 64) {i : Nat} (hi : i < s.n)
    {z : Fl K} (hzi : sz[i]? = some z) (hbad : z.isFinite = false ∨ z.lt (.fin 0) = true) {old : List (List Nat)}
    {r : Except Err (List (List Nat))} (h : Cgraph s over top ordered sz old r) : ∀ g, r ≠ .ok g := by
  rintro g rfl
  have I := reach_inv hr
  obtain ⟨_, _, h3, _⟩ := cgraph_edges h
  obtain ⟨a, ha, hu⟩ : ∃ a < s.n, UserIdx s.perm ordered a i := by
    cases ordered with
    | false => exact ⟨i, hi, by simp [UserIdx]⟩
    | true =>
      have hm : i ∈ s.perm := I.perm.mem_iff.2 (List.mem_range.2 hi)
      obtain ⟨a, ha, e⟩ := List.getElem_of_mem hm
      refine ⟨a, by rwa [I.perm.length_eq, List.length_range] at ha, ?_⟩
      simp [UserIdx, List.getElem?_eq_getElem ha, e]
  obtain ⟨lf, ht⟩ := collTask_of_lt hs hr hz ha
  obtain ⟨q, hq⟩ := h3 lf a ht
  unfold collParticle at hq
  rw [aabbSize_user hu, hzi] at hq
  simp only [ofUB, bind, Except.bind] at hq
  rw [if_pos (by simpa using hbad)] at hq
  simp at hq

example : ∀ r, Cgraph collS strictShift 1023 true [.fin 1, .fin 1, .fin 2, .fin (-1), .fin 3] [] r → ∀ g, r ≠ .ok g := fun r h =>
  C34_invalid_size ⟨.inl rfl, .inr rfl⟩ coll_reach (by decide +kernel) (i := 3) (by decide +kernel) rfl (by decide +kernel) h

end Any

section Exact

variable {K : Type} [Field K] [LinearOrder K] [IsStrictOrderedRing K] [FloorRing K] {A : Arith K} {simd : Option (Simd K)} {mac : Mac}
  {w d : Nat} {s : TS (rakauEnv A simd mac w d)} {over : Overshift} {top b : K} {ordered : Bool} {sz : List (Fl K)}

/-- Cubes have a common point exactly if their segments overlap in every dimension. -/
theorem cubesMeet_iff {x y : Nat → K} {s t : K} (hs : 0 ≤ s) (ht : 0 ≤ t) :
    CubesMeet d x s y t ↔ ∀ j < d, x j - s / 2 ≤ y j + t / 2 ∧ y j - t / 2 ≤ x j + s / 2 := by
  constructor
  · rintro ⟨z, hz⟩ j hj
    obtain ⟨h1, h2⟩ := hz j hj
    rw [abs_le] at h1 h2
    constructor <;> linarith
  · intro h
    refine ⟨fun j => max (x j - s / 2) (y j - t / 2), fun j hj => ?_⟩
    obtain ⟨h1, h2⟩ := h j hj
    rw [abs_le, abs_le]
    refine ⟨⟨?_, ?_⟩, ?_, ?_⟩
    · have := le_max_left (x j - s / 2) (y j - t / 2); linarith
    · have : max (x j - s / 2) (y j - t / 2) ≤ x j + s / 2 := max_le (by linarith) h2
      linarith
    · have := le_max_right (x j - s / 2) (y j - t / 2); linarith
    · have : max (x j - s / 2) (y j - t / 2) ≤ y j + t / 2 := max_le h1 (by linarith)
      linarith

omit [IsStrictOrderedRing K] [FloorRing K] in
theorem coordsAt_data {n : Nat} {parts : List (List (Fl K))} {x : Nat → Nat → K} (hx : IsData d n parts x) {k : Nat} (hk : k < n) :
    coordsAt d parts k = some ((List.range d).map (fun j => .fin (x j k))) := by
  unfold coordsAt
  rw [mapM_some_iff]
  apply forall₂_of_getElem
  · rw [List.length_take, hx.1]; simp
  · intro j hj hj'
    have hjd : j < d := by simpa using hj'
    obtain ⟨v, hv, hvv⟩ := hx.2 j (by omega)
    have e : (parts.take d)[j] = v := by
      rw [List.getElem_take]
      exact Option.some.inj ((List.getElem?_eq_getElem _).symm.trans hv)
    rw [e, hvv.get hk]; simp

/-- The common part of C31. -/
theorem cgraph_exact (hA : A.Exact) (hs : Supported w d) (hr : Reach (rakauEnv A simd mac w d) s) (hz : s.n * cbits w d < 2 ^ 64)
    (hbox : s.box = .fin b) (hb : 0 < b) (h0 : 0 ≤ top) (h1 : top < 2 ^ cbits w d) {x : Nat → Nat → K} (hx : IsData d s.n s.parts x)
    {size : Nat → K} (hsz : ∀ i < s.n, sz[i]? = some (.fin (size i))) (hpos : ∀ i < s.n, 0 ≤ size i) (htree : LevelsOk s over)
    (hsize : ∀ i < s.n, size i ≠ 0 → b / 2 ^ cbits w d ≤ size i ∨ over (2 ^ w - 1) w = some 0) {old : List (List Nat)}
    {r : Except Err (List (List Nat))} (h : Cgraph s over top ordered sz old r) :
    ∃ g, r = .ok g ∧ IsOverlapGraph d s.n s.perm ordered x size g := by
  have hd := hs.dim
  have hcb : 0 < cbits w d := by rcases hs with ⟨rfl | rfl, rfl | rfl⟩ <;> decide
  have hcoord : ∀ a < s.n, coordsAt d s.parts a = some (((List.range d).map (fun k => x k a)).map .fin) := by
    intro a ha
    rw [coordsAt_data hx ha, List.map_map]; rfl
  have hszl : s.n ≤ sz.length := by
    by_contra hc
    push Not at hc
    have := hsz sz.length hc
    simp at this
  have hpos' : ∀ i < s.n, size i ≠ 0 → 0 < size i := fun i hi h => lt_of_le_of_ne (hpos i hi) h.symm
  -- all first phase computations succeed
  have hok : ∃ g, r = .ok g := by
    rcases cgraph_noUB hs hr hz htree h0 h1 hszl (fun i hi a ha _ hnz => by
        rw [hsz i hi, Option.some.injEq] at ha
        subst ha
        rw [hbox]
        have : size i ≠ 0 := by simpa [Fl.eq] using hnz
        exact (ex_sizeToLevel hA hcb (hsize i hi this)).1) h with hg | hg
    · exact hg
    · exfalso
      subst hg
      generalize hr0 : (Except.error Err.invalidArg : Except Err (List (List Nat))) = r0 at h
      cases h with
      | ok => simp at hr0
      | ub => simp at hr0
      | fail lf p e ht he =>
        obtain ⟨t1, t2, t3⟩ := mem_collTasks.1 ht
        have LF := (leaves_spec (rakauEnv_ok A simd mac hs) hr hz).1 lf t1
        have hcl : s.codes.length = s.n := (rawCodes_spec.1 (reach_inv hr).codes).1
        have hp : p < s.n := by have := LF.fin; omega
        obtain ⟨i, hi, _, i2⟩ := graphIdx_ok (ordered := ordered) (sz := sz) hr hp
        rw [hsz i hi] at i2
        by_cases hzero : size i = 0
        · unfold collParticle at he
          rw [i2, hzero] at he
          simp [ofUB, bind, Except.bind, Fl.isFinite, Fl.eq] at he
        · obtain ⟨⟨q, hq⟩, _⟩ := covered hA hs hr hz htree h0 h1 hbox hb ht i2 (hpos' i hi hzero) (hsize i hi hzero)
            (c := (List.range d).map (fun k => x k p)) (by simp) (hcoord p hp)
          rw [hq] at he; simp at he
  obtain ⟨g, rfl⟩ := hok
  refine ⟨g, rfl, (cgraph_edges h).1, ?_⟩
  have hgl := (cgraph_edges h).1
  intro i hi j
  rw [cgraph_iff (rakauEnv_ok A simd mac hs) hr hz h hi j]
  constructor
  · rintro ⟨l, a, c, _, _, hne, ha, hc, sa, sb, pa, pb, e1, e2, e3, e4, e5, e6, e7⟩
    obtain ⟨ha1, ha2⟩ := (userIdx_iff hr).1 ha
    obtain ⟨hc1, hc2⟩ := (userIdx_iff hr).1 hc
    have hjn := (graphIdx_some hc).1
    rw [aabbSize_user ha2, hsz i (by omega), Option.some.injEq] at e1
    rw [aabbSize_user hc2, hsz j hjn, Option.some.injEq] at e2
    rw [hcoord a ha1, Option.some.injEq] at e5
    rw [hcoord c hc1, Option.some.injEq] at e6
    subst e1 e2 e5 e6
    refine ⟨a, c, ha1, hc1, hne, ha2, hc2, by simpa [Fl.eq] using e3, by simpa [Fl.eq] using e4, ?_⟩
    rw [cubesMeet_iff (hpos i (by omega)) (hpos j hjn)]
    intro k hk
    have := (ex_overlap hA).1 e7 k (by simpa using hk) (by simpa using hk)
    simpa using this
  · rintro ⟨a, c, ha1, hc1, hne, ha2, hc2, hi0, hj0, hm⟩
    have ha := (userIdx_iff hr).2 ⟨ha1, ha2⟩
    have hc := (userIdx_iff hr).2 ⟨hc1, hc2⟩
    have hin : i < s.n := by omega
    have hjn := (graphIdx_some hc).1
    rw [cubesMeet_iff (hpos i hin) (hpos j hjn)] at hm
    have ea : aabbSize s.perm ordered sz a = some (.fin (size i)) := by rw [aabbSize_user ha2, hsz i hin]
    have ec : aabbSize s.perm ordered sz c = some (.fin (size j)) := by rw [aabbSize_user hc2, hsz j hjn]
    obtain ⟨lf, ht⟩ := collTask_of_lt hs hr hz ha1
    obtain ⟨lf', ht'⟩ := collTask_of_lt hs hr hz hc1
    have hov : ∀ k (h : k < ((List.range d).map (fun k => x k a)).length) (h' : k < ((List.range d).map (fun k => x k c)).length),
        ((List.range d).map (fun k => x k a))[k] - size i / 2 ≤ ((List.range d).map (fun k => x k c))[k] + size j / 2 ∧
        ((List.range d).map (fun k => x k c))[k] - size j / 2 ≤ ((List.range d).map (fun k => x k a))[k] + size i / 2 := by
      intro k hk hk'
      simpa using hm k (by simpa using hk)
    obtain ⟨l, l1, l2⟩ := common_leaf hA hs hr hz htree h0 h1 hbox hb ht ht' ea ec (hpos' i hin hi0) (hpos' j hjn hj0)
      (hsize i hin hi0) (hsize j hjn hj0) (by simp) (by simp) (hcoord a ha1) (hcoord c hc1) hov
    exact ⟨l, a, c, l1, l2, hne, ha, hc, _, _, _, _, ea, ec, by simpa [Fl.eq] using hi0, by simpa [Fl.eq] using hj0, hcoord a ha1,
      hcoord c hc1, (ex_overlap hA).2 hov⟩

/-- C31: in exact arithmetic, for a tree whose leaves are above the deepest level, and AABB sizes that are zero or at least one cell, every
execution returns the overlap graph: no edge is missing, none is spurious, for either numbering of the particles, any previous
content of the output and any meaning of over-wide shifts. -/
theorem C31_exact (hA : A.Exact) (hs : Supported w d) (hr : Reach (rakauEnv A simd mac w d) s) (hz : s.n * cbits w d < 2 ^ 64)
    (hbox : s.box = .fin b) (hb : 0 < b) (h0 : 0 ≤ top) (h1 : top < 2 ^ cbits w d) {x : Nat → Nat → K} (hx : IsData d s.n s.parts x)
    {size : Nat → K} (hsz : ∀ i < s.n, sz[i]? = some (.fin (size i))) (hpos : ∀ i < s.n, 0 ≤ size i)
    (htree : ∀ nd ∈ s.tree, nd.nChildren = 0 → nd.level < cbits w d) (hsize : ∀ i < s.n, size i ≠ 0 → b / 2 ^ cbits w d ≤ size i)
    {old : List (List Nat)} {r : Except Err (List (List Nat))} (h : Cgraph s over top ordered sz old r) :
    ∃ g, r = .ok g ∧ IsOverlapGraph d s.n s.perm ordered x size g :=
  cgraph_exact hA hs hr hz hbox hb h0 h1 hx hsz hpos (levels_of_lt htree) (fun i hi hn => .inl (hsize i hi hn)) h

example : ∀ r old, Cgraph collS strictShift 1023 true ((List.range 5).map (fun i => .fin (collSize i))) old r →
    ∃ g, r = .ok g ∧ IsOverlapGraph 3 collS.n collS.perm true collX collSize g :=
  fun _ _ h => C31_exact exactQ_exact ⟨.inl rfl, .inr rfl⟩ coll_reach (by decide +kernel) (b := 8) (by decide +kernel) (by norm_num)
    (by norm_num) (by decide +kernel) coll_data (size := collSize) (by decide +kernel) (by decide +kernel) (by decide +kernel) (by decide +kernel) h

/-- C31, C34: if shifting by the full width of the type gave zero the conditions on the tree and on the sizes would not be needed. -/
theorem C31_repaired (hA : A.Exact) (hs : Supported w d) (hr : Reach (rakauEnv A simd mac w d) s) (hz : s.n * cbits w d < 2 ^ 64)
    (hbox : s.box = .fin b) (hb : 0 < b) (h0 : 0 ≤ top) (h1 : top < 2 ^ cbits w d) {x : Nat → Nat → K} (hx : IsData d s.n s.parts x)
    {size : Nat → K} (hsz : ∀ i < s.n, sz[i]? = some (.fin (size i))) (hpos : ∀ i < s.n, 0 ≤ size i)
    (hover : over (2 ^ w - 1) w = some 0)
    {old : List (List Nat)} {r : Except Err (List (List Nat))} (h : Cgraph s over top ordered sz old r) :
    ∃ g, r = .ok g ∧ IsOverlapGraph d s.n s.perm ordered x size g :=
  cgraph_exact hA hs hr hz hbox hb h0 h1 hx hsz hpos
    (fun nd hnd => ⟨((leaves_spec (rakauEnv_ok A simd mac hs) hr hz).1 nd hnd).lev, fun _ => hover⟩) (fun _ _ _ => .inr hover) h

example : ∀ r old, Cgraph deepS (fun _ _ => some 0) 1023 true ((List.range 4).map (fun i => .fin (deepSize i))) old r →
    ∃ g, r = .ok g ∧ IsOverlapGraph 3 deepS.n deepS.perm true deepX deepSize g :=
  fun _ _ h => C31_repaired exactQ_exact ⟨.inl rfl, .inr rfl⟩ deep_reach (by decide +kernel) (b := 8) (by decide +kernel) (by norm_num)
    (by norm_num) (by decide +kernel) deep_data (size := deepSize) (by decide +kernel) (by decide +kernel) rfl h

end Exact

/-! ### C34 fails -/

/-- C34 is false for leaves: the tree of `deepS`, with two coincident particles, reaches the deepest level, and the collision graph has
undefined behaviour although the AABBs are larger than a cell. -/
theorem C34_fails_leaf : Reach collEnv deepS ∧ deepS.box = .fin 8 ∧
    ∀ old, Cgraph deepS strictShift 1023 true [.fin 1, .fin (3 / 2), .fin 1, .fin 1] old (.error .ub) := by
  refine ⟨deep_reach, by decide +kernel, fun old => ?_⟩
  have := coll_exec deepS strictShift 1023 true [.fin 1, .fin (3 / 2), .fin 1, .fin 1] old
  rwa [show collExec deepS strictShift 1023 true [.fin 1, .fin (3 / 2), .fin 1, .fin 1] = .error .ub by decide +kernel] at this

/-- C34 is false for AABBs: in the shallow tree of `collS`, an AABB smaller than a cell that crosses a cell boundary leads to undefined behaviour. -/
theorem C34_fails_size : (∀ nd ∈ collS.tree, nd.level < cbits 32 3) ∧
    ∀ old, Cgraph collS strictShift 1023 true [.fin 1, .fin 1, .fin 2, .fin (1 / 1000), .fin 3] old (.error .ub) := by
  refine ⟨by decide +kernel, fun old => ?_⟩
  have := coll_exec collS strictShift 1023 true [.fin 1, .fin 1, .fin 2, .fin (1 / 1000), .fin 3] old
  rwa [show collExec collS strictShift 1023 true [.fin 1, .fin 1, .fin 2, .fin (1 / 1000), .fin 3] = .error .ub by decide +kernel] at this

/-- C34, C31: on machines that mask the shift amount (x86) the consequence is a missing edge: particles 0 and 1 of `deepS` overlap,
and no execution reports it. -/
theorem C34_masked_misses : CubesMeet 3 (fun k => deepX k 1) (deepSize 0) (fun k => deepX k 0) (deepSize 1) ∧
    UserIdx deepS.perm true 1 0 ∧ UserIdx deepS.perm true 0 1 ∧
    ∀ r old, Cgraph deepS (maskedShift 32) 1023 true ((List.range 4).map (fun i => .fin (deepSize i))) old r → r = .ok [[2], [], [0], []] := by
  refine ⟨?_, by simp only [UserIdx]; decide +kernel, by simp only [UserIdx]; decide +kernel, fun r old h => ?_⟩
  · rw [cubesMeet_iff (by norm_num [deepSize]) (by norm_num [deepSize])]
    decide +kernel
  · have := coll_exec deepS (maskedShift 32) 1023 true ((List.range 4).map (fun i => .fin (deepSize i))) []
    rw [show collExec deepS (maskedShift 32) 1023 true ((List.range 4).map (fun i => .fin (deepSize i))) = .ok [[2], [], [0], []]
      by decide +kernel] at this
    exact C33_schedule this h

end Rakau
