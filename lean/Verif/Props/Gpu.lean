import Verif.Proof.GpuVal
import Verif.Props.Split
import Verif.Props.Force

/-! C30, C48: the accelerator kernels and their outputs; C29: the results of the distributed computation. -/
set_option linter.unusedSectionVars false

namespace Rakau
open Spec

variable {K : Type} [Field K] [LinearOrder K] [IsStrictOrderedRing K] [FloorRing K]

section Trav
variable {A : Arith K} {simd : Option (Simd K)} {mac : Mac} {w d : Nat} (hs : Supported w d) {s : TS (rakauEnv A simd mac w d)}
  (h : Reach (rakauEnv A simd mac w d) s) (hz : s.n * cbits w d < 2 ^ 64)
include hs h hz

/-- C30: for any group of threads (`lanes`: the indices of their particles), any device arithmetic and any parameters, the kernel finishes without undefined
behaviour. The group visits a list `vs` of nodes, in increasing order; a visit uses a whole node (`com`), or the particles of a leaf one by one (`leaf`). Every particle of the
tree is in exactly one of the used nodes and leaves (`sources`). A node used as a whole contains the particle of no thread of the group, and was accepted by all its threads. -/
theorem C30_once (Dv : Arith K) (Q : Quant) (mv G e2 : Fl K) {lanes : List Nat} (hl : ∀ k ∈ lanes, k < s.n) :
    ∃ vs, (s.gpu Dv Q mv G e2).warp lanes = some (lanes.map ((s.gpu Dv Q mv G e2).total vs)) ∧ vs.Pairwise (fun a b => a.idx < b.idx) ∧
      sources s.tree vs = List.range s.n ∧
      (∀ v ∈ vs, ∀ i, v.ev = some (.com i) → ∃ (hi : i < s.tree.length) (hp : i < s.props.length), ∀ k ∈ lanes, ¬ (s.tree[i].beg ≤ k ∧ k < s.tree[i].fin) ∧
        ∃ p, ptAt d s.parts k = some p ∧ (macLh Dv mac mv s.props[i]).lt (devD2 Dv (.fin 0) (diffs Dv p.pos s.props[i].com)) = true) ∧
      (∀ v ∈ vs, ∀ i, v.ev = some (.leaf i) → ∃ hi : i < s.tree.length, s.tree[i].nChildren = 0) := by
  have hok := gpu_ok hs h hz Dv Q mv G e2
  have D := reach_dfs (rakauEnv_ok A simd mac hs) h hz
  obtain ⟨vs, v0, v1, v2, v3⟩ := devGo_spec D ((s.gpu Dv Q mv G e2).accepts lanes) s.tree.length 0 (by omega)
  rw [D.first, Nat.sub_zero, ← List.range_eq_range'] at v3
  refine ⟨vs, Gpu.warp_eq hok hl v0, v2, v3, ?_, ?_⟩
  · intro v hv i hi
    obtain ⟨rfl, ha⟩ := (v1 v hv).2.com i hi
    have hil : v.idx < s.tree.length := (v1 v hv).2.idx
    have hp : v.idx < s.props.length := by rw [reach_props_length h]; exact hil
    refine ⟨hil, hp, ?_⟩
    intro k hk
    have hv' := List.all_eq_true.1 ha k hk
    unfold Gpu.votes at hv'
    rw [Bool.and_eq_true, decide_eq_true_eq, Gpu.srcs_eq (c := s.gpu Dv Q mv G e2) hil, List.mem_range'_1] at hv'
    refine ⟨?_, (s.gpu Dv Q mv G e2).pt k, Gpu.pt_eq hok (hl k hk), ?_⟩
    · have e0 : (s.gpu Dv Q mv G e2).tree[v.idx] = s.tree[v.idx] := rfl
      rw [e0] at hv'
      have := reach_range hs h hz (List.getElem_mem hil)
      omega
    · have e1 : (s.gpu Dv Q mv G e2).pr v.idx = s.props[v.idx] := by
        show s.props.getD v.idx _ = _
        rw [List.getD_eq_getElem?_getD, List.getElem?_eq_getElem hp, Option.getD_some]
      rw [e1] at hv'
      exact hv'.2
  · intro v hv i hi
    obtain ⟨rfl, _, h3⟩ := (v1 v hv).2.leaf i hi
    exact ⟨(v1 v hv).2.idx, h3 (v1 v hv).2.idx⟩

/-- C30: the thread's own particle contributes nothing. In every lawful device arithmetic with square roots not below one for arguments from one
on, with a finite softening length and a finite mass, the result of a thread is the same as if its own particle were left out of its leaf. -/
theorem C30_self {Dv : Arith K} (L : Dv.Laws) (hq : SqrtGe Dv) (Q : Quant) (mv G : Fl K) {e : K} (he : 0 ≤ e) {k : Nat} (hk : k < s.n) {p : Pt K} {m : K}
    (hp : ptAt d s.parts k = some p) (hm : p.mass = .fin m) (hr : Dv.rnd m = .fin m) (vs : List Visit) :
    (s.gpu Dv Q mv G (.fin e)).total vs k =
      resScale Dv G (vs.foldl ((s.gpu Dv Q mv G (.fin e)).visOthers k) (resZero Q d)) := by
  have e1 : (s.gpu Dv Q mv G (.fin e)).pt k = p := by
    show (ptAt d s.parts k).getD _ = p
    rw [hp]; rfl
  obtain ⟨c, c1, c2⟩ := reach_coords hs h hk
  have hpos : p.pos = c.map .fin := by
    unfold ptAt at hp
    unfold coordsAt at c2
    rw [c2] at hp
    simp only [Option.bind_eq_bind, Option.bind_some, Option.bind_eq_some_iff, Option.some.injEq] at hp
    obtain ⟨_, _, _, _, rfl⟩ := hp
    rfl
  exact Gpu.total_others (c := s.gpu Dv Q mv G (.fin e)) (e := e) (m := m) L (self_factor L hq he hr) rfl (by rw [e1, hpos, List.length_map]; exact c1)
    (by rw [e1, hpos]; intro a ha; obtain ⟨q, _, rfl⟩ := List.mem_map.1 ha; rfl) (by rw [e1]; exact hm) vs

end Trav

/-- One thread of the sample, with a wide criterion: it uses four nodes, one of them (node 4) with two particles. -/
example : (∃ vs, ((gS .bh).gpu sqQ .pot (.fin (1 / 3)) (.fin 2) (.fin 0)).warp [1] =
        some ([1].map (((gS .bh).gpu sqQ .pot (.fin (1 / 3)) (.fin 2) (.fin 0)).total vs)) ∧ sources (gS .bh).tree vs = List.range (gS .bh).n) ∧
    ((gS .bh).gpu sqQ .pot (.fin (1 / 3)) (.fin 2) (.fin 0)).visits [1] = [⟨0, none⟩, ⟨1, some (.com 1)⟩, ⟨2, some (.leaf 2)⟩, ⟨3, some (.com 3)⟩, ⟨4, some (.com 4)⟩] ∧
    ((gS .bh).tree[4]?.map (fun nd => (nd.beg, nd.fin))) = some (3, 5) := by
  refine ⟨?_, by decide +kernel, by decide +kernel⟩
  obtain ⟨vs, h1, _, h3, _⟩ := C30_once g_supp (g_reach .bh) (g_size .bh) sqQ .pot (.fin (1 / 3)) (.fin 2) (.fin 0) (lanes := [1]) (by rw [g_n]; decide)
  exact ⟨vs, h1, h3⟩

theorem sqQ_ge : SqrtGe sqQ := by
  intro q hq
  refine ⟨sqrtQ q, rfl, ?_⟩
  unfold sqrtQ
  simp only
  split
  · rename_i h
    nlinarith [h.1, h.2]
  · exact le_min hq le_rfl

/-- The particle with index 1 of the sample, whatever nodes are visited. -/
example (vs : List Visit) : ((gS .bh).gpu sqQ .both (.fin 1) (.fin 2) (.fin 0)).total vs 1 =
    resScale sqQ (.fin 2) (vs.foldl (((gS .bh).gpu sqQ .both (.fin 1) (.fin 2) (.fin 0)).visOthers 1) (resZero .both 3)) :=
  C30_self g_supp (g_reach .bh) (g_size .bh) (exact_laws sqQ_exact) sqQ_ge .both (.fin 1) (.fin 2) le_rfl (k := 1) (by rw [g_n]; decide)
    (p := ⟨[.fin 3, .fin (-4), .fin 0], .fin 5⟩) (m := 5) (by decide +kernel) rfl rfl vs

/-- An infinite mass is not covered: the term of the particle itself is then not a number, instead of absent. Trees never contain such a mass (`C54_finite`). -/
example : (devPair sqQ (.fin 0) true ⟨[.fin 1], .inf false⟩ ⟨[.fin 1], .inf false⟩ ⟨[.fin 0], []⟩ : Res ℚ) = ⟨[.nan], []⟩ := by decide +kernel

section Values
variable {A : Arith K} {simd : Option (Simd K)} {mac : Mac} {w d : Nat} {s : TS (rakauEnv A simd mac w d)}
  {rsqrt : Option (Fl K → Fl K)} {over : Overshift} {x : Nat → Nat → K} {b mv e : K}

/-- C30, values in exact arithmetic: the result of the thread of particle `k` is `g` times the sum of the pulls of the nodes used as a whole and of all particles other
than `k` of the leaves. A node is used as a whole only if it contains the particle of no thread, and fulfils the criterion strictly for all threads. -/
theorem C30_values (H : Sit s rsqrt over x b mv e) {Dv : Arith K} (hD : Dv.Exact) (hq : SqrtOk Dv)
    (hsep : ∀ k l, k < s.n → l < s.n → k ≠ l → 0 < D2 d e (fun j => x j k) (fun j => x j l)) (Q : Quant) (g : K) {lanes : List Nat} (hl : ∀ k ∈ lanes, k < s.n) :
    ∃ vs, sources s.tree vs = List.range s.n ∧
      (∀ v ∈ vs, ∀ i, v.ev = some (.com i) → ∃ hi : i < s.tree.length, ∀ k ∈ lanes, (k < s.tree[i].beg ∨ s.tree[i].fin ≤ k) ∧
        s.bound b mv i < s.cdist2 (fun j => x j k) i) ∧
      (s.gpu Dv Q (.fin mv) (.fin g) (.fin e)).warp lanes =
        some (lanes.map (fun k => mkRes Q d (Val.smul g (vs.map (s.visOut (devMode Dv) e x k)).sum))) := by
  have hok := gpu_ok H.supp H.reach H.size Dv Q (.fin mv) (.fin g) (.fin e)
  have D := reach_dfs (rakauEnv_ok A simd mac H.supp) H.reach H.size
  obtain ⟨vs, v0, v1, v2, v3⟩ := devGo_spec D ((s.gpu Dv Q (.fin mv) (.fin g) (.fin e)).accepts lanes) s.tree.length 0 (by omega)
  rw [D.first, Nat.sub_zero, ← List.range_eq_range'] at v3
  have hacc : ∀ k ∈ lanes, ∀ i, ∀ hi : i < s.tree.length, (s.gpu Dv Q (.fin mv) (.fin g) (.fin e)).accepts lanes i = true →
      (k < s.tree[i].beg ∨ s.tree[i].fin ≤ k) ∧ s.bound b mv i < s.cdist2 (fun j => x j k) i := by
    intro k hk i hi ha
    exact (H.votes_eq hD Q g hi (hl k hk)).1 (List.all_eq_true.1 ha k hk)
  refine ⟨vs, v3, ?_, ?_⟩
  · intro v hv i hi
    obtain ⟨rfl, ha⟩ := (v1 v hv).2.com i hi
    exact ⟨(v1 v hv).2.idx, fun k hk => hacc k hk _ (v1 v hv).2.idx ha⟩
  · rw [Gpu.warp_eq hok hl v0, Option.some.injEq]
    apply List.map_congr_left
    intro k hk
    exact H.gtotal_eq hD Q g hq hsep (hl k hk) (fun i hi ha => (hacc k hk i hi ha).2) (fun v hv => (v1 v hv).2)

/-- C30, C22: if the square roots of the device are right at the distances, and no node fulfils the criterion for all threads of the group, then in exact arithmetic the
kernel computes the direct sum over all other particles. -/
theorem C30_direct {t u : K} (hu : 0 ≤ u) (H : Sit s rsqrt over x b (invTheta mac t) (u * u)) {Dv : Arith K} (hD : Dv.Exact) (hq : SqrtOk Dv)
    (hroot : ∀ k l, k < s.n → l < s.n → k ≠ l → TrueRoot A rsqrt (D2 d (u * u) (fun j => x j k) (fun j => x j l)) ∧
      Dv.sqrt (D2 d (u * u) (fun j => x j k) (fun j => x j l)) = A.sqrt (D2 d (u * u) (fun j => x j k) (fun j => x j l)))
    (Q : Quant) (g : K) {lanes : List Nat} (hl : ∀ k ∈ lanes, k < s.n)
    (hno : ∀ i < s.tree.length, ∃ k ∈ lanes, s.cdist2 (fun j => x j k) i ≤ s.bound b (invTheta mac t) i) :
    ∃ f : Nat → Res K, (s.gpu Dv Q (.fin (invTheta mac t)) (.fin g) (.fin (u * u))).warp lanes = some (lanes.map f) ∧
      ∀ k ∈ lanes, s.exact Q false (.fin g) (.fin u) k = .ok (f k) := by
  have hsep : ∀ k l, k < s.n → l < s.n → k ≠ l → 0 < D2 d (u * u) (fun j => x j k) (fun j => x j l) := by
    intro k l hk hl hkl
    obtain ⟨⟨r, r0, rr, _⟩, _⟩ := hroot k l hk hl hkl
    rw [← rr]; positivity
  obtain ⟨vs, v1, v2, v3⟩ := C30_values H hD hq hsep Q g hl
  refine ⟨_, v3, ?_⟩
  intro k hk
  rw [C40_value H hu hsep Q g (hl k hk)]
  congr 3
  have hp : ∀ l < s.n, l ≠ k → pull (devMode Dv) d (u * u) x k l =
      grav (ex1 A) (ex3 A) d (u * u) (fun j => x j k) (x d k) (fun j => x j l) (x d l) := by
    intro l hl' hlk
    obtain ⟨⟨r, r0, rr, r1, _⟩, r2⟩ := hroot k l (hl k hk) hl' (Ne.symm hlk)
    have hne := r0.ne'
    unfold pull grav Mode.inv1 Mode.inv3 ex1 ex3
    simp only
    rw [r2, r1]
    have e3 : 1 / (r * D2 d (u * u) (fun j => x j k) (fun j => x j l)) = (1 / r) ^ 3 := by
      rw [← rr]; field_simp
    show _ = (fun j => x d l * (1 / r) ^ 3 * _, _)
    rw [← e3]
    rfl
  have hvs : (vs.map (s.visOut (devMode Dv) (u * u) x k)).sum = (((sources s.tree vs).filter (· ≠ k)).map (pull (devMode Dv) d (u * u) x k)).sum := by
    have : ∀ v ∈ vs, ∀ i, v.ev ≠ some (.com i) := by
      intro v hv i hi
      obtain ⟨hil, a1⟩ := v2 v hv i hi
      obtain ⟨l, l1, l2⟩ := hno i hil
      exact absurd (a1 l l1).2 (not_lt.2 l2)
    clear v1 v2 v3
    induction vs with
    | nil => rfl
    | cons v vs ih =>
      have ih := ih (fun v' hv' => this v' (List.mem_cons_of_mem _ hv'))
      have e1 : sources s.tree (v :: vs) = sources s.tree [v] ++ sources s.tree vs := by unfold sources; simp
      rw [List.map_cons, List.sum_cons, ih, e1, List.filter_append, List.map_append, List.sum_append]
      congr 1
      have hv := this v List.mem_cons_self
      unfold TS.visOut sources
      simp only [List.flatMap_cons, List.flatMap_nil, List.append_nil]
      cases hev : v.ev with
      | none => rfl
      | some ev =>
        cases ev with
        | com i => exact absurd hev (hv i)
        | leaf i => rfl
  rw [hvs, v1]
  congr 1
  apply List.map_congr_left
  intro l hl'
  rw [List.mem_filter, List.mem_range, decide_eq_true_eq] at hl'
  rw [hp l hl'.1 hl'.2]

end Values

/-- Values of a group of two threads of the sample. -/
example : ∃ vs, sources (gS .bh).tree vs = List.range (gS .bh).n ∧ ((gS .bh).gpu sqQ .pot (.fin (1 / 3)) (.fin 2) (.fin 0)).warp [1, 2] =
    some ([1, 2].map (fun k => mkRes .pot 3 (Val.smul 2 (vs.map ((gS .bh).visOut (devMode sqQ) 0 gX k)).sum))) := by
  obtain ⟨vs, h1, _, h2⟩ := C30_values (g_sit .bh estQ_ok (mv := 1 / 3) (e := 0) (by norm_num) (by norm_num)) sqQ_exact sqQ_sqrt (g_sep .bh (by norm_num)) .pot 2
    (lanes := [1, 2]) (by rw [g_n]; decide)
  exact ⟨vs, h1, h2⟩

/-- The direct sum for all particles of the sample, with `θ = 1 / 10`. -/
example : (∃ f : Nat → Res ℚ, ((gS .bh).gpu sqQ .pot (.fin (invTheta .bh (1 / 10))) (.fin 2) (.fin (0 * 0))).warp [0, 1, 2, 3, 4] = some ([0, 1, 2, 3, 4].map f) ∧
      ∀ k ∈ [0, 1, 2, 3, 4], (gS .bh).exact .pot false (.fin 2) (.fin 0) k = .ok (f k)) ∧
    ((gS .bh).gpu sqQ .pot (.fin 100) (.fin 2) (.fin 0)).warp [0, 1, 2, 3, 4] =
      some ([-122 / 15, -175 / 12, -182 / 15, -72 / 5, -251 / 60].map (fun v => ⟨[], [.fin v]⟩)) := by
  refine ⟨C30_direct (t := 1 / 10) le_rfl (g_sit .bh estQ_ok (mv := invTheta .bh (1 / 10)) (e := 0 * 0) (by decide +kernel) (by norm_num)) sqQ_exact sqQ_sqrt
    (fun k l hk hl hkl => ⟨g_root .bh k l hk hl hkl, rfl⟩) .pot 2 (by rw [g_n]; decide) ?_, by decide +kernel⟩
  have hlen : (gS .bh).tree.length = 7 := by decide +kernel
  rw [hlen]
  decide +kernel

/-! ### C48 -/

section Out
variable {A : Arith K} {simd : Option (Simd K)} {mac : Mac} {w d : Nat} (hs : Supported w d) {s : TS (rakauEnv A simd mac w d)}
  (h : Reach (rakauEnv A simd mac w d) s) (hz : s.n * cbits w d < 2 ^ 64)

/-- C48: the cuts `k0 ≤ … ≤ n` between the accelerators' ranges. -/
structure Cuts (n k0 : Nat) (idx : List Nat) : Prop where
  first : idx.head? = some k0
  sorted : idx.Pairwise (· ≤ ·)
  last : idx.getLast? = some n

omit [Field K] [LinearOrder K] [IsStrictOrderedRing K] [FloorRing K] in
/-- C48: the ranges of the accelerators, in order, contain the particles from `k0` to `n`, each exactly once. -/
theorem C48_tiling {n k0 : Nat} {idx : List Nat} (hc : Cuts n k0 idx) : indices (between idx) = List.range' k0 (n - k0) := by
  obtain ⟨h1, h2, h3⟩ := hc
  cases idx with
  | nil => simp at h1
  | cons a l =>
    simp only [List.head?_cons, Option.some.injEq] at h1
    subst h1
    exact indices_between h2 h3

include hs h hz in
/-- C48: the accelerators. With cuts from `k0` to `n`, the numbers of particles and nodes below `2 ^ 31`, results arriving in any order, and any previous contents: the result of particle `k` is
found at position `k - o` of the output, where the origin `o` is `0` if the whole output is given (`offset`), and `k0` otherwise; all other positions are unchanged. The results are those of the kernel
launched on the range of the accelerator that has the particle, and depend neither on the order nor on the previous contents or the origin. -/
theorem C48_outputs (Dv : Arith K) (Q : Quant) (mv G e2 : Fl K) (hn : s.n < 2 ^ 31) (ht : s.tree.length < 2 ^ 31) {bs : Nat} (hbs : 0 < bs) {idx : List Nat}
    {k0 : Nat} (hc : Cuts s.n k0 idx) :
    ∃ V : Nat → Res K,
      (∀ r ∈ between idx, ∀ buf : List (Res K), buf.length = r.2 - r.1 →
        (s.gpu Dv Q mv G e2).launch bs r.1 r.2 buf = some (Arr (r.2 - r.1) (fun l => V (r.1 + l)))) ∧
      ∀ (offset : Bool) (junk : Res K) (order : List Nat) (out : List (Res K)), order.Perm (List.range (idx.length - 1)) →
        s.n - (if offset then 0 else k0) ≤ out.length →
        ∃ out', (s.gpu Dv Q mv G e2).devices bs idx offset junk order out = .ok out' ∧ out'.length = out.length ∧
          (∀ k, k0 ≤ k → k < s.n → out'[k - (if offset then 0 else k0)]? = some (V k)) ∧
          ∀ p, (∀ k, k0 ≤ k → k < s.n → p ≠ k - (if offset then 0 else k0)) → out'[p]? = out[p]? := by
  have hok := gpu_ok hs h hz Dv Q mv G e2
  have D := reach_dfs (rakauEnv_ok A simd mac hs) h hz
  have h0 : idx[0]? = some k0 := by rw [← hc.first, List.head?_eq_getElem?]
  refine ⟨(s.gpu Dv Q mv G e2).devVal bs idx, ?_, ?_⟩
  · intro r hr buf hb
    obtain ⟨i, i1, i2⟩ := Gpu.mem_between.1 hr
    have he := Gpu.cuts_le hc.sorted hc.last _ (List.mem_of_getElem? i2)
    have hbuf : buf = Arr (r.2 - r.1) (fun k => buf.getD k ⟨[], []⟩) := by rw [← hb]; exact list_eq_arr buf _
    rw [hbuf, Gpu.launch_eq hok D hbs he, Option.some.injEq]
    apply arr_ext
    intro l hl
    rw [Gpu.devVal_eq hc.sorted i1 i2 (by omega) (by omega), Nat.add_sub_cancel_left]
  · intro offset junk order out ho hN
    have hout : out = Arr out.length (fun k => out.getD k ⟨[], []⟩) := list_eq_arr out _
    have hd := Gpu.devices_all hok D (show s.n ≤ 2147483647 by omega) (show s.tree.length ≤ 2147483647 by omega) hbs h0 hc.sorted hc.last offset junk (N := out.length) hN ho (fun k => out.getD k ⟨[], []⟩)
    rw [← hout] at hd
    have ho : (if offset then 0 else k0) ≤ k0 := by split <;> omega
    refine ⟨_, hd, by simp, ?_, ?_⟩
    · intro k k1 k2
      generalize (if offset then 0 else k0) = o at ho hN ⊢
      rw [arr_get (by omega), if_pos (by omega), show k - o + o = k by omega]
    · intro p hp
      by_cases hl : p < out.length
      · rw [arr_get hl, if_neg, List.getElem?_eq_getElem hl, List.getD_eq_getElem?_getD, List.getElem?_eq_getElem hl, Option.getD_some]
        intro hk
        exact hp _ hk.1 hk.2 (by omega)
      · rw [List.getElem?_eq_none (by simpa using hl), List.getElem?_eq_none (by omega)]

omit [IsStrictOrderedRing K] in
/-- C48: indices that do not fit the 32-bit integers of the kernels are detected: the accelerator does not start, and `overflow_error` is thrown. -/
theorem C48_overflow (s : TS (rakauEnv A simd mac w d)) (Dv : Arith K) (Q : Quant) (mv G e2 : Fl K) (bs : Nat) {idx : List Nat} (offset : Bool) (junk : Res K) {i b e : Nat} (hb : idx[i]? = some b)
    (he : idx[i + 1]? = some e) (hbig : 2 ^ 31 ≤ e ∨ 2 ^ 31 ≤ s.tree.length) (out : List (Res K)) :
    (s.gpu Dv Q mv G e2).device bs idx offset junk i out = .error .overflow := by
  obtain ⟨k0, h0⟩ : ∃ k0, idx[0]? = some k0 := ⟨_, List.getElem?_eq_getElem (by
    have := (List.getElem?_eq_some_iff.1 hb).1; omega)⟩
  unfold Gpu.device
  rw [h0, hb, he, Gpu.ofUB_some, Gpu.ofUB_some, Gpu.ofUB_some, Gpu.ok_bind, Gpu.ok_bind, Gpu.ok_bind]
  have hg : maxInt < b ∨ maxInt < e ∨ maxInt < (s.gpu Dv Q mv G e2).tree.length := by
    refine .inr (hbig.imp (fun h => ?_) (fun h => ?_))
    · unfold maxInt; omega
    · show 2147483647 < s.tree.length; omega
  have hsub : ∃ loc, subW 64 e b = loc := ⟨_, rfl⟩
  obtain ⟨loc, hl⟩ := hsub
  rw [hl]
  show (if maxUnsigned - 31 < loc then _ else if maxInt < b ∨ maxInt < e ∨ maxInt < (s.gpu Dv Q mv G e2).tree.length then _ else _) = _
  rw [if_pos hg]
  exact ite_self _

/-! ### C29: the results of the distributed computation -/

omit [IsStrictOrderedRing K] [Field K] [LinearOrder K] [FloorRing K] in
theorem Backend.blockSize_pos {B : Backend} (hB : ∀ p m, B = .rocm p m → 0 < m) : 0 < B.blockSize := by
  cases B with
  | none => exact one_pos
  | rocm p m => exact hB p m rfl
  | cuda m => show 0 < 32; omega

include hs h hz in
/-- C29, C27, C48: the computation distributed over CPU and accelerators. With valid parameters, a plan that divides the particles (`Plan.Good`, see `C29_partial`), critical nodes and
accelerators processed in any order and the accelerators' results arriving at any moment, and any previous contents of the output, the computation succeeds and every
position of the output is overwritten: particle `k` has its result at position `k`, or `perm[k]` for the ordered functions. The results of the particles of the CPU are those of the CPU-only computation (`val`, see `C27_outputs`); those of the
accelerators are the results of the kernels on the range of their accelerator (`V`, see `C48_outputs`). Output through pointers or iterators makes no difference. -/
theorem C29_results (hS : SimdPos simd) {rsqrt : Option (Fl K → Fl K)} {over : Overshift} (ho : over.Small) (hr : s.n + (⟨A, simd, rsqrt⟩ : Hw K).pad < 2 ^ 64)
    (hn : s.n < 2 ^ 31) (ht : s.tree.length < 2 ^ 31) {B : Backend} (hB : ∀ p m, B = .rocm p m → 0 < m) (D Dv : Arith K) (types : Bool)
    (Q : Quant) {theta G eps mv eps2 : Fl K} {split : List (Fl K)} (hp : checkParams A mac theta G eps = .ok (mv, eps2))
    (hpad : (s.force rsqrt over Q mv G eps2).padCoord.isFinite = true)
    {plan : Plan} (hplan : splitPlan B D A types s.crit s.n split = .ok plan) {least len : Nat} (hg : plan.Good s.crit s.n least len) :
    ∃ val V : Nat → Res K,
      (∀ cn ∈ s.crit, (s.force rsqrt over Q mv G eps2).node cn = .ok (Arr (cn.fin - cn.beg) (fun a => val (cn.beg + a)))) ∧
      (∀ r ∈ between plan.dev, ∀ buf : List (Res K), buf.length = r.2 - r.1 →
        (s.gpu Dv Q mv G eps2).launch B.blockSize r.1 r.2 buf = some (Arr (r.2 - r.1) (fun l => V (r.1 + l)))) ∧
      ∀ (ordered ptr : Bool) (junk : Res K) (o : Plan → Sched) (out : List (Res K)), ((o plan).before ++ (o plan).after).Perm (List.range plan.cpu) →
        (o plan).dev.Perm (List.range (plan.dev.length - 1)) → out.length = s.n →
        ∃ out', s.accPotDev B D Dv types rsqrt over Q ordered ptr theta G eps split junk o out = .ok out' ∧ out'.length = s.n ∧
          ∀ k < s.n, ∃ i, (if ordered then s.perm[k]? else some k) = some i ∧ out'[i]? = some (if k < plan.dev.headD s.n then val k else V k) := by
  have E := rakauEnv_ok A simd mac hs
  obtain ⟨h1, h2⟩ := crit_tiling E h hz
  have hnode : ∀ cn ∈ s.crit, (s.force rsqrt over Q mv G eps2).node cn =
      .ok (Arr (cn.fin - cn.beg) (fun a => (s.force rsqrt over Q mv G eps2).val (cn.beg + a))) := by
    intro cn hc
    obtain ⟨t, vs, _, _, _, _, _, _, _, n1, n2⟩ := node_val hS hs h hz ho hr Q mv G eps2 hc
    rw [n1]
    congr 1
    apply arr_ext
    intro a ha
    rw [n2 a ha]
  have hbs := Backend.blockSize_pos hB
  have hok := gpu_ok hs h hz Dv Q mv G eps2
  have hD := reach_dfs E h hz
  have hcuts : plan.dev ≠ [] → Cuts s.n (plan.dev.headD s.n) plan.dev := by
    intro hne
    obtain ⟨a, l, e⟩ := List.exists_cons_of_ne_nil hne
    refine ⟨by rw [e]; rfl, hg.shares.sorted, ?_⟩
    cases hl : plan.dev.getLast? with
    | none => rw [List.getLast?_eq_none_iff] at hl; exact absurd hl hne
    | some n => rw [hg.shares.last n (by rw [hl]; rfl)]
  refine ⟨_, (s.gpu Dv Q mv G eps2).devVal B.blockSize plan.dev, hnode, ?_, ?_⟩
  · intro r hr' buf hb
    obtain ⟨i, i1, i2⟩ := Gpu.mem_between.1 hr'
    have hc := hcuts (by intro e; rw [e] at i1; simp at i1)
    have he := Gpu.cuts_le hc.sorted hc.last _ (List.mem_of_getElem? i2)
    have hbuf : buf = Arr (r.2 - r.1) (fun k => buf.getD k ⟨[], []⟩) := by rw [← hb]; exact list_eq_arr buf _
    rw [hbuf, Gpu.launch_eq hok hD hbs he, Option.some.injEq]
    apply arr_ext
    intro l hl
    rw [Gpu.devVal_eq hc.sorted i1 i2 (by omega) (by omega), Nat.add_sub_cancel_left]
  intro ordered ptr junk o out hcpu hdev hout
  obtain ⟨π, ρ, hix, hρ, hρn, hid⟩ := reach_positions h ordered
  have hcr := fun order ho' f => cpuRun_eq (c := s.force rsqrt over Q mv G eps2) (n := s.n) (ix := fun i => if ordered then s.perm[i]? else some i) hpad hix hρ
    ((s.force rsqrt over Q mv G eps2).val) (fun cn hc => ⟨(h1 cn hc).1.le, (h1 cn hc).2, hnode cn hc⟩) order ho' f
  have hlt : ∀ t ∈ (o plan).before ++ (o plan).after, t < s.crit.length := by
    intro t ht'
    have := List.mem_range.1 (hcpu.mem_iff.1 ht')
    have := hg.cpu
    omega
  -- what the CPU processes
  have hshare : ∀ k, k < plan.dev.headD s.n ↔ ∃ t ∈ (o plan).before ++ (o plan).after, ∃ hl : t < s.crit.length, s.crit[t].beg ≤ k ∧ k < s.crit[t].fin := by
    intro k
    rw [← hg.shares.cpuPart k]
    unfold indices
    simp only [List.mem_flatMap, List.mem_map, List.mem_range'_1]
    constructor
    · rintro ⟨_, ⟨cn, hcn, rfl⟩, hk⟩
      obtain ⟨t, ht', rfl⟩ := List.getElem_of_mem hcn
      rw [List.length_take] at ht'
      rw [List.getElem_take] at hk
      unfold CNode.rng at hk
      exact ⟨t, hcpu.mem_iff.2 (List.mem_range.2 (by omega)), by omega, by simpa using hk.1, by simp only at hk; omega⟩
    · rintro ⟨t, ht', hl, k1, k2⟩
      have := List.mem_range.1 (hcpu.mem_iff.1 ht')
      refine ⟨_, ⟨s.crit[t], ?_, rfl⟩, ?_⟩
      · rw [List.mem_take_iff_getElem]
        exact ⟨t, by omega, rfl⟩
      · unfold CNode.rng
        simp only
        omega
  obtain ⟨f1, f1e, f1s⟩ := hcr (o plan).before (fun t ht' => hlt t (List.mem_append_left _ ht')) (fun k => out.getD k ⟨[], []⟩)
  have hout' : out = Arr s.n (fun k => out.getD k ⟨[], []⟩) := by
    rw [← hout]; exact list_eq_arr out _
  rw [← hout'] at f1e
  obtain ⟨f2, f2e, f2s⟩ : ∃ f2 : Nat → Res K, (if plan.dev.isEmpty then (.ok (Arr s.n f1) : Except Err (List (Res K))) else
      (s.gpu Dv Q mv G eps2).task B.blockSize s.n plan.dev (ptr && !ordered) junk (o plan).dev (fun i => if ordered then s.perm[i]? else some i) (Arr s.n f1)) = .ok (Arr s.n f2) ∧
      ∀ i < s.n, (plan.dev.headD s.n ≤ ρ i → f2 i = (s.gpu Dv Q mv G eps2).devVal B.blockSize plan.dev (ρ i)) ∧ (ρ i < plan.dev.headD s.n → f2 i = f1 i) := by
    cases hde : plan.dev with
    | nil =>
      refine ⟨f1, by simp, ?_⟩
      intro i hi
      have := hρn i hi
      simp only [List.headD_nil]
      exact ⟨fun hh => absurd hh (by omega), fun _ => by trivial⟩
    | cons a l =>
      have hc := hcuts (by rw [hde]; simp)
      rw [hde] at hc hdev
      have h0 : (a :: l)[0]? = some ((a :: l).headD s.n) := rfl
      refine ⟨fun i => if (a :: l).headD s.n ≤ ρ i then (s.gpu Dv Q mv G eps2).devVal B.blockSize (a :: l) (ρ i) else f1 i, ?_, ?_⟩
      · simp only [List.isEmpty_cons, Bool.false_eq_true, if_false]
        exact Gpu.task_eq hok hD (show s.n ≤ 2147483647 by omega) (show s.tree.length ≤ 2147483647 by omega) hbs h0 hc.sorted hc.last junk hdev hix hρ hρn (by
          intro hpt i _
          refine hid ?_ i
          rw [Bool.and_eq_true, Bool.not_eq_true'] at hpt
          exact hpt.2) f1
      · intro i hi
        simp only
        exact ⟨fun hh => by rw [if_pos hh], fun hh => by rw [if_neg (by omega)]⟩
  obtain ⟨f3, f3e, f3s⟩ := hcr (o plan).after (fun t ht' => hlt t (List.mem_append_right _ ht')) f2
  refine ⟨Arr s.n f3, ?_, by simp, ?_⟩
  · unfold TS.accPotDev
    rw [hp, Gpu.ok_bind]
    simp only
    rw [hplan, Gpu.ok_bind, f1e, Gpu.ok_bind]
    by_cases hde : plan.dev.isEmpty = true
    · rw [if_pos hde] at f2e ⊢
      rw [f2e, Gpu.ok_bind, f3e]
    · rw [if_neg hde] at f2e ⊢
      rw [f2e, Gpu.ok_bind, f3e]
  · intro k hk
    obtain ⟨e1, e2, e3⟩ := hix k hk
    refine ⟨π k, e1, ?_⟩
    rw [arr_get e2, Option.some.injEq]
    by_cases hc : k < plan.dev.headD s.n
    · rw [if_pos hc]
      by_cases ha : ∃ t ∈ (o plan).after, ∃ hl : t < s.crit.length, s.crit[t].beg ≤ k ∧ k < s.crit[t].fin
      · obtain ⟨t, t1, t2, t3⟩ := ha
        rw [(f3s (π k) e2).1 t t1 t2 (by rw [e3]; exact t3), e3]
      · rw [(f3s (π k) e2).2 (fun t t1 t2 t3 => ha ⟨t, t1, t2, by rw [e3] at t3; exact t3⟩), (f2s (π k) e2).2 (by rw [e3]; exact hc)]
        obtain ⟨t, t1, t2, t3⟩ := (hshare k).1 hc
        rcases List.mem_append.1 t1 with t1 | t1
        · rw [(f1s (π k) e2).1 t t1 t2 (by rw [e3]; exact t3), e3]
        · exact absurd ⟨t, t1, t2, t3⟩ ha
    · rw [if_neg hc]
      have hno : ∀ t ∈ (o plan).after, ∀ hl : t < s.crit.length, ¬ (s.crit[t].beg ≤ ρ (π k) ∧ ρ (π k) < s.crit[t].fin) := by
        intro t t1 t2 t3
        rw [e3] at t3
        exact hc ((hshare k).2 ⟨t, List.mem_append_right _ t1, t2, t3⟩)
      rw [(f3s (π k) e2).2 hno, (f2s (π k) e2).1 (by rw [e3]; omega), e3]

end Out

/-- Two accelerators with the particles 1, 2 and 3, 4 of the sample, the second finishing first. -/
example : (∃ V : Nat → Res ℚ, ∀ (offset : Bool) (junk : Res ℚ) (order : List Nat) (out : List (Res ℚ)), order.Perm [0, 1] →
      (gS .bh).n - (if offset then 0 else 1) ≤ out.length →
      ∃ out', ((gS .bh).gpu sqQ .pot (.fin (16 / 9)) (.fin 2) (.fin 0)).devices 2 [1, 3, 5] offset junk order out = .ok out' ∧ out'.length = out.length ∧
        (∀ k, 1 ≤ k → k < (gS .bh).n → out'[k - (if offset then 0 else 1)]? = some (V k)) ∧
        ∀ p, (∀ k, 1 ≤ k → k < (gS .bh).n → p ≠ k - (if offset then 0 else 1)) → out'[p]? = out[p]?) ∧
    ((gS .bh).gpu sqQ .pot (.fin (16 / 9)) (.fin 2) (.fin 0)).devices 2 [1, 3, 5] true ⟨[], []⟩ [1, 0] (List.replicate 5 ⟨[], [.nan]⟩) =
      .ok (⟨[], [.nan]⟩ :: [-175 / 12, -182 / 15, -72 / 5, -251 / 60].map (fun v => ⟨[], [.fin v]⟩)) ∧
    ((gS .bh).gpu sqQ .pot (.fin (16 / 9)) (.fin 2) (.fin 0)).devices 2 [1, 3, 5] false ⟨[], []⟩ [1, 0] (List.replicate 4 ⟨[], [.nan]⟩) =
      .ok ([-175 / 12, -182 / 15, -72 / 5, -251 / 60].map (fun v => ⟨[], [.fin v]⟩)) := by
  refine ⟨?_, by decide +kernel, by decide +kernel⟩
  have hlen : (gS .bh).tree.length = 7 := by decide +kernel
  obtain ⟨V, _, h2⟩ := C48_outputs g_supp (g_reach .bh) (g_size .bh) sqQ .pot (.fin (16 / 9)) (.fin 2) (.fin 0) (by rw [g_n]; decide) (by rw [hlen]; decide) (bs := 2) (by decide)
    (idx := [1, 3, 5]) (k0 := 1) ⟨rfl, by decide, by rw [g_n]; rfl⟩
  exact ⟨V, h2⟩

example : indices (between [1, 3, 3, 5]) = [1, 2, 3, 4] := C48_tiling (n := 5) (k0 := 1) ⟨rfl, by decide, rfl⟩

example (out : List (Res ℚ)) : ((gS .bh).gpu sqQ .pot (.fin 1) (.fin 2) (.fin 0)).device 32 [7, 2147483648] true ⟨[], []⟩ 0 out = .error .overflow :=
  C48_overflow (gS .bh) sqQ .pot (.fin 1) (.fin 2) (.fin 0) 32 true ⟨[], []⟩ (i := 0) (b := 7) (e := 2147483648) rfl rfl (.inl (by decide)) out

/-- The sample, shared between the CPU (particles 0 and 1) and one accelerator (particles 2 to 4). -/
example : (∃ val V : Nat → Res ℚ, ∀ (ordered ptr : Bool) (junk : Res ℚ) (o : Plan → Sched) (out : List (Res ℚ)),
      ((o ⟨2, [2, 5]⟩).before ++ (o ⟨2, [2, 5]⟩).after).Perm (List.range 2) → (o ⟨2, [2, 5]⟩).dev.Perm (List.range 1) → out.length = (gS .bh).n →
      ∃ out', (gS .bh).accPotDev (.rocm true 2) sqQ sqQ true none (maskedShift 32) .pot ordered ptr (.fin (3 / 4)) (.fin 2) (.fin 0) [.fin 1, .fin 1] junk o out =
          .ok out' ∧ out'.length = (gS .bh).n ∧
        ∀ k < (gS .bh).n, ∃ i, (if ordered then (gS .bh).perm[k]? else some k) = some i ∧ out'[i]? = some (if k < 2 then val k else V k)) ∧
    (gS .bh).accPotDev (.rocm true 2) sqQ sqQ true none (maskedShift 32) .pot true false (.fin (3 / 4)) (.fin 2) (.fin 0) [.fin 1, .fin 1] ⟨[], []⟩
      (fun _ => ⟨[1], [0], [0]⟩) (List.replicate 5 ⟨[], [.nan]⟩) =
      .ok ([-251 / 60, -122 / 15, -72 / 5, -182 / 15, -175 / 12].map (fun v => ⟨[], [.fin v]⟩)) := by
  refine ⟨?_, by decide +kernel⟩
  have hlen : (gS .bh).tree.length = 7 := by decide +kernel
  have hplan : splitPlan (.rocm true 2) sqQ sqQ true (gS .bh).crit (gS .bh).n [.fin 1, .fin 1] = .ok ⟨2, [2, 5]⟩ := by decide +kernel
  obtain ⟨p, h1, h2⟩ := C29_rocm (exact_laws sqQ_exact) g_supp (g_reach .bh) (g_size .bh) true true 2 (split := [.fin 1, .fin 1])
    ⟨by simp, fun _ => ⟨1, by simp, by norm_num⟩, by decide⟩ (fun _ _ => rfl)
  rw [hplan, Except.ok.injEq] at h1
  subst h1
  obtain ⟨val, V, _, _, h⟩ := C29_results g_supp (g_reach .bh) (g_size .bh) g_simd (rsqrt := none) (over := maskedShift 32) (maskedShift_small _) (g_room .bh none)
    (by rw [g_n]; decide) (by rw [hlen]; decide) (B := .rocm true 2) (by rintro p m h; cases h; decide) sqQ sqQ true .pot (theta := .fin (3 / 4)) (G := .fin 2) (eps := .fin 0)
    (mv := .fin (16 / 9)) (eps2 := .fin 0) (by decide +kernel) (by decide +kernel) hplan h2
  exact ⟨val, V, h⟩

end Rakau
