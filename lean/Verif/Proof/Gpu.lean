import Verif.Model.Gpu
import Verif.Proof.Output
import Verif.Proof.Split

/-! The accelerator kernels: the traversal, and the results of a group of threads in any arithmetic. -/
set_option linter.unusedSectionVars false

namespace Rakau
open Spec

/-! ### The traversal without a target node -/

/-- The nodes visited by a group of threads, with the outcome `acc` of the votes; `none` if `fuel` iterations are not enough. -/
def devGo (tree : List Node) (acc : Nat → Bool) : Nat → Nat → Option (List Visit)
  | fuel, i =>
    match tree[i]? with
    | none => some []
    | some nd =>
      match fuel with
      | 0 => none
      | fuel + 1 => (devGo tree acc fuel (macStep acc i nd).1).map (⟨i, (macStep acc i nd).2⟩ :: ·)

/-- Visited node: what it may contribute. -/
structure Visit.DevOk (tree : List Node) (acc : Nat → Bool) (v : Visit) : Prop where
  idx : v.idx < tree.length
  com : ∀ i, v.ev = some (.com i) → i = v.idx ∧ acc i = true
  leaf : ∀ i, v.ev = some (.leaf i) → i = v.idx ∧ acc i = false ∧ ∀ hi : i < tree.length, tree[i].nChildren = 0
  inner : v.ev = none → acc v.idx = false ∧ ∀ hi : v.idx < tree.length, tree[v.idx].nChildren ≠ 0

/-- The traversal finishes, visits increasing indices, and collects every particle, in order. -/
theorem devGo_spec {n : Nat} {tree : List Node} (D : Dfs n tree) (acc : Nat → Bool) (fuel i : Nat) (hf : tree.length ≤ i + fuel) :
    ∃ vs, devGo tree acc fuel i = some vs ∧ (∀ v ∈ vs, i ≤ v.idx ∧ v.DevOk tree acc) ∧ vs.Pairwise (fun a b => a.idx < b.idx) ∧
      sources tree vs = List.range' (start tree n i) (n - start tree n i) := by
  induction fuel generalizing i with
  | zero =>
    have he : tree[i]? = none := List.getElem?_eq_none (by omega)
    refine ⟨[], by unfold devGo; rw [he], by simp, List.Pairwise.nil, ?_⟩
    rw [start_end (by omega)]; simp [sources]
  | succ fuel ih =>
    by_cases hi : i < tree.length
    · have he : tree[i]? = some tree[i] := List.getElem?_eq_getElem hi
      have hj : i < (macStep acc i tree[i]).1 := by unfold macStep; split <;> simp
      obtain ⟨us, h1, h2, h3, h4⟩ := ih (macStep acc i tree[i]).1 (by omega)
      refine ⟨⟨i, (macStep acc i tree[i]).2⟩ :: us, ?_, ?_, ?_, ?_⟩
      · unfold devGo; rw [he]; simp only; rw [h1]; rfl
      · intro v hv
        rcases List.mem_cons.1 hv with rfl | hv
        · refine ⟨le_rfl, hi, ?_, ?_, ?_⟩
          · intro k hk
            simp only at hk ⊢
            unfold macStep at hk
            split at hk
            · rename_i ha
              simp only [Option.some.injEq, Ev.com.injEq] at hk
              exact ⟨hk.symm, hk ▸ ha⟩
            · split at hk <;> simp at hk
          · intro k hk
            simp only at hk ⊢
            unfold macStep at hk
            split at hk
            · simp at hk
            · rename_i ha
              split at hk
              · rename_i hn
                simp only [Option.some.injEq, Ev.leaf.injEq] at hk
                subst hk
                exact ⟨rfl, by simpa using ha, fun _ => hn⟩
              · simp at hk
          · intro hk
            simp only at hk ⊢
            unfold macStep at hk
            split at hk
            · simp at hk
            · rename_i ha
              split at hk
              · simp at hk
              · rename_i hn
                exact ⟨by simpa using ha, fun _ => hn⟩
        · exact ⟨by have := (h2 v hv).1; omega, (h2 v hv).2⟩
      · exact List.pairwise_cons.2 ⟨fun v hv => by have := (h2 v hv).1; simp only; omega, h3⟩
      · have hs : sources tree (⟨i, (macStep acc i tree[i]).2⟩ :: us) =
            (match (macStep acc i tree[i]).2 with | some e => e.particles tree | none => []) ++ sources tree us := rfl
        rw [hs, h4]
        have hr := D.range i hi
        have hn := D.next i hi
        unfold macStep
        by_cases ha : acc i = true
        · rw [if_pos ha]
          simp only
          rw [Ev.particles_com hi, start_eq hi, hn]
          exact range'_append' hr.1.le hr.2
        · rw [if_neg ha]
          by_cases hc : tree[i].nChildren = 0
          · rw [if_pos hc]
            simp only
            rw [hc] at hn
            rw [Ev.particles_leaf hi, start_eq hi, show start tree n (i + 1) = tree[i].fin from hn]
            exact range'_append' hr.1.le hr.2
          · rw [if_neg hc]
            simp only [List.nil_append]
            rw [D.kid i hi hc, start_eq hi]
    · have he : tree[i]? = none := List.getElem?_eq_none (by omega)
      refine ⟨[], by unfold devGo; rw [he], by simp, List.Pairwise.nil, ?_⟩
      rw [start_end (by omega)]; simp [sources]

/-! ### The code of a particle at the level of a node -/

variable {K : Type} [Field K] [LinearOrder K]

theorem nodal_eq {c : Gpu K} (hd : 0 < c.d) (hw : c.d < c.w) (hw64 : c.w ≤ 64) {k : Nat} (hk : k < c.codes.length)
    (hb : c.codes[k] < 2 ^ (cbits c.w c.d * c.d)) {l : Nat} (hl : l ≤ cbits c.w c.d) :
    c.nodal k l = some (Path.code c.d ((digits c.d (cbits c.w c.d) c.codes[k]).take l)) := by
  have hc := cbits_mul_lt hd hw
  obtain ⟨s1, s2⟩ := (shiftAmount hd hw hw64 le_rfl hl).1 hl
  unfold Gpu.nodal
  rw [List.getElem?_eq_getElem hk]
  simp only [Option.bind_eq_bind, Option.bind_some]
  rw [mulSz_eq (by omega)]
  unfold shl shr
  rw [if_pos hc, Option.bind_some, s1, if_pos s2, Nat.one_shiftLeft, Nat.mod_eq_of_lt (Nat.pow_lt_pow_right (by norm_num) hc)]
  congr 1
  have e : c.codes[k] ||| 2 ^ (cbits c.w c.d * c.d) = Path.code c.d (digits c.d (cbits c.w c.d) c.codes[k]) := by
    have := Nat.two_pow_add_eq_or_of_lt hb 1
    rw [Nat.mul_one] at this
    rw [Nat.or_comm, ← this, code_pv, pv_digits _ _ _ hb, digits_length]
  have hlen : (digits c.d (cbits c.w c.d) c.codes[k]).length = cbits c.w c.d := digits_length _ _ _
  rw [e, ← code_shiftRight (digits_ok _ _ _) (by rw [hlen]; exact hl), hlen]

/-! ### A group of threads -/

theorem mapM_map_some {α β : Type} {f : α → Option β} {h : α → β} {l : List α} (H : ∀ a ∈ l, f a = some (h a)) : l.mapM f = some (l.map h) := by
  rw [mapM_some_iff]
  apply forall₂_of_getElem (by simp)
  intro i h1 h2
  rw [List.getElem_map]
  exact H _ (List.getElem_mem h1)

theorem zip_map_self {α β : Type} (l : List α) (g : α → β) : l.zip (l.map g) = l.map (fun a => (a, g a)) := by
  induction l with
  | nil => rfl
  | cons a l ih => simp [ih]

namespace Gpu

/-- Particle `k` of the tree. -/
def pt (c : Gpu K) (k : Nat) : Pt K := (ptAt c.d c.parts k).getD ⟨[], .nan⟩

/-- The floating-point data of node `i`. -/
def pr (c : Gpu K) (i : Nat) : NProps K := c.props.getD i ⟨[], .nan, .nan, .nan⟩

/-- The particles of node `i`. -/
def srcs (c : Gpu K) (i : Nat) : List Nat :=
  match c.tree[i]? with
  | some nd => List.range' nd.beg (nd.fin - nd.beg)
  | none => []

/-- The vote of particle `k` at node `i`: it is outside the node and the acceptance criterion holds. -/
def votes (c : Gpu K) (i k : Nat) : Bool :=
  decide (k ∉ c.srcs i) && (macLh c.A c.mac c.macVal (c.pr i)).lt (devD2 c.A (.fin 0) (diffs c.A (c.pt k).pos (c.pr i).com))

/-- The outcome of the vote at node `i`. -/
def accepts (c : Gpu K) (lanes : List Nat) (i : Nat) : Bool := lanes.all (c.votes i)

/-- The effect of a visit on the result of particle `k`. -/
def visUpd (c : Gpu K) (k : Nat) (r : Res K) (v : Visit) : Res K :=
  match v.ev with
  | none => r
  | some (.com i) =>
    devCom c.A c.eps2 (diffs c.A (c.pt k).pos (c.pr i).com) (devD2 c.A (.fin 0) (diffs c.A (c.pt k).pos (c.pr i).com)) (c.pr i).mass (c.pt k) r
  | some (.leaf i) => (c.srcs i).foldl (fun r l => devPair c.A c.eps2 (decide (k = l)) (c.pt k) (c.pt l) r) r

/-- The tree is complete: data for every node, and for the particles of every node; the code of a particle at the level of a node is the
code of the node if and only if the particle is in the node. -/
structure Ok (c : Gpu K) (n : Nat) : Prop where
  props : c.props.length = c.tree.length
  range : ∀ nd ∈ c.tree, nd.beg < nd.fin ∧ nd.fin ≤ n
  pts : ∀ k < n, ∃ p, ptAt c.d c.parts k = some p
  nodal : ∀ nd ∈ c.tree, ∀ k < n, ∃ s, c.nodal k nd.level = some s ∧ (s = nd.code ↔ nd.beg ≤ k ∧ k < nd.fin)

theorem pt_eq {c : Gpu K} {n : Nat} (h : c.Ok n) {k : Nat} (hk : k < n) : ptAt c.d c.parts k = some (c.pt k) := by
  obtain ⟨p, hp⟩ := h.pts k hk
  unfold pt; rw [hp]; rfl

theorem ptsAt_eq {c : Gpu K} {n : Nat} (h : c.Ok n) {b e : Nat} (he : e ≤ n) :
    ptsAt c.d c.parts b e = some ((List.range' b (e - b)).map c.pt) := by
  unfold ptsAt
  apply mapM_map_some
  intro k hk
  rw [List.mem_range'_1] at hk
  exact pt_eq h (by omega)

theorem srcs_eq {c : Gpu K} {i : Nat} (hi : i < c.tree.length) :
    c.srcs i = List.range' c.tree[i].beg (c.tree[i].fin - c.tree[i].beg) := by
  unfold srcs; rw [List.getElem?_eq_getElem hi]

theorem vote_eq {c : Gpu K} {n : Nat} (h : c.Ok n) {i : Nat} (hi : i < c.tree.length) {k : Nat} (hk : k < n) :
    c.vote (c.pr i) c.tree[i] k = some (c.votes i k) := by
  obtain ⟨s, h1, h2⟩ := h.nodal _ (List.getElem_mem hi) k hk
  unfold vote votes
  rw [h1, pt_eq h hk, srcs_eq hi]
  simp only [Option.bind_eq_bind, Option.bind_some]
  have hr := h.range _ (List.getElem_mem hi)
  have e : s ≠ c.tree[i].code ↔ k ∉ List.range' c.tree[i].beg (c.tree[i].fin - c.tree[i].beg) := by
    rw [Ne, h2, List.mem_range'_1]
    omega
  rw [decide_eq_decide.2 e]

theorem step_eq {c : Gpu K} {n : Nat} (h : c.Ok n) {lanes : List Nat} (hl : ∀ k ∈ lanes, k < n) (g : Nat → Res K) {i : Nat} (hi : i < c.tree.length) :
    c.step lanes (lanes.map g) i c.tree[i] = some ((macStep (c.accepts lanes) i c.tree[i]).1,
      lanes.map (fun k => c.visUpd k (g k) ⟨i, (macStep (c.accepts lanes) i c.tree[i]).2⟩)) := by
  have hpr : c.props[i]? = some (c.pr i) := by
    unfold pr; rw [List.getD_eq_getElem?_getD, List.getElem?_eq_getElem (by rw [h.props]; exact hi), Option.getD_some]
  have hv : lanes.mapM (c.vote (c.pr i) c.tree[i]) = some (lanes.map (c.votes i)) := mapM_map_some (fun k hk => vote_eq h hi (hl k hk))
  unfold step
  rw [hpr]
  simp only [Option.bind_eq_bind, Option.bind_some]
  rw [hv, Option.bind_some, zip_map_self, List.all_map]
  unfold macStep
  have e : lanes.all (id ∘ c.votes i) = c.accepts lanes i := rfl
  rw [e]
  by_cases ha : c.accepts lanes i = true
  · rw [if_pos ha, if_pos ha]
    rw [List.mapM_map, mapM_map_some (h := fun k => c.visUpd k (g k) ⟨i, some (.com i)⟩)]
    · rfl
    · intro k hk
      simp only [Function.comp]
      rw [pt_eq h (hl k hk), Option.bind_some]
      rfl
  · rw [if_neg ha, if_neg ha]
    by_cases hc : c.tree[i].nChildren = 0
    · rw [if_pos hc, if_pos hc, ptsAt_eq h (h.range _ (List.getElem_mem hi)).2, Option.bind_some,
        List.mapM_map, mapM_map_some (h := fun k => c.visUpd k (g k) ⟨i, some (.leaf i)⟩)]
      · rfl
      · intro k hk
        simp only [Function.comp]
        rw [pt_eq h (hl k hk), Option.bind_some, zip_map_self, List.foldl_map]
        show _ = some ((c.srcs i).foldl _ _)
        rw [srcs_eq hi]
    · rw [if_neg hc, if_neg hc]
      rfl

theorem loop_eq {c : Gpu K} {n : Nat} (h : c.Ok n) {lanes : List Nat} (hl : ∀ k ∈ lanes, k < n) :
    ∀ (fuel i : Nat) (vs : List Visit) (g : Nat → Res K), devGo c.tree (c.accepts lanes) fuel i = some vs →
      c.loop lanes fuel i (lanes.map g) = some (some (lanes.map (fun k => vs.foldl (c.visUpd k) (g k)))) := by
  intro fuel
  induction fuel with
  | zero =>
    intro i vs g ht
    unfold devGo at ht
    unfold loop
    cases he : c.tree[i]? with
    | none => rw [he] at ht; simp only [Option.some.injEq] at ht; subst ht; rfl
    | some nd => rw [he] at ht; simp at ht
  | succ fuel ih =>
    intro i vs g ht
    unfold devGo at ht
    unfold loop
    cases he : c.tree[i]? with
    | none => rw [he] at ht; simp only [Option.some.injEq] at ht; subst ht; rfl
    | some nd =>
      rw [he] at ht
      simp only at ht ⊢
      obtain ⟨hi, rfl⟩ := List.getElem?_eq_some_iff.1 he
      rw [Option.map_eq_some_iff] at ht
      obtain ⟨us, h1, rfl⟩ := ht
      rw [step_eq h hl g hi]
      simp only
      rw [ih _ us _ h1]
      rfl

/-- The result of particle `k` after the visits `vs`. -/
def total (c : Gpu K) (vs : List Visit) (k : Nat) : Res K := resScale c.A c.G (vs.foldl (c.visUpd k) (resZero c.Q c.d))

theorem warp_eq {c : Gpu K} {n : Nat} (h : c.Ok n) {lanes : List Nat} (hl : ∀ k ∈ lanes, k < n) {vs : List Visit}
    (hv : devGo c.tree (c.accepts lanes) c.tree.length 0 = some vs) : c.warp lanes = some (lanes.map (c.total vs)) := by
  unfold warp
  rw [loop_eq h hl _ _ _ (fun _ => resZero c.Q c.d) hv]
  simp only [Option.bind_some, id, Option.bind_eq_bind, List.map_map]
  rfl

/-- The nodes that the threads of `lanes` go through. -/
def visits (c : Gpu K) (lanes : List Nat) : List Visit := (devGo c.tree (c.accepts lanes) c.tree.length 0).getD []

theorem visits_eq {c : Gpu K} {n : Nat} (D : Dfs n c.tree) (lanes : List Nat) :
    devGo c.tree (c.accepts lanes) c.tree.length 0 = some (c.visits lanes) := by
  obtain ⟨vs, h1, _⟩ := devGo_spec D (c.accepts lanes) c.tree.length 0 (by omega)
  unfold visits; rw [h1]; rfl

/-! ### Kernel launches -/

theorem mem_block {bs b e blk l : Nat} : l ∈ block bs b e blk ↔ (blk * bs ≤ l ∧ l < blk * bs + bs) ∧ l + b < e := by
  unfold block
  simp only [List.mem_filter, List.mem_map, List.mem_range, Bool.not_eq_true', decide_eq_false_iff_not, not_le]
  constructor
  · rintro ⟨⟨t, ht, rfl⟩, h⟩; omega
  · rintro ⟨⟨h1, h2⟩, h3⟩; exact ⟨⟨l - blk * bs, by omega, by omega⟩, h3⟩

/-- The result of local index `l` of a launch on `[b, e)`. -/
def val (c : Gpu K) (bs b e l : Nat) : Res K := c.total (c.visits ((block bs b e (l / bs)).map (· + b))) (l + b)

theorem foldlM_set {N : Nat} {ls : List Nat} (hls : ∀ l ∈ ls, l < N) (r f : Nat → Res K) :
    (ls.map (fun l => (l, r l))).foldlM (fun buf lr => if lr.1 < buf.length then some (buf.set lr.1 lr.2) else none) (Arr N f) =
      some (Arr N (fun l => if l ∈ ls then r l else f l)) := by
  induction ls generalizing f with
  | nil => simp [pure]
  | cons l ls ih =>
    rw [List.map_cons, List.foldlM_cons]
    simp only
    rw [if_pos (by simpa using hls l List.mem_cons_self)]
    simp only [Option.bind_eq_bind, Option.bind_some]
    rw [set_arr, ih (fun l' hl' => hls l' (List.mem_cons_of_mem _ hl'))]
    congr 1
    apply arr_ext
    intro j _
    by_cases h1 : j ∈ ls
    · rw [if_pos h1, if_pos (List.mem_cons_of_mem _ h1)]
    · rw [if_neg h1]
      by_cases h2 : j = l
      · subst h2; simp
      · rw [if_neg h2, if_neg (by simp [h1, h2])]

theorem launch_eq {c : Gpu K} {n : Nat} (h : c.Ok n) (D : Dfs n c.tree) {bs b e : Nat} (hbs : 0 < bs) (he : e ≤ n) (f : Nat → Res K) :
    c.launch bs b e (Arr (e - b) f) = some (Arr (e - b) (c.val bs b e)) := by
  unfold launch
  have key : ∀ m, (List.range m).foldlM (fun buf blk => do
      let ls := block bs b e blk
      let res ← c.warp (ls.map (· + b))
      (ls.zip res).foldlM (fun buf lr => if lr.1 < buf.length then some (buf.set lr.1 lr.2) else none) buf) (Arr (e - b) f) =
      some (Arr (e - b) (fun l => if l / bs < m then c.val bs b e l else f l)) := by
    intro m
    induction m with
    | zero => simp [pure]
    | succ m ih =>
      rw [List.range_succ, List.foldlM_append, ih]
      simp only [Option.bind_eq_bind, Option.bind_some, List.foldlM_cons, List.foldlM_nil, pure]
      rw [warp_eq h (fun k hk => by
        obtain ⟨l, hl, rfl⟩ := List.mem_map.1 hk
        have := (mem_block.1 hl).2
        omega) (visits_eq D _)]
      simp only [Option.bind_some]
      rw [List.map_map, zip_map_self, foldlM_set (fun l hl => by have := (mem_block.1 hl).2; omega), Option.bind_some]
      congr 1
      apply arr_ext
      intro l hl
      have hdiv : l ∈ block bs b e m ↔ l / bs = m := by
        rw [mem_block, Nat.div_eq_iff hbs]
        have : l + b < e := by omega
        have h2 : (m + 1) * bs = m * bs + bs := Nat.succ_mul m bs
        constructor
        · rintro ⟨⟨h3, h4⟩, _⟩; constructor <;> omega
        · rintro ⟨h3, h4⟩; refine ⟨⟨?_, ?_⟩, this⟩ <;> omega
      by_cases h1 : l / bs = m
      · rw [if_pos (hdiv.2 h1), if_pos (by omega)]
        unfold val
        rw [h1]; rfl
      · rw [if_neg (fun hh => h1 (hdiv.1 hh))]
        by_cases h2 : l / bs < m
        · rw [if_pos h2, if_pos (by omega)]
        · rw [if_neg h2, if_neg (by omega)]
  rw [key]
  congr 1
  apply arr_ext
  intro l hl
  rw [if_pos]
  rw [Nat.div_lt_iff_lt_mul hbs]
  have h1 := Nat.div_add_mod (e - b + (bs - 1)) bs
  have h2 := Nat.mod_lt (e - b + (bs - 1)) hbs
  rw [Nat.mul_comm] at h1
  omega

theorem ofUB_some {α : Type} (a : α) : ofUB (some a) = .ok a := rfl

theorem ok_bind {α β : Type} (a : α) (f : α → Except Err β) : ((.ok a : Except Err α) >>= f) = f a := rfl

/-- The work of one accelerator, with the cut `k0` where the accelerators' part begins. -/
theorem device_eq {c : Gpu K} {n : Nat} (h : c.Ok n) (D : Dfs n c.tree) (hn : n ≤ maxInt) (ht : c.tree.length ≤ maxInt) {bs : Nat} (hbs : 0 < bs) {idx : List Nat}
    {k0 b e i : Nat} (h0 : idx[0]? = some k0) (hb : idx[i]? = some b) (hE : idx[i + 1]? = some e) (h1 : k0 ≤ b) (h2 : b ≤ e) (h3 : e ≤ n) (offset : Bool) (junk : Res K) {N : Nat}
    (hN : e - (if offset then 0 else k0) ≤ N) (f : Nat → Res K) :
    c.device bs idx offset junk i (Arr N f) = .ok (Arr N (fun p =>
      if b ≤ p + (if offset then 0 else k0) ∧ p + (if offset then 0 else k0) < e then c.val bs b e (p + (if offset then 0 else k0) - b) else f p)) := by
  unfold device
  rw [h0, hb, hE, ofUB_some, ofUB_some, ofUB_some, ok_bind, ok_bind, ok_bind]
  have hsub : subW 64 e b = e - b := subW_sorted h2 (by unfold maxInt at hn; omega)
  have g1 : ¬ (maxUnsigned - 31 < e - b) := by unfold maxUnsigned; unfold maxInt at hn; omega
  have g2 : ¬ (maxInt < b ∨ maxInt < e ∨ maxInt < c.tree.length) := by omega
  rw [hsub, if_neg g1, if_neg g2, replicate_arr, launch_eq h D hbs h3, ofUB_some, ok_bind]
  have ho : (if offset then 0 else k0) ≤ b := by split <;> omega
  generalize (if offset then 0 else k0) = o at ho hN ⊢
  rw [write_eq (n := N) (ix := some) (π := id) (ρ := id) (fun k hk => ⟨rfl, hk, rfl⟩) (fun _ _ => rfl) (by omega), ofUB_some, Except.ok.injEq]
  simp only [id]
  apply arr_ext
  intro p _
  by_cases hp : b ≤ p + o ∧ p + o < e
  · rw [if_pos hp, if_pos (by omega)]
    congr 1; omega
  · rw [if_neg hp, if_neg (by omega)]

/-- The result of particle `k`, by the accelerator that has it. -/
def devVal (c : Gpu K) (bs : Nat) (idx : List Nat) (k : Nat) : Res K :=
  match (between idx).find? (fun r => decide (r.1 ≤ k ∧ k < r.2)) with
  | none => ⟨[], []⟩
  | some r => c.val bs r.1 r.2 (k - r.1)

theorem mem_between {idx : List Nat} {r : Nat × Nat} : r ∈ between idx ↔ ∃ i, idx[i]? = some r.1 ∧ idx[i + 1]? = some r.2 := by
  unfold between
  rw [List.mem_iff_getElem?]
  constructor
  · rintro ⟨i, hi⟩
    rw [List.getElem?_zip_eq_some, List.getElem?_tail] at hi
    exact ⟨i, hi⟩
  · rintro ⟨i, hi⟩
    refine ⟨i, ?_⟩
    rw [List.getElem?_zip_eq_some, List.getElem?_tail]
    exact hi

theorem devVal_eq {c : Gpu K} {bs : Nat} {idx : List Nat} (hs : idx.Pairwise (· ≤ ·)) {i b e k : Nat} (hb : idx[i]? = some b) (hE : idx[i + 1]? = some e)
    (h1 : b ≤ k) (h2 : k < e) : c.devVal bs idx k = c.val bs b e (k - b) := by
  unfold devVal
  have hm : (b, e) ∈ between idx := mem_between.2 ⟨i, hb, hE⟩
  cases hf : (between idx).find? (fun r => decide (r.1 ≤ k ∧ k < r.2)) with
  | none =>
    have := List.find?_eq_none.1 hf _ hm
    simp [h1, h2] at this
  | some r =>
    have h3 := List.find?_some hf
    obtain ⟨j, j1, j2⟩ := mem_between.1 (List.mem_of_find?_eq_some hf)
    simp only [decide_eq_true_eq] at h3
    obtain ⟨li, rfl⟩ := List.getElem?_eq_some_iff.1 hb
    obtain ⟨li', rfl⟩ := List.getElem?_eq_some_iff.1 hE
    obtain ⟨lj, ej⟩ := List.getElem?_eq_some_iff.1 j1
    obtain ⟨lj', ej'⟩ := List.getElem?_eq_some_iff.1 j2
    have mono : ∀ x y (hx : x < idx.length) (hy : y < idx.length), x ≤ y → idx[x] ≤ idx[y] := by
      intro x y hx hy hxy
      rcases Nat.eq_or_lt_of_le hxy with rfl | hlt
      · exact le_rfl
      · exact List.pairwise_iff_getElem.1 hs x y hx hy hlt
    have : i = j := by
      rcases Nat.lt_trichotomy i j with hl | he | hl
      · have := mono (i + 1) j li' lj hl; omega
      · exact he
      · have := mono (j + 1) i lj' li hl; omega
    subst this
    simp only
    rw [← ej, ← ej']

theorem devices_eq {c : Gpu K} {n : Nat} (h : c.Ok n) (D : Dfs n c.tree) (hn : n ≤ maxInt) (ht : c.tree.length ≤ maxInt) {bs : Nat} (hbs : 0 < bs) {idx : List Nat}
    {k0 : Nat} (h0 : idx[0]? = some k0) (hs : idx.Pairwise (· ≤ ·)) (hle : ∀ k ∈ idx, k ≤ n) (offset : Bool) (junk : Res K) {N : Nat}
    (hN : n - (if offset then 0 else k0) ≤ N) (order : List Nat) (ho : ∀ i ∈ order, i + 1 < idx.length) (f : Nat → Res K) :
    ∃ g : Nat → Res K, c.devices bs idx offset junk order (Arr N f) = .ok (Arr N g) ∧ ∀ p < N,
      (∀ i ∈ order, ∀ b e, idx[i]? = some b → idx[i + 1]? = some e → b ≤ p + (if offset then 0 else k0) → p + (if offset then 0 else k0) < e →
        g p = c.devVal bs idx (p + (if offset then 0 else k0))) ∧
      ((∀ i ∈ order, ∀ b e, idx[i]? = some b → idx[i + 1]? = some e →
        ¬ (b ≤ p + (if offset then 0 else k0) ∧ p + (if offset then 0 else k0) < e)) → g p = f p) := by
  unfold devices
  induction order generalizing f with
  | nil => exact ⟨f, rfl, fun p _ => ⟨fun i hi => by simp at hi, fun _ => rfl⟩⟩
  | cons i order ih =>
    have hi := ho i List.mem_cons_self
    have hb : idx[i]? = some idx[i] := List.getElem?_eq_getElem _
    have he : idx[i + 1]? = some idx[i + 1] := List.getElem?_eq_getElem _
    obtain ⟨l0, e0⟩ := List.getElem?_eq_some_iff.1 h0
    have h1 : k0 ≤ idx[i] := by
      rw [← e0]
      rcases Nat.eq_zero_or_pos i with rfl | hp
      · exact le_rfl
      · exact List.pairwise_iff_getElem.1 hs 0 i l0 _ hp
    have h2 : idx[i] ≤ idx[i + 1] := List.pairwise_iff_getElem.1 hs i (i + 1) _ _ (by omega)
    have h3 := hle _ (List.getElem_mem hi)
    have hd := device_eq h D hn ht hbs h0 hb he h1 h2 h3 offset junk (N := N) (by omega) f
    obtain ⟨g, g1, g2⟩ := ih (fun j hj => ho j (List.mem_cons_of_mem _ hj)) (fun p =>
      if idx[i] ≤ p + (if offset then 0 else k0) ∧ p + (if offset then 0 else k0) < idx[i + 1] then
        c.val bs idx[i] idx[i + 1] (p + (if offset then 0 else k0) - idx[i]) else f p)
    refine ⟨g, ?_, ?_⟩
    · rw [List.foldlM_cons, hd]
      exact g1
    · intro p hp
      obtain ⟨k1, k2⟩ := g2 p hp
      constructor
      · intro j hj b e jb je hb1 he1
        by_cases hex : ∃ j' ∈ order, ∃ b e, idx[j']? = some b ∧ idx[j' + 1]? = some e ∧ b ≤ p + (if offset then 0 else k0) ∧ p + (if offset then 0 else k0) < e
        · obtain ⟨j', m1, b', e', m2, m3, m4, m5⟩ := hex
          exact k1 j' m1 b' e' m2 m3 m4 m5
        · rcases List.mem_cons.1 hj with rfl | hj
          · rw [k2 (fun j' m1 b' e' m2 m3 m4 => hex ⟨j', m1, b', e', m2, m3, m4⟩)]
            rw [hb, Option.some.injEq] at jb
            rw [he, Option.some.injEq] at je
            rw [if_pos (by omega), devVal_eq hs hb he (by omega) (by omega)]
          · exact absurd ⟨j, hj, b, e, jb, je, hb1, he1⟩ hex
      · intro hno
        rw [k2 (fun j hj => hno j (List.mem_cons_of_mem _ hj)), if_neg (hno i List.mem_cons_self _ _ hb he)]

theorem cuts_le {idx : List Nat} {n : Nat} (hs : idx.Pairwise (· ≤ ·)) (hl : idx.getLast? = some n) : ∀ k ∈ idx, k ≤ n := by
  intro k hk
  obtain ⟨i, hi, rfl⟩ := List.getElem_of_mem hk
  rw [List.getLast?_eq_getElem?] at hl
  obtain ⟨hj, rfl⟩ := List.getElem?_eq_some_iff.1 hl
  rcases Nat.lt_or_ge i (idx.length - 1) with h | h
  · exact List.pairwise_iff_getElem.1 hs i _ hi hj h
  · have : i = idx.length - 1 := by omega
    subst this; exact le_rfl

theorem cuts_cover {idx : List Nat} {n k0 : Nat} (h0 : idx[0]? = some k0) (hs : idx.Pairwise (· ≤ ·)) (hl : idx.getLast? = some n) {k : Nat}
    (h1 : k0 ≤ k) (h2 : k < n) : ∃ i b e, i + 1 < idx.length ∧ idx[i]? = some b ∧ idx[i + 1]? = some e ∧ b ≤ k ∧ k < e := by
  cases idx with
  | nil => simp at h0
  | cons a l =>
    simp only [List.getElem?_cons_zero, Option.some.injEq] at h0
    subst h0
    have hm : k ∈ indices (between (a :: l)) := by
      rw [indices_between hs hl, List.mem_range'_1]; omega
    unfold indices at hm
    rw [List.mem_flatMap] at hm
    obtain ⟨r, hr, hk⟩ := hm
    rw [List.mem_range'_1] at hk
    obtain ⟨i, i1, i2⟩ := mem_between.1 hr
    exact ⟨i, r.1, r.2, (List.getElem?_eq_some_iff.1 i2).1, i1, i2, by omega, by omega⟩

/-- All accelerators: with sorted cuts from `k0` to `n`, the output gets the results of the particles from `k0` on. -/
theorem devices_all {c : Gpu K} {n : Nat} (h : c.Ok n) (D : Dfs n c.tree) (hn : n ≤ maxInt) (ht : c.tree.length ≤ maxInt) {bs : Nat} (hbs : 0 < bs) {idx : List Nat}
    {k0 : Nat} (h0 : idx[0]? = some k0) (hs : idx.Pairwise (· ≤ ·)) (hl : idx.getLast? = some n) (offset : Bool) (junk : Res K) {N : Nat}
    (hN : n - (if offset then 0 else k0) ≤ N) {order : List Nat} (ho : order.Perm (List.range (idx.length - 1))) (f : Nat → Res K) :
    c.devices bs idx offset junk order (Arr N f) = .ok (Arr N (fun p =>
      if k0 ≤ p + (if offset then 0 else k0) ∧ p + (if offset then 0 else k0) < n then c.devVal bs idx (p + (if offset then 0 else k0)) else f p)) := by
  have hle := cuts_le hs hl
  obtain ⟨g, g1, g2⟩ := devices_eq h D hn ht hbs h0 hs hle offset junk hN order (fun i hi => by
    have := List.mem_range.1 (ho.mem_iff.1 hi); omega) f
  rw [g1, Except.ok.injEq]
  apply arr_ext
  intro p hp
  obtain ⟨a1, a2⟩ := g2 p hp
  generalize (if offset then 0 else k0) = o at a1 a2 ⊢
  by_cases hk : k0 ≤ p + o ∧ p + o < n
  · rw [if_pos hk]
    obtain ⟨i, b, e, i1, i2, i3, i4, i5⟩ := cuts_cover h0 hs hl hk.1 hk.2
    exact a1 i (ho.mem_iff.2 (List.mem_range.2 (by omega))) b e i2 i3 i4 i5
  · rw [if_neg hk]
    apply a2
    intro i hi b e hb he hbe
    apply hk
    have e1 := hle e (List.mem_of_getElem? he)
    obtain ⟨l0, e0⟩ := List.getElem?_eq_some_iff.1 h0
    obtain ⟨li, ei⟩ := List.getElem?_eq_some_iff.1 hb
    have : k0 ≤ b := by
      rw [← e0, ← ei]
      rcases Nat.eq_zero_or_pos i with rfl | hp
      · exact le_rfl
      · exact List.pairwise_iff_getElem.1 hs 0 i l0 _ hp
    omega

/-- The task for the accelerators. -/
theorem task_eq {c : Gpu K} {n : Nat} (h : c.Ok n) (D : Dfs n c.tree) (hn : n ≤ maxInt) (ht : c.tree.length ≤ maxInt) {bs : Nat} (hbs : 0 < bs) {idx : List Nat}
    {k0 : Nat} (h0 : idx[0]? = some k0) (hs : idx.Pairwise (· ≤ ·)) (hl : idx.getLast? = some n) {ptr : Bool} (junk : Res K)
    {order : List Nat} (ho : order.Perm (List.range (idx.length - 1))) {ix : Nat → Option Nat} {π ρ : Nat → Nat}
    (hix : ∀ k < n, ix k = some (π k) ∧ π k < n ∧ ρ (π k) = k) (hρ : ∀ i < n, π (ρ i) = i) (hρn : ∀ i < n, ρ i < n)
    (hptr : ptr = true → ∀ i < n, ρ i = i) (f : Nat → Res K) :
    c.task bs n idx ptr junk order ix (Arr n f) = .ok (Arr n (fun i => if k0 ≤ ρ i then c.devVal bs idx (ρ i) else f i)) := by
  have hk0 : k0 ≤ n := cuts_le hs hl _ (List.mem_of_getElem? h0)
  unfold task
  cases ptr with
  | true =>
    rw [if_pos rfl, devices_all h D hn ht hbs h0 hs hl true junk (by simp) ho f, Except.ok.injEq]
    apply arr_ext
    intro p hp
    rw [hptr rfl p hp]
    simp only [if_true, Nat.add_zero]
    by_cases hk : k0 ≤ p
    · rw [if_pos ⟨hk, hp⟩, if_pos hk]
    · rw [if_neg (fun h => hk h.1), if_neg hk]
  | false =>
    rw [if_neg (by simp), h0, ofUB_some, ok_bind, subW_sorted hk0 (by unfold maxInt at hn; omega), replicate_arr,
      devices_all h D hn ht hbs h0 hs hl false junk (by simp) ho, ok_bind]
    rw [write_eq hix hρ (by omega), ofUB_some, Except.ok.injEq]
    apply arr_ext
    intro p hp
    have := hρn p hp
    simp only [Bool.false_eq_true, if_false]
    by_cases hk : k0 ≤ ρ p
    · rw [if_pos (by omega), if_pos (by omega), if_pos hk, show ρ p - k0 + k0 = ρ p by omega]
    · rw [if_neg (by omega), if_neg hk]

end Gpu

/-! ### Reachable trees -/

variable [IsStrictOrderedRing K] [FloorRing K]

theorem gpu_ok {A : Arith K} {simd : Option (Simd K)} {mac : Mac} {w d : Nat} (hs : Supported w d) {s : TS (rakauEnv A simd mac w d)}
    (h : Reach (rakauEnv A simd mac w d) s) (hz : s.n * cbits w d < 2 ^ 64) (Dv : Arith K) (Q : Quant) (mv G e2 : Fl K) :
    (s.gpu Dv Q mv G e2).Ok s.n where
  props := reach_props_length h
  range := fun _ hnd => reach_range hs h hz hnd
  pts := fun _ hk => reach_pts h hk
  nodal := by
    intro nd hnd k hk
    change nd ∈ s.tree at hnd
    obtain ⟨i, hi, rfl⟩ := List.getElem_of_mem hnd
    obtain ⟨hcl, B, _, _, p, p1, p2, p3, p4, p5, p6, _, p8⟩ := reach_node (rakauEnv_ok A simd mac hs) h hz hi
    have hdim : 0 < d ∧ d < w ∧ w ≤ 64 := by
      rcases hs with ⟨rfl | rfl, rfl | rfl⟩ <;> norm_num
    have hk' : k < s.codes.length := by rw [hcl]; exact hk
    have hb : s.codes[k] < 2 ^ (cbits w d * d) := B.bound _ (List.getElem_mem hk')
    refine ⟨_, nodal_eq (c := s.gpu Dv Q mv G e2) hdim.1 hdim.2.1 hdim.2.2 hk' hb (by rw [p4]; exact p2), ?_⟩
    show Path.code d ((digits d (cbits w d) s.codes[k]).take s.tree[i].level) = s.tree[i].code ↔ _
    rw [p8 k hk', p3, p4]
    show _ ↔ p <+: digits d (cbits w d) s.codes[k]
    rw [List.prefix_iff_eq_take]
    constructor
    · intro he
      exact (code_inj d hdim.1 _ _ (fun x hx => digits_ok _ _ _ x (List.mem_of_mem_take hx)) p1 he).symm
    · intro he
      rw [← he]

theorem reach_dfs {env : Env} (E : EnvOk env) {s : TS env} (h : Reach env s) (hz : s.n * cbits env.w env.d < 2 ^ 64) : Dfs s.n s.tree := by
  rcases Nat.eq_zero_or_pos s.n with h0 | h0
  · have I := reach_inv h
    obtain ⟨hcl, hcs⟩ := rawCodes_spec.1 I.codes
    have hc : s.codes = [] := List.length_eq_zero_iff.1 (by rw [hcl]; exact h0)
    have ht : s.tree = [] := by
      obtain ⟨split, hb⟩ := I.built
      rw [hc] at hb
      generalize hr : (Except.ok (s.tree, s.crit) : Except Err (List Node × List CNode)) = r at hb
      cases hb with
      | empty => simp at hr; exact hr.1
      | run _ _ _ _ h => exact absurd rfl h
      | fail => simp at hr
    rw [ht, h0]
    exact ⟨fun i hi => by simp at hi, fun i j hi => by simp at hi, fun i hi => by simp at hi, rfl, fun i hi => by simp at hi, fun i hi => by simp at hi⟩
  · obtain ⟨hcl, B, split, hb⟩ := reach_build E h hz h0
    rw [← hcl]
    exact build_dfs B hb

end Rakau
