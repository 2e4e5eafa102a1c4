import Verif.Model.Rocm
import Verif.Props.Gpu

/-!
C87: the function of the ROCm backend on ranges of particles (src/rakau_rocm.cpp:102-325).
-/
namespace Rakau
open Spec

variable {K : Type} [Field K] [LinearOrder K] [IsStrictOrderedRing K] [FloorRing K]

omit [IsStrictOrderedRing K] [FloorRing K] in
theorem launchRocm_eq (c : Gpu K) {np bs b e : Nat} (hbs : 0 < bs) (hbe : b ≤ e) (he : e ≤ np) (hr : e = np ∨ bs ∣ e - b) (view : List (Res K)) :
    c.launchRocm np bs b e view = c.launch bs b e view := by
  unfold Gpu.launchRocm Gpu.launch
  have hblk : ∀ blk ∈ List.range ((e - b + (bs - 1)) / bs),
      ((List.range bs).map (fun t => blk * bs + t)).filter (fun l => !decide (np ≤ l + b)) = Gpu.block bs b e blk := by
    intro blk hb
    rw [List.mem_range] at hb
    rcases hr with rfl | ⟨q, hq⟩
    · rfl
    · unfold Gpu.block
      have hm : (e - b + (bs - 1)) / bs = q := by
        rw [hq, Nat.mul_add_div hbs, Nat.div_eq_of_lt (by omega), Nat.add_zero]
      rw [hm] at hb
      have hle : (blk + 1) * bs ≤ bs * q := by rw [Nat.mul_comm bs q]; exact Nat.mul_le_mul_right _ hb
      rw [Nat.succ_mul] at hle
      apply List.filter_congr
      intro l hl
      obtain ⟨t, ht, rfl⟩ := List.mem_map.1 hl
      rw [List.mem_range] at ht
      rw [decide_eq_false (by omega), decide_eq_false (by omega)]
  have gen : ∀ (l : List Nat) (v : List (Res K)), (∀ blk ∈ l, ((List.range bs).map (fun t => blk * bs + t)).filter (fun l => !decide (np ≤ l + b)) = Gpu.block bs b e blk) →
      l.foldlM (fun view blk => do
        let ls := ((List.range bs).map (fun t => blk * bs + t)).filter (fun l => !decide (np ≤ l + b))
        let res ← c.warp (ls.map (· + b))
        (ls.zip res).foldlM (fun view (lr : Nat × Res K) => if lr.1 < view.length then some (view.set lr.1 lr.2) else none) view) v =
      l.foldlM (fun buf blk => do
        let ls := Gpu.block bs b e blk
        let res ← c.warp (ls.map (· + b))
        (ls.zip res).foldlM (fun buf (lr : Nat × Res K) => if lr.1 < buf.length then some (buf.set lr.1 lr.2) else none) buf) v := by
    intro l
    induction l with
    | nil => intro v _; rfl
    | cons x l ih =>
      intro v h
      rw [List.foldlM_cons, List.foldlM_cons, h x (by simp)]
      congr 1
      funext v'
      exact ih v' (fun blk hb => h blk (by simp [hb]))
  exact gen _ view hblk

section Ranges
variable {A : Arith K} {simd : Option (Simd K)} {mac : Mac} {w d : Nat} (hs : Supported w d) {s : TS (rakauEnv A simd mac w d)}
  (h : Reach (rakauEnv A simd mac w d) s) (hz : s.n * cbits w d < 2 ^ 64)
include hs h hz

/-- The function on a range `[b, e)` that ends at the last particle, or whose length is a multiple of the size of a wavefront: it is defined, and the result of each particle of the range is found at its place
(from the start of the output, or from `b` with `offset`); everything else is unchanged. Each result is the one of a thread in a wavefront of at most `bs` threads, all of them for particles of the range (the values are
those of C30).
Missing from the full claim (all ranges of particles): it is false, see `C87_fails`. -/
theorem C87_partial (Dv : Arith K) (Q : Quant) (mv G e2 : Fl K) {bs b e : Nat} (hbs : 0 < bs) (hbe : b ≤ e) (he : e ≤ s.n) (hr : e = s.n ∨ bs ∣ e - b) (offset : Bool) {out : List (Res K)}
    (ho : (if offset then b else 0) + (e - b) ≤ out.length) :
    ∃ out', (s.gpu Dv Q mv G e2).rocmAccPot s.n bs b e offset out = some out' ∧ out'.length = out.length ∧
      (∀ k, b ≤ k → k < e → ∃ (lanes : List Nat) (res : List (Res K)) (p : Nat), lanes[p]? = some k ∧ lanes.length ≤ bs ∧ (∀ i ∈ lanes, b ≤ i ∧ i < e) ∧ (s.gpu Dv Q mv G e2).warp lanes = some res ∧ res.length = lanes.length ∧
        out'[k - (if offset then 0 else b)]? = res[p]?) ∧
      ∀ q, (∀ k, b ≤ k → k < e → q ≠ k - (if offset then 0 else b)) → out'[q]? = out[q]? := by
  have hok := gpu_ok hs h hz Dv Q mv G e2
  have D := reach_dfs (rakauEnv_ok A simd mac hs) h hz
  set c := s.gpu Dv Q mv G e2 with hc
  set o := if offset then b else 0 with hodef
  have hob : ∀ k, b ≤ k → k - (if offset then 0 else b) = o + (k - b) := by
    intro k hk
    rw [hodef]
    cases offset
    · simp
    · simp; omega
  have hlen : ((out.drop o).take (e - b)).length = e - b := by rw [List.length_take, List.length_drop]; omega
  have hbuf : (out.drop o).take (e - b) = Arr (e - b) (fun k => ((out.drop o).take (e - b)).getD k ⟨[], []⟩) := by
    have := list_eq_arr ((out.drop o).take (e - b)) (⟨[], []⟩ : Res K)
    rwa [hlen] at this
  have hl : c.launchRocm s.n bs b e ((out.drop o).take (e - b)) = some (Arr (e - b) (c.val bs b e)) := by
    rw [launchRocm_eq c hbs hbe he hr, hbuf, Gpu.launch_eq hok D hbs he]
  have arrLen : (Arr (e - b) (c.val bs b e)).length = e - b := by simp
  have ht : (out.take o).length = o := by rw [List.length_take]; omega
  refine ⟨out.take o ++ Arr (e - b) (c.val bs b e) ++ out.drop (o + (e - b)), ?_, ?_, ?_, ?_⟩
  · unfold Gpu.rocmAccPot
    simp only [← hodef]
    rw [if_neg (by omega), hl]
    rfl
  · simp only [List.length_append, ht, List.length_drop, arrLen]
    omega
  · intro k k1 k2
    rw [hob k k1, List.append_assoc, List.getElem?_append_right (by omega), ht, Nat.add_sub_cancel_left, List.getElem?_append_left (by rw [arrLen]; omega), arr_get (by omega)]
    have hw := Gpu.warp_eq hok (lanes := (Gpu.block bs b e ((k - b) / bs)).map (· + b)) (fun i hi => by
      obtain ⟨l, hl, rfl⟩ := List.mem_map.1 hi
      have := (Gpu.mem_block.1 hl).2
      omega) (Gpu.visits_eq D _)
    have hmem : (k - b) ∈ Gpu.block bs b e ((k - b) / bs) := by
      rw [Gpu.mem_block]
      have h1 := Nat.div_add_mod (k - b) bs
      have h2 := Nat.mod_lt (k - b) hbs
      rw [Nat.mul_comm] at h1
      omega
    obtain ⟨p, hp, e1⟩ := List.getElem_of_mem hmem
    refine ⟨_, _, p, ?_, ?_, ?_, hw, by simp, ?_⟩
    · rw [List.getElem?_map, List.getElem?_eq_getElem hp, e1, Option.map_some]
      congr 1; omega
    · rw [List.length_map]
      unfold Gpu.block
      exact (List.length_filter_le _ _).trans (by simp)
    · intro i hi
      obtain ⟨l, hl, rfl⟩ := List.mem_map.1 hi
      have := (Gpu.mem_block.1 hl).2
      omega
    · rw [List.map_map, List.getElem?_map, List.getElem?_eq_getElem hp, e1, Option.map_some]
      rfl
  · intro q hq
    by_cases h1 : q < o
    · rw [List.append_assoc, List.getElem?_append_left (by omega), List.getElem?_take_of_lt h1]
    · by_cases h2 : q < o + (e - b)
      · exact absurd (by rw [hob (q - o + b) (by omega)]; omega) (hq (q - o + b) (by omega) (by omega))
      · rw [List.getElem?_append_right (by simp only [List.length_append, ht, arrLen]; omega), List.getElem?_drop]
        simp only [List.length_append, ht, arrLen]
        congr 1
        omega

/-- A range that ends before the last particle, and whose length is not a multiple of the size of a wavefront: the first thread past the range computes a result and writes it beyond the end of the view. The
assertions of the function hold for such a range. -/
theorem C87_fails (Dv : Arith K) (Q : Quant) (mv G e2 : Fl K) {bs b e : Nat} (hbs : 0 < bs) (hbe : b ≤ e) (he : e < s.n) (hr : ¬ bs ∣ e - b) (offset : Bool) (out : List (Res K)) :
    (s.gpu Dv Q mv G e2).rocmAccPot s.n bs b e offset out = none := by
  have hok := gpu_ok hs h hz Dv Q mv G e2
  have D := reach_dfs (rakauEnv_ok A simd mac hs) h hz
  set c := s.gpu Dv Q mv G e2 with hc
  -- writes keep the length of a view, and fail beyond its end
  have wr : ∀ (l : List (Nat × Res K)) (v : List (Res K)), (∀ v', l.foldlM (fun view lr => if lr.1 < view.length then some (view.set lr.1 lr.2) else none) v = some v' → v'.length = v.length) ∧
      ((∃ x ∈ l, v.length ≤ x.1) → l.foldlM (fun view lr => if lr.1 < view.length then some (view.set lr.1 lr.2) else none) v = none) := by
    intro l
    induction l with
    | nil => exact fun v => ⟨fun v' e => by cases e; rfl, fun ⟨x, hx, _⟩ => by cases hx⟩
    | cons y l ih =>
      intro v
      simp only [List.foldlM_cons]
      by_cases hy : y.1 < v.length
      · rw [if_pos hy]
        obtain ⟨i1, i2⟩ := ih (v.set y.1 y.2)
        rw [List.length_set] at i1 i2
        refine ⟨i1, fun ⟨x, hx, hle⟩ => i2 ?_⟩
        rcases List.mem_cons.1 hx with rfl | hx
        · omega
        · exact ⟨x, hx, hle⟩
      · rw [if_neg hy]
        exact ⟨fun v' e => (by cases e), fun _ => rfl⟩
  have key : ∀ (l : List Nat) (v : List (Res K)), v.length = e - b → (e - b) / bs ∈ l → l.foldlM (fun view blk => do
      let ls := ((List.range bs).map (fun t => blk * bs + t)).filter (fun l => !decide (s.n ≤ l + b))
      let res ← c.warp (ls.map (· + b))
      (ls.zip res).foldlM (fun view lr => if lr.1 < view.length then some (view.set lr.1 lr.2) else none) view) v = none := by
    intro l
    induction l with
    | nil => intro v _ hm; cases hm
    | cons x l ih =>
      intro v hv hm
      have hw := Gpu.warp_eq hok (lanes := (Gpu.block bs b s.n x).map (· + b)) (fun i hi => by
        obtain ⟨l, hl, rfl⟩ := List.mem_map.1 hi
        exact (Gpu.mem_block.1 hl).2) (Gpu.visits_eq D _)
      rw [List.foldlM_cons]
      show ((c.warp ((Gpu.block bs b s.n x).map (· + b))).bind fun res => ((Gpu.block bs b s.n x).zip res).foldlM _ v).bind _ = none
      rw [hw, Option.bind_some, List.map_map, zip_map_self]
      obtain ⟨w1, w2⟩ := wr ((Gpu.block bs b s.n x).map fun l => (l, (c.total (c.visits ((Gpu.block bs b s.n x).map (· + b))) ∘ (· + b)) l)) v
      by_cases hx : x = (e - b) / bs
      · rw [w2 ?_]
        · rfl
        · refine ⟨(e - b, _), List.mem_map.2 ⟨e - b, ?_, rfl⟩, by rw [hv]⟩
          rw [Gpu.mem_block, hx]
          have h1 := Nat.div_add_mod (e - b) bs
          have h2 := Nat.mod_lt (e - b) hbs
          rw [Nat.mul_comm] at h1
          omega
      · cases hf : ((Gpu.block bs b s.n x).map fun l => (l, (c.total (c.visits ((Gpu.block bs b s.n x).map (· + b))) ∘ (· + b)) l)).foldlM
            (fun view lr => if lr.1 < view.length then some (view.set lr.1 lr.2) else none) v with
        | none => rfl
        | some v' =>
          rw [Option.bind_some]
          exact ih v' ((w1 v' hf).trans hv) ((List.mem_cons.1 hm).resolve_left (fun e => hx e.symm))
  unfold Gpu.rocmAccPot
  simp only
  generalize (if offset then b else 0) = o
  by_cases hout : out.length < o + (e - b)
  · rw [if_pos hout]
  · rw [if_neg hout]
    unfold Gpu.launchRocm
    rw [key _ _ (by rw [List.length_take, List.length_drop]; omega) ?_]
    · rfl
    · rw [List.mem_range, Nat.div_lt_iff_lt_mul hbs]
      have h1 := Nat.div_add_mod (e - b + (bs - 1)) bs
      have h2 := Nat.mod_lt (e - b + (bs - 1)) hbs
      have h3 : e - b ≠ bs * ((e - b + (bs - 1)) / bs) := fun h => hr ⟨_, h⟩
      rw [Nat.mul_comm] at h1 h3
      omega

end Ranges

/-- The call of the tree (tree.hpp:3074-3106) goes up to the last particle. -/
example (offset : Bool) (out : List (Res ℚ)) (ho : (if offset then 1 else 0) + (5 - 1) ≤ out.length) :=
  C87_partial g_supp (g_reach .bh) (g_size .bh) sqQ .pot (.fin (16 / 9)) (.fin 2) (.fin 0) (bs := 2) (b := 1) (e := 5) (by decide) (by decide) (by rw [g_n]) (.inl (by rw [g_n])) offset ho

example (out : List (Res ℚ)) : ((gS .bh).gpu sqQ .pot (.fin (16 / 9)) (.fin 2) (.fin 0)).rocmAccPot (gS .bh).n 64 0 3 true out = none :=
  C87_fails g_supp (g_reach .bh) (g_size .bh) sqQ .pot (.fin (16 / 9)) (.fin 2) (.fin 0) (by decide) (by decide) (by rw [g_n]; decide) (by decide) true out

end Rakau
