import Verif.Model.AccPot
import Verif.Proof.Loops
import Verif.Props.Trav

/-! The force computation at each target particle, in any arithmetic. -/
set_option linter.unusedSectionVars false

namespace Rakau

variable {K : Type} [Field K] [LinearOrder K]

/-- Batches have at least one element. -/
def Hw.Ok (hw : Hw K) : Prop := ∀ S, hw.simd = some S → 0 < S.batch

theorem Hw.Ok.batch_pos {hw : Hw K} (h : hw.Ok) (d : Nat) : 0 < hw.batch d := by
  unfold Hw.batch Hw.vec
  cases hs : hw.simd with
  | none => simp
  | some S =>
    simp only
    by_cases hd : d = 3
    · rw [if_pos hd]; exact h S hs
    · rw [if_neg hd]; simp

theorem Hw.batch_pad (hw : Hw K) (d : Nat) : hw.batch d - 1 ≤ hw.pad := by
  unfold Hw.batch Hw.pad Hw.vec
  cases hs : hw.simd with
  | none => simp
  | some S =>
    simp only
    by_cases hd : d = 3
    · rw [if_pos hd]; simp
    · rw [if_neg hd]; simp

theorem Hw.Ok.scale_pos {hw : Hw K} (h : hw.Ok) : 0 < hw.scaleBatch := by
  unfold Hw.scaleBatch
  cases hs : hw.simd with
  | none => simp
  | some S => exact h S hs

theorem Hw.scale_pad (hw : Hw K) : hw.scaleBatch - 1 = hw.pad := by
  unfold Hw.scaleBatch Hw.pad
  cases hs : hw.simd <;> simp

namespace Force

/-- Particle `k` of the tree. -/
def pt (c : Force K) (k : Nat) : Pt K := (ptAt c.d c.parts k).getD ⟨[], .nan⟩

/-- The floating-point data of node `i`. -/
def pr (c : Force K) (i : Nat) : NProps K := c.props.getD i ⟨[], .nan, .nan, .nan⟩

/-- The particles of node `i`. -/
def srcs (c : Force K) (i : Nat) : List Nat :=
  match c.tree[i]? with
  | some nd => List.range' nd.beg (nd.fin - nd.beg)
  | none => []

/-- The acceptance check of node `i` fails for target `p`. -/
def failsAt (c : Force K) (i : Nat) (p : Pt K) : Bool := macFails c.M (macLh c.hw.A c.mac c.macVal (c.pr i)) (c.pr i).com p

/-- The outcome of the acceptance check of node `i` for the target buffer `p`: all the lanes of all the batches, which includes padding. -/
def accepts (c : Force K) (size : Nat) (p : Nat → Pt K) (i : Nat) : Bool :=
  decide (∀ l < steps size (c.hw.batch c.d) * c.hw.batch c.d, c.failsAt i (p l) = false)

/-- The effect of a visit on the result of target `p`. -/
def visUpd (c : Force K) (p : Pt K) (r : Res K) (v : Visit) : Res K :=
  match v.ev with
  | none => r
  | some (.com i) => comUpd c.M (c.pr i).mass (macTmp c.M c.eps2 (c.pr i).com p) p r
  | some (.leaf i) => (c.srcs i).foldl (fun r k => leafUpd c.M c.Q c.eps2 p (c.pt k) r) r

/-- The tree is complete: data for every node, and for the particles of every node. -/
structure Ok (c : Force K) (n : Nat) : Prop where
  hw : c.hw.Ok
  props : c.props.length = c.tree.length
  range : ∀ nd ∈ c.tree, nd.beg < nd.fin ∧ nd.fin ≤ n
  pts : ∀ k < n, ∃ p, ptAt c.d c.parts k = some p

theorem pt_eq {c : Force K} {n : Nat} (h : c.Ok n) {k : Nat} (hk : k < n) : ptAt c.d c.parts k = some (c.pt k) := by
  obtain ⟨p, hp⟩ := h.pts k hk
  unfold pt; rw [hp]; rfl

theorem ptsAt_eq {c : Force K} {n : Nat} (h : c.Ok n) {b e : Nat} (he : e ≤ n) :
    ptsAt c.d c.parts b e = some ((List.range' b (e - b)).map c.pt) := by
  unfold ptsAt
  rw [mapM_some_iff]
  apply forall₂_of_getElem (by simp)
  intro i h1 h2
  rw [List.getElem_range', List.getElem_map, List.getElem_range']
  simp only [List.length_range'] at h1
  exact pt_eq h (by omega)

theorem macCheck_eq {c : Force K} {n : Nat} (h : c.Ok n) {size N : Nat} (hN : size + (c.hw.batch c.d - 1) ≤ N) (p : Nat → Pt K) (g : Nat → Res K)
    {i : Nat} (hi : i < c.tree.length) :
    c.macCheck size (Arr N p) (Arr N g) i c.tree[i] = some ((macStep (c.accepts size p) i c.tree[i]).1,
      Arr N (fun a => if a / c.hw.batch c.d < steps size (c.hw.batch c.d)
        then c.visUpd (p a) (g a) ⟨i, (macStep (c.accepts size p) i c.tree[i]).2⟩ else g a)) := by
  have hb := h.hw.batch_pos c.d
  have hpr : c.props[i]? = some (c.pr i) := by
    unfold pr; rw [List.getD_eq_getElem?_getD, List.getElem?_eq_getElem (by rw [h.props]; exact hi), Option.getD_some]
  unfold macCheck
  rw [hpr]
  simp only [Option.bind_eq_bind, Option.bind_some]
  rw [macLoop_arr hb hN, Option.bind_some]
  unfold macStep
  by_cases ha : c.accepts size p i = true
  · have ha' : ∀ l < steps size (c.hw.batch c.d) * c.hw.batch c.d,
        macFails c.M (macLh c.hw.A c.mac c.macVal (c.pr i)) (c.pr i).com (p l) = false := of_decide_eq_true ha
    rw [if_pos ha', if_pos ha]
    simp only
    rw [comLoop_arr hb hN, Option.bind_some]
    rfl
  · have ha' : ¬ ∀ l < steps size (c.hw.batch c.d) * c.hw.batch c.d,
        macFails c.M (macLh c.hw.A c.mac c.macVal (c.pr i)) (c.pr i).com (p l) = false := fun h => ha (decide_eq_true h)
    rw [if_neg ha', if_neg ha]
    simp only
    by_cases hc : c.tree[i].nChildren = 0
    · rw [if_pos hc, if_pos hc, ptsAt_eq h (h.range _ (List.getElem_mem hi)).2, Option.bind_some, leafLoop_arr hb hN, Option.bind_some]
      congr 2
      apply arr_ext
      intro a _
      split
      · have e : c.srcs i = List.range' c.tree[i].beg (c.tree[i].fin - c.tree[i].beg) := by
          unfold srcs; rw [List.getElem?_eq_getElem hi]
        show _ = (c.srcs i).foldl (fun r k => leafUpd c.M c.Q c.eps2 (p a) (c.pt k) r) (g a)
        rw [e, List.foldl_map]
      · rfl
    · rw [if_neg hc, if_neg hc]
      congr 2
      apply arr_ext
      intro a _
      split <;> rfl

/-- The loop over the source nodes performs the visits of the traversal, with the outcome of the acceptance checks of the code. -/
theorem loop_eq {c : Force K} {n : Nat} (h : c.Ok n) {size N code : Nat} (hN : size + (c.hw.batch c.d - 1) ≤ N) (p : Nat → Pt K) :
    ∀ (fuel i : Nat) (vs : List Visit) (g : Nat → Res K),
      travGo c.over c.w c.d c.tree code (c.accepts size p) fuel i = some (.ok vs) →
      c.loop size code (Arr N p) fuel i (Arr N g) = some (some (Arr N (fun a =>
        if a / c.hw.batch c.d < steps size (c.hw.batch c.d) then vs.foldl (c.visUpd (p a)) (g a) else g a))) := by
  intro fuel
  induction fuel with
  | zero =>
    intro i vs g ht
    unfold travGo at ht
    unfold loop
    cases he : c.tree[i]? with
    | none =>
      rw [he] at ht
      simp only [Option.some.injEq, Except.ok.injEq] at ht
      subst ht
      simp
    | some nd => rw [he] at ht; simp at ht
  | succ fuel ih =>
    intro i vs g ht
    unfold travGo at ht
    unfold loop
    cases he : c.tree[i]? with
    | none =>
      rw [he] at ht
      simp only [Option.some.injEq, Except.ok.injEq] at ht
      subst ht
      simp
    | some nd =>
      rw [he] at ht
      simp only at ht ⊢
      obtain ⟨hi, hnd⟩ := List.getElem?_eq_some_iff.1 he
      cases hs : travStep c.over c.w c.d code (c.accepts size p) i nd with
      | error e => rw [hs] at ht; simp at ht
      | ok je =>
        obtain ⟨j, ev⟩ := je
        rw [hs] at ht
        simp only [Option.map_eq_some_iff] at ht
        obtain ⟨r, h1, h2⟩ := ht
        cases r with
        | error e => simp [Except.map] at h2
        | ok us =>
          simp only [Except.map, Except.ok.injEq] at h2
          subst h2
          have hst : c.step size code (Arr N p) (Arr N g) i nd = some (j, Arr N (fun a =>
              if a / c.hw.batch c.d < steps size (c.hw.batch c.d) then c.visUpd (p a) (g a) ⟨i, ev⟩ else g a)) := by
            unfold travStep at hs
            unfold step
            cases hsh : shrO c.over c.w code (mulSz (subW c.w (treeLevel c.w c.d code) nd.level) c.d) with
            | none => rw [hsh] at hs; simp [ofUB, bind, Except.bind] at hs
            | some y =>
              rw [hsh] at hs
              simp only [ofUB, bind, Except.bind, Option.bind] at hs ⊢
              by_cases hy : y = nd.code
              · rw [if_pos hy] at hs ⊢
                simp only [Except.ok.injEq, Prod.mk.injEq] at hs
                rw [← hs.1, ← hs.2]
                congr 2
                apply arr_ext
                intro a _
                split <;> rfl
              · rw [if_neg hy] at hs ⊢
                simp only [Except.ok.injEq] at hs
                subst hnd
                rw [macCheck_eq h hN p g hi, hs]
          rw [hst]
          simp only
          rw [ih j us _ h1]
          congr 2
          apply arr_ext
          intro a _
          by_cases hl : a / c.hw.batch c.d < steps size (c.hw.batch c.d)
          · rw [if_pos hl, if_pos hl, if_pos hl]; rfl
          · rw [if_neg hl, if_neg hl, if_neg hl]

/-- The particle in slot `l` of the target buffer of `cn`: particles of the node, then padding. -/
def slot (c : Force K) (cn : CNode) (l : Nat) : Pt K :=
  if l < cn.fin - cn.beg then c.pt (cn.beg + l) else ⟨List.replicate c.d c.padCoord, .fin 0⟩

theorem tgtBuf_eq {c : Force K} {n : Nat} (h : c.Ok n) {cn : CNode} (he : cn.fin ≤ n) :
    c.tgtBuf cn = some (Arr (cn.fin - cn.beg + c.hw.pad) (c.slot cn)) := by
  unfold tgtBuf
  rw [ptsAt_eq h he]
  simp only [Option.bind_eq_bind, Option.bind_some, Option.some.injEq]
  apply eq_arr (by simp)
  intro k hk
  unfold slot
  by_cases hl : k < cn.fin - cn.beg
  · rw [if_pos hl, List.getElem?_append_left (by simpa using hl), List.getElem?_map, List.getElem?_range' hl]
    simp
  · rw [if_neg hl, List.getElem?_append_right (by simpa using hl), List.getElem?_replicate]
    simp only [List.length_map, List.length_range']
    rw [if_pos (by omega)]

/-- What the traversal and the self-interactions compute for the particle in slot `a`, given the visits. -/
def total (c : Force K) (cn : CNode) (vs : List Visit) (a : Nat) : Res K :=
  resAdd c.M.A
    ((before' (c.hw.batch c.d) a).foldl (fun r l => selfUpd2 c.M c.eps2 (c.slot cn l) (c.slot cn a) r)
      (vs.foldl (c.visUpd (c.slot cn a)) (resZero c.Q c.d)))
    ((List.range' (a + 1) (cn.fin - cn.beg - (a + 1) + a % c.hw.batch c.d)).foldl
      (fun r l => selfUpd1 c.M c.eps2 (c.slot cn a) (c.slot cn l) r) (resZero c.Q c.d))

/-- The multiplication by `G` of one result. -/
def scaled (c : Force K) (r : Res K) : Res K := if c.G.eq (.fin 1) then r else resScale c.hw.A c.G r

/-- The results of a critical node, in any arithmetic. -/
theorem node_eq {c : Force K} {n : Nat} (h : c.Ok n) {cn : CNode} (hc : cn.beg ≤ cn.fin) (he : cn.fin ≤ n) (hn : n + c.hw.pad < 2 ^ 64)
    {vs : List Visit}
    (hv : travGo c.over c.w c.d c.tree cn.code (c.accepts (cn.fin - cn.beg) (c.slot cn)) c.tree.length 0 = some (.ok vs)) :
    c.node cn = .ok (Arr (cn.fin - cn.beg) (fun a => c.scaled (c.total cn vs a))) := by
  have hb := h.hw.batch_pos c.d
  have hN : cn.fin - cn.beg + (c.hw.batch c.d - 1) ≤ cn.fin - cn.beg + c.hw.pad := by have := c.hw.batch_pad c.d; omega
  unfold node
  simp only
  rw [if_neg (by omega), tgtBuf_eq h he]
  simp only [ofUB, bind, Except.bind]
  unfold treeAccPot
  rw [replicate_arr, loop_eq h hN _ _ _ _ _ hv]
  simp only [Option.bind_some, id, Option.bind_eq_bind]
  obtain ⟨f, f1, f2⟩ := selfLoop_arr (selfOps c.M c.Q c.d c.eps2) hb hN (c.slot cn) (fun a =>
    if a / c.hw.batch c.d < steps (cn.fin - cn.beg) (c.hw.batch c.d) then vs.foldl (c.visUpd (c.slot cn a)) (resZero c.Q c.d)
      else resZero c.Q c.d)
  rw [f1]
  simp only
  have hf : ∀ a < cn.fin - cn.beg, f a = c.total cn vs a := by
    intro a ha
    rw [f2 a ha, if_pos (div_steps hb ha)]
    rfl
  have fin_ : ∀ g : Nat → Res K, (Arr (cn.fin - cn.beg + c.hw.pad) g).take (cn.fin - cn.beg) = Arr (cn.fin - cn.beg) g := by
    intro g
    apply eq_arr (by simp)
    intro k hk
    rw [List.getElem?_take_of_lt hk, arr_get (by omega)]
  unfold scale
  by_cases hG : c.G.eq (.fin 1) = true
  · rw [if_pos hG]
    simp only
    rw [fin_]
    congr 1
    apply arr_ext
    intro a ha
    unfold scaled; rw [if_pos hG, hf a ha]
  · rw [if_neg hG, scaleLoop_arr h.hw.scale_pos (by rw [c.hw.scale_pad])]
    simp only
    rw [fin_]
    congr 1
    apply arr_ext
    intro a ha
    unfold scaled; rw [if_neg hG, hf a ha, if_pos (div_steps h.hw.scale_pos ha)]

end Force

end Rakau
