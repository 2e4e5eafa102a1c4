import Verif.Model.Gpu
import Verif.Proof.Gpu

/-!
The computation of accelerations and potentials commutes with forgetting one of the two quantities (see `Props/Quant.lean`).
-/
namespace Rakau

variable {P R R' T : Type}

theorem foldlM_nat {m : Type → Type} [Monad m] [LawfulMonad m] {S S' X : Type} {φ : S → S'} {f : S → X → m S} {g : S' → X → m S'}
    (h : ∀ s x, g (φ s) x = φ <$> f s x) (l : List X) (s : S) : l.foldlM g (φ s) = φ <$> l.foldlM f s := by
  induction l generalizing s with
  | nil => simp
  | cons x l ih =>
    simp only [List.foldlM_cons, h, map_bind, bind_map_left]
    exact bind_congr fun s' => ih s'

theorem loadB_map (φ : R → R') (v : List R) (k b : Nat) : loadB (v.map φ) k b = (loadB v k b).map (List.map φ) := by
  unfold loadB
  simp only [List.length_map]
  split <;> simp [List.map_take, List.map_drop]

theorem storeB_map (φ : R → R') (v : List R) (k : Nat) (l : List R) : storeB (v.map φ) k (l.map φ) = (storeB v k l).map (List.map φ) := by
  unfold storeB
  simp only [List.length_map]
  split <;> simp [List.map_take, List.map_drop]

theorem zipWith_map_out {α : Type} {f : α → R → R} {g : α → R' → R'} {φ : R → R'} (h : ∀ a r, g a (φ r) = φ (f a r)) (l : List α) (r : List R) :
    List.zipWith g l (r.map φ) = (List.zipWith f l r).map φ := by
  rw [List.zipWith_map_right, List.map_zipWith]
  simp only [h]

theorem scaleLoop_map {φ : R → R'} {f : R → R} {g : R' → R'} (h : ∀ r, g (φ r) = φ (f r)) (b size : Nat) (res : List R) :
    scaleLoop g b size (res.map φ) = (scaleLoop f b size res).map (List.map φ) := by
  refine foldlM_nat (m := Option) (fun v t => ?_) _ res
  simp only [loadB_map]
  cases loadB v (t * b) b with
  | none => rfl
  | some r =>
    have : (r.map φ).map g = (r.map f).map φ := by simp [h]
    show storeB _ _ ((r.map φ).map g) = _
    rw [this, storeB_map]; rfl

theorem comLoop_map {φ : R → R'} {f : T → P → R → R} {g : T → P → R' → R'} (h : ∀ u p r, g u p (φ r) = φ (f u p r)) (b size : Nat) (tgt : List P) (tmp : List T)
    (res : List R) : comLoop g b size tgt tmp (res.map φ) = (comLoop f b size tgt tmp res).map (List.map φ) := by
  refine foldlM_nat (m := Option) (fun v t => ?_) _ res
  simp only [loadB_map]
  cases loadB tgt (t * b) b with
  | none => rfl
  | some p =>
  cases loadB tmp (t * b) b with
  | none => rfl
  | some u =>
  cases loadB v (t * b) b with
  | none => rfl
  | some r =>
    show storeB _ _ (List.zipWith _ _ (r.map φ)) = _
    rw [zipWith_map_out (f := fun x r => f x.1 x.2 r) (fun a r => h a.1 a.2 r), storeB_map]; rfl

theorem leafFold_map {φ : R → R'} {f : P → P → R → R} {g : P → P → R' → R'} (h : ∀ p q r, g p q (φ r) = φ (f p q r)) (src p1 : List P) (r : List R) :
    src.foldl (fun r q => List.zipWith (fun p r => g p q r) p1 r) (r.map φ) = (src.foldl (fun r q => List.zipWith (fun p r => f p q r) p1 r) r).map φ := by
  induction src generalizing r with
  | nil => rfl
  | cons q src ih => simp only [List.foldl_cons, zipWith_map_out (f := fun p r => f p q r) (fun a r => h a q r), ih]

theorem leafLoop_map {φ : R → R'} {f : P → P → R → R} {g : P → P → R' → R'} (h : ∀ p q r, g p q (φ r) = φ (f p q r)) (b size : Nat) (tgt src : List P)
    (res : List R) : leafLoop g b size tgt src (res.map φ) = (leafLoop f b size tgt src res).map (List.map φ) := by
  refine foldlM_nat (m := Option) (fun v t => ?_) _ res
  simp only [loadB_map]
  cases loadB tgt (t * b) b with
  | none => rfl
  | some p =>
  cases loadB v (t * b) b with
  | none => rfl
  | some r =>
    show storeB _ _ (src.foldl _ (r.map φ)) = _
    rw [leafFold_map h, storeB_map]; rfl

/-- `φ` respects the lane operations of the self-interactions. -/
structure PairOps.Nat (φ : R → R') (O : PairOps P R) (O' : PairOps P R') : Prop where
  upd1 : ∀ p q r, O'.upd1 p q (φ r) = φ (O.upd1 p q r)
  upd2 : ∀ p q r, O'.upd2 p q (φ r) = φ (O.upd2 p q r)
  add : ∀ r a, O'.add (φ r) (φ a) = φ (O.add r a)
  zero : O'.zero = φ O.zero

theorem selfLoop_map {φ : R → R'} {O : PairOps P R} {O' : PairOps P R'} (h : O.Nat φ O') (b size : Nat) (tgt : List P) (res : List R) :
    selfLoop O' b size tgt (res.map φ) = (selfLoop O b size tgt res).map (List.map φ) := by
  refine foldlM_nat (m := Option) (fun v t => ?_) _ res
  unfold selfOuter
  cases loadB tgt (t * b) b with
  | none => rfl
  | some p1 =>
    have hi : ∀ (l : List Nat) (st : List R × List R),
        l.foldlM (selfInner O' b tgt p1) (st.1.map φ, st.2.map φ) = (l.foldlM (selfInner O b tgt p1) st).map (Prod.map (List.map φ) (List.map φ)) := by
      refine foldlM_nat (m := Option) (φ := Prod.map (List.map φ) (List.map φ)) (fun st i2 => ?_)
      obtain ⟨a, v⟩ := st
      simp only [selfInner, Prod.map, loadB_map]
      cases loadB tgt i2 b with
      | none => rfl
      | some p2 =>
      cases loadB v i2 b with
      | none => rfl
      | some r2 =>
        show (do let res ← storeB _ _ (List.zipWith _ _ (r2.map φ)); some (List.zipWith _ _ (a.map φ), res)) = _
        rw [zipWith_map_out (f := fun p r => O.upd2 p.1 p.2 r) (fun a r => h.upd2 a.1 a.2 r), storeB_map,
          zipWith_map_out (f := fun p r => O.upd1 p.1 p.2 r) (fun a r => h.upd1 a.1 a.2 r)]
        cases hst : storeB v i2 (List.zipWith (fun p r => O.upd2 p.1 p.2 r) (p1.zip p2) r2) with
        | none => simp [hst]
        | some x => simp [hst]
    have e : (List.replicate b O'.zero, List.map φ v) = ((List.replicate b O.zero).map φ, v.map φ) := by simp [h.zero]
    simp only [Option.bind_eq_bind, Option.bind_some]
    rw [e, hi _ (List.replicate b O.zero, v)]
    cases List.foldlM (selfInner O b tgt p1) (List.replicate b O.zero, v) (List.range' (t * b + 1) (size - (t * b + 1))) with
    | none => rfl
    | some st =>
      obtain ⟨a, v'⟩ := st
      simp only [Option.map_some, Prod.map, Option.bind_some, loadB_map]
      cases loadB v' (t * b) b with
      | none => rfl
      | some r1 =>
        simp only [Option.map_some, Option.bind_some]
        rw [show List.zipWith O'.add (r1.map φ) (a.map φ) = (List.zipWith O.add r1 a).map φ by
          rw [List.zipWith_map, List.map_zipWith]; simp only [h.add], storeB_map]; rfl

variable {K : Type}

/-- The part of a result that is present if the quantities `Q` are requested. -/
def Res.keep (Q : Quant) (r : Res K) : Res K := ⟨if Q = .pot then [] else r.acc, if Q = .acc then [] else r.pot⟩

variable [Field K] [LinearOrder K]

omit [LinearOrder K] in
theorem keep_zero (Q : Quant) (d : Nat) : resZero (K := K) Q d = (resZero (K := K) .both d).keep Q := by cases Q <;> simp [resZero, Res.keep]

theorem keep_upd1 (Q : Quant) (M : Mode K) (e : Fl K) (p q : Pt K) (r : Res K) : selfUpd1 M e p q (r.keep Q) = (selfUpd1 M e p q r).keep Q := by
  cases Q <;> simp [selfUpd1, Res.keep]

theorem keep_upd2 (Q : Quant) (M : Mode K) (e : Fl K) (p q : Pt K) (r : Res K) : selfUpd2 M e p q (r.keep Q) = (selfUpd2 M e p q r).keep Q := by
  cases Q <;> simp [selfUpd2, Res.keep]

omit [LinearOrder K] in
theorem keep_add (Q : Quant) (A : Arith K) (r a : Res K) : resAdd A (r.keep Q) (a.keep Q) = (resAdd A r a).keep Q := by cases Q <;> simp [resAdd, Res.keep]

theorem keep_com (Q : Quant) (M : Mode K) (m : Fl K) (u : List (Fl K) × Dist K) (p : Pt K) (r : Res K) : comUpd M m u p (r.keep Q) = (comUpd M m u p r).keep Q := by
  cases Q <;> simp [comUpd, Res.keep]

theorem keep_scale (Q : Quant) (A : Arith K) (G : Fl K) (r : Res K) : resScale A G (r.keep Q) = (resScale A G r).keep Q := by
  cases Q <;> simp [resScale, Res.keep]

theorem keep_exact (Q : Quant) (A : Arith K) (G e : Fl K) (p q : Pt K) (r : Res K) : exactUpd A G e p q (r.keep Q) = (exactUpd A G e p q r).keep Q := by
  cases Q <;> simp [exactUpd, Res.keep]

theorem keep_devCom (Q : Quant) (A : Arith K) (e : Fl K) (df : List (Fl K)) (d2 m : Fl K) (p : Pt K) (r : Res K) :
    devCom A e df d2 m p (r.keep Q) = (devCom A e df d2 m p r).keep Q := by cases Q <;> simp [devCom, Res.keep]

theorem keep_devPair (Q : Quant) (A : Arith K) (e : Fl K) (b : Bool) (p q : Pt K) (r : Res K) :
    devPair A e b p q (r.keep Q) = (devPair A e b p q r).keep Q := by cases Q <;> simp [devPair, Res.keep]

/-- The kernels for a particle of a leaf agree: no vector kernel, no potentials alone, or both forms of the update of the potential give the same value. -/
def LeafSame (M : Mode K) (Q : Quant) : Prop :=
  Q = .pot → M.vec = true → ∀ (D : Dist K) (m1 m2 a : Fl K), M.A.sub a (mutPot M D m1 m2) = M.A.fma m1.neg (D.over M.A m2) a

theorem keep_leaf {Q : Quant} {M : Mode K} (h : LeafSame M Q) (e : Fl K) (p q : Pt K) (r : Res K) :
    leafUpd M Q e p q (r.keep Q) = (leafUpd M .both e p q r).keep Q := by
  cases Q with
  | acc => simp [leafUpd, Res.keep]
  | both => simp [leafUpd, Res.keep]
  | pot =>
    cases hv : M.vec with
    | false => simp [leafUpd, Res.keep, hv]
    | true => simp [leafUpd, Res.keep, hv, h rfl hv]

namespace Force

/-- The same computation for other quantities. -/
def setQ (c : Force K) (Q : Quant) : Force K := { c with Q := Q }

theorem macCheck_keep {c : Force K} (hQ : c.Q = .both) {Q : Quant} (h : LeafSame c.M Q) (size : Nat) (tgt : List (Pt K)) (res : List (Res K)) (i : Nat) (nd : Node) :
    (c.setQ Q).macCheck size tgt (res.map (Res.keep Q)) i nd = (c.macCheck size tgt res i nd).map (Prod.map id (List.map (Res.keep Q))) := by
  unfold macCheck
  simp only [setQ]
  cases c.props[i]? with
  | none => rfl
  | some pr =>
  simp only [Option.bind_eq_bind, Option.bind_some]
  cases macLoop (macFails c.M (macLh c.hw.A c.mac c.macVal pr) pr.com) (macTmp c.M c.eps2 pr.com) (c.hw.batch c.d) size tgt with
  | none => rfl
  | some o =>
  cases o with
  | some tmp =>
    simp only [Option.bind_some, comLoop_map (φ := Res.keep Q) (fun u p r => keep_com Q c.M pr.mass u p r)]
    cases comLoop (comUpd c.M pr.mass) (c.hw.batch c.d) size tgt tmp res <;> rfl
  | none =>
    simp only [Option.bind_some]
    split
    · cases ptsAt c.d c.parts nd.beg nd.fin with
      | none => rfl
      | some src =>
        simp only [Option.bind_some, hQ, leafLoop_map (φ := Res.keep Q) (fun p q r => keep_leaf h c.eps2 p q r)]
        cases leafLoop (leafUpd c.M .both c.eps2) (c.hw.batch c.d) size tgt src res <;> rfl
    · rfl

theorem step_keep {c : Force K} (hQ : c.Q = .both) {Q : Quant} (h : LeafSame c.M Q) (size code : Nat) (tgt : List (Pt K)) (res : List (Res K)) (i : Nat) (nd : Node) :
    (c.setQ Q).step size code tgt (res.map (Res.keep Q)) i nd = (c.step size code tgt res i nd).map (Prod.map id (List.map (Res.keep Q))) := by
  unfold step
  rw [macCheck_keep hQ h]
  simp only [setQ]
  cases shrO c.over c.w code (mulSz (subW c.w (treeLevel c.w c.d code) nd.level) c.d) with
  | none => rfl
  | some s =>
    simp only [Option.bind_eq_bind, Option.bind_some]
    split <;> rfl

theorem loop_keep {c : Force K} (hQ : c.Q = .both) {Q : Quant} (h : LeafSame c.M Q) (size code : Nat) (tgt : List (Pt K)) (fuel i : Nat) (res : List (Res K)) :
    (c.setQ Q).loop size code tgt fuel i (res.map (Res.keep Q)) = (c.loop size code tgt fuel i res).map (Option.map (List.map (Res.keep Q))) := by
  induction fuel generalizing i res with
  | zero =>
    unfold loop
    simp only [setQ]
    cases c.tree[i]? <;> rfl
  | succ fuel ih =>
    unfold loop
    rw [show (c.setQ Q).tree = c.tree from rfl]
    cases c.tree[i]? with
    | none => rfl
    | some nd =>
      simp only [step_keep hQ h]
      cases c.step size code tgt res i nd with
      | none => rfl
      | some jr => exact ih jr.1 jr.2

theorem treeAccPot_keep {c : Force K} (hQ : c.Q = .both) {Q : Quant} (h : LeafSame c.M Q) (size code : Nat) (tgt : List (Pt K)) (res : List (Res K)) :
    (c.setQ Q).treeAccPot size code tgt (res.map (Res.keep Q)) = (c.treeAccPot size code tgt res).map (List.map (Res.keep Q)) := by
  unfold treeAccPot
  rw [show (c.setQ Q).tree = c.tree from rfl, loop_keep hQ h]
  rcases c.loop size code tgt c.tree.length 0 res with _ | _ | r
  · rfl
  · rfl
  · have ho : (selfOps c.M c.Q c.d c.eps2).Nat (Res.keep Q) (selfOps c.M Q c.d c.eps2) :=
      ⟨fun p q r => keep_upd1 Q c.M c.eps2 p q r, fun p q r => keep_upd2 Q c.M c.eps2 p q r, fun r a => keep_add Q c.M.A r a, by
        show resZero Q c.d = (resZero c.Q c.d).keep Q
        rw [hQ]; exact keep_zero Q c.d⟩
    exact selfLoop_map ho _ _ _ _

theorem scale_keep (c : Force K) (Q : Quant) (size : Nat) (res : List (Res K)) :
    (c.setQ Q).scale size (res.map (Res.keep Q)) = (c.scale size res).map (List.map (Res.keep Q)) := by
  unfold scale
  rw [show (c.setQ Q).G = c.G from rfl, show (c.setQ Q).hw = c.hw from rfl]
  by_cases hg : c.G.eq (.fin 1) = true
  · rw [if_pos hg, if_pos hg]; rfl
  · rw [if_neg hg, if_neg hg]; exact scaleLoop_map (fun r => keep_scale Q c.hw.A c.G r) _ _ _

theorem node_keep {c : Force K} (hQ : c.Q = .both) {Q : Quant} (h : LeafSame c.M Q) (cn : CNode) :
    (c.setQ Q).node cn = (c.node cn).map (List.map (Res.keep Q)) := by
  unfold node
  rw [show (c.setQ Q).hw = c.hw from rfl]
  simp only []
  by_cases ho : 2 ^ 64 - 1 - (cn.fin - cn.beg) < c.hw.pad
  · rw [if_pos ho, if_pos ho]; rfl
  rw [if_neg ho, if_neg ho]
  rw [show (c.setQ Q).tgtBuf cn = c.tgtBuf cn from rfl, show (c.setQ Q).d = c.d from rfl, show (c.setQ Q).Q = Q from rfl, keep_zero Q, hQ, ← List.map_replicate]
  cases c.tgtBuf cn with
  | none => rfl
  | some tgt =>
    simp only [ofUB, bind, Except.bind]
    rw [treeAccPot_keep hQ h]
    cases c.treeAccPot (cn.fin - cn.beg) cn.code tgt (List.replicate (cn.fin - cn.beg + c.hw.pad) (resZero .both c.d)) with
    | none => rfl
    | some r =>
      simp only [Option.map_some]
      rw [scale_keep]
      cases c.scale (cn.fin - cn.beg) r with
      | none => rfl
      | some r => simp [Except.map, List.map_take]

omit [Field K] [LinearOrder K] in
theorem write_keep (Q : Quant) (ix : Nat → Option Nat) (out : List (Res K)) (beg : Nat) (res : List (Res K)) :
    write ix (out.map (Res.keep Q)) beg (res.map (Res.keep Q)) = (write ix out beg res).map (List.map (Res.keep Q)) := by
  unfold write
  rw [List.length_map]
  refine foldlM_nat (m := Option) (fun v k => ?_) _ out
  simp only [List.getElem?_map, List.length_map]
  cases res[k]? with
  | none => rfl
  | some r =>
    simp only [Option.map_some, Option.bind_eq_bind, Option.bind_some]
    cases ix (beg + k) with
    | none => rfl
    | some i =>
      simp only [Option.bind_some]
      split
      · simp
      · rfl

theorem cpuRun_keep {c : Force K} (hQ : c.Q = .both) {Q : Quant} (h : LeafSame c.M Q) (ix : Nat → Option Nat) (order : List Nat) (out : List (Res K)) :
    (c.setQ Q).cpuRun ix order (out.map (Res.keep Q)) = (c.cpuRun ix order out).map (List.map (Res.keep Q)) := by
  unfold cpuRun
  rw [show (c.setQ Q).padCoord = c.padCoord from rfl, show (c.setQ Q).crit = c.crit from rfl]
  split
  · rfl
  refine foldlM_nat (m := Except Err) (fun v k => ?_) _ out
  cases c.crit[k]? with
  | none => rfl
  | some cn =>
    simp only [ofUB, bind, Except.bind]
    rw [node_keep hQ h]
    cases c.node cn with
    | error e => rfl
    | ok r =>
      simp only [Except.map]
      rw [write_keep]
      cases write ix v cn.beg r <;> rfl

end Force

namespace Gpu

/-- The same computation for other quantities. -/
def setQ (c : Gpu K) (Q : Quant) : Gpu K := { c with Q := Q }

omit [Field K] [LinearOrder K] in
theorem mapM_keep {Q : Quant} {f g : Nat × Res K → Option (Res K)} (h : ∀ k r, g (k, r.keep Q) = (f (k, r)).map (Res.keep Q)) (l : List (Nat × Res K)) :
    (l.map (fun x => (x.1, x.2.keep Q))).mapM g = (l.mapM f).map (List.map (Res.keep Q)) := by
  induction l with
  | nil => rfl
  | cons x l ih =>
    rw [List.map_cons, List.mapM_cons, List.mapM_cons, h, ih]
    cases f (x.1, x.2) with
    | none => rfl
    | some r => cases l.mapM f <;> rfl

omit [Field K] [LinearOrder K] in
theorem zip_keep (Q : Quant) (lanes : List Nat) (res : List (Res K)) :
    lanes.zip (res.map (Res.keep Q)) = (lanes.zip res).map (fun x => (x.1, x.2.keep Q)) := by
  rw [List.zip_map_right]; rfl

theorem pairFold_keep (Q : Quant) (A : Arith K) (e : Fl K) (k : Nat) (p : Pt K) (l : List (Nat × Pt K)) (r : Res K) :
    l.foldl (fun r lq => devPair A e (decide (k = lq.1)) p lq.2 r) (r.keep Q) = (l.foldl (fun r lq => devPair A e (decide (k = lq.1)) p lq.2 r) r).keep Q := by
  induction l generalizing r with
  | nil => rfl
  | cons a l ih => rw [List.foldl_cons, List.foldl_cons, keep_devPair, ih]

theorem step_keep (c : Gpu K) (Q : Quant) (lanes : List Nat) (res : List (Res K)) (i : Nat) (nd : Node) :
    (c.setQ Q).step lanes (res.map (Res.keep Q)) i nd = (c.step lanes res i nd).map (Prod.map id (List.map (Res.keep Q))) := by
  unfold step
  rw [show (c.setQ Q).props = c.props from rfl]
  cases c.props[i]? with
  | none => rfl
  | some pr =>
  simp only [Option.bind_eq_bind, Option.bind_some]
  rw [show (c.setQ Q).vote pr nd = c.vote pr nd from rfl]
  cases lanes.mapM (c.vote pr nd) with
  | none => rfl
  | some votes =>
  simp only [Option.bind_some]
  rw [zip_keep]
  by_cases hv : votes.all id = true
  · rw [if_pos hv, if_pos hv]
    rw [mapM_keep (f := fun kr => (ptAt c.d c.parts kr.1).bind fun p =>
      some (devCom c.A c.eps2 (diffs c.A p.pos pr.com) (devD2 c.A (.fin 0) (diffs c.A p.pos pr.com)) pr.mass p kr.2)) (fun k r => by
        simp only [setQ, keep_devCom]
        cases ptAt c.d c.parts k <;> rfl)]
    cases List.mapM (m := Option) _ (lanes.zip res) <;> rfl
  rw [if_neg hv, if_neg hv]
  by_cases hc : nd.nChildren = 0
  · rw [if_pos hc, if_pos hc]
    rw [show (c.setQ Q).d = c.d from rfl, show (c.setQ Q).parts = c.parts from rfl]
    cases ptsAt c.d c.parts nd.beg nd.fin with
    | none => rfl
    | some src =>
      simp only [Option.bind_some]
      rw [mapM_keep (f := fun kr => (ptAt c.d c.parts kr.1).bind fun p =>
        some (((List.range' nd.beg (nd.fin - nd.beg)).zip src).foldl (fun r lq => devPair c.A c.eps2 (decide (kr.1 = lq.1)) p lq.2 r) kr.2)) (fun k r => by
          simp only [setQ]
          cases ptAt c.d c.parts k with
          | none => rfl
          | some p =>
            simp only [Option.bind_some, Option.map_some]
            rw [pairFold_keep])]
      cases List.mapM (m := Option) _ (lanes.zip res) <;> rfl
  · rw [if_neg hc, if_neg hc]; rfl

theorem loop_keep (c : Gpu K) (Q : Quant) (lanes : List Nat) (fuel i : Nat) (res : List (Res K)) :
    (c.setQ Q).loop lanes fuel i (res.map (Res.keep Q)) = (c.loop lanes fuel i res).map (Option.map (List.map (Res.keep Q))) := by
  induction fuel generalizing i res with
  | zero =>
    unfold loop
    simp only [setQ]
    cases c.tree[i]? <;> rfl
  | succ fuel ih =>
    unfold loop
    rw [show (c.setQ Q).tree = c.tree from rfl]
    cases c.tree[i]? with
    | none => rfl
    | some nd =>
      simp only [step_keep]
      cases c.step lanes res i nd with
      | none => rfl
      | some jr => exact ih jr.1 jr.2

theorem warp_keep {c : Gpu K} (hQ : c.Q = .both) (Q : Quant) (lanes : List Nat) : (c.setQ Q).warp lanes = (c.warp lanes).map (List.map (Res.keep Q)) := by
  unfold warp
  rw [show (c.setQ Q).tree = c.tree from rfl, show (c.setQ Q).Q = Q from rfl, show (c.setQ Q).d = c.d from rfl, hQ,
    show lanes.map (fun _ => resZero (K := K) Q c.d) = (lanes.map (fun _ => resZero (K := K) .both c.d)).map (Res.keep Q) by
      simp [keep_zero Q], loop_keep]
  rcases c.loop lanes c.tree.length 0 (lanes.map (fun _ => resZero .both c.d)) with _ | _ | r
  · rfl
  · rfl
  · simp [setQ, keep_scale]

theorem launch_keep {c : Gpu K} (hQ : c.Q = .both) (Q : Quant) (bs b e : Nat) (buf : List (Res K)) :
    (c.setQ Q).launch bs b e (buf.map (Res.keep Q)) = (c.launch bs b e buf).map (List.map (Res.keep Q)) := by
  unfold launch
  refine foldlM_nat (m := Option) (fun v blk => ?_) _ buf
  simp only [warp_keep hQ]
  cases c.warp ((block bs b e blk).map (· + b)) with
  | none => rfl
  | some res =>
    simp only [Option.map_some, Option.bind_eq_bind, Option.bind_some]
    rw [zip_keep, List.foldlM_map]
    refine foldlM_nat (m := Option) (fun v lr => ?_) _ v
    simp only [List.length_map]
    split
    · simp
    · rfl

theorem body_keep {c : Gpu K} (hQ : c.Q = .both) (Q : Quant) (bs b e U V loc o : Nat) (junk : Res K) (out : List (Res K)) :
    (if U < loc then .error .overflow else
      if V < b ∨ V < e ∨ V < c.tree.length then .error .overflow else
        ofUB ((c.setQ Q).launch bs b e (List.replicate loc (junk.keep Q))) >>= fun buf => ofUB (Force.write some (out.map (Res.keep Q)) (b - o) buf) :
      Except Err (List (Res K))) =
    (if U < loc then .error .overflow else
      if V < b ∨ V < e ∨ V < c.tree.length then .error .overflow else
        ofUB (c.launch bs b e (List.replicate loc junk)) >>= fun buf => ofUB (Force.write some out (b - o) buf) :
      Except Err (List (Res K))).map (List.map (Res.keep Q)) := by
  by_cases h1 : U < loc
  · rw [if_pos h1, if_pos h1]; rfl
  rw [if_neg h1, if_neg h1]
  by_cases h2 : V < b ∨ V < e ∨ V < c.tree.length
  · rw [if_pos h2, if_pos h2]; rfl
  rw [if_neg h2, if_neg h2]
  rw [← List.map_replicate, launch_keep hQ]
  cases c.launch bs b e (List.replicate loc junk) with
  | none => rfl
  | some buf =>
    simp only [Option.map_some, ofUB, bind, Except.bind]
    rw [Force.write_keep]
    cases Force.write some out (b - o) buf <;> rfl

theorem device_keep {c : Gpu K} (hQ : c.Q = .both) (Q : Quant) (bs : Nat) (idx : List Nat) (offset : Bool) (junk : Res K) (i : Nat) (out : List (Res K)) :
    (c.setQ Q).device bs idx offset (junk.keep Q) i (out.map (Res.keep Q)) = (c.device bs idx offset junk i out).map (List.map (Res.keep Q)) := by
  unfold device
  cases idx[0]? with
  | none => rfl
  | some k0 =>
  cases idx[i]? with
  | none => rfl
  | some b =>
  cases idx[i + 1]? with
  | none => rfl
  | some e =>
    rw [show (c.setQ Q).tree = c.tree from rfl]
    rw [ofUB_some, ok_bind, ofUB_some, ok_bind, ofUB_some, ok_bind, ok_bind, ok_bind, ok_bind]
    exact body_keep hQ Q bs b e _ _ _ _ junk out

theorem devices_keep {c : Gpu K} (hQ : c.Q = .both) (Q : Quant) (bs : Nat) (idx : List Nat) (offset : Bool) (junk : Res K) (order : List Nat) (out : List (Res K)) :
    (c.setQ Q).devices bs idx offset (junk.keep Q) order (out.map (Res.keep Q)) = (c.devices bs idx offset junk order out).map (List.map (Res.keep Q)) :=
  foldlM_nat (m := Except Err) (fun v i => device_keep hQ Q bs idx offset junk i v) _ out

theorem task_keep {c : Gpu K} (hQ : c.Q = .both) (Q : Quant) (bs np : Nat) (idx : List Nat) (ptr : Bool) (junk : Res K) (order : List Nat)
    (ix : Nat → Option Nat) (out : List (Res K)) :
    (c.setQ Q).task bs np idx ptr (junk.keep Q) order ix (out.map (Res.keep Q)) = (c.task bs np idx ptr junk order ix out).map (List.map (Res.keep Q)) := by
  unfold task
  split
  · exact devices_keep hQ Q bs idx true junk order out
  rcases idx[0]? with _ | k0
  · rfl
  simp only [ofUB, bind, Except.bind]
  rw [show (c.setQ Q).Q = Q from rfl, show (c.setQ Q).d = c.d from rfl, keep_zero Q, ← List.map_replicate, devices_keep hQ, hQ]
  cases c.devices bs idx false junk order (List.replicate (subW 64 np k0) (resZero .both c.d)) with
  | error e => rfl
  | ok tmp =>
    simp only [Except.map]
    rw [Force.write_keep]
    cases Force.write ix out k0 tmp <;> rfl

end Gpu

end Rakau
