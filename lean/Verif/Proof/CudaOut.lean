import Verif.Proof.CudaHost

/-! The outcome of the host side of the CUDA computation, and the results. -/
namespace Rakau.Cuda
open Spec Cu

variable {α β γ : Type}

/-! ### Exceptions -/

/-- A failed call that the host code checks. -/
def noticed : Ev → Bool
  | .launch _ _ _ _ _ _ => false
  | .streamSync _ _ => false
  | e => failed e

theorem noticed_eq (e : Ev) : noticed e = (failed e && !isAsync e) := by
  cases e <;> simp [noticed, failed, isAsync]

/-- `m` ends normally if and only if no checked call fails. -/
def Rep (m : Cu α) : Prop := ∀ rt k, (∃ a, (m rt k).out = .ok a) ↔ ∀ e ∈ (m rt k).evs, noticed e = false

theorem Rep.pure (a : α) : Rep (Cu.pure a) := fun _ _ => ⟨fun _ e he => by simp [Cu.pure] at he, fun _ => ⟨a, rfl⟩⟩

theorem Rep.bind {m : Cu α} {f : α → Cu β} (h : Rep m) (hf : ∀ a, Rep (f a)) : Rep (Cu.bind m f) := by
  intro rt k
  have h0 := h rt k
  cases ho : (m rt k).out with
  | ok a =>
    have h1 := h0.1 ⟨a, ho⟩
    have h2 := hf a rt (m rt k).k
    simp only [Cu.bind, ho]
    rw [h2]
    constructor
    · intro h3 e he
      rcases List.mem_append.1 he with he | he
      · exact h1 e he
      · exact h3 e he
    · intro h3 e he
      exact h3 e (List.mem_append_right _ he)
  | throw x =>
    simp only [Cu.bind, ho]
    rw [← h0, ho]
    simp
  | terminate =>
    simp only [Cu.bind, ho]
    rw [← h0, ho]
    simp

theorem Rep.within {m : Cu α} {cl : Cu Unit} (h : Rep m) (hc : Rep cl) : Rep (Cu.within cl m) := by
  intro rt k
  have h0 := h rt k
  have h2 := hc rt (m rt k).k
  have key : ∀ (x : Prop), ¬ x → (¬ ∀ e ∈ (m rt k).evs ++ (cl rt (m rt k).k).evs, noticed e = false) → (x ↔ ∀ e ∈ (m rt k).evs ++ (cl rt (m rt k).k).evs, noticed e = false) :=
    fun x hx hn => ⟨fun h => absurd h hx, fun h => absurd h hn⟩
  cases ho : (m rt k).out with
  | ok a =>
    have h1 := h0.1 ⟨a, ho⟩
    cases hcl : (cl rt (m rt k).k).out with
    | ok u =>
      simp only [Cu.within, ho, hcl]
      refine ⟨fun _ e he => ?_, fun _ => ⟨a, rfl⟩⟩
      rcases List.mem_append.1 he with he | he
      · exact h1 e he
      · exact h2.1 ⟨u, hcl⟩ e he
    | throw x =>
      simp only [Cu.within, ho, hcl]
      refine key _ (by simp) fun hn => ?_
      obtain ⟨u, hu⟩ := h2.2 fun e he => hn e (List.mem_append_right _ he)
      rw [hcl] at hu; cases hu
    | terminate =>
      simp only [Cu.within, ho, hcl]
      refine key _ (by simp) fun hn => ?_
      obtain ⟨u, hu⟩ := h2.2 fun e he => hn e (List.mem_append_right _ he)
      rw [hcl] at hu; cases hu
  | throw x =>
    have hn : ¬ ∀ e ∈ (m rt k).evs ++ (cl rt (m rt k).k).evs, noticed e = false := fun hn => by
      obtain ⟨u, hu⟩ := h0.2 fun e he => hn e (List.mem_append_left _ he)
      rw [ho] at hu; cases hu
    cases hcl : (cl rt (m rt k).k).out with
    | ok u => simp only [Cu.within, ho, hcl]; exact key _ (by simp) hn
    | throw x => simp only [Cu.within, ho, hcl]; exact key _ (by simp) hn
    | terminate => simp only [Cu.within, ho, hcl]; exact key _ (by simp) hn
  | terminate => simp only [Cu.within, ho]; rw [← h0, ho]

theorem Rep.onThrow {m : Cu α} {cl : Cu Unit} (h : Rep m) : Rep (Cu.onThrow cl m) := by
  intro rt k
  have h0 := h rt k
  cases ho : (m rt k).out with
  | ok a => simp only [Cu.onThrow, ho]; rw [← h0, ho]
  | throw x =>
    have hn : ¬ ∀ e ∈ (m rt k).evs ++ (cl rt (m rt k).k).evs, noticed e = false := fun hn => by
      obtain ⟨u, hu⟩ := h0.2 fun e he => hn e (List.mem_append_left _ he)
      rw [ho] at hu; cases hu
    cases hcl : (cl rt (m rt k).k).out with
    | ok u => simp only [Cu.onThrow, ho, hcl]; exact ⟨fun h => by simp at h, fun h => absurd h hn⟩
    | throw x => simp only [Cu.onThrow, ho, hcl]; exact ⟨fun h => by simp at h, fun h => absurd h hn⟩
    | terminate => simp only [Cu.onThrow, ho, hcl]; exact ⟨fun h => by simp at h, fun h => absurd h hn⟩
  | terminate => simp only [Cu.onThrow, ho]; rw [← h0, ho]

theorem Rep.each {f : γ → Cu Unit} (hf : ∀ a, Rep (f a)) (l : List γ) : Rep (Cu.each f l) := by
  induction l with
  | nil => exact .pure ()
  | cons a l ih => exact .bind (hf a) fun _ => ih

theorem Rep.each' {f : γ → Cu Unit} {l : List γ} (hf : ∀ a ∈ l, Rep (f a)) : Rep (Cu.each f l) := by
  induction l with
  | nil => exact .pure ()
  | cons a l ih => exact .bind (hf a (by simp)) fun _ => ih fun b hb => hf b (List.mem_cons_of_mem _ hb)

/-- A call that is not checked. -/
theorem Rep.call {e : Nat → Rc → Ev} (h : ∀ k rc, noticed (e k rc) = false) : Rep (Cu.call e) :=
  fun rt k => ⟨fun _ x hx => by rw [show x = e k (rt k) by simpa [Cu.call] using hx]; exact h _ _, fun _ => ⟨_, rfl⟩⟩

/-- A call that is checked. -/
theorem Rep.checked {e : Nat → Rc → Ev} {f : Nat × Rc → Cu β} {good : Rc → Bool} (h : ∀ k rc, noticed (e k rc) = !good rc) (h1 : ∀ x, good x.2 = true → Rep (f x))
    (h2 : ∀ x, good x.2 = false → ∃ exc, f x = Cu.throw exc) : Rep (Cu.bind (Cu.call e) f) := by
  intro rt k
  have hn := h k (rt k)
  show (∃ a, (f (k, rt k) rt (k + 1)).out = .ok a) ↔ ∀ x ∈ e k (rt k) :: (f (k, rt k) rt (k + 1)).evs, noticed x = false
  rw [List.forall_mem_cons, hn]
  cases hg : good (rt k) with
  | true => rw [h1 (k, rt k) hg rt (k + 1)]; simp
  | false =>
    obtain ⟨exc, he⟩ := h2 (k, rt k) hg
    rw [he]
    simp [Cu.throw]

theorem rep_check {e : Nat → Rc → Ev} {a : Nat × Rc → α} {exc : CuExc} (h : ∀ k rc, noticed (e k rc) = (rc != .success)) :
    Rep (Cu.bind (Cu.call e) fun x => if x.2 = .success then Cu.pure (a x) else Cu.throw exc) := by
  refine .checked (good := fun rc => rc == .success) (fun k rc => by rw [h]; rfl) ?_ ?_
  · intro x hx; rw [if_pos (by simpa using hx)]; exact .pure _
  · intro x hx; rw [if_neg (by simpa using hx)]; exact ⟨_, rfl⟩

theorem rep_pinAll (l : List (Area × Nat)) : Rep (pinAll l) := by
  induction l with
  | nil => exact .pure _
  | cons x l ih => exact .bind (.call fun _ _ => rfl) fun _ => .bind ih fun _ => .pure _

theorem rep_unpinAll (l : List Area) : Rep (unpinAll l) := .each (fun _ => .bind (.call fun _ _ => rfl) fun _ => .pure _) l

theorem rep_freeAll (l : List Nat) : Rep (freeAll l) := .each (fun _ => .bind (.call fun _ _ => rfl) fun _ => .pure _) l

theorem rep_setDevice (i : Nat) : Rep (setDevice i) := rep_check (a := fun _ => ()) fun _ _ => rfl

theorem rep_makeArray {m : Bool} {sz len : Nat} (h : len ≤ (2 ^ 64 - 1) / sz) : Rep (makeArray m sz len) := by
  unfold makeArray
  rw [if_neg (by omega)]
  exact rep_check (a := fun x => x.1) fun _ _ => rfl

theorem rep_copyIn (h : Nat) (a : Area) (len : Nat) : Rep (copyIn h a len) := rep_check (a := fun _ => ()) fun _ _ => rfl

theorem rep_adviseAll (h n : Nat) : Rep (adviseAll h n) := by
  refine .each (fun i => ?_) _
  refine .checked (good := fun rc => rc != .failure) (fun k rc => by cases rc <;> rfl) ?_ ?_
  · intro x hx; rw [if_neg (by simpa using hx)]; exact .pure _
  · intro x hx; rw [if_pos (by simpa using hx)]; exact ⟨_, rfl⟩

theorem rep_tmpArrays {sz len : Nat} (h : len ≤ (2 ^ 64 - 1) / sz) (m : Nat) (acc : List Nat) : Rep (tmpArrays sz len m acc) := by
  induction m generalizing acc with
  | zero => exact .pure _
  | succ m ih => exact .bind (.onThrow (rep_makeArray h)) fun _ => ih _

theorem rep_waitDestroy (i : Nat) (l : List Nat) : Rep (waitDestroy i l) := by
  induction l generalizing i with
  | nil => exact .pure _
  | cons s l ih => exact .bind (rep_setDevice i) fun _ => .bind (.call fun _ _ => rfl) fun _ => .bind (.call fun _ _ => rfl) fun _ => ih _

theorem rep_withRes {c : CuCall} {body : List (List Nat) → Cu Unit} (hb : ∀ res, Rep (body res)) (is : List Nat) (acc : List (List Nat))
    (h : ∀ i ∈ is, subW 64 (c.idx (i + 1)) (c.idx i) ≤ (2 ^ 64 - 1) / c.szF) : Rep (withRes c body is acc) := by
  induction is generalizing acc with
  | nil => exact .within (hb _) (rep_freeAll _)
  | cons i is ih =>
    exact .bind (.onThrow (.bind (rep_setDevice i) fun _ => rep_tmpArrays (h i (by simp)) _ _)) fun _ => ih _ fun j hj => h j (List.mem_cons_of_mem _ hj)

theorem rep_withParts {c : CuCall} {body : List Nat → Cu Unit} (hb : ∀ ps, Rep (body ps)) (h : c.n ≤ (2 ^ 64 - 1) / c.szF) (js acc : List Nat) : Rep (withParts c body js acc) := by
  induction js generalizing acc with
  | nil => exact .within (hb _) (rep_freeAll _)
  | cons j js ih =>
    exact .bind (.onThrow (rep_makeArray h)) fun _ => .bind (.onThrow (.bind (rep_copyIn _ _ _) fun _ => rep_adviseAll _ _)) fun _ => ih _

theorem rep_withStreams {body : List Nat → Cu Unit} (hb : ∀ ss, Rep (body ss)) (is acc : List Nat) : Rep (withStreams body is acc) := by
  induction is generalizing acc with
  | nil => exact .within (hb _) (rep_waitDestroy _ _)
  | cons i is ih => exact .bind (.onThrow (.bind (rep_setDevice i) fun _ => rep_check (a := fun x => x.1) fun _ _ => rfl)) fun _ => ih _

theorem fits_loc {c : CuCall} (h : Fits c) {i : Nat} (hi : i < c.ngpus) : subW 64 (c.idx (i + 1)) (c.idx i) = c.idx (i + 1) - c.idx i := by
  have h1 := h.mono i hi
  have h2 := h.idx (i + 1) (by omega)
  unfold subW
  rw [show c.idx (i + 1) + 2 ^ 64 - c.idx i = (c.idx (i + 1) - c.idx i) + 2 ^ 64 by omega, Nat.add_mod_right, Nat.mod_eq_of_lt (by omega)]

theorem rep_cudaHost {c : CuCall} (h : Fits c) : Rep (cudaHost c) := by
  refine .bind (rep_pinAll _) fun _ => .within ?_ (rep_unpinAll _)
  refine rep_withRes ?_ _ _ ?_
  · intro res
    refine .bind (rep_makeArray h.szNode) fun _ => .within ?_ (rep_freeAll _)
    refine .bind (rep_copyIn _ _ _) fun _ => .bind (rep_adviseAll _ _) fun _ => rep_withParts ?_ h.szF _ _
    intro ps
    refine .bind (rep_makeArray h.szU) fun _ => .within ?_ (rep_freeAll _)
    refine .bind (rep_copyIn _ _ _) fun _ => .bind (rep_adviseAll _ _) fun _ => .bind (.each (fun i => .bind (rep_setDevice i) fun _ => rep_check (a := fun _ => ()) fun _ _ => rfl) _) fun _ => ?_
    refine rep_withStreams ?_ _ _
    intro ss
    refine .bind (.each' ?_) fun _ => .each (fun p => rep_check (a := fun _ => ()) fun _ _ => rfl) _
    intro i hi
    have hi := List.mem_range.1 hi
    refine .bind (rep_setDevice i) fun _ => ?_
    have e1 := h.idx i (by omega)
    have e2 := h.idx (i + 1) (by omega)
    rw [if_neg (by rw [fits_loc h hi]; omega)]
    unfold castInt
    rw [if_pos e1, if_pos e2, if_pos h.nodes]
    exact .bind (.pure _) fun _ => .bind (.pure _) fun _ => .bind (.pure _) fun _ => .bind (.call fun _ _ => rfl) fun _ => .pure _
  · intro i hi
    have hi := List.mem_range.1 hi
    rw [fits_loc h hi]
    have := h.szF
    have := h.last (i + 1) (by omega)
    omega

/-! ### Results -/

def isOp : Ev → Bool
  | .launch _ _ _ _ _ _ => true
  | .copyOut _ _ _ _ _ _ => true
  | _ => false

def ops (l : List Ev) : List Ev := l.filter isOp

theorem ops_append (l l' : List Ev) : ops (l ++ l') = ops l ++ ops l' := List.filter_append _ _

theorem effects_ops {V : Type} (kern : Nat → Nat → V) (m : Contents V) (l : List Ev) : effects kern m l = effects kern m (ops l) := by
  induction l generalizing m with
  | nil => rfl
  | cons e l ih =>
    show effects kern (effect kern m e) l = _
    unfold ops
    cases he : isOp e with
    | true => rw [List.filter_cons_of_pos he]; exact ih _
    | false =>
      rw [List.filter_cons_of_neg (by rw [he]; simp)]
      have : effect kern m e = m := by cases e <;> first | rfl | cases he
      rw [this]; exact ih _

/-- If `m` ends normally, then as `Q` says: the value, the number of calls, and the operations of streams. -/
def OkP (m : Cu α) (k : Nat) (Q : α → Nat → List Ev → Prop) : Prop := ∀ rt a, (m rt k).out = .ok a → k ≤ (m rt k).k ∧ Q a (m rt k).k (ops (m rt k).evs)

theorem OkP.conseq {m : Cu α} {k : Nat} {Q Q' : α → Nat → List Ev → Prop} (h : OkP m k Q) (hq : ∀ a k' o, k ≤ k' → Q a k' o → Q' a k' o) : OkP m k Q' :=
  fun rt a ho => ⟨(h rt a ho).1, hq _ _ _ (h rt a ho).1 (h rt a ho).2⟩

theorem OkP.pure {a : α} {k : Nat} {Q : α → Nat → List Ev → Prop} (h : Q a k []) : OkP (Cu.pure a) k Q := by
  intro rt b hb
  have : a = b := by simpa [Cu.pure] using hb
  subst this
  exact ⟨le_refl _, h⟩

theorem OkP.throw {e : CuExc} {k : Nat} {Q : α → Nat → List Ev → Prop} : OkP (Cu.throw e) k Q := by intro rt b hb; cases hb

theorem OkP.call {e : Nat → Rc → Ev} {k : Nat} {Q : Nat × Rc → Nat → List Ev → Prop} (h : ∀ rc, Q (k, rc) (k + 1) (ops [e k rc])) : OkP (Cu.call e) k Q := by
  intro rt b hb
  have : (k, rt k) = b := by simpa [Cu.call] using hb
  subst this
  exact ⟨Nat.le_succ k, h _⟩

theorem OkP.bind {m : Cu α} {f : α → Cu β} {k : Nat} {P : α → Nat → List Ev → Prop} {Q : β → Nat → List Ev → Prop} (h : OkP m k P)
    (hf : ∀ a k' o, k ≤ k' → P a k' o → OkP (f a) k' (fun b k'' o' => Q b k'' (o ++ o'))) : OkP (Cu.bind m f) k Q := by
  intro rt b hb
  cases ho : (m rt k).out with
  | ok a =>
    obtain ⟨h1, h2⟩ := h rt a ho
    simp only [Cu.bind, ho] at hb ⊢
    obtain ⟨h3, h4⟩ := hf a _ _ h1 h2 rt b hb
    rw [ops_append]
    exact ⟨le_trans h1 h3, h4⟩
  | throw x => simp [Cu.bind, ho] at hb
  | terminate => simp [Cu.bind, ho] at hb

theorem OkP.within {m : Cu α} {cl : Cu Unit} {k : Nat} {Q : α → Nat → List Ev → Prop} (h : OkP m k (fun a _ o => ∀ k', Q a k' o))
    (hc : ∀ k', OkP cl k' (fun _ _ o => o = [])) : OkP (Cu.within cl m) k Q := by
  intro rt b hb
  cases ho : (m rt k).out with
  | ok a =>
    cases hcl : (cl rt (m rt k).k).out with
    | ok u =>
      simp only [Cu.within, ho, hcl] at hb ⊢
      have hab : a = b := by simpa using hb
      subst hab
      obtain ⟨h1, h2⟩ := h rt a ho
      obtain ⟨h3, h4⟩ := hc _ rt u hcl
      rw [ops_append, h4, List.append_nil]
      exact ⟨le_trans h1 h3, h2 _⟩
    | throw x => simp [Cu.within, ho, hcl] at hb
    | terminate => simp [Cu.within, ho, hcl] at hb
  | throw x =>
    cases hcl : (cl rt (m rt k).k).out with
    | ok u => simp [Cu.within, ho, hcl] at hb
    | throw x => simp [Cu.within, ho, hcl] at hb
    | terminate => simp [Cu.within, ho, hcl] at hb
  | terminate => simp [Cu.within, ho] at hb

theorem OkP.onThrow {m : Cu α} {cl : Cu Unit} {k : Nat} {Q : α → Nat → List Ev → Prop} (h : OkP m k Q) : OkP (Cu.onThrow cl m) k Q := by
  intro rt b hb
  cases ho : (m rt k).out with
  | ok a =>
    simp only [Cu.onThrow, ho] at hb ⊢
    exact h rt b (ho.trans hb)
  | throw x =>
    cases hcl : (cl rt (m rt k).k).out with
    | ok u => simp [Cu.onThrow, ho, hcl] at hb
    | throw x => simp [Cu.onThrow, ho, hcl] at hb
    | terminate => simp [Cu.onThrow, ho, hcl] at hb
  | terminate => simp [Cu.onThrow, ho] at hb

/-- `m` has no operations of streams. -/
def Quiet (m : Cu α) : Prop := ∀ k, OkP m k (fun _ _ o => o = [])

theorem Quiet.bind {m : Cu α} {f : α → Cu β} (h : Quiet m) (hf : ∀ a, Quiet (f a)) : Quiet (Cu.bind m f) :=
  fun k => .bind (h k) fun a k' o _ ho => (hf a k').conseq fun _ _ _ _ ho' => by rw [ho, ho']; rfl

theorem Quiet.pure (a : α) : Quiet (Cu.pure a) := fun _ => .pure rfl

theorem Quiet.throw (e : CuExc) : Quiet (Cu.throw e : Cu α) := fun _ => .throw

theorem Quiet.call {e : Nat → Rc → Ev} (h : ∀ k rc, isOp (e k rc) = false) : Quiet (Cu.call e) :=
  fun k => .call fun rc => by unfold ops; rw [List.filter_cons_of_neg (by rw [h]; simp)]; rfl

theorem Quiet.each {f : γ → Cu Unit} (hf : ∀ a, Quiet (f a)) (l : List γ) : Quiet (Cu.each f l) := by
  induction l with
  | nil => exact .pure _
  | cons a l ih => exact .bind (hf a) fun _ => ih

theorem Quiet.ite {p : Prop} [Decidable p] {m m' : Cu α} (h : Quiet m) (h' : Quiet m') : Quiet (if p then m else m') := by split <;> assumption

theorem quiet_pinAll (l : List (Area × Nat)) : Quiet (pinAll l) := by
  induction l with
  | nil => exact .pure _
  | cons x l ih => exact .bind (.call fun _ _ => rfl) fun _ => .bind ih fun _ => .pure _

theorem quiet_unpinAll (l : List Area) : Quiet (unpinAll l) := .each (fun _ => .bind (.call fun _ _ => rfl) fun _ => .pure _) l

theorem quiet_freeAll (l : List Nat) : Quiet (freeAll l) := .each (fun _ => .bind (.call fun _ _ => rfl) fun _ => .pure _) l

theorem quiet_setDevice (i : Nat) : Quiet (setDevice i) := .bind (.call fun _ _ => rfl) fun _ => .ite (.pure _) (.throw _)

theorem quiet_copyIn (h : Nat) (a : Area) (len : Nat) : Quiet (copyIn h a len) := .bind (.call fun _ _ => rfl) fun _ => .ite (.pure _) (.throw _)

theorem quiet_adviseAll (h n : Nat) : Quiet (adviseAll h n) := .each (fun _ => .bind (.call fun _ _ => rfl) fun _ => .ite (.throw _) (.pure _)) _

theorem quiet_waitDestroy (i : Nat) (l : List Nat) : Quiet (waitDestroy i l) := by
  induction l generalizing i with
  | nil => exact .pure _
  | cons s l ih => exact .bind (quiet_setDevice i) fun _ => .bind (.call fun _ _ => rfl) fun _ => .bind (.call fun _ _ => rfl) fun _ => ih _

theorem quiet_castInt (x : Nat) : Quiet (castInt x) := .ite (.pure _) (.throw _)

theorem okP_makeArray (m : Bool) (sz len k : Nat) : OkP (makeArray m sz len) k (fun h k' o => o = [] ∧ k ≤ h ∧ h < k') := by
  unfold makeArray
  split
  · exact .throw
  · refine .bind (P := fun x k' o => o = [] ∧ k ≤ x.1 ∧ x.1 < k') (.call fun rc => ⟨rfl, le_refl _, Nat.lt_succ_self _⟩) ?_
    rintro x k' o _ ⟨rfl, h1, h2⟩
    split
    · exact .pure ⟨rfl, h1, h2⟩
    · exact .throw

/-- Handles that have been returned in this order, from call `k` on and before call `k'`. -/
structure Fr (k : Nat) (l : List Nat) (k' : Nat) : Prop where
  nodup : l.Nodup
  lt : ∀ h ∈ l, h < k'
  ge : ∀ h ∈ l, k ≤ h

theorem Fr.mono {k k1 k2 : Nat} {l : List Nat} (h : Fr k l k1) (hk : k1 ≤ k2) : Fr k l k2 := ⟨h.nodup, fun x hx => lt_of_lt_of_le (h.lt x hx) hk, h.ge⟩

theorem Fr.append {k k1 k2 : Nat} {l l' : List Nat} (h : Fr k l k1) (h' : Fr k1 l' k2) (hk : k ≤ k1) (hk2 : k1 ≤ k2) : Fr k (l ++ l') k2 := by
  refine ⟨?_, ?_, ?_⟩
  · rw [List.nodup_append]
    refine ⟨h.nodup, h'.nodup, ?_⟩
    intro a ha b hb
    have := h.lt a ha
    have := h'.ge b hb
    omega
  · intro x hx
    rcases List.mem_append.1 hx with hx | hx
    · exact lt_of_lt_of_le (h.lt x hx) hk2
    · exact h'.lt x hx
  · intro x hx
    rcases List.mem_append.1 hx with hx | hx
    · exact h.ge x hx
    · exact le_trans hk (h'.ge x hx)

theorem okP_tmpArrays (sz len : Nat) (m : Nat) (acc : List Nat) (k0 k : Nat) (hk : k0 ≤ k) (hf : Fr k0 acc k) :
    OkP (tmpArrays sz len m acc) k (fun hs k' o => o = [] ∧ Fr k0 hs k' ∧ hs.length = acc.length + m) := by
  induction m generalizing acc k with
  | zero => exact .pure ⟨rfl, hf, rfl⟩
  | succ m ih =>
    refine .bind (OkP.onThrow (okP_makeArray _ _ _ _)) ?_
    rintro h k' o hk' ⟨rfl, h1, h2⟩
    refine (ih (acc ++ [h]) k' (by omega) (hf.append ⟨List.nodup_singleton _, ?_, ?_⟩ hk hk')).conseq ?_
    · intro x hx; rw [List.mem_singleton.1 hx]; exact h2
    · intro x hx; rw [List.mem_singleton.1 hx]; exact h1
    · rintro hs k'' o _ ⟨rfl, a, b⟩
      refine ⟨rfl, a, ?_⟩
      rw [b, List.length_append, List.length_singleton]; omega

theorem okP_withRes {c : CuCall} {body : List (List Nat) → Cu Unit} {Q : List Ev → Prop} (is : List Nat) (acc : List (List Nat)) (k0 k : Nat) (hk : k0 ≤ k)
    (hb : ∀ res k, res.length = acc.length + is.length → Fr k0 res.flatten k → (∀ l ∈ res, l.length = c.nres) → OkP (body res) k (fun _ _ o => Q o))
    (hf : Fr k0 acc.flatten k) (hl : ∀ l ∈ acc, l.length = c.nres) : OkP (withRes c body is acc) k (fun _ _ o => Q o) := by
  induction is generalizing acc k with
  | nil => exact .within ((hb acc k rfl hf hl).conseq fun _ _ _ _ h _ => h) fun k' => quiet_freeAll _ k'
  | cons i is ih =>
    refine .bind (P := fun hs k' o => o = [] ∧ Fr k0 (acc.flatten ++ hs) k' ∧ hs.length = c.nres) (OkP.onThrow ?_) ?_
    · refine .bind (quiet_setDevice i k) ?_
      rintro _ k1 o hk1 rfl
      refine (okP_tmpArrays c.szF _ c.nres [] k1 k1 (le_refl _) ⟨List.nodup_nil, by simp, by simp⟩).conseq ?_
      rintro hs k2 o hk2 ⟨rfl, a, b⟩
      exact ⟨rfl, (hf.mono hk1).append a (by omega) hk2, by simpa using b⟩
    · rintro hs k' o hk' ⟨rfl, a, b⟩
      refine (ih (acc ++ [hs]) k' (by omega) ?_ (by rw [List.flatten_append]; simpa using a) ?_)
      · intro res k2 h1
        refine hb res k2 ?_
        rw [h1, List.length_append, List.length_singleton, List.length_cons]; omega
      · intro l hl'
        rcases List.mem_append.1 hl' with h | h
        · exact hl l h
        · rw [List.mem_singleton.1 h]; exact b

theorem okP_withParts {c : CuCall} {body : List Nat → Cu Unit} {Q : List Ev → Prop} (k0 : Nat) (hb : ∀ ps k, k0 ≤ k → (∀ h ∈ ps, k0 ≤ h) → OkP (body ps) k (fun _ _ o => Q o))
    (js acc : List Nat) (k : Nat) (hk : k0 ≤ k) (ha : ∀ h ∈ acc, k0 ≤ h) : OkP (withParts c body js acc) k (fun _ _ o => Q o) := by
  induction js generalizing acc k with
  | nil => exact .within ((hb acc k hk ha).conseq fun _ _ _ _ h _ => h) fun k' => quiet_freeAll _ k'
  | cons j js ih =>
    refine .bind (OkP.onThrow (okP_makeArray _ _ _ _)) ?_
    rintro h k1 o _ ⟨rfl, h1, _⟩
    refine .bind (OkP.onThrow ((quiet_copyIn _ _ _).bind (fun _ => quiet_adviseAll _ _) k1)) ?_
    rintro _ k2 o _ rfl
    refine ih _ k2 (by omega) ?_
    intro x hx
    rcases List.mem_append.1 hx with hx | hx
    · exact ha x hx
    · rw [List.mem_singleton.1 hx]; omega

theorem okP_withStreams {body : List Nat → Cu Unit} {Q : List Ev → Prop} (hb : ∀ ss k, OkP (body ss) k (fun _ _ o => Q o)) (is acc : List Nat) (k : Nat) :
    OkP (withStreams body is acc) k (fun _ _ o => Q o) := by
  induction is generalizing acc k with
  | nil => exact .within ((hb acc k).conseq fun _ _ _ _ h _ => h) fun k' => quiet_waitDestroy _ _ k'
  | cons i is ih =>
    refine .bind (OkP.onThrow ((quiet_setDevice i).bind (fun _ => .bind (.call fun _ _ => rfl) fun _ => .ite (.pure _) (.throw _)) k)) ?_
    rintro s k2 o _ rfl
    exact ih _ k2

/-- The operations of a loop: one for each element. -/
theorem okP_each {f : γ → Cu Unit} {g : γ → Ev → Prop} (hf : ∀ a k, OkP (f a) k (fun _ _ o => ∃ e, o = [e] ∧ g a e)) (l : List γ) (k : Nat) :
    OkP (Cu.each f l) k (fun _ _ o => List.Forall₂ g l o) := by
  induction l generalizing k with
  | nil => exact .pure .nil
  | cons a l ih =>
    refine .bind (hf a k) ?_
    rintro _ k' o _ ⟨e, rfl, he⟩
    exact (ih k').conseq fun _ _ _ _ h => .cons he h

/-- The operations of the whole function: launches, then copies. -/
structure Ops (c : CuCall) (res : List (List Nat)) (ss ins : List Nat) (o1 o2 : List Ev) : Prop where
  launches : List.Forall₂ (fun i e => ∃ rc, e = Ev.launch (ss.getD i 0) (res.getD i []) ins (c.idx i) (c.idx (i + 1)) rc) (List.range c.ngpus) o1
  copies : List.Forall₂ (fun (p : Nat × Nat) e => ∃ rc, e = Ev.copyOut (ss.getD p.1 0) (.out p.2) (subW 64 (c.idx p.1) (if c.offset then 0 else c.idx 0))
      ((res.getD p.1 []).getD p.2 0) (subW 64 (c.idx (p.1 + 1)) (c.idx p.1)) rc) ((List.range c.ngpus).flatMap (fun i => (List.range c.nres).map (fun j => (i, j)))) o2
  length : res.length = c.ngpus
  nodup : res.flatten.Nodup
  lens : ∀ l ∈ res, l.length = c.nres
  ins : ∀ h ∈ ins, h ∉ res.flatten

theorem okP_cudaHost (c : CuCall) : OkP (cudaHost c) 0 (fun _ _ o => ∃ res ss ins o1 o2, o = o1 ++ o2 ∧ Ops c res ss ins o1 o2) := by
  refine .bind (quiet_pinAll _ 0) ?_
  rintro ps k o _ rfl
  refine .within ?_ fun k' => quiet_unpinAll _ k'
  refine (okP_withRes (Q := fun o => ∃ res ss ins o1 o2, o = o1 ++ o2 ∧ Ops c res ss ins o1 o2) _ [] k k (le_refl _) ?_
    ⟨by simp, by simp, by simp⟩ (by simp)).conseq fun _ _ _ _ h _ => h
  intro res k0 h1 h2 h3
  have h1 : res.length = c.ngpus := by simpa using h1
  refine OkP.conseq (Q := fun _ _ o => ∃ ss ins o1 o2, o = o1 ++ o2 ∧ Ops c res ss ins o1 o2) ?_ fun _ _ _ _ h => ⟨res, h⟩
  refine .bind (okP_makeArray _ _ _ _) ?_
  rintro t k1 o _ ⟨rfl, ht, _⟩
  refine .within ?_ fun k' => quiet_freeAll _ k'
  refine .bind (quiet_copyIn _ _ _ _) ?_
  rintro _ k2 o _ rfl
  refine .bind (quiet_adviseAll _ _ _) ?_
  rintro _ k3 o _ rfl
  refine (okP_withParts (Q := fun o => ∃ ss ins o1 o2, o = o1 ++ o2 ∧ Ops c res ss ins o1 o2) k0 ?_ _ _ _ (by omega) (by simp)).conseq fun _ _ _ _ h _ => h
  intro ps k hk0 hps
  refine .bind (okP_makeArray _ _ _ _) ?_
  rintro co k1 o _ ⟨rfl, hco, _⟩
  refine .within ?_ fun k' => quiet_freeAll _ k'
  refine .bind (quiet_copyIn _ _ _ _) ?_
  rintro _ k2 o _ rfl
  refine .bind (quiet_adviseAll _ _ _) ?_
  rintro _ k3 o _ rfl
  refine .bind (Quiet.each (fun i => (quiet_setDevice i).bind fun _ => .bind (.call fun _ _ => rfl) fun _ => .ite (.pure _) (.throw _)) _ _) ?_
  rintro _ k4 o _ rfl
  refine (okP_withStreams (Q := fun o => ∃ ss ins o1 o2, o = o1 ++ o2 ∧ Ops c res ss ins o1 o2) ?_ _ _ _).conseq fun _ _ _ _ h _ => h
  intro ss k
  refine .bind (okP_each (g := fun i e => ∃ rc, e = Ev.launch (ss.getD i 0) (res.getD i []) (t :: co :: ps) (c.idx i) (c.idx (i + 1)) rc) ?_ _ _) ?_
  · intro i k
    refine .bind (quiet_setDevice i k) ?_
    rintro _ k1 o _ rfl
    split
    · exact .throw
    · refine .bind (quiet_castInt _ _) ?_
      rintro _ k2 o _ rfl
      refine .bind (quiet_castInt _ _) ?_
      rintro _ k3 o _ rfl
      refine .bind (quiet_castInt _ _) ?_
      rintro _ k4 o _ rfl
      refine .bind (P := fun x _ o => o = [Ev.launch (ss.getD i 0) (res.getD i []) (t :: co :: ps) (c.idx i) (c.idx (i + 1)) x.2]) (.call fun rc => rfl) ?_
      rintro x k5 o _ rfl
      exact .pure ⟨_, rfl, _, rfl⟩
  · intro _ k1 o1 _ ho1
    refine (okP_each (g := fun (p : Nat × Nat) e => ∃ rc, e = Ev.copyOut (ss.getD p.1 0) (.out p.2) (subW 64 (c.idx p.1) (if c.offset then 0 else c.idx 0))
      ((res.getD p.1 []).getD p.2 0) (subW 64 (c.idx (p.1 + 1)) (c.idx p.1)) rc) ?_ _ _).conseq fun _ _ o2 _ ho2 => ⟨ss, t :: co :: ps, o1, o2, rfl, ho1, ho2, h1, h2.nodup, h3, ?_⟩
    · intro p k
      refine .bind (P := fun x _ o => ∃ e, o = [e] ∧ ∃ rc, e = Ev.copyOut (ss.getD p.1 0) (.out p.2) (subW 64 (c.idx p.1) (if c.offset then 0 else c.idx 0))
        ((res.getD p.1 []).getD p.2 0) (subW 64 (c.idx (p.1 + 1)) (c.idx p.1)) rc) (.call fun rc => ⟨_, rfl, _, rfl⟩) ?_
      rintro x k1 o _ ⟨e, rfl, he⟩
      split
      · exact .pure ⟨e, rfl, he⟩
      · exact .throw
    · intro h hh hm
      have hlt := h2.lt h hm
      rcases List.mem_cons.1 hh with rfl | hh
      · omega
      · rcases List.mem_cons.1 hh with rfl | hh
        · omega
        · have := hps h hh; omega

/-! The arrays of different devices are different. -/

theorem forall₂_mem {R : γ → δ → Prop} {l : List γ} {o : List δ} (h : List.Forall₂ R l o) {e : δ} (he : e ∈ o) : ∃ a ∈ l, R a e := by
  induction h with
  | nil => cases he
  | cons hr _ ih =>
    rcases List.mem_cons.1 he with rfl | he
    · exact ⟨_, by simp, hr⟩
    · obtain ⟨a, ha, hr⟩ := ih he
      exact ⟨a, List.mem_cons_of_mem _ ha, hr⟩

theorem mem_range_pairs {a b : Nat} {p : Nat × Nat} : p ∈ (List.range a).flatMap (fun i => (List.range b).map (fun j => (i, j))) ↔ p.1 < a ∧ p.2 < b := by
  obtain ⟨i, j⟩ := p
  simp

theorem getD_disjoint {res : List (List Nat)} (hn : res.flatten.Nodup) {i i' : Nat} (hi : i ≠ i') {h : Nat} (h1 : h ∈ res.getD i []) : h ∉ res.getD i' [] := by
  intro h2
  rw [List.nodup_flatten] at hn
  have key : ∀ k, h ∈ res.getD k [] → k < res.length := by
    intro k hk
    by_contra hc
    rw [show res.getD k [] = [] by simp [Nat.le_of_not_lt hc]] at hk
    cases hk
  have l1 := key i h1
  have l2 := key i' h2
  rw [getD_lt l1] at h1
  rw [getD_lt l2] at h2
  have hp := List.pairwise_iff_getElem.1 hn.2
  rcases Nat.lt_or_gt_of_ne hi with hlt | hlt
  · exact hp i i' l1 l2 hlt h1 h2
  · exact hp i' i l2 l1 hlt h2 h1

theorem Ops.arr {c : CuCall} {res : List (List Nat)} {ss ins : List Nat} {o1 o2 : List Ev} (h : Ops c res ss ins o1 o2) {i j : Nat} (hi : i < c.ngpus) (hj : j < c.nres) :
    (res.getD i []).getD j 0 ∈ res.getD i [] ∧ (res.getD i []).idxOf ((res.getD i []).getD j 0) = j := by
  have hl : i < res.length := by rw [h.length]; exact hi
  rw [getD_lt hl]
  have hj' : j < res[i].length := by rw [h.lens _ (List.getElem_mem hl)]; exact hj
  rw [getD_lt hj']
  exact ⟨List.getElem_mem hj', List.Nodup.idxOf_getElem ((List.nodup_flatten.1 h.nodup).1 _ (List.getElem_mem hl)) _ _⟩

section effects
variable {V : Type} (kern : Nat → Nat → V)

theorem effects_launches {c : CuCall} {res : List (List Nat)} {ss ins : List Nat} (hn : res.flatten.Nodup) {is : List Nat} {o : List Ev}
    (h : List.Forall₂ (fun i e => ∃ rc, e = Ev.launch (ss.getD i 0) (res.getD i []) ins (c.idx i) (c.idx (i + 1)) rc) is o) (hs : ∀ e ∈ o, failed e = false)
    (hnd : is.Nodup) (m : Contents V) :
    (effects kern m o).host = m.host ∧
    (∀ i ∈ is, ∀ h ∈ res.getD i [], ∀ t < c.idx (i + 1) - c.idx i, (effects kern m o).dev h t = kern ((res.getD i []).idxOf h) (c.idx i + t)) ∧
    ∀ h, (∀ i ∈ is, h ∉ res.getD i []) → (effects kern m o).dev h = m.dev h := by
  induction h generalizing m with
  | nil => exact ⟨rfl, by simp, fun _ _ => rfl⟩
  | @cons i e is o he _ ih =>
    obtain ⟨rc, rfl⟩ := he
    have hrc : rc = .success := by simpa [failed] using hs _ List.mem_cons_self
    subst hrc
    obtain ⟨hni, hnd⟩ := List.nodup_cons.1 hnd
    obtain ⟨a, b, d⟩ := ih (fun e he => hs e (List.mem_cons_of_mem _ he)) hnd (effect kern m (.launch (ss.getD i 0) (res.getD i []) ins (c.idx i) (c.idx (i + 1)) .success))
    refine ⟨a, ?_, ?_⟩
    · intro i' hi' x hx t ht
      rcases List.mem_cons.1 hi' with rfl | hi'
      · have := d x fun k hk => getD_disjoint hn (by rintro rfl; exact hni hk) hx
        refine (congrFun this t).trans ?_
        show (if x ∈ _ ∧ _ then _ else _) = _
        rw [if_pos ⟨hx, ht⟩]
      · exact b i' hi' x hx t ht
    · intro x hx
      refine (d x fun k hk => hx k (List.mem_cons_of_mem _ hk)).trans ?_
      funext t
      show (if x ∈ _ ∧ _ then _ else _) = _
      rw [if_neg fun hc => hx i (by simp) hc.1]

theorem effects_copies {c : CuCall} {res : List (List Nat)} {ss : List Nat} {ps : List (Nat × Nat)} {o : List Ev}
    (h : List.Forall₂ (fun (p : Nat × Nat) e => ∃ rc, e = Ev.copyOut (ss.getD p.1 0) (.out p.2) (subW 64 (c.idx p.1) c.off)
      ((res.getD p.1 []).getD p.2 0) (subW 64 (c.idx (p.1 + 1)) (c.idx p.1)) rc) ps o) (hs : ∀ e ∈ o, failed e = false)
    (h1 : ∀ p ∈ ps, subW 64 (c.idx p.1) c.off = c.idx p.1 - c.off ∧ subW 64 (c.idx (p.1 + 1)) (c.idx p.1) = c.idx (p.1 + 1) - c.idx p.1 ∧ c.off ≤ c.idx p.1)
    (m : Contents V) (h2 : ∀ p ∈ ps, ∀ t < c.idx (p.1 + 1) - c.idx p.1, m.dev ((res.getD p.1 []).getD p.2 0) t = kern p.2 (c.idx p.1 + t)) (a : Area) (q : Nat) :
    (∀ p ∈ ps, a = .out p.2 → c.idx p.1 ≤ q + c.off → q + c.off < c.idx (p.1 + 1) → (effects kern m o).host a q = kern p.2 (q + c.off)) ∧
    ((∀ p ∈ ps, ¬ (a = .out p.2 ∧ c.idx p.1 ≤ q + c.off ∧ q + c.off < c.idx (p.1 + 1))) → (effects kern m o).host a q = m.host a q) := by
  induction h generalizing m with
  | nil => exact ⟨by simp, fun _ => rfl⟩
  | @cons p e ps o he _ ih =>
    obtain ⟨rc, rfl⟩ := he
    have hrc : rc = .success := by simpa [failed] using hs _ List.mem_cons_self
    subst hrc
    obtain ⟨e1, e2, e3⟩ := h1 p (by simp)
    rw [e1, e2] at *
    obtain ⟨x, y⟩ := ih (fun e he => hs e (List.mem_cons_of_mem _ he)) (fun p hp => h1 p (List.mem_cons_of_mem _ hp))
      (effect kern m (.copyOut (ss.getD p.1 0) (.out p.2) (c.idx p.1 - c.off) ((res.getD p.1 []).getD p.2 0) (c.idx (p.1 + 1) - c.idx p.1) .success))
      (fun p hp => h2 p (List.mem_cons_of_mem _ hp))
    constructor
    · intro p' hp' ha hq1 hq2
      by_cases hex : ∃ p'' ∈ ps, a = .out p''.2 ∧ c.idx p''.1 ≤ q + c.off ∧ q + c.off < c.idx (p''.1 + 1)
      · obtain ⟨p'', h3, h4, h5, h6⟩ := hex
        have : p''.2 = p'.2 := by rw [ha] at h4; injection h4 with h4; exact h4.symm
        rw [← this]
        exact x p'' h3 h4 h5 h6
      · have hp : p' = p := by
          rcases List.mem_cons.1 hp' with h | h
          · exact h
          · exact absurd ⟨p', h, ha, hq1, hq2⟩ hex
        subst hp
        refine (y fun p'' h3 h4 => hex ⟨p'', h3, h4⟩).trans ?_
        show (if a = _ ∧ _ ∧ _ then _ else _) = _
        rw [if_pos ⟨ha, by omega, by omega⟩, h2 p' (by simp) _ (by omega)]
        congr 1; omega
    · intro hno
      refine (y fun p'' h3 => hno p'' (List.mem_cons_of_mem _ h3)).trans ?_
      show (if a = _ ∧ _ ∧ _ then _ else _) = _
      rw [if_neg]
      rintro ⟨h3, h4, h5⟩
      exact hno p (by simp) ⟨h3, by omega, by omega⟩

end effects

theorem idx_mono {c : CuCall} (h : Fits c) {i j : Nat} (hij : i ≤ j) (hj : j ≤ c.ngpus) : c.idx i ≤ c.idx j := by
  induction j with
  | zero => rw [Nat.le_zero.1 hij]
  | succ j ih =>
    rcases Nat.eq_or_lt_of_le hij with rfl | hlt
    · exact le_refl _
    · exact le_trans (ih (by omega) (by omega)) (h.mono j (by omega))

theorem idx_find {c : CuCall} {p : Nat} (h0 : c.idx 0 ≤ p) {k : Nat} (hk : k ≤ c.ngpus) (hp : p < c.idx k) : ∃ i < k, c.idx i ≤ p ∧ p < c.idx (i + 1) := by
  induction k with
  | zero => omega
  | succ k ih =>
    by_cases hc : p < c.idx k
    · obtain ⟨i, a, b⟩ := ih (by omega) hc
      exact ⟨i, by omega, b⟩
    · exact ⟨k, by omega, by omega, hp⟩

theorem off_le {c : CuCall} (h : Fits c) {i : Nat} (hi : i ≤ c.ngpus) : c.off ≤ c.idx i := by
  unfold CuCall.off
  split
  · exact Nat.zero_le _
  · exact idx_mono h (Nat.zero_le _) hi

theorem fits_pos {c : CuCall} (h : Fits c) {i : Nat} (hi : i ≤ c.ngpus) : subW 64 (c.idx i) c.off = c.idx i - c.off := by
  have h1 := off_le h hi
  have h2 := h.idx i hi
  unfold subW
  rw [show c.idx i + 2 ^ 64 - c.off = (c.idx i - c.off) + 2 ^ 64 by omega, Nat.add_mod_right, Nat.mod_eq_of_lt (by omega)]

theorem mem_ops {e : Ev} {l : List Ev} (h : e ∈ ops l) : e ∈ l := (List.mem_filter.1 h).1

/-- The results on the host if the function ends normally and nothing has failed. -/
theorem cudaHost_results {V : Type} (kern : Nat → Nat → V) {c : CuCall} (hf : Fits c) (rt : Nat → Rc) (hok : (cudaHost c rt 0).out = .ok ())
    (hs : ∀ e ∈ (cudaHost c rt 0).evs, failed e = false) (m : Contents V) (a : Area) (q : Nat) :
    (∀ j < c.nres, a = .out j → c.idx 0 ≤ q + c.off → q + c.off < c.idx c.ngpus → (effects kern m (cudaHost c rt 0).evs).host a q = kern j (q + c.off)) ∧
    ((∀ j < c.nres, ¬ (a = .out j ∧ c.idx 0 ≤ q + c.off ∧ q + c.off < c.idx c.ngpus)) → (effects kern m (cudaHost c rt 0).evs).host a q = m.host a q) := by
  obtain ⟨_, res, ss, ins, o1, o2, ho, h⟩ := okP_cudaHost c rt () hok
  have hs' : ∀ e ∈ o1 ++ o2, failed e = false := fun e he => hs e (mem_ops (ho ▸ he))
  rw [effects_ops, ho]
  show (∀ j < c.nres, _ → _ → _ → (List.foldl (effect kern) m (o1 ++ o2)).host a q = _) ∧ (_ → (List.foldl (effect kern) m (o1 ++ o2)).host a q = _)
  rw [List.foldl_append]
  change (∀ j < c.nres, _ → _ → _ → (effects kern (effects kern m o1) o2).host a q = _) ∧ (_ → (effects kern (effects kern m o1) o2).host a q = _)
  obtain ⟨l1, l2, _⟩ := effects_launches kern h.nodup h.launches (fun e he => hs' e (List.mem_append_left _ he)) List.nodup_range m
  obtain ⟨x, y⟩ := effects_copies kern h.copies (fun e he => hs' e (List.mem_append_right _ he)) (by
      intro p hp
      obtain ⟨hp1, hp2⟩ := mem_range_pairs.1 hp
      exact ⟨fits_pos hf (by omega), fits_loc hf hp1, off_le hf (by omega)⟩) (effects kern m o1) (by
      intro p hp t ht
      obtain ⟨hp1, hp2⟩ := mem_range_pairs.1 hp
      obtain ⟨a1, a2⟩ := h.arr hp1 hp2
      rw [l2 p.1 (List.mem_range.2 hp1) _ a1 t ht, a2]) a q
  constructor
  · intro j hj ha h1 h2
    obtain ⟨i, hi, h3, h4⟩ := idx_find h1 (le_refl _) h2
    exact x (i, j) (mem_range_pairs.2 ⟨hi, hj⟩) ha h3 h4
  · intro hno
    rw [y, l1]
    rintro p hp ⟨h1, h2, h3⟩
    obtain ⟨hp1, hp2⟩ := mem_range_pairs.1 hp
    have := idx_mono hf (Nat.zero_le p.1) (by omega)
    have := idx_mono hf (show p.1 + 1 ≤ c.ngpus by omega) (le_refl _)
    exact hno p.2 hp2 ⟨h1, by omega, by omega⟩

/-- Operations of different streams do not conflict. -/
theorem cudaHost_streams {c : CuCall} (hf : Fits c) (rt : Nat → Rc) (hok : (cudaHost c rt 0).out = .ok ()) {e e' : Ev} (he : e ∈ (cudaHost c rt 0).evs)
    (he' : e' ∈ (cudaHost c rt 0).evs) {s s' : Nat} (hs : streamOf e = some s) (hs' : streamOf e' = some s') (hne : s ≠ s') (x : Mem) (hw : x ∈ writes e) :
    x ∉ writes e' ∧ x ∉ reads e' := by
  obtain ⟨_, res, ss, ins, o1, o2, ho, h⟩ := okP_cudaHost c rt () hok
  have key : ∀ e ∈ (cudaHost c rt 0).evs, ∀ s, streamOf e = some s → ∃ i < c.ngpus, s = ss.getD i 0 ∧
      ((∃ rc, e = Ev.launch (ss.getD i 0) (res.getD i []) ins (c.idx i) (c.idx (i + 1)) rc) ∨
        ∃ j < c.nres, ∃ rc, e = Ev.copyOut (ss.getD i 0) (.out j) (c.idx i - c.off) ((res.getD i []).getD j 0) (c.idx (i + 1) - c.idx i) rc) := by
    intro e he s hs
    have hop : e ∈ o1 ++ o2 := by
      rw [← ho]
      refine List.mem_filter.2 ⟨he, ?_⟩
      cases e <;> first | rfl | cases hs
    rcases List.mem_append.1 hop with hm | hm
    · obtain ⟨i, hi, rc, rfl⟩ := forall₂_mem h.launches hm
      refine ⟨i, List.mem_range.1 hi, ?_, .inl ⟨rc, rfl⟩⟩
      injection hs with hs; exact hs.symm
    · obtain ⟨p, hp, rc, rfl⟩ := forall₂_mem h.copies hm
      obtain ⟨hp1, hp2⟩ := mem_range_pairs.1 hp
      refine ⟨p.1, hp1, ?_, .inr ⟨p.2, hp2, rc, ?_⟩⟩
      · injection hs with hs; exact hs.symm
      · rw [← fits_pos hf (by omega : p.1 ≤ c.ngpus), ← fits_loc hf hp1]; rfl
  obtain ⟨i, hi, rfl, hi'⟩ := key e he s hs
  obtain ⟨i', hi2, rfl, hi2'⟩ := key e' he' s' hs'
  have hii : i ≠ i' := by rintro rfl; exact hne rfl
  have hfl : ∀ {k : Nat} {h' : Nat}, k < c.ngpus → h' ∈ res.getD k [] → h' ∈ res.flatten := by
    intro k h' hk hm
    have hl : k < res.length := by rw [h.length]; exact hk
    rw [getD_lt hl] at hm
    exact List.mem_flatten.2 ⟨_, List.getElem_mem hl, hm⟩
  rcases hi' with ⟨rc, rfl⟩ | ⟨j, hj, rc, rfl⟩ <;> rcases hi2' with ⟨rc', rfl⟩ | ⟨j', hj', rc', rfl⟩
  · obtain ⟨a, ha, rfl⟩ := hw
    refine ⟨?_, ?_⟩
    · rintro ⟨a', ha', h2⟩
      injection h2 with h2; subst h2
      exact getD_disjoint h.nodup hii ha ha'
    · rintro ⟨a', ha', h2⟩
      injection h2 with h2; subst h2
      exact h.ins _ ha' (hfl hi ha)
  · obtain ⟨a, ha, rfl⟩ := hw
    refine ⟨?_, ?_⟩
    · rintro ⟨q, _, _, h2⟩; cases h2
    · intro h2
      have h2 : Mem.arr a = Mem.arr ((res.getD i' []).getD j' 0) := h2
      injection h2 with h2; subst h2
      exact getD_disjoint h.nodup hii ha (h.arr hi2 hj').1
  · obtain ⟨q, h1, h2, rfl⟩ := hw
    refine ⟨?_, ?_⟩
    · rintro ⟨a', _, h2⟩; cases h2
    · rintro ⟨a', _, h2⟩; cases h2
  · obtain ⟨q, h1, h2, rfl⟩ := hw
    refine ⟨?_, ?_⟩
    · rintro ⟨q', h1', h2', h3⟩
      injection h3 with h3 h4
      have a1 := off_le hf (show i ≤ c.ngpus by omega)
      have a2 := off_le hf (show i' ≤ c.ngpus by omega)
      rcases Nat.lt_or_gt_of_ne hii with hlt | hlt
      · have := idx_mono hf (show i + 1 ≤ i' by omega) (by omega)
        omega
      · have := idx_mono hf (show i' + 1 ≤ i by omega) (by omega)
        omega
    · intro h2
      have h2 : Mem.host (.out j) q = Mem.arr ((res.getD i' []).getD j' 0) := h2
      cases h2

/-! ### `std::terminate` -/

/-- A device could not be selected. -/
def Lost (l : List Ev) : Prop := ∃ i rc, Ev.setDevice i rc ∈ l ∧ rc ≠ .success

theorem Lost.left {l l' : List Ev} (h : Lost l) : Lost (l ++ l') := by obtain ⟨i, rc, a, b⟩ := h; exact ⟨i, rc, List.mem_append_left _ a, b⟩

theorem Lost.right {l l' : List Ev} (h : Lost l') : Lost (l ++ l') := by obtain ⟨i, rc, a, b⟩ := h; exact ⟨i, rc, List.mem_append_right _ a, b⟩

/-- `std::terminate` is called only if a device could not be selected. -/
def TermOnly (m : Cu α) : Prop := ∀ rt k, (m rt k).out = .terminate → Lost (m rt k).evs

/-- `m` does not end normally only if a device could not be selected. -/
def StopOnly (m : Cu α) : Prop := ∀ rt k, (∀ a, (m rt k).out ≠ .ok a) → Lost (m rt k).evs

theorem StopOnly.term {m : Cu α} (h : StopOnly m) : TermOnly m := fun rt k ho => h rt k (by rw [ho]; simp)

theorem StopOnly.pure (a : α) : StopOnly (Cu.pure a) := fun _ _ h => absurd rfl (h a)

theorem StopOnly.call (e : Nat → Rc → Ev) : StopOnly (Cu.call e) := fun rt k h => absurd rfl (h (k, rt k))

theorem StopOnly.bind {m : Cu α} {f : α → Cu β} (h : StopOnly m) (hf : ∀ a, StopOnly (f a)) : StopOnly (Cu.bind m f) := by
  intro rt k hn
  cases ho : (m rt k).out with
  | ok a =>
    simp only [Cu.bind, ho] at hn ⊢
    exact (hf a rt _ hn).right
  | throw x => simp only [Cu.bind, ho]; exact h rt k (by rw [ho]; simp)
  | terminate => simp only [Cu.bind, ho]; exact h rt k (by rw [ho]; simp)

theorem StopOnly.each {f : γ → Cu Unit} (hf : ∀ a, StopOnly (f a)) (l : List γ) : StopOnly (Cu.each f l) := by
  induction l with
  | nil => exact .pure _
  | cons a l ih => exact .bind (hf a) fun _ => ih

theorem TermOnly.pure (a : α) : TermOnly (Cu.pure a) := (StopOnly.pure a).term

theorem TermOnly.throw (e : CuExc) : TermOnly (Cu.throw e : Cu α) := fun _ _ h => by cases h

theorem TermOnly.bind {m : Cu α} {f : α → Cu β} (h : TermOnly m) (hf : ∀ a, TermOnly (f a)) : TermOnly (Cu.bind m f) := by
  intro rt k hn
  cases ho : (m rt k).out with
  | ok a =>
    simp only [Cu.bind, ho] at hn ⊢
    exact (hf a rt _ hn).right
  | throw x => simp [Cu.bind, ho] at hn
  | terminate => simp only [Cu.bind, ho]; exact h rt k ho

theorem TermOnly.within {m : Cu α} {cl : Cu Unit} (h : TermOnly m) (hc : StopOnly cl) : TermOnly (Cu.within cl m) := by
  intro rt k hn
  cases ho : (m rt k).out with
  | terminate => simp only [Cu.within, ho]; exact h rt k ho
  | ok a =>
    cases hcl : (cl rt (m rt k).k).out with
    | ok u => simp [Cu.within, ho, hcl] at hn
    | throw x => simp only [Cu.within, ho, hcl]; exact (hc rt _ (by rw [hcl]; simp)).right
    | terminate => simp only [Cu.within, ho, hcl]; exact (hc rt _ (by rw [hcl]; simp)).right
  | throw x =>
    cases hcl : (cl rt (m rt k).k).out with
    | ok u => simp [Cu.within, ho, hcl] at hn
    | throw x => simp only [Cu.within, ho, hcl]; exact (hc rt _ (by rw [hcl]; simp)).right
    | terminate => simp only [Cu.within, ho, hcl]; exact (hc rt _ (by rw [hcl]; simp)).right

theorem TermOnly.onThrow {m : Cu α} {cl : Cu Unit} (h : TermOnly m) (hc : StopOnly cl) : TermOnly (Cu.onThrow cl m) := by
  intro rt k hn
  cases ho : (m rt k).out with
  | terminate => simp only [Cu.onThrow, ho]; exact h rt k ho
  | ok a => simp [Cu.onThrow, ho] at hn
  | throw x =>
    cases hcl : (cl rt (m rt k).k).out with
    | ok u => simp [Cu.onThrow, ho, hcl] at hn
    | throw x => simp only [Cu.onThrow, ho, hcl]; exact (hc rt _ (by rw [hcl]; simp)).right
    | terminate => simp only [Cu.onThrow, ho, hcl]; exact (hc rt _ (by rw [hcl]; simp)).right

theorem TermOnly.ite {p : Prop} [Decidable p] {m m' : Cu α} (h : TermOnly m) (h' : TermOnly m') : TermOnly (if p then m else m') := by split <;> assumption

theorem TermOnly.each {f : γ → Cu Unit} (hf : ∀ a, TermOnly (f a)) (l : List γ) : TermOnly (Cu.each f l) := by
  induction l with
  | nil => exact .pure _
  | cons a l ih => exact .bind (hf a) fun _ => ih

theorem TermOnly.call (e : Nat → Rc → Ev) : TermOnly (Cu.call e) := (StopOnly.call e).term

theorem stop_setDevice (i : Nat) : StopOnly (setDevice i) := by
  intro rt k hn
  refine ⟨i, rt k, ?_, ?_⟩
  · show _ ∈ Ev.setDevice i (rt k) :: _
    exact List.mem_cons_self
  · intro hs
    refine hn () ?_
    show ((if rt k = .success then Cu.pure () else Cu.throw .runtime : Cu Unit) rt (k + 1)).out = _
    rw [if_pos hs]; rfl

theorem stop_freeAll (l : List Nat) : StopOnly (freeAll l) := .each (fun _ => .bind (.call _) fun _ => .pure _) l

theorem stop_unpinAll (l : List Area) : StopOnly (unpinAll l) := .each (fun _ => .bind (.call _) fun _ => .pure _) l

theorem stop_waitDestroy (i : Nat) (l : List Nat) : StopOnly (waitDestroy i l) := by
  induction l generalizing i with
  | nil => exact .pure _
  | cons s l ih => exact .bind (stop_setDevice i) fun _ => .bind (.call _) fun _ => .bind (.call _) fun _ => ih _

theorem term_pinAll (l : List (Area × Nat)) : TermOnly (pinAll l) := by
  induction l with
  | nil => exact .pure _
  | cons x l ih => exact .bind (.call _) fun _ => .bind ih fun _ => .pure _

theorem term_makeArray (m : Bool) (sz len : Nat) : TermOnly (makeArray m sz len) := .ite (.throw _) (.bind (.call _) fun _ => .ite (.pure _) (.throw _))

theorem term_copyIn (h : Nat) (a : Area) (len : Nat) : TermOnly (copyIn h a len) := .bind (.call _) fun _ => .ite (.pure _) (.throw _)

theorem term_adviseAll (h n : Nat) : TermOnly (adviseAll h n) := .each (fun _ => .bind (.call _) fun _ => .ite (.throw _) (.pure _)) _

theorem term_castInt (x : Nat) : TermOnly (castInt x) := .ite (.pure _) (.throw _)

theorem term_tmpArrays (sz len m : Nat) (acc : List Nat) : TermOnly (tmpArrays sz len m acc) := by
  induction m generalizing acc with
  | zero => exact .pure _
  | succ m ih => exact .bind (.onThrow (term_makeArray _ _ _) (stop_freeAll _)) fun _ => ih _

theorem term_withRes {c : CuCall} {body : List (List Nat) → Cu Unit} (hb : ∀ res, TermOnly (body res)) (is : List Nat) (acc : List (List Nat)) : TermOnly (withRes c body is acc) := by
  induction is generalizing acc with
  | nil => exact .within (hb _) (stop_freeAll _)
  | cons i is ih => exact .bind (.onThrow (.bind (stop_setDevice i).term fun _ => term_tmpArrays _ _ _ _) (stop_freeAll _)) fun _ => ih _

theorem term_withParts {c : CuCall} {body : List Nat → Cu Unit} (hb : ∀ ps, TermOnly (body ps)) (js acc : List Nat) : TermOnly (withParts c body js acc) := by
  induction js generalizing acc with
  | nil => exact .within (hb _) (stop_freeAll _)
  | cons j js ih =>
    exact .bind (.onThrow (term_makeArray _ _ _) (stop_freeAll _)) fun _ => .bind (.onThrow (.bind (term_copyIn _ _ _) fun _ => term_adviseAll _ _) (stop_freeAll _)) fun _ => ih _

theorem term_withStreams {body : List Nat → Cu Unit} (hb : ∀ ss, TermOnly (body ss)) (is acc : List Nat) : TermOnly (withStreams body is acc) := by
  induction is generalizing acc with
  | nil => exact .within (hb _) (stop_waitDestroy _ _)
  | cons i is ih =>
    exact .bind (.onThrow (.bind (stop_setDevice i).term fun _ => .bind (.call _) fun _ => .ite (.pure _) (.throw _)) (stop_waitDestroy _ _)) fun _ => ih _

theorem term_cudaHost (c : CuCall) : TermOnly (cudaHost c) := by
  refine .bind (term_pinAll _) fun _ => .within (term_withRes ?_ _ _) (stop_unpinAll _)
  intro res
  refine .bind (term_makeArray _ _ _) fun _ => .within ?_ (stop_freeAll _)
  refine .bind (term_copyIn _ _ _) fun _ => .bind (term_adviseAll _ _) fun _ => term_withParts ?_ _ _
  intro ps
  refine .bind (term_makeArray _ _ _) fun _ => .within ?_ (stop_freeAll _)
  refine .bind (term_copyIn _ _ _) fun _ => .bind (term_adviseAll _ _) fun _ =>
    .bind (.each (fun i => .bind (stop_setDevice i).term fun _ => .bind (.call _) fun _ => .ite (.pure _) (.throw _)) _) fun _ => ?_
  refine term_withStreams ?_ _ _
  intro ss
  refine .bind (.each ?_ _) fun _ => .each (fun p => .bind (.call _) fun _ => .ite (.pure _) (.throw _)) _
  intro i
  exact .bind (stop_setDevice i).term fun _ => .ite (.throw _)
    (.bind (term_castInt _) fun _ => .bind (term_castInt _) fun _ => .bind (term_castInt _) fun _ => .bind (.call _) fun _ => .pure _)

/-! ### The host areas -/

/-- All events of `m` satisfy `P`. -/
def AllEv (P : Ev → Prop) (m : Cu α) : Prop := ∀ rt k, ∀ e ∈ (m rt k).evs, P e

section AllEv
variable {P : Ev → Prop}

theorem AllEv.pure (a : α) : AllEv P (Cu.pure a) := fun _ _ _ h => by cases h

theorem AllEv.throw (e : CuExc) : AllEv P (Cu.throw e : Cu α) := fun _ _ _ h => by cases h

theorem AllEv.call {e : Nat → Rc → Ev} (h : ∀ k rc, P (e k rc)) : AllEv P (Cu.call e) :=
  fun rt k e' hm => by rw [List.mem_singleton.1 hm]; exact h k (rt k)

theorem AllEv.bind {m : Cu α} {f : α → Cu β} (h : AllEv P m) (hf : ∀ a, AllEv P (f a)) : AllEv P (Cu.bind m f) := by
  intro rt k e hm
  cases ho : (m rt k).out with
  | ok x =>
    simp only [Cu.bind, ho] at hm
    rcases List.mem_append.1 hm with hm | hm
    · exact h _ _ _ hm
    · exact hf _ _ _ _ hm
  | throw x => simp only [Cu.bind, ho] at hm; exact h _ _ _ hm
  | terminate => simp only [Cu.bind, ho] at hm; exact h _ _ _ hm

theorem AllEv.within {m : Cu α} {cl : Cu Unit} (h : AllEv P m) (hc : AllEv P cl) : AllEv P (Cu.within cl m) := by
  intro rt k e hm
  have key : e ∈ (m rt k).evs ++ (cl rt (m rt k).k).evs → P e := fun hm => by
    rcases List.mem_append.1 hm with hm | hm
    · exact h _ _ _ hm
    · exact hc _ _ _ hm
  cases ho : (m rt k).out <;> cases hcl : (cl rt (m rt k).k).out <;> simp only [Cu.within, ho, hcl] at hm <;> first | exact key hm | exact h _ _ _ hm

theorem AllEv.onThrow {m : Cu α} {cl : Cu Unit} (h : AllEv P m) (hc : AllEv P cl) : AllEv P (Cu.onThrow cl m) := by
  intro rt k e hm
  have key : e ∈ (m rt k).evs ++ (cl rt (m rt k).k).evs → P e := fun hm => by
    rcases List.mem_append.1 hm with hm | hm
    · exact h _ _ _ hm
    · exact hc _ _ _ hm
  cases ho : (m rt k).out <;> cases hcl : (cl rt (m rt k).k).out <;> simp only [Cu.onThrow, ho, hcl] at hm <;> first | exact key hm | exact h _ _ _ hm

theorem AllEv.ite {p : Prop} [Decidable p] {m m' : Cu α} (h : AllEv P m) (h' : AllEv P m') : AllEv P (if p then m else m') := by split <;> assumption

theorem AllEv.each {f : γ → Cu Unit} {l : List γ} (hf : ∀ a ∈ l, AllEv P (f a)) : AllEv P (Cu.each f l) := by
  induction l with
  | nil => exact .pure _
  | cons a l ih => exact .bind (hf a (by simp)) fun _ => ih fun b hb => hf b (List.mem_cons_of_mem _ hb)

end AllEv

/-- What is said about the use of host areas. -/
def Good (c : CuCall) : Ev → Prop
  | .pin a len _ => (a, len) ∈ c.areas
  | .memcpy _ a len _ => len = areaLen c.n c.nodes c.off a
  | .copyOut _ a pos _ len _ => ∃ j, a = .out j ∧ (Fits c → pos + len ≤ c.n - c.off)
  | _ => True

section Good
variable {c : CuCall}

theorem good_pinAll (l : List (Area × Nat)) (hl : ∀ x ∈ l, x ∈ c.areas) : AllEv (Good c) (pinAll l) := by
  induction l with
  | nil => exact .pure _
  | cons x l ih => exact .bind (.call fun _ _ => hl x (by simp)) fun _ => .bind (ih fun y hy => hl y (List.mem_cons_of_mem _ hy)) fun _ => .pure _

theorem good_setDevice (i : Nat) : AllEv (Good c) (setDevice i) := .bind (.call fun _ _ => trivial) fun _ => .ite (.pure _) (.throw _)

theorem good_freeAll (l : List Nat) : AllEv (Good c) (freeAll l) := .each fun _ _ => .bind (.call fun _ _ => trivial) fun _ => .pure _

theorem good_unpinAll (l : List Area) : AllEv (Good c) (unpinAll l) := .each fun _ _ => .bind (.call fun _ _ => trivial) fun _ => .pure _

theorem good_makeArray (m : Bool) (sz len : Nat) : AllEv (Good c) (makeArray m sz len) :=
  .ite (.throw _) (.bind (.call fun _ _ => trivial) fun _ => .ite (.pure _) (.throw _))

theorem good_copyIn {h : Nat} {a : Area} {len : Nat} (hl : len = areaLen c.n c.nodes c.off a) : AllEv (Good c) (copyIn h a len) :=
  .bind (.call fun _ _ => hl) fun _ => .ite (.pure _) (.throw _)

theorem good_adviseAll (h n : Nat) : AllEv (Good c) (adviseAll h n) := .each fun _ _ => .bind (.call fun _ _ => trivial) fun _ => .ite (.throw _) (.pure _)

theorem good_castInt (x : Nat) : AllEv (Good c) (castInt x) := .ite (.pure _) (.throw _)

theorem good_waitDestroy (i : Nat) (l : List Nat) : AllEv (Good c) (waitDestroy i l) := by
  induction l generalizing i with
  | nil => exact .pure _
  | cons s l ih => exact .bind (good_setDevice i) fun _ => .bind (.call fun _ _ => trivial) fun _ => .bind (.call fun _ _ => trivial) fun _ => ih _

theorem good_tmpArrays (sz len m : Nat) (acc : List Nat) : AllEv (Good c) (tmpArrays sz len m acc) := by
  induction m generalizing acc with
  | zero => exact .pure _
  | succ m ih => exact .bind (.onThrow (good_makeArray _ _ _) (good_freeAll _)) fun _ => ih _

theorem good_withRes {body : List (List Nat) → Cu Unit} (hb : ∀ res, AllEv (Good c) (body res)) (is : List Nat) (acc : List (List Nat)) :
    AllEv (Good c) (withRes c body is acc) := by
  induction is generalizing acc with
  | nil => exact .within (hb _) (good_freeAll _)
  | cons i is ih => exact .bind (.onThrow (.bind (good_setDevice i) fun _ => good_tmpArrays _ _ _ _) (good_freeAll _)) fun _ => ih _

theorem good_withParts {body : List Nat → Cu Unit} (hb : ∀ ps, AllEv (Good c) (body ps)) (js acc : List Nat) : AllEv (Good c) (withParts c body js acc) := by
  induction js generalizing acc with
  | nil => exact .within (hb _) (good_freeAll _)
  | cons j js ih =>
    exact .bind (.onThrow (good_makeArray _ _ _) (good_freeAll _)) fun _ => .bind (.onThrow (.bind (good_copyIn rfl) fun _ => good_adviseAll _ _) (good_freeAll _)) fun _ => ih _

theorem good_withStreams {body : List Nat → Cu Unit} (hb : ∀ ss, AllEv (Good c) (body ss)) (is acc : List Nat) : AllEv (Good c) (withStreams body is acc) := by
  induction is generalizing acc with
  | nil => exact .within (hb _) (good_waitDestroy _ _)
  | cons i is ih =>
    exact .bind (.onThrow (.bind (good_setDevice i) fun _ => .bind (.call fun _ _ => trivial) fun _ => .ite (.pure _) (.throw _)) (good_waitDestroy _ _)) fun _ => ih _

theorem good_body (res : List (List Nat)) : AllEv (Good c) (cudaBody c res) := by
  refine .bind (good_makeArray _ _ _) fun _ => .within ?_ (good_freeAll _)
  refine .bind (good_copyIn rfl) fun _ => .bind (good_adviseAll _ _) fun _ => good_withParts ?_ _ _
  intro ps
  refine .bind (good_makeArray _ _ _) fun _ => .within ?_ (good_freeAll _)
  refine .bind (good_copyIn rfl) fun _ => .bind (good_adviseAll _ _) fun _ =>
    .bind (.each fun i _ => .bind (good_setDevice i) fun _ => .bind (.call fun _ _ => trivial) fun _ => .ite (.pure _) (.throw _)) fun _ => ?_
  refine good_withStreams ?_ _ _
  intro ss
  refine .bind (.each ?_) fun _ => .each fun p hp => .bind (.call fun _ _ => ⟨p.2, rfl, fun hf => ?_⟩) fun _ => .ite (.pure _) (.throw _)
  · intro i _
    exact .bind (good_setDevice i) fun _ => .ite (.throw _)
      (.bind (good_castInt _) fun _ => .bind (good_castInt _) fun _ => .bind (good_castInt _) fun _ => .bind (.call fun _ _ => trivial) fun _ => .pure _)
  · obtain ⟨hp1, hp2⟩ := mem_range_pairs.1 hp
    have e1 := fits_pos hf (show p.1 ≤ c.ngpus by omega)
    unfold CuCall.off at e1 ⊢
    rw [e1, fits_loc hf hp1]
    have h1 := hf.last (p.1 + 1) (by omega)
    have h2 := off_le hf (show p.1 ≤ c.ngpus by omega)
    unfold CuCall.off at h2
    have h3 := hf.mono p.1 hp1
    omega

theorem good_cudaHost : AllEv (Good c) (cudaHost c) :=
  .bind (good_pinAll _ fun _ h => h) fun _ => .within (good_withRes good_body _ _) (good_unpinAll _)

end Good

theorem pinAll_evs (l : List (Area × Nat)) (rt : Nat → Rc) (k : Nat) :
    (∃ r, (pinAll l rt k).out = .ok r) ∧ ∀ a len, (a, len) ∈ l → ∃ rc, Ev.pin a len rc ∈ (pinAll l rt k).evs := by
  induction l generalizing k with
  | nil => exact ⟨⟨[], rfl⟩, by simp⟩
  | cons x l ih =>
    obtain ⟨a, len⟩ := x
    obtain ⟨⟨r, h2⟩, h3⟩ := ih (k + 1)
    have he : (pinAll ((a, len) :: l) rt k).evs = Ev.pin a len (rt k) :: (pinAll l rt (k + 1)).evs := by
      simp [pinAll, Cu.bind, Cu.call, h2, Cu.pure]
    rw [he]
    refine ⟨?_, ?_⟩
    · exact ⟨_, by simp [pinAll, Cu.bind, Cu.call, h2, Cu.pure]; rfl⟩
    · intro a' len' hm
      rcases List.mem_cons.1 hm with hm | hm
      · injection hm with e1 e2; rw [e1, e2]; exact ⟨_, List.mem_cons_self⟩
      · obtain ⟨rc, h⟩ := h3 _ _ hm; exact ⟨rc, List.mem_cons_of_mem _ h⟩

/-- All areas of the list are registered. -/
theorem cudaHost_pin (c : CuCall) (rt : Nat → Rc) {a : Area} {len : Nat} (ha : (a, len) ∈ c.areas) : ∃ rc, Ev.pin a len rc ∈ (cudaHost c rt 0).evs := by
  obtain ⟨⟨r, h2⟩, h3⟩ := pinAll_evs c.areas rt 0
  have he : (cudaHost c rt 0).evs = (pinAll c.areas rt 0).evs ++ (within (unpinAll r) (withRes c (cudaBody c) (List.range c.ngpus) []) rt (pinAll c.areas rt 0).k).evs := by
    simp only [cudaHost, Cu.bind, h2]
  rw [he]
  obtain ⟨rc, h⟩ := h3 _ _ ha
  exact ⟨rc, List.mem_append_left _ h⟩

end Rakau.Cuda
