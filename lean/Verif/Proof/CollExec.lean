import Verif.Proof.Coll
import Verif.Proof.Exec

/-! One particular execution of the collision graph computation, used to exhibit concrete cases beside the theorems. -/
namespace Rakau

theorem insertBy_perm (x : Nat) (l : List Nat) : (insertBy idxLt x l).Perm (x :: l) := by
  induction l with
  | nil => exact List.Perm.refl _
  | cons y l ih =>
    rw [insertBy]
    split
    · exact (ih.cons y).trans (List.Perm.swap x y l)
    · exact List.Perm.refl _

theorem insertBy_sorted {x : Nat} {l : List Nat} (h : l.Pairwise (fun a b => idxLt b a = false)) :
    (insertBy idxLt x l).Pairwise (fun a b => idxLt b a = false) := by
  induction l with
  | nil => simp [insertBy]
  | cons y l ih =>
    rw [List.pairwise_cons] at h
    rw [insertBy]
    split
    · rename_i hy
      rw [List.pairwise_cons]
      refine ⟨fun a ha => ?_, ih h.2⟩
      rcases List.mem_cons.1 ((insertBy_perm x l).mem_iff.1 ha) with rfl | ha
      · simp [idxLt] at hy ⊢; omega
      · exact h.1 a ha
    · rename_i hy
      rw [List.pairwise_cons]
      refine ⟨fun a ha => ?_, List.pairwise_cons.2 h⟩
      rcases List.mem_cons.1 ha with rfl | ha
      · simpa using hy
      · have := h.1 a ha
        simp [idxLt] at hy this ⊢; omega

theorem sortBy_nat (l : List Nat) : IsSortOf idxLt l (sortBy idxLt l) := by
  induction l with
  | nil => exact ⟨List.Perm.refl _, by simp [sortBy]⟩
  | cons x l ih => exact ⟨(insertBy_perm x _).trans (ih.1.cons x), insertBy_sorted ih.2⟩

theorem sortBy_nats (l : List (List Nat)) : List.Forall₂ (IsSortOf idxLt) l (l.map (sortBy idxLt)) := by
  induction l with
  | nil => exact .nil
  | cons x l ih => exact .cons (sortBy_nat x) ih

/-- The vectors after the pushes in list order. -/
def pushAll (ps : List (Nat × Nat)) (n : Nat) : List (List Nat) := (List.range n).map (fun i => (ps.filter (fun p => p.1 == i)).map (·.2))

theorem pushAll_pushed (ps : List (Nat × Nat)) (n : Nat) : Pushed ps (List.replicate n []) (pushAll ps n) := by
  refine ⟨by simp [pushAll], fun i h h' => ?_⟩
  simp [pushAll]

variable {K : Type} [Field K] [LinearOrder K] [FloorRing K] {A : Arith K} {simd : Option (Simd K)} {mac : Mac} {w d : Nat}

def collExec (s : TS (rakauEnv A simd mac w d)) (over : Overshift) (top : K) (ordered : Bool) (sz : List (Fl K)) :
    Except Err (List (List Nat)) :=
  match (collTasks s.tree).mapM (fun t => collParticle s over top ordered sz t.1 t.2) with
  | .error e => .error e
  | .ok adds =>
    let vadd := pushAll (((collTasks s.tree).zip adds).flatMap (fun t => t.2.map (fun l => (l, t.1.2)))) (leaves s.tree).length
    match ((leaves s.tree).zip (vadd.map (sortBy idxLt))).mapM (fun t => collLeaf s ordered sz t.1 t.2) with
    | none => .error .ub
    | some recs => .ok (((pushAll recs.flatten s.n).map (sortBy idxLt)).map uniq)

theorem coll_exec (s : TS (rakauEnv A simd mac w d)) (over : Overshift) (top : K) (ordered : Bool) (sz : List (Fl K))
    (old : List (List Nat)) : Cgraph s over top ordered sz old (collExec s over top ordered sz) := by
  unfold collExec
  cases h : (collTasks s.tree).mapM (fun t => collParticle s over top ordered sz t.1 t.2) with
  | error e =>
    obtain ⟨t, ht, he⟩ := mapM_error h
    exact .fail t.1 t.2 e ht he
  | ok adds =>
    have hf := mapM_ok_iff.1 h
    dsimp only
    cases h2 : ((leaves s.tree).zip ((pushAll (((collTasks s.tree).zip adds).flatMap (fun t => t.2.map (fun l => (l, t.1.2))))
        (leaves s.tree).length).map (sortBy idxLt))).mapM (fun t => collLeaf s ordered sz t.1 t.2) with
    | none =>
      by_cases hall : ∀ t ∈ (leaves s.tree).zip ((pushAll (((collTasks s.tree).zip adds).flatMap (fun t => t.2.map (fun l => (l, t.1.2))))
        (leaves s.tree).length).map (sortBy idxLt)), ∃ r, collLeaf s ordered sz t.1 t.2 = some r
      · obtain ⟨r, hr⟩ := mapM_some_of hall
        rw [hr] at h2; simp at h2
      · push Not at hall
        obtain ⟨t, ht, hn⟩ := hall
        rw [List.zip_map_right, List.mem_map] at ht
        obtain ⟨q, hq, rfl⟩ := ht
        refine .ub adds _ q.1 q.2 _ hf (pushAll_pushed _ _) hq (sortBy_nat q.2) ?_
        cases hc : collLeaf s ordered sz q.1 (sortBy idxLt q.2) with
        | none => rfl
        | some r => exact absurd hc (hn r)
    | some recs =>
      refine .ok adds _ _ recs (pushAll recs.flatten s.n) _ hf (pushAll_pushed _ _) (sortBy_nats _) (mapM_some_iff.1 h2) ?_ (sortBy_nats _)
      rw [cgPrepare_eq]
      exact pushAll_pushed _ _

end Rakau
