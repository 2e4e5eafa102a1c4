import Verif.Model.Coll
import Verif.Props.NodeProps
import Verif.Proof.Finite

/-! Lemmas about the collision graph. -/
namespace Rakau
open Spec

/-! ### Lists -/

theorem mem_uniq {l : List Nat} {x : Nat} : x ∈ uniq l ↔ x ∈ l := by
  induction l using uniq.induct with
  | case1 b l ih => rw [uniq, if_pos rfl, ih]; simp
  | case2 a b l h ih => rw [uniq, if_neg h, List.mem_cons, ih, List.mem_cons (a := x) (b := a)]
  | case3 l h =>
    cases l with
    | nil => rfl
    | cons a l => cases l with
      | nil => rfl
      | cons b l => exact absurd rfl (h a b l)

theorem uniq_sorted {l : List Nat} (h : l.Pairwise (· ≤ ·)) : (uniq l).Pairwise (· < ·) := by
  induction l using uniq.induct with
  | case1 b l ih => rw [uniq, if_pos rfl]; exact ih h.tail
  | case2 a b l h' ih =>
    rw [uniq, if_neg h', List.pairwise_cons]
    refine ⟨fun c hc => ?_, ih h.tail⟩
    rw [mem_uniq] at hc
    have h1 := List.rel_of_pairwise_cons h (List.mem_cons_self (a := b) (l := l))
    have h2 : b ≤ c := by
      rcases List.mem_cons.1 hc with rfl | hc
      · exact le_refl _
      · exact List.rel_of_pairwise_cons h.tail hc
    omega
  | case3 l h' =>
    cases l with
    | nil => exact .nil
    | cons a l => cases l with
      | nil => simp [uniq]
      | cons b l => exact absurd rfl (h' a b l)

theorem sort_sorted {l l' : List Nat} (h : IsSortOf idxLt l l') : l'.Pairwise (· ≤ ·) :=
  h.2.imp (fun h => by simpa [idxLt] using h)

theorem natSort_unique {l l' a b : List Nat} (hl : l.Perm l') (h : IsSortOf idxLt l a) (h' : IsSortOf idxLt l' b) : a = b :=
  List.Perm.eq_of_pairwise (fun _ _ _ _ h1 h2 => le_antisymm h1 h2) (sort_sorted h) (sort_sorted h')
    (h.1.trans (hl.trans h'.1.symm))

theorem mem_pairs {l : List Nat} {a b : Nat} (h : (a, b) ∈ pairs l) : a ∈ l ∧ b ∈ l := by
  induction l with
  | nil => simp [pairs] at h
  | cons c l ih =>
    rw [pairs, List.mem_append, List.mem_map] at h
    rcases h with ⟨x, hx, e⟩ | h
    · simp only [Prod.mk.injEq] at e; obtain ⟨rfl, rfl⟩ := e
      exact ⟨List.mem_cons_self, List.mem_cons_of_mem _ hx⟩
    · exact ⟨List.mem_cons_of_mem _ (ih h).1, List.mem_cons_of_mem _ (ih h).2⟩

theorem pairs_ne {l : List Nat} (hn : l.Nodup) {a b : Nat} (h : (a, b) ∈ pairs l) : a ≠ b := by
  induction l with
  | nil => simp [pairs] at h
  | cons c l ih =>
    rw [pairs, List.mem_append, List.mem_map] at h
    rw [List.nodup_cons] at hn
    rcases h with ⟨x, hx, e⟩ | h
    · simp only [Prod.mk.injEq] at e; obtain ⟨rfl, rfl⟩ := e
      rintro rfl; exact hn.1 hx
    · exact ih hn.2 h

theorem pairs_complete {l : List Nat} {a b : Nat} (ha : a ∈ l) (hb : b ∈ l) (hne : a ≠ b) : (a, b) ∈ pairs l ∨ (b, a) ∈ pairs l := by
  induction l with
  | nil => simp at ha
  | cons c l ih =>
    simp only [pairs, List.mem_append, List.mem_map, Prod.mk.injEq]
    rcases List.mem_cons.1 ha with e | ha'
    · rcases List.mem_cons.1 hb with e' | hb'
      · exact absurd (e.trans e'.symm) hne
      · exact .inl (.inl ⟨b, hb', e.symm, rfl⟩)
    · rcases List.mem_cons.1 hb with e' | hb'
      · exact .inr (.inl ⟨a, ha', e'.symm, rfl⟩)
      · exact (ih ha' hb').imp .inr .inr

theorem pushed_mem {ps : List (Nat × Nat)} {old new : List (List Nat)} (h : Pushed ps old new) {i x : Nat} (hi : i < new.length)
    (hi' : i < old.length) : x ∈ new[i] ↔ x ∈ old[i] ∨ (i, x) ∈ ps := by
  rw [(h.2 i hi' hi).mem_iff, List.mem_append, List.mem_map]
  constructor
  · rintro (h | ⟨p, hp, rfl⟩)
    · exact .inl h
    · rw [List.mem_filter] at hp
      have : p.1 = i := by simpa using hp.2
      exact .inr (this ▸ hp.1)
  · rintro (h | h)
    · exact .inl h
    · exact .inr ⟨(i, x), by simp [List.mem_filter, h], rfl⟩

theorem cgPrepare_eq (old : List (List Nat)) (n : Nat) : cgPrepare old n = List.replicate n [] := by
  unfold cgPrepare
  cases old with
  | nil => simp
  | cons a l =>
    simp only [List.isEmpty_cons, Bool.false_eq_true, if_false]
    apply List.ext_getElem
    · simp; omega
    · intro i h1 h2
      rw [List.getElem_map, List.getElem_replicate]

theorem forall₂_unique {α β : Type} {R : α → β → Prop} {l : List α} {a b : List β} (hR : ∀ x y z, R x y → R x z → y = z)
    (ha : List.Forall₂ R l a) (hb : List.Forall₂ R l b) : a = b := by
  induction ha generalizing b with
  | nil => cases hb; rfl
  | cons h _ ih =>
    cases hb with
    | cons h' t => rw [hR _ _ _ h h', ih t]

theorem forall₂_sort_unique {l l' a b : List (List Nat)} (hl : List.Forall₂ List.Perm l l') (ha : List.Forall₂ (IsSortOf idxLt) l a)
    (hb : List.Forall₂ (IsSortOf idxLt) l' b) : a = b := by
  induction hl generalizing a b with
  | nil => cases ha; cases hb; rfl
  | cons h _ ih =>
    cases ha with
    | cons h1 t1 => cases hb with
      | cons h2 t2 => rw [natSort_unique h h1 h2, ih t1 t2]

theorem pushed_perm {ps : List (Nat × Nat)} {old a b : List (List Nat)} (ha : Pushed ps old a) (hb : Pushed ps old b) :
    List.Forall₂ List.Perm a b := by
  apply forall₂_of_getElem (by rw [ha.1, hb.1])
  intro i h1 h2
  exact (ha.2 i (by rw [← ha.1]; exact h1) h1).trans (hb.2 i (by rw [← hb.1]; exact h2) h2).symm

theorem natSort_exists (l : List Nat) : ∃ l', IsSortOf idxLt l l' := by
  refine ⟨l.mergeSort (· ≤ ·), List.mergeSort_perm _ _, ?_⟩
  have := List.pairwise_mergeSort (le := fun (a b : Nat) => decide (a ≤ b)) (by intro a b c; simp; omega) (by intro a b; simp; omega) l
  exact this.imp (fun h => by simpa [idxLt] using h)

theorem natSorts_exist (l : List (List Nat)) : ∃ l', List.Forall₂ (IsSortOf idxLt) l l' := by
  induction l with
  | nil => exact ⟨[], .nil⟩
  | cons a l ih =>
    obtain ⟨l', h⟩ := ih
    obtain ⟨a', h'⟩ := natSort_exists a
    exact ⟨a' :: l', .cons h' h⟩

theorem pushed_exists (ps : List (Nat × Nat)) (old : List (List Nat)) : ∃ new, Pushed ps old new := by
  refine ⟨old.zipIdx.map (fun o => o.1 ++ (ps.filter (fun p => p.1 == o.2)).map (·.2)), by simp, ?_⟩
  intro i h h'
  simp

/-! ### The leaves of a reachable tree -/

/-- Numeric form of a leaf: level, code, particles. -/
structure LeafOk (d cb : Nat) (codes : List Nat) (nd : Node) : Prop where
  lev : nd.level ≤ cb
  lo : 2 ^ (nd.level * d) ≤ nd.code
  hi : nd.code < 2 ^ (nd.level * d + 1)
  ne : nd.beg < nd.fin
  fin : nd.fin ≤ codes.length
  mem : ∀ k (hk : k < codes.length), (nd.beg ≤ k ∧ k < nd.fin) ↔ codes[k] / 2 ^ ((cb - nd.level) * d) = nd.code - 2 ^ (nd.level * d)

theorem leaves_spec {env : Env} (E : EnvOk env) {s : TS env} (h : Reach env s) (hz : s.n * cbits env.w env.d < 2 ^ 64) :
    (∀ nd ∈ leaves s.tree, LeafOk env.d (cbits env.w env.d) s.codes nd) ∧
    (leaves s.tree).Pairwise (fun a b => a.fin ≤ b.beg) ∧
    (∀ k < s.n, ∃ nd ∈ leaves s.tree, nd.beg ≤ k ∧ k < nd.fin) := by
  have I := reach_inv h
  have hd := E.dim.1
  have hbound : ∀ c ∈ s.codes, c < 2 ^ (cbits env.w env.d * env.d) := codes_bound E I.codes
  have hcl := (rawCodes_spec.1 I.codes).1
  by_cases h0 : s.tree = []
  · rw [h0]
    refine ⟨by simp [leaves], by simp [leaves], ?_⟩
    intro k hk
    exfalso
    have hne : s.codes ≠ [] := by intro e; rw [e] at hcl; simp at hcl; omega
    obtain ⟨split, hb⟩ := I.built
    have B : BuildInput s.cfg s.codes := ⟨E.dim, I.sorted, hbound, by rw [hcl]; exact hz, hne⟩
    obtain ⟨ps, hlen, hr, _⟩ := C11_depth_first B hb
    rw [h0] at hlen
    have : ps = [] := List.length_eq_zero_iff.1 hlen
    rw [this] at hr; simp at hr
  · have h0' : 0 < s.tree.length := List.length_pos_iff.2 h0
    obtain ⟨_, B, ⟨split, hb⟩, _⟩ := reach_node E h hz h0'
    refine ⟨?_, ?_, ?_⟩
    · intro nd hnd
      unfold leaves at hnd
      rw [List.mem_filter] at hnd
      obtain ⟨i, hi, rfl⟩ := List.getElem_of_mem hnd.1
      obtain ⟨_, _, _, _, p, p1, p2, p3, p4, p5, p6, _, p8⟩ := reach_node E h hz hi
      refine ⟨by omega, ?_, ?_, p5, by omega, ?_⟩
      · rw [p3, p4, code_pv]; omega
      · rw [p3, p4]; exact code_lt _ _ p1
      · intro k hk
        rw [p8 k hk, inNode_iff hd p1 p2 (hbound _ (List.getElem_mem _)), p3, p4, code_pv, Nat.add_sub_cancel_left]
    · unfold leaves
      have key : s.tree.Pairwise (fun a b => a.nChildren = 0 → b.nChildren = 0 → a.fin ≤ b.beg) := by
        rw [List.pairwise_iff_getElem]
        intro i j hi hj hij h1 _
        exact build_order B hb hi hj (by omega)
      rw [List.pairwise_filter]
      exact key.imp (fun h h1 h2 => h (by simpa using h1) (by simpa using h2))
    · intro k hk
      obtain ⟨i, ⟨hi, h1, h2, h3⟩, _⟩ := C12_one_leaf B hb k (by omega)
      exact ⟨s.tree[i], by unfold leaves; rw [List.mem_filter]; exact ⟨List.getElem_mem _, by simp [h1]⟩, h2, h3⟩

section Any

variable {K : Type} [Field K] [LinearOrder K] [FloorRing K] {A : Arith K} {simd : Option (Simd K)} {mac : Mac} {w d : Nat}
  {s : TS (rakauEnv A simd mac w d)} {over : Overshift} {top : K} {ordered : Bool} {sz : List (Fl K)}

/-- If one schedule terminates normally, all do, with the same graph, whatever was in the output before. -/
theorem cgraph_unique {old old' : List (List Nat)} {g : List (List Nat)} {r : Except Err (List (List Nat))}
    (h : Cgraph s over top ordered sz old (.ok g)) (h' : Cgraph s over top ordered sz old' r) : r = .ok g := by
  generalize hg : (Except.ok g : Except Err _) = r0 at h
  cases h with
  | fail => simp at hg
  | ub => simp at hg
  | ok adds vadd svadd recs graph sgraph h1 h2 h3 h4 h5 h6 =>
    simp only [Except.ok.injEq] at hg
    subst hg
    cases h' with
    | fail lf p e hm he =>
      obtain ⟨i, hi, e1⟩ := List.getElem_of_mem hm
      have := (forall₂_getElem h1).2 i hi (by rw [← h1.length_eq]; exact hi)
      rw [e1, he] at this
      simp at this
    | ub adds' vadd' lf va sva k1 k2 k3 k4 k5 =>
      have ea : adds = adds' := forall₂_unique (fun t y z e1 e2 => by rw [e1] at e2; exact Except.ok.inj e2) h1 k1
      subst ea
      have hp := pushed_perm k2 h2
      obtain ⟨i, hi, e1⟩ := List.getElem_of_mem k3
      have hi1 : i < (leaves s.tree).length := by rw [List.length_zip] at hi; omega
      have hi2 : i < vadd'.length := by rw [List.length_zip] at hi; omega
      have hi3 : i < vadd.length := by rw [← hp.length_eq]; exact hi2
      have hi4 : i < svadd.length := by rw [← h3.length_eq]; exact hi3
      rw [List.getElem_zip, Prod.mk.injEq] at e1
      have q1 := (forall₂_getElem h3).2 i hi3 hi4
      have q2 := (forall₂_getElem hp).2 i hi2 hi3
      rw [e1.2] at q2
      have := natSort_unique q2 k4 q1
      subst this
      have hi5 : i < ((leaves s.tree).zip svadd).length := by rw [List.length_zip]; omega
      have q3 := (forall₂_getElem h4).2 i hi5 (by rw [← h4.length_eq]; exact hi5)
      rw [List.getElem_zip] at q3
      dsimp only at q3
      rw [e1.1, k5] at q3
      simp at q3
    | ok adds' vadd' svadd' recs' graph' sgraph' k1 k2 k3 k4 k5 k6 =>
      have ea : adds = adds' := forall₂_unique (fun t y z e1 e2 => by rw [e1] at e2; exact Except.ok.inj e2) h1 k1
      subst ea
      have es := forall₂_sort_unique (pushed_perm h2 k2) h3 k3
      subst es
      have er : recs = recs' := forall₂_unique (fun t y z e1 e2 => by rw [e1] at e2; exact Option.some.inj e2) h4 k4
      subst er
      rw [cgPrepare_eq] at h5 k5
      rw [forall₂_sort_unique (pushed_perm h5 k5) h6 k6]

/-- There is always an outcome. -/
theorem cgraph_exists (s : TS (rakauEnv A simd mac w d)) (over : Overshift) (top : K) (ordered : Bool) (sz : List (Fl K))
    (old : List (List Nat)) : ∃ r, Cgraph s over top ordered sz old r := by
  by_cases hf : ∃ t ∈ collTasks s.tree, ∃ e, collParticle s over top ordered sz t.1 t.2 = .error e
  · obtain ⟨t, ht, e, he⟩ := hf
    exact ⟨_, .fail t.1 t.2 e ht he⟩
  · obtain ⟨adds, hadds⟩ : ∃ adds, List.Forall₂ (fun t a => collParticle s over top ordered sz t.1 t.2 = .ok a) (collTasks s.tree) adds := by
      have key : ∀ l : List (Node × Nat), (∀ t ∈ l, t ∈ collTasks s.tree) →
          ∃ adds, List.Forall₂ (fun t a => collParticle s over top ordered sz t.1 t.2 = .ok a) l adds := by
        intro l
        induction l with
        | nil => exact fun _ => ⟨[], .nil⟩
        | cons t l ih =>
          intro hl
          obtain ⟨adds, ha⟩ := ih (fun t ht => hl t (List.mem_cons_of_mem _ ht))
          cases hc : collParticle s over top ordered sz t.1 t.2 with
          | error e => exact absurd ⟨t, hl t List.mem_cons_self, e, hc⟩ hf
          | ok a => exact ⟨a :: adds, .cons hc ha⟩
      exact key _ (fun _ h => h)
    obtain ⟨vadd, hv⟩ := pushed_exists (((collTasks s.tree).zip adds).flatMap (fun t => t.2.map (fun l => (l, t.1.2))))
        (List.replicate (leaves s.tree).length [])
    obtain ⟨svadd, hsv⟩ := natSorts_exist vadd
    by_cases hu : ∃ t ∈ (leaves s.tree).zip svadd, collLeaf s ordered sz t.1 t.2 = none
    · obtain ⟨t, ht, he⟩ := hu
      obtain ⟨i, hi, e1⟩ := List.getElem_of_mem ht
      have hi1 : i < (leaves s.tree).length := by rw [List.length_zip] at hi; omega
      have hi2 : i < svadd.length := by rw [List.length_zip] at hi; omega
      have hi3 : i < vadd.length := by rw [hsv.length_eq]; exact hi2
      rw [List.getElem_zip] at e1
      refine ⟨_, .ub adds vadd (leaves s.tree)[i] vadd[i] svadd[i] hadds hv ?_ ((forall₂_getElem hsv).2 i hi3 hi2) ?_⟩
      · have hiz : i < ((leaves s.tree).zip vadd).length := by rw [List.length_zip]; omega
        have := List.getElem_mem hiz
        rwa [List.getElem_zip] at this
      · rw [← e1] at he; exact he
    · obtain ⟨recs, hr⟩ : ∃ recs, List.Forall₂ (fun t r => collLeaf s ordered sz t.1 t.2 = some r) ((leaves s.tree).zip svadd) recs := by
        have key : ∀ l : List (Node × List Nat), (∀ t ∈ l, t ∈ (leaves s.tree).zip svadd) →
            ∃ recs, List.Forall₂ (fun t r => collLeaf s ordered sz t.1 t.2 = some r) l recs := by
          intro l
          induction l with
          | nil => exact fun _ => ⟨[], .nil⟩
          | cons t l ih =>
            intro hl
            obtain ⟨recs, ha⟩ := ih (fun t ht => hl t (List.mem_cons_of_mem _ ht))
            cases hc : collLeaf s ordered sz t.1 t.2 with
            | none => exact absurd ⟨t, hl t List.mem_cons_self, hc⟩ hu
            | some a => exact ⟨a :: recs, .cons hc ha⟩
        exact key _ (fun _ h => h)
      obtain ⟨graph, hg⟩ := pushed_exists recs.flatten (cgPrepare old s.n)
      obtain ⟨sg, hsg⟩ := natSorts_exist graph
      exact ⟨_, .ok adds vadd svadd recs graph sg hadds hv hsv hr hg hsg⟩

/-- The particles tested in leaf number `l`. -/
def InLeaf (s : TS (rakauEnv A simd mac w d)) (over : Overshift) (top : K) (ordered : Bool) (sz : List (Fl K)) (l x : Nat) : Prop :=
  ∃ nd, (leaves s.tree)[l]? = some nd ∧ (nd.beg ≤ x ∧ x < nd.fin ∨
    ∃ lf a, (lf, x) ∈ collTasks s.tree ∧ collParticle s over top ordered sz lf x = .ok a ∧ l ∈ a)

/-- Two particles (storage indices) pass the overlap test. -/
def Linked (s : TS (rakauEnv A simd mac w d)) (ordered : Bool) (sz : List (Fl K)) (a b : Nat) : Prop :=
  ∃ sa sb pa pb, aabbSize s.perm ordered sz a = some sa ∧ aabbSize s.perm ordered sz b = some sb ∧ sa.eq (.fin 0) = false ∧
    sb.eq (.fin 0) = false ∧ coordsAt d s.parts a = some pa ∧ coordsAt d s.parts b = some pb ∧ overlap A sa sb pa pb = true

omit [FloorRing K] in
theorem overlap_symm (sa sb : Fl K) (pa pb : List (Fl K)) : overlap A sa sb pa pb = overlap A sb sa pb pa := by
  unfold overlap
  induction pa generalizing pb with
  | nil => cases pb <;> rfl
  | cons x pa ih =>
    cases pb with
    | nil => rfl
    | cons y pb =>
      simp only [List.zip_cons_cons, List.all_cons]
      rw [ih]
      congr 1
      simp only [Fl.le]
      rw [Bool.and_comm]

theorem Linked.symm {a b : Nat} (h : Linked s ordered sz a b) : Linked s ordered sz b a := by
  obtain ⟨sa, sb, pa, pb, h1, h2, h3, h4, h5, h6, h7⟩ := h
  exact ⟨sb, sa, pb, pa, h2, h1, h4, h3, h6, h5, by rw [overlap_symm]; exact h7⟩

theorem mem_testPair {a b i j : Nat} {r : List (Nat × Nat)} (h : testPair s ordered sz (a, b) = some r) :
    (i, j) ∈ r ↔ Linked s ordered sz a b ∧ ((graphIdx s.perm s.n ordered a = some i ∧ graphIdx s.perm s.n ordered b = some j) ∨
      (graphIdx s.perm s.n ordered a = some j ∧ graphIdx s.perm s.n ordered b = some i)) := by
  unfold testPair at h
  unfold Linked
  cases ha : aabbSize s.perm ordered sz a with
  | none => rw [ha] at h; simp at h
  | some sa =>
    simp only [ha, bind, Option.bind] at h
    by_cases hz : sa.eq (.fin 0) = true
    · rw [if_pos hz, Option.some.injEq] at h; subst h; simp [hz]
    · rw [if_neg hz] at h
      cases hb : aabbSize s.perm ordered sz b with
      | none => rw [hb] at h; simp at h
      | some sb =>
        simp only [hb] at h
        by_cases hz' : sb.eq (.fin 0) = true
        · rw [if_pos hz', Option.some.injEq] at h; subst h; simp [hz']
        · rw [if_neg hz'] at h
          cases hpa : coordsAt d s.parts a with
          | none => rw [hpa] at h; simp at h
          | some pa => cases hpb : coordsAt d s.parts b with
            | none => rw [hpa, hpb] at h; simp at h
            | some pb =>
              simp only [hpa, hpb] at h
              by_cases ho : overlap A sa sb pa pb = true
              · rw [if_pos ho] at h
                cases hi : graphIdx s.perm s.n ordered a with
                | none => rw [hi] at h; simp at h
                | some i' => cases hj : graphIdx s.perm s.n ordered b with
                  | none => rw [hi, hj] at h; simp at h
                  | some j' =>
                    simp only [hi, hj, Option.some.injEq] at h
                    subst h
                    simp only [List.mem_cons, Prod.mk.injEq, List.not_mem_nil, or_false, Option.some.injEq]
                    simp only [Bool.not_eq_true] at hz hz'
                    constructor
                    · rintro (⟨rfl, rfl⟩ | ⟨rfl, rfl⟩)
                      · exact ⟨⟨sa, sb, pa, pb, rfl, rfl, hz, hz', rfl, rfl, ho⟩, .inl ⟨rfl, rfl⟩⟩
                      · exact ⟨⟨sa, sb, pa, pb, rfl, rfl, hz, hz', rfl, rfl, ho⟩, .inr ⟨rfl, rfl⟩⟩
                    · rintro ⟨-, (⟨rfl, rfl⟩ | ⟨rfl, rfl⟩)⟩ <;> simp
              · rw [if_neg ho, Option.some.injEq] at h; subst h; simp [ho]

theorem mem_collTasks {tree : List Node} {lf : Node} {x : Nat} : (lf, x) ∈ collTasks tree ↔ lf ∈ leaves tree ∧ lf.beg ≤ x ∧ x < lf.fin := by
  unfold collTasks
  simp only [List.mem_flatMap, List.mem_map, List.mem_range'_1, Prod.mk.injEq]
  constructor
  · rintro ⟨a, h1, b, ⟨h2, h3⟩, rfl, rfl⟩; exact ⟨h1, h2, by omega⟩
  · rintro ⟨h1, h2, h3⟩; exact ⟨lf, h1, x, ⟨h2, by omega⟩, rfl, rfl⟩

/-- Number, order and contents of the vectors of the graph. -/
theorem cgraph_edges {old : List (List Nat)} {g : List (List Nat)} (h : Cgraph s over top ordered sz old (.ok g)) :
    g.length = s.n ∧ (∀ i (hi : i < g.length), g[i].Pairwise (· < ·)) ∧
    (∀ lf p, (lf, p) ∈ collTasks s.tree → ∃ a, collParticle s over top ordered sz lf p = .ok a) ∧
    ∃ svadd : List (List Nat), svadd.length = (leaves s.tree).length ∧
      (∀ l (hl : l < svadd.length), svadd[l].Pairwise (· ≤ ·) ∧ ∀ x, x ∈ svadd[l] ↔
        ∃ lf a, (lf, x) ∈ collTasks s.tree ∧ collParticle s over top ordered sz lf x = .ok a ∧ l ∈ a) ∧
      ∀ i (hi : i < g.length) j, j ∈ g[i] ↔ ∃ l, ∃ hl : l < (leaves s.tree).length, ∃ hl' : l < svadd.length,
        ∃ a b r, (a, b) ∈ pairs (List.range' (leaves s.tree)[l].beg ((leaves s.tree)[l].fin - (leaves s.tree)[l].beg) ++ uniq svadd[l]) ∧
          testPair s ordered sz (a, b) = some r ∧ (i, j) ∈ r := by
  generalize hg : (Except.ok g : Except Err _) = r0 at h
  cases h with
  | fail => simp at hg
  | ub => simp at hg
  | ok adds vadd svadd recs graph sgraph h1 h2 h3 h4 h5 h6 =>
    simp only [Except.ok.injEq] at hg
    subst hg
    have hlen : graph.length = s.n := by rw [h5.1, cgPrepare_eq, List.length_replicate]
    have hlen' : sgraph.length = s.n := by rw [← h6.length_eq, hlen]
    have hvl : vadd.length = (leaves s.tree).length := by rw [h2.1, List.length_replicate]
    have hsl : svadd.length = (leaves s.tree).length := by rw [← h3.length_eq, hvl]
    refine ⟨by simpa using hlen', ?_, ?_, svadd, hsl, ?_, ?_⟩
    · intro i hi
      rw [List.length_map] at hi
      rw [List.getElem_map]
      exact uniq_sorted (sort_sorted ((forall₂_getElem h6).2 i (by rw [h6.length_eq]; exact hi) hi))
    · intro lf p hm
      obtain ⟨i, hi, e1⟩ := List.getElem_of_mem hm
      have := (forall₂_getElem h1).2 i hi (by rw [← h1.length_eq]; exact hi)
      rw [e1] at this
      exact ⟨_, this⟩
    · intro l hl
      have hl1 : l < vadd.length := by omega
      have hs := (forall₂_getElem h3).2 l hl1 hl
      refine ⟨sort_sorted hs, fun x => ?_⟩
      rw [hs.1.mem_iff, pushed_mem h2 hl1 (by rw [List.length_replicate]; omega), List.getElem_replicate]
      simp only [List.not_mem_nil, false_or, List.mem_flatMap, List.mem_map, Prod.mk.injEq]
      constructor
      · rintro ⟨⟨⟨lf, p⟩, a⟩, hm, l', hl', rfl, rfl⟩
        obtain ⟨i, hi, e1⟩ := List.getElem_of_mem hm
        rw [List.length_zip] at hi
        rw [List.getElem_zip, Prod.mk.injEq] at e1
        have := (forall₂_getElem h1).2 i (by omega) (by omega)
        rw [e1.1, e1.2] at this
        exact ⟨lf, a, by rw [← e1.1]; exact List.getElem_mem _, this, hl'⟩
      · rintro ⟨lf, a, hm, hc, hl'⟩
        obtain ⟨i, hi, e1⟩ := List.getElem_of_mem hm
        have hi' : i < adds.length := by rw [← h1.length_eq]; exact hi
        have := (forall₂_getElem h1).2 i hi hi'
        rw [e1] at this
        dsimp only at this
        rw [hc, Except.ok.injEq] at this
        have hz : i < ((collTasks s.tree).zip adds).length := by rw [List.length_zip]; omega
        refine ⟨((collTasks s.tree).zip adds)[i], List.getElem_mem _, l, ?_, rfl, ?_⟩
        · rw [List.getElem_zip]; dsimp only; rw [← this]; exact hl'
        · rw [List.getElem_zip]; dsimp only; rw [e1]
    · intro i hi j
      rw [List.length_map] at hi
      have hi1 : i < graph.length := by omega
      rw [List.getElem_map, mem_uniq, ((forall₂_getElem h6).2 i hi1 hi).1.mem_iff,
        pushed_mem h5 hi1 (by rw [cgPrepare_eq, List.length_replicate]; omega)]
      simp only [cgPrepare_eq, List.getElem_replicate, List.not_mem_nil, false_or, List.mem_flatten]
      constructor
      · rintro ⟨r, hr, hij⟩
        obtain ⟨l, hl, rfl⟩ := List.getElem_of_mem hr
        have hlz : l < ((leaves s.tree).zip svadd).length := by rw [h4.length_eq]; exact hl
        have hlz' := hlz
        rw [List.length_zip] at hlz'
        have q := (forall₂_getElem h4).2 l hlz hl
        rw [List.getElem_zip] at q
        refine ⟨l, by omega, by omega, ?_⟩
        unfold collLeaf at q
        dsimp only at q
        simp only [bind, Option.bind] at q
        split at q
        · simp at q
        · rename_i ps hps
          rw [Option.some.injEq] at q
          rw [← q, List.mem_flatten] at hij
          obtain ⟨r, hr, hij⟩ := hij
          obtain ⟨t, ht, rfl⟩ := List.getElem_of_mem hr
          have hf := forall₂_getElem (mapM_some_iff.1 hps)
          have ht' : t < (pairs (List.range' (leaves s.tree)[l].beg ((leaves s.tree)[l].fin - (leaves s.tree)[l].beg) ++ uniq svadd[l])).length := by
            rw [hf.1]; exact ht
          exact ⟨_, _, _, List.getElem_mem ht', hf.2 t ht' ht, hij⟩
      · rintro ⟨l, hl, hl', a, b, r, hp, hr, hij⟩
        have hlz : l < ((leaves s.tree).zip svadd).length := by rw [List.length_zip]; omega
        have hlr : l < recs.length := by rw [← h4.length_eq]; exact hlz
        have q := (forall₂_getElem h4).2 l hlz hlr
        rw [List.getElem_zip] at q
        refine ⟨recs[l], List.getElem_mem _, ?_⟩
        unfold collLeaf at q
        dsimp only at q
        simp only [bind, Option.bind] at q
        split at q
        · simp at q
        · rename_i ps hps
          rw [Option.some.injEq] at q
          rw [← q, List.mem_flatten]
          obtain ⟨t, ht, e⟩ := List.getElem_of_mem hp
          have hf := forall₂_getElem (mapM_some_iff.1 hps)
          have ht' : t < ps.length := by rw [← hf.1]; exact ht
          have := hf.2 t ht ht'
          rw [e, hr, Option.some.injEq] at this
          exact ⟨ps[t], List.getElem_mem _, by rw [← this]; exact hij⟩

theorem graphIdx_some {perm : List Nat} {n i j : Nat} (h : graphIdx perm n ordered i = some j) :
    j < n ∧ (if ordered then perm[i]? else some i) = some j := by
  unfold graphIdx at h
  cases hp : (if ordered then perm[i]? else some i) with
  | none => rw [hp] at h; simp at h
  | some k =>
    rw [hp] at h
    simp only [Option.bind] at h
    split at h
    · simp only [Option.some.injEq] at h; subst h; exact ⟨by assumption, rfl⟩
    · simp at h

theorem adds_leaf {lf : Node} {x l : Nat} {a : List Nat} (h : collParticle s over top ordered sz lf x = .ok a) (hl : l ∈ a) :
    ∃ nd, (leaves s.tree)[l]? = some nd ∧ nd.code ≠ lf.code := by
  unfold collParticle at h
  simp only [bind, Except.bind] at h
  repeat' (split at h)
  all_goals first
    | (simp at h; done)
    | (simp only [Except.ok.injEq] at h; subst h; first | (simp at hl; done) | skip)
  rw [List.mem_flatMap] at hl
  obtain ⟨c, _, hc⟩ := hl
  cases c with
  | none => simp [coverAdds] at hc
  | some be =>
    obtain ⟨b, e⟩ := be
    simp only [coverAdds, List.mem_filter] at hc
    cases hnd : (leaves s.tree)[l]? with
    | none => rw [hnd] at hc; simp at hc
    | some nd => rw [hnd] at hc; exact ⟨nd, rfl, by simpa using hc.2⟩

/-- The graph of a reachable tree: the pairs of particles tested together that overlap. -/
theorem cgraph_iff (E : EnvOk (rakauEnv A simd mac w d)) (hr : Reach (rakauEnv A simd mac w d) s) (hz : s.n * cbits w d < 2 ^ 64)
    {old : List (List Nat)} {g : List (List Nat)} (h : Cgraph s over top ordered sz old (.ok g)) {i : Nat} (hi : i < g.length) (j : Nat) :
    j ∈ g[i] ↔ ∃ l a b, InLeaf s over top ordered sz l a ∧ InLeaf s over top ordered sz l b ∧ a ≠ b ∧
      graphIdx s.perm s.n ordered a = some i ∧ graphIdx s.perm s.n ordered b = some j ∧ Linked s ordered sz a b := by
  obtain ⟨h1, h2, h3, svadd, h4, h5, h6⟩ := cgraph_edges h
  obtain ⟨L1, L2, L3⟩ := leaves_spec E hr hz
  have hmem : ∀ l (hl : l < (leaves s.tree).length) (hl' : l < svadd.length) x,
      x ∈ List.range' (leaves s.tree)[l].beg ((leaves s.tree)[l].fin - (leaves s.tree)[l].beg) ++ uniq svadd[l] ↔
        InLeaf s over top ordered sz l x := by
    intro l hl hl' x
    unfold InLeaf
    rw [List.mem_append, mem_uniq, (h5 l hl').2, List.mem_range'_1, List.getElem?_eq_getElem hl]
    simp only [Option.some.injEq, exists_eq_left']
    have := (L1 _ (List.getElem_mem hl)).ne
    rw [Nat.add_sub_cancel' this.le]
  have hnd : ∀ l (hl : l < (leaves s.tree).length) (hl' : l < svadd.length),
      (List.range' (leaves s.tree)[l].beg ((leaves s.tree)[l].fin - (leaves s.tree)[l].beg) ++ uniq svadd[l]).Nodup := by
    intro l hl hl'
    rw [List.nodup_append]
    refine ⟨List.nodup_range', (uniq_sorted (h5 l hl').1).imp (fun h => h.ne), ?_⟩
    rintro x hx y hy rfl
    rw [List.mem_range'_1] at hx
    rw [mem_uniq, (h5 l hl').2] at hy
    obtain ⟨lf, a, q1, q2, q3⟩ := hy
    obtain ⟨q4, q5, q6⟩ := mem_collTasks.1 q1
    obtain ⟨nd, q7, q8⟩ := adds_leaf q2 q3
    rw [List.getElem?_eq_getElem hl, Option.some.injEq] at q7
    obtain ⟨m, hm, rfl⟩ := List.getElem_of_mem q4
    rcases lt_trichotomy l m with hlm | rfl | hlm
    · have := List.pairwise_iff_getElem.1 L2 l m hl hm hlm; omega
    · exact q8 (by rw [← q7])
    · have := List.pairwise_iff_getElem.1 L2 m l hm hl hlm; omega
  rw [h6 i hi j]
  constructor
  · rintro ⟨l, hl, hl', a, b, r, hp, ht, hij⟩
    have hm := mem_pairs hp
    rw [hmem l hl hl', hmem l hl hl'] at hm
    have hne := pairs_ne (hnd l hl hl') hp
    obtain ⟨k1, k2 | k2⟩ := (mem_testPair ht).1 hij
    · exact ⟨l, a, b, hm.1, hm.2, hne, k2.1, k2.2, k1⟩
    · exact ⟨l, b, a, hm.2, hm.1, hne.symm, k2.2, k2.1, k1.symm⟩
  · rintro ⟨l, a, b, ha, hb, hne, ga, gb, hL⟩
    have hl : l < (leaves s.tree).length := by
      obtain ⟨nd, hnd, _⟩ := ha
      exact (List.getElem?_eq_some_iff.1 hnd).1
    have hl' : l < svadd.length := by omega
    have key : ∀ a b, Linked s ordered sz a b → (graphIdx s.perm s.n ordered a).isSome → (graphIdx s.perm s.n ordered b).isSome →
        ∃ r, testPair s ordered sz (a, b) = some r := by
      rintro a b ⟨sa, sb, pa, pb, k1, k2, k3, k4, k5, k6, k7⟩ g1 g2
      obtain ⟨i', hi'⟩ := Option.isSome_iff_exists.1 g1
      obtain ⟨j', hj'⟩ := Option.isSome_iff_exists.1 g2
      unfold testPair
      simp only [bind, Option.bind, k1, k2, k3, k4, k5, k6, k7, hi', hj']
      simp
    rcases pairs_complete ((hmem l hl hl' a).2 ha) ((hmem l hl hl' b).2 hb) hne with hp | hp
    · obtain ⟨r, hr⟩ := key a b hL (by rw [ga]; rfl) (by rw [gb]; rfl)
      exact ⟨l, hl, hl', a, b, r, hp, hr, (mem_testPair hr).2 ⟨hL, .inl ⟨ga, gb⟩⟩⟩
    · obtain ⟨r, hr⟩ := key b a hL.symm (by rw [gb]; rfl) (by rw [ga]; rfl)
      exact ⟨l, hl, hl', b, a, r, hp, hr, (mem_testPair hr).2 ⟨hL.symm, .inr ⟨gb, ga⟩⟩⟩

end Any

end Rakau
