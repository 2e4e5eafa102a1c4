import Verif.Model.Buffers
import Verif.Proof.Overloads

/-! The force computation on the vectors of a thread, whatever they contain. -/
set_option linter.unusedSectionVars false

namespace Rakau
open Spec

variable {K α β : Type}

/-- A computation ends with `post`, with all its requests for memory successful; or the last request fails. -/
def Run (H : Heap K) (x : BM K α) (t : Thr K) (post : α → Bufs K → Prop) : Prop :=
  (∃ a t', x t = (.ok a, t') ∧ t.count ≤ t'.count ∧ post a t'.bufs) ∨
    ∃ t', x t = (.error .badAlloc, t') ∧ t.count < t'.count ∧ H.fails (t'.count - 1) = true

namespace Run
variable {H : Heap K} {t : Thr K}

theorem pure {a : α} {post : α → Bufs K → Prop} (h : post a t.bufs) : Run H (pure a : BM K α) t post := .inl ⟨a, t, rfl, le_refl _, h⟩

theorem bind {x : BM K α} {f : α → BM K β} {P : α → Bufs K → Prop} {Q : β → Bufs K → Prop} (h : Run H x t P)
    (hf : ∀ a t', P a t'.bufs → Run H (f a) t' Q) : Run H (x >>= f) t Q := by
  rcases h with ⟨a, t', h1, h2, h3⟩ | ⟨t', h1, h2, h3⟩
  · have e : (x >>= f) t = f a t' := by show BM.bind x f t = _; unfold BM.bind; rw [h1]
    rcases hf a t' h3 with ⟨b, u, g1, g2, g3⟩ | ⟨u, g1, g2, g3⟩
    · exact .inl ⟨b, u, e.trans g1, h2.trans g2, g3⟩
    · exact .inr ⟨u, e.trans g1, by omega, g3⟩
  · refine .inr ⟨t', ?_, h2, h3⟩
    show BM.bind x f t = _
    unfold BM.bind; rw [h1]

theorem mono {x : BM K α} {P Q : α → Bufs K → Prop} (h : Run H x t P) (hpq : ∀ a b, P a b → Q a b) : Run H x t Q := by
  rcases h with ⟨a, t', h1, h2, h3⟩ | h
  · exact .inl ⟨a, t', h1, h2, hpq _ _ h3⟩
  · exact .inr h

theorem ub {o : Option α} {a : α} (ho : o = some a) {P : α → Bufs K → Prop} (h : P a t.bufs) : Run H (BM.ub o) t P := by
  subst ho; exact .inl ⟨a, t, rfl, le_refl _, h⟩

/-- A defined operation, then the rest. -/
theorem ubBind {o : Option α} {a : α} (ho : o = some a) {f : α → BM K β} {Q : β → Bufs K → Prop} (h : Run H (f a) t Q) : Run H (BM.ub o >>= f) t Q := by
  subst ho; exact h

theorem bufsBind {f : Bufs K → BM K β} {Q : β → Bufs K → Prop} (h : Run H (f t.bufs) t Q) : Run H (BM.bufs >>= f) t Q := h

theorem setBind {g : Bufs K → Bufs K} {f : Unit → BM K β} {Q : β → Bufs K → Prop} (h : Run H (f ()) { t with bufs := g t.bufs } Q) :
    Run H (BM.set g >>= f) t Q := h

theorem set {g : Bufs K → Bufs K} {Q : Unit → Bufs K → Prop} (h : Q () (g t.bufs)) : Run H (BM.set g) t Q := .inl ⟨(), _, rfl, le_refl _, h⟩

/-- A loop with an invariant. -/
theorem each {f : Nat → BM K Unit} {n : Nat} (I : Nat → Bufs K → Prop) (h0 : I 0 t.bufs)
    (hf : ∀ j < n, ∀ t', I j t'.bufs → Run H (f j) t' (fun _ b => I (j + 1) b)) : Run H (BM.each f (List.range n)) t (fun _ b => I n b) := by
  have key : ∀ k m, m + k = n → ∀ t : Thr K, I m t.bufs → Run H (BM.each f (List.range' m k)) t (fun _ b => I n b) := by
    intro k
    induction k with
    | zero =>
      intro m hm t ht
      have : m = n := by omega
      subst this
      exact Run.pure (a := ()) ht
    | succ k ih =>
      intro m hm t ht
      rw [List.range'_succ]
      exact Run.bind (hf m (by omega) t ht) (fun _ t' h => ih (m + 1) (by omega) t' h)
  rw [List.range_eq_range']
  exact key n 0 (by omega) t h0

end Run

/-- The vector has the requested length afterwards, and the other vectors are as before. -/
theorem run_resize (H : Heap K) (n : Nat) (v : List (Fl K)) (t : Thr K) :
    Run H (resize H n v) t (fun u b => u.length = n ∧ b = t.bufs) := by
  by_cases h : n ≤ v.length
  · exact .inl ⟨v.take n, t, by unfold resize; rw [if_pos h], le_refl _, by simpa using h, rfl⟩
  · by_cases hf : H.fails t.count = true
    · exact .inr ⟨{ t with count := t.count + 1 }, by unfold resize; rw [if_neg h, if_pos hf], by simp, by simpa using hf⟩
    · exact .inl ⟨_, { t with count := t.count + 1 }, by unfold resize; rw [if_neg h, if_neg hf], by simp, by simp; omega, rfl⟩

theorem mapM_arr {n : Nat} {g : Nat → β} {f : Nat → Option β} (h : ∀ i < n, f i = some (g i)) : (List.range n).mapM f = some (Arr n g) := by
  rw [mapM_some_iff]
  apply forall₂_of_getElem (by simp)
  intro i h1 h2
  simp only [List.getElem_range, List.getElem_map]
  exact h i (by simpa using h1)

theorem mapM_arr_inv {n : Nat} {g : Nat → β} {f : Nat → Option β} (h : (List.range n).mapM f = some (Arr n g)) : ∀ i < n, f i = some (g i) := by
  rw [mapM_some_iff] at h
  intro i hi
  have := List.Forall₂.get h (i := i) (by simpa using hi) (by simpa using hi)
  simpa using this

section
variable [Field K] [LinearOrder K]

/-- The result with the components that were asked for. -/
def norm (Q : Quant) (d : Nat) (r : Res K) : Res K :=
  ⟨if Q = .pot then [] else Arr d (fun j => r.acc.getD j .nan), if Q = .acc then [] else [r.pot.getD 0 .nan]⟩

theorem norm_shape {Q : Quant} {d : Nat} {r : Res K} (h : Shape Q d r) : norm Q d r = r := by
  obtain ⟨h1, h2⟩ := h
  obtain ⟨acc, pot⟩ := r
  simp only at h1 h2
  unfold norm
  simp only [Res.mk.injEq]
  constructor
  · split
    · rename_i hq
      rw [if_pos hq] at h1
      exact (List.eq_nil_of_length_eq_zero h1).symm
    · rename_i hq
      rw [if_neg hq] at h1
      rw [← h1]; exact (list_eq_arr _ _).symm
  · split
    · rename_i hq
      rw [if_pos hq] at h2
      exact (List.eq_nil_of_length_eq_zero h2).symm
    · rename_i hq
      rw [if_neg hq] at h2
      match pot, h2 with
      | [x], _ => rfl

theorem shape_norm (Q : Quant) (d : Nat) (r : Res K) : Shape Q d (norm Q d r) := by
  unfold Shape norm
  cases Q <;> simp

/-- The target data in the first `n` elements. -/
def HT (d n : Nat) (p : Nat → Pt K) (b : Bufs K) : Prop := (b.tgt 0).length = n ∧ rowsOf n (ptRow d b.tgt) = some (Arr n p)

/-- The results in the first `n` elements. -/
def HR (Q : Quant) (d n : Nat) (g : Nat → Res K) (b : Bufs K) : Prop := rowsOf n (resRow Q d (b.res Q)) = some (Arr n g)

theorem resRow_shape {Q : Quant} {d : Nat} {cols : Cols K} {i : Nat} {r : Res K} (h : resRow Q d cols i = some r) : Shape Q d r := by
  unfold resRow at h
  simp only [Option.bind_eq_bind, Option.bind_eq_some_iff] at h
  obtain ⟨acc, h1, pot, h2, h3⟩ := h
  simp only [Option.some.injEq] at h3
  subst h3
  constructor
  · simp only
    split at h1
    · rename_i hq; rw [if_pos hq]; simp only [Option.some.injEq] at h1; rw [← h1]; rfl
    · rename_i hq
      rw [if_neg hq]
      rw [mapM_some_iff] at h1
      simpa using h1.length_eq.symm
  · simp only
    split at h2
    · rename_i hq; rw [if_pos hq]; simp only [Option.some.injEq] at h2; rw [← h2]; rfl
    · rename_i hq
      rw [if_neg hq]
      simp only [Option.map_eq_some_iff] at h2
      obtain ⟨x, _, h2⟩ := h2
      rw [← h2]; rfl

theorem HR.shape {Q : Quant} {d n : Nat} {g : Nat → Res K} {b : Bufs K} (h : HR Q d n g b) {a : Nat} (ha : a < n) : Shape Q d (g a) :=
  resRow_shape (mapM_arr_inv h a ha)

theorem HR.congr {Q : Quant} {d n : Nat} {g g' : Nat → Res K} {b : Bufs K} (h : HR Q d n g b) (hg : ∀ a < n, g a = g' a) : HR Q d n g' b := by
  unfold HR at *
  rw [h, arr_ext hg]

/-- Reading back results. -/
theorem putRes_rows (Q : Quant) (d n : Nat) (g : Nat → Res K) (cols : Cols K) :
    rowsOf n (resRow Q d (putRes Q d (Arr n g) cols)) = some (Arr n (fun a => norm Q d (g a))) := by
  apply mapM_arr
  intro i hi
  unfold resRow
  have h1 : (if Q = .pot then some [] else (List.range d).mapM (fun j => (putRes Q d (Arr n g) cols j)[i]?)) =
      some (norm Q d (g i)).acc := by
    unfold norm
    by_cases hq : Q = .pot
    · simp [hq]
    · rw [if_neg hq, if_neg hq]
      apply mapM_arr
      intro j hj
      unfold putRes
      rw [if_pos ⟨hq, hj⟩, map_arr, arr_get hi]
  have h2 : (if Q = .acc then some [] else (putRes Q d (Arr n g) cols (potIdx Q d))[i]?.map (fun x => [x])) = some (norm Q d (g i)).pot := by
    unfold norm
    by_cases hq : Q = .acc
    · simp [hq]
    · rw [if_neg hq, if_neg hq]
      unfold putRes
      rw [if_neg (by unfold potIdx; intro h; rw [if_neg h.1] at h; omega), if_pos ⟨hq, rfl⟩, map_arr, arr_get hi]
      rfl
  rw [h1, h2]
  rfl

variable {c : Force K} {H : Heap K} {t : Thr K}

/-- An update of the results. -/
theorem run_updRes {n : Nat} {p : Nat → Pt K} {g g' : Nat → Res K} {f : List (Pt K) → List (Res K) → Option (List (Res K))}
    (ht : HT c.d n p t.bufs) (hr : HR c.Q c.d n g t.bufs) (hf : f (Arr n p) (Arr n g) = some (Arr n g')) :
    Run H (c.updRes n f) t (fun _ b => HT c.d n p b ∧ HR c.Q c.d n (fun a => norm c.Q c.d (g' a)) b) := by
  unfold Force.updRes
  refine Run.bufsBind (Run.ubBind ht.2 (Run.ubBind hr (Run.ubBind hf (Run.set ⟨ht, ?_⟩))))
  unfold HR
  simp only [if_true]
  exact putRes_rows _ _ _ _ _

/-! ### The acceptance check -/

/-- The component of the temporary data in vector `j`. -/
def tcol (Q : Quant) (d : Nat) (u : List (Fl K) × Dist K) (j : Nat) : Fl K :=
  if Q = .pot then u.2.dist else if j < d then u.1.getD j .nan else if j = d then u.2.dist3 else u.2.dist

/-- The vectors for the temporary data have `n` elements, and the first `m` of them are right. -/
def TC (Q : Quant) (d n m : Nat) (u : Nat → List (Fl K) × Dist K) (cols : Cols K) : Prop :=
  ∀ j < nvecsTmp Q d, ∃ g, cols j = Arr n g ∧ ∀ i < m, g i = tcol Q d (u i) j

theorem storeCol_arr {cols : Cols K} {j n k b : Nat} {g h : Nat → Fl K} (hc : cols j = Arr n g) (hk : k + b ≤ n) :
    storeCol cols j k (Arr b h) = some (setCol cols j (Arr n (fun i => if k ≤ i ∧ i < k + b then h (i - k) else g i))) := by
  unfold storeCol
  rw [hc, storeB_arr hk]; rfl

theorem setCol_same (cols : Cols K) (j : Nat) (v : List (Fl K)) : setCol cols j v j = v := if_pos rfl
theorem setCol_other (cols : Cols K) {j x : Nat} (v : List (Fl K)) (h : x ≠ j) : setCol cols j v x = cols x := if_neg h

/-- The vectors have `n` elements. -/
def TL (Q : Quant) (d n : Nat) (cols : Cols K) : Prop := ∀ j < nvecsTmp Q d, ∃ g, cols j = Arr n g

/-- Storing one batch of a vector: the other vectors are unchanged, the vector has the new values in the batch and the old ones elsewhere. -/
structure Stored (n k b : Nat) (js : Nat → Prop) (h : Nat → Nat → Fl K) (cols cols' : Cols K) : Prop where
  other : ∀ j, ¬ js j → cols' j = cols j
  same : ∀ j, js j → ∀ g, cols j = Arr n g → cols' j = Arr n (fun i => if k ≤ i ∧ i < k + b then h j (i - k) else g i)

theorem storeDiffs_ok {Q : Quant} {d n k b : Nat} (hk : k + b ≤ n) (u : Nat → List (Fl K) × Dist K) {cols : Cols K} (hc : TL Q d n cols) :
    ∃ cols', storeDiffs Q d k (Arr b u) cols = some cols' ∧ Stored n k b (fun j => Q ≠ .pot ∧ j < d) (fun j l => tcol Q d (u l) j) cols cols' := by
  unfold storeDiffs
  by_cases hq : Q = .pot
  · rw [if_pos hq]
    exact ⟨cols, rfl, fun _ _ => rfl, fun j hj => absurd hq hj.1⟩
  · rw [if_neg hq]
    have key : ∀ m ≤ d, ∃ cols', (List.range m).foldlM (fun cols j => storeCol cols j k ((Arr b u).map (fun u => u.1.getD j .nan))) cols = some cols' ∧
        Stored n k b (fun j => j < m) (fun j l => tcol Q d (u l) j) cols cols' := by
      intro m
      induction m with
      | zero => intro _; exact ⟨cols, rfl, fun _ _ => rfl, fun j hj => absurd hj (Nat.not_lt_zero _)⟩
      | succ m ih =>
        intro hm
        obtain ⟨c1, h1, h2⟩ := ih (by omega)
        obtain ⟨g, hg⟩ := hc m (by cases Q <;> simp [nvecsTmp] at hq ⊢ <;> omega)
        have hg1 : c1 m = Arr n g := by rw [h2.other m (by omega), hg]
        refine ⟨setCol c1 m (Arr n (fun i => if k ≤ i ∧ i < k + b then tcol Q d (u (i - k)) m else g i)), ?_, ?_, ?_⟩
        · rw [List.range_eq_range', foldlM_option_append, ← List.range_eq_range', h1, Option.bind_some, Nat.zero_add, map_arr, storeCol_arr hg1 hk]
          congr 2
          apply arr_ext
          intro i _
          unfold tcol
          rw [if_neg hq, if_pos (show m < d by omega)]
        · intro j hj
          rw [setCol_other _ _ (by omega), h2.other j (by omega)]
        · intro j hj g' hg'
          by_cases e : j = m
          · subst e
            rw [setCol_same]
            rw [hg] at hg'
            apply arr_ext
            intro i hi
            have := congrArg (fun l => l[i]?) hg'
            simp only [arr_get hi, Option.some.injEq] at this
            rw [this]
          · rw [setCol_other _ _ e, h2.same j (by omega) g' hg']
    obtain ⟨cols', h1, h2⟩ := key d (le_refl _)
    exact ⟨cols', h1, fun j hj => h2.other j (fun h => hj ⟨hq, h⟩), fun j hj => h2.same j hj.2⟩

theorem storeDists_ok {Q : Quant} {d n k b : Nat} (hk : k + b ≤ n) (u : Nat → List (Fl K) × Dist K) {cols : Cols K} (hc : TL Q d n cols) :
    ∃ cols', storeDists Q d k (Arr b u) cols = some cols' ∧
      Stored n k b (fun j => j < nvecsTmp Q d ∧ ¬ (Q ≠ .pot ∧ j < d)) (fun j l => tcol Q d (u l) j) cols cols' := by
  have uniq : ∀ {v : List (Fl K)} {g g' : Nat → Fl K}, v = Arr n g → v = Arr n g' → ∀ i < n, g i = g' i := by
    intro v g g' h1 h2 i hi
    have := congrArg (fun l => l[i]?) (h1.symm.trans h2)
    simpa only [arr_get hi, Option.some.injEq] using this
  unfold storeDists
  cases Q with
  | pot =>
    obtain ⟨g, hg⟩ := hc 0 (by simp [nvecsTmp])
    refine ⟨setCol cols 0 (Arr n (fun i => if k ≤ i ∧ i < k + b then (u (i - k)).2.dist else g i)), ?_, ?_, ?_⟩
    · simp only [Option.bind_eq_bind, Option.bind_some, distIdx, if_true, reduceCtorEq, if_false]
      rw [map_arr, storeCol_arr hg hk]
    · intro j hj
      apply setCol_other
      intro e
      exact hj ⟨by simp [nvecsTmp, e], by simp⟩
    · intro j hj g' hg'
      have e : j = 0 := by have := hj.1; simp [nvecsTmp] at this; exact this
      subst e
      rw [setCol_same]
      apply arr_ext
      intro i hi
      rw [uniq hg hg' i hi]
      simp [tcol]
  | acc =>
    obtain ⟨g, hg⟩ := hc d (by simp [nvecsTmp])
    refine ⟨setCol cols d (Arr n (fun i => if k ≤ i ∧ i < k + b then (u (i - k)).2.dist3 else g i)), ?_, ?_, ?_⟩
    · simp only [if_true, reduceCtorEq, if_false]
      rw [map_arr, storeCol_arr hg hk]
      rfl
    · intro j hj
      apply setCol_other
      intro e
      exact hj ⟨by simp [nvecsTmp, e], by simp [e]⟩
    · intro j hj g' hg'
      have e : j = d := by have := hj.1; have := hj.2; simp [nvecsTmp] at *; omega
      subst e
      rw [setCol_same]
      apply arr_ext
      intro i hi
      rw [uniq hg hg' i hi]
      simp [tcol]
  | both =>
    obtain ⟨g, hg⟩ := hc d (by simp [nvecsTmp])
    obtain ⟨g1, hg1⟩ := hc (d + 1) (by simp [nvecsTmp])
    refine ⟨setCol (setCol cols d (Arr n (fun i => if k ≤ i ∧ i < k + b then (u (i - k)).2.dist3 else g i))) (distIdx .both d)
      (Arr n (fun i => if k ≤ i ∧ i < k + b then (u (i - k)).2.dist else g1 i)), ?_, ?_, ?_⟩
    · simp only [reduceCtorEq, if_false]
      rw [map_arr, storeCol_arr hg hk]
      simp only [Option.bind_eq_bind, Option.bind_some]
      rw [map_arr, storeCol_arr (g := g1) (by unfold distIdx; rw [if_neg (by decide), setCol_other _ _ (by omega), hg1]) hk]
    · intro j hj
      have e1 : j ≠ d := fun e => hj ⟨by simp [nvecsTmp, e], by simp [e]⟩
      have e2 : j ≠ d + 1 := fun e => hj ⟨by simp [nvecsTmp, e], by simp [e]⟩
      rw [setCol_other _ _ (by simpa [distIdx] using e2), setCol_other _ _ e1]
    · intro j hj g' hg'
      have e : j = d ∨ j = d + 1 := by have := hj.1; have := hj.2; simp [nvecsTmp] at *; omega
      rcases e with e | e
      · subst e
        rw [setCol_other _ _ (by simp [distIdx]), setCol_same]
        apply arr_ext
        intro i hi
        rw [uniq hg hg' i hi]
        simp [tcol]
      · subst e
        rw [show distIdx .both d = d + 1 from rfl, setCol_same]
        apply arr_ext
        intro i hi
        rw [uniq hg1 hg' i hi]
        simp [tcol]

/-- The stores of a batch extend the part that is right. -/
theorem TC.extend {Q : Quant} {d n m b : Nat} {u : Nat → List (Fl K) × Dist K} {cols c1 c2 : Cols K} (h : TC Q d n (m * b) u cols)
    (h1 : Stored n (m * b) b (fun j => Q ≠ .pot ∧ j < d) (fun j l => tcol Q d (u (m * b + l)) j) cols c1)
    (h2 : Stored n (m * b) b (fun j => j < nvecsTmp Q d ∧ ¬ (Q ≠ .pot ∧ j < d)) (fun j l => tcol Q d (u (m * b + l)) j) c1 c2) :
    TC Q d n ((m + 1) * b) u c2 := by
  intro j hj
  obtain ⟨g, hg, hgi⟩ := h j hj
  refine ⟨fun i => if m * b ≤ i ∧ i < m * b + b then tcol Q d (u (m * b + (i - m * b))) j else g i, ?_, ?_⟩
  · by_cases hd : Q ≠ .pot ∧ j < d
    · rw [h2.other j (fun h => h.2 hd), h1.same j hd g hg]
    · exact h2.same j ⟨hj, hd⟩ g (by rw [h1.other j hd, hg])
  · intro i hi
    rw [Nat.succ_mul] at hi
    by_cases e : m * b ≤ i
    · simp only
      rw [if_pos ⟨e, hi⟩, Nat.add_sub_cancel' e]
    · simp only
      rw [if_neg (fun h => e h.1), hgi i (by omega)]

theorem TC.len {Q : Quant} {d n m : Nat} {u : Nat → List (Fl K) × Dist K} {cols : Cols K} (h : TC Q d n m u cols) : TL Q d n cols :=
  fun j hj => let ⟨g, hg, _⟩ := h j hj; ⟨g, hg⟩

theorem Stored.len {Q : Quant} {d n k b : Nat} {js : Nat → Prop} {h : Nat → Nat → Fl K} {cols cols' : Cols K} (hs : Stored n k b js h cols cols')
    (hc : TL Q d n cols) : TL Q d n cols' := by
  intro j hj
  obtain ⟨g, hg⟩ := hc j hj
  by_cases e : js j
  · exact ⟨_, hs.same j e g hg⟩
  · exact ⟨g, by rw [hs.other j e, hg]⟩

theorem any_batch {b m : Nat} {p : Nat → Pt K} {fails : Pt K → Bool} (h : ∀ i < m * b, fails (p i) = false) :
    (Arr b (fun l => p (m * b + l))).any fails = true ↔ ¬ ∀ i < (m + 1) * b, fails (p i) = false := by
  rw [List.any_eq_true]
  constructor
  · rintro ⟨x, hx, hf⟩ hall
    obtain ⟨l, hl, rfl⟩ := List.mem_map.1 hx
    have hl := List.mem_range.1 hl
    rw [hall (m * b + l) (by rw [Nat.succ_mul]; omega)] at hf
    exact absurd hf (by decide)
  · intro hall
    by_contra hno
    apply hall
    intro i hi
    by_cases h' : i < m * b
    · exact h i h'
    · rw [Nat.succ_mul] at hi
      by_contra hf
      exact hno ⟨p i, List.mem_map.2 ⟨i - m * b, List.mem_range.2 (by omega), by rw [Nat.add_sub_cancel' (by omega)]⟩, by simpa using hf⟩

/-- The acceptance loop on vectors with any contents. -/
theorem macLoopB_ok {fails : Pt K → Bool} {tmp : Pt K → List (Fl K) × Dist K} {vec : Bool} {Q : Quant} {d b size n : Nat} (hb : 0 < b)
    (hn : size + (b - 1) ≤ n) (p : Nat → Pt K) {cols : Cols K} (hc : TL Q d n cols) :
    ∃ cols', macLoopB fails tmp vec Q d b size (Arr n p) cols = some (decide (∀ i < steps size b * b, fails (p i) = false), cols') ∧
      ((∀ i < steps size b * b, fails (p i) = false) → TC Q d n (steps size b * b) (fun i => tmp (p i)) cols') := by
  unfold macLoopB
  suffices h : ∀ m ≤ steps size b, ∃ cols', (List.range m).foldlM (macStepB fails tmp vec Q d b (Arr n p)) (true, cols) =
      some (decide (∀ i < m * b, fails (p i) = false), cols') ∧
      ((∀ i < m * b, fails (p i) = false) → TC Q d n (m * b) (fun i => tmp (p i)) cols') from h _ (le_refl _)
  intro m
  induction m with
  | zero =>
    intro _
    refine ⟨cols, by simp, fun _ j hj => ?_⟩
    obtain ⟨g, hg⟩ := hc j hj
    exact ⟨g, hg, fun i hi => by omega⟩
  | succ m ih =>
    intro hm
    obtain ⟨c1, h1, h2⟩ := ih (by omega)
    rw [List.range_eq_range', foldlM_option_append, ← List.range_eq_range', h1, Option.bind_some, Nat.zero_add]
    by_cases hall : ∀ i < m * b, fails (p i) = false
    · have hT := h2 hall
      have hroom := batch_room hb hn (t := m) (by omega)
      unfold macStepB
      rw [decide_eq_true hall]
      simp only [Bool.true_eq_false, if_false]
      rw [loadB_arr hroom]
      simp only [Option.bind_eq_bind, Option.bind_some]
      rw [map_arr]
      obtain ⟨c2, s1, s2⟩ := storeDiffs_ok hroom (fun l => tmp (p (m * b + l))) hT.len
      obtain ⟨c3, s3, s4⟩ := storeDists_ok hroom (fun l => tmp (p (m * b + l))) (s2.len hT.len)
      by_cases hf : (Arr b (fun l => p (m * b + l))).any fails = true
      · have hno := (any_batch hall).1 hf
        rw [decide_eq_false hno]
        cases vec with
        | true =>
          simp only [if_true, Option.bind_some]
          rw [if_pos hf]
          exact ⟨c1, rfl, fun h => absurd h hno⟩
        | false =>
          simp only [Bool.false_eq_true, if_false]
          rw [s1, Option.bind_some, if_pos hf]
          exact ⟨c2, rfl, fun h => absurd h hno⟩
      · have hyes : ∀ i < (m + 1) * b, fails (p i) = false := by
          by_contra h'; exact hf ((any_batch hall).2 h')
        rw [decide_eq_true hyes]
        refine ⟨c3, ?_, fun _ => TC.extend hT s2 s4⟩
        cases vec with
        | true =>
          simp only [if_true, Option.bind_some]
          rw [if_neg hf, s1, Option.bind_some, s3, Option.bind_some]
        | false =>
          simp only [Bool.false_eq_true, if_false]
          rw [s1, Option.bind_some, if_neg hf, Option.bind_some, s3, Option.bind_some]
    · have hno : ¬ ∀ i < (m + 1) * b, fails (p i) = false := fun h => hall (fun i hi => h i (by rw [Nat.succ_mul]; omega))
      rw [decide_eq_false hall, decide_eq_false hno]
      exact ⟨c1, rfl, fun h => absurd h hno⟩

/-- The temporary data that are used. -/
def mask (Q : Quant) (u : List (Fl K) × Dist K) : List (Fl K) × Dist K :=
  (if Q = .pot then [] else u.1, ⟨u.2.fast, if Q = .acc then .nan else u.2.dist, if Q = .pot then .nan else u.2.dist3⟩)

theorem tmpRow_ok {Q : Quant} {d n m : Nat} {u : Nat → List (Fl K) × Dist K} {cols : Cols K} (h : TC Q d n m u cols) {i : Nat} (hi : i < n) :
    ∀ fast, ∃ v, tmpRow Q d fast cols i = some v ∧ (i < m → (u i).1.length = d → (u i).2.fast = fast → v = mask Q (u i)) := by
  intro fast
  unfold tmpRow
  cases Q with
  | pot =>
    obtain ⟨g, hg, hgi⟩ := h 0 (by simp [nvecsTmp])
    refine ⟨([], ⟨fast, g i, .nan⟩), ?_, ?_⟩
    · simp only [distIdx, if_true, reduceCtorEq, if_false]
      rw [hg, arr_get hi]
      rfl
    · intro h1 _ h3
      simp [mask, hgi i h1, tcol, h3]
  | acc =>
    have hd : ∀ j < d, ∃ x, (cols j)[i]? = some x ∧ (i < m → x = (u i).1.getD j .nan) := by
      intro j hj
      obtain ⟨g, hg, hgi⟩ := h j (by simp [nvecsTmp]; omega)
      exact ⟨g i, by rw [hg, arr_get hi], fun h1 => by rw [hgi i h1]; simp [tcol, hj]⟩
    obtain ⟨g, hg, hgi⟩ := h d (by simp [nvecsTmp])
    refine ⟨(Arr d (fun j => ((cols j)[i]?).getD .nan), ⟨fast, .nan, g i⟩), ?_, ?_⟩
    · rw [if_neg (by decide), mapM_arr (g := fun j => ((cols j)[i]?).getD .nan) (by
        intro j hj; obtain ⟨x, hx, _⟩ := hd j hj; rw [hx]; rfl)]
      rw [hg, arr_get hi]
      rfl
    · intro h1 h2 h3
      have : Arr d (fun j => ((cols j)[i]?).getD .nan) = (u i).1 := by
        rw [list_eq_arr (u i).1 .nan, h2]
        apply arr_ext
        intro j hj
        obtain ⟨x, hx, he⟩ := hd j hj
        rw [hx, ← he h1]; rfl
      simp [mask, this, hgi i h1, tcol, h3]
  | both =>
    have hd : ∀ j < d, ∃ x, (cols j)[i]? = some x ∧ (i < m → x = (u i).1.getD j .nan) := by
      intro j hj
      obtain ⟨g, hg, hgi⟩ := h j (by simp [nvecsTmp]; omega)
      exact ⟨g i, by rw [hg, arr_get hi], fun h1 => by rw [hgi i h1]; simp [tcol, hj]⟩
    obtain ⟨g, hg, hgi⟩ := h d (by simp [nvecsTmp])
    obtain ⟨g1, hg1, hg1i⟩ := h (d + 1) (by simp [nvecsTmp])
    refine ⟨(Arr d (fun j => ((cols j)[i]?).getD .nan), ⟨fast, g1 i, g i⟩), ?_, ?_⟩
    · rw [if_neg (by decide), if_neg (by decide), if_neg (by decide), mapM_arr (g := fun j => ((cols j)[i]?).getD .nan) (by
        intro j hj; obtain ⟨x, hx, _⟩ := hd j hj; rw [hx]; rfl)]
      rw [hg, arr_get hi, show distIdx .both d = d + 1 from rfl, hg1, arr_get hi]
      rfl
    · intro h1 h2 h3
      have : Arr d (fun j => ((cols j)[i]?).getD .nan) = (u i).1 := by
        rw [list_eq_arr (u i).1 .nan, h2]
        apply arr_ext
        intro j hj
        obtain ⟨x, hx, he⟩ := hd j hj
        rw [hx, ← he h1]; rfl
      simp [mask, this, hgi i h1, hg1i i h1, tcol, h3]

/-- Data that are not stored are not used. -/
theorem comUpd_mask {M : Mode K} {m : Fl K} {Q : Quant} {d : Nat} {u : List (Fl K) × Dist K} {p : Pt K} {r : Res K} (h : Shape Q d r) :
    comUpd M m (mask Q u) p r = comUpd M m u p r := by
  obtain ⟨h1, h2⟩ := h
  obtain ⟨acc, pot⟩ := r
  cases Q with
  | pot =>
    simp only [if_true] at h1
    have : acc = [] := List.eq_nil_of_length_eq_zero h1
    subst this
    simp [comUpd, mask, Dist.over]
  | acc =>
    simp only [if_true] at h2
    have : pot = [] := List.eq_nil_of_length_eq_zero h2
    subst this
    simp [comUpd, mask, Dist.over3]
  | both => simp [comUpd, mask]

theorem comLoop_arr' {b size n : Nat} (hb : 0 < b) (hn : size + (b - 1) ≤ n) {T P R : Type} (upd : T → P → R → R) (p : Nat → P) (u : Nat → T) (g : Nat → R) :
    comLoop upd b size (Arr n p) (Arr n u) (Arr n g) =
      some (Arr n (fun i => if i / b < steps size b then upd (u i) (p i) (g i) else g i)) := by
  unfold comLoop
  apply batch_loop (u := fun i r => upd (u i) (p i) r)
  intro t ht g
  rw [loadB_arr (batch_room hb hn ht), loadB_arr (batch_room hb hn ht), loadB_arr (batch_room hb hn ht)]
  simp only [Option.bind_eq_bind, Option.bind_some]
  rw [zip_arr, zipWith_arr, storeB_arr (batch_room hb hn ht)]
  congr 1
  apply arr_ext
  intro i _
  by_cases h : t = i / b
  · have := (in_batch hb).2 h
    rw [if_pos this, if_pos h]
    simp only [Nat.add_sub_cancel' this.1]
  · rw [if_neg (fun h' => h ((in_batch hb).1 h')), if_neg h]

/-! ### The nodes -/

/-- The tree is complete, and all positions have `d` components. -/
structure Force.Full (c : Force K) (n : Nat) : Prop where
  ok : c.Ok n
  parts : ∀ j ≤ c.d, ∃ v, c.parts[j]? = some v ∧ v.length = n
  pos : ∀ k < n, (c.pt k).pos.length = c.d
  com : ∀ i < c.tree.length, (c.pr i).com.length = c.d

theorem run_macCheckB {m : Nat} (h : c.Full m) {size n : Nat} (hn : size + (c.hw.batch c.d - 1) ≤ n) {p : Nat → Pt K} (hp : ∀ a, (p a).pos.length = c.d)
    {g : Nat → Res K} (ht : HT c.d n p t.bufs) (hr : HR c.Q c.d n g t.bufs) {i : Nat} (hi : i < c.tree.length) :
    Run H (c.macCheckB H size i c.tree[i]) t (fun j b => j = (macStep (c.accepts size p) i c.tree[i]).1 ∧ HT c.d n p b ∧
      HR c.Q c.d n (fun a => if a / c.hw.batch c.d < steps size (c.hw.batch c.d)
        then c.visUpd (p a) (g a) ⟨i, (macStep (c.accepts size p) i c.tree[i]).2⟩ else g a) b) := by
  have hb := h.ok.hw.batch_pos c.d
  have hpr : c.props[i]? = some (c.pr i) := by
    unfold Force.pr; rw [List.getD_eq_getElem?_getD, List.getElem?_eq_getElem (by rw [h.ok.props]; exact hi), Option.getD_some]
  have hvis : ∀ a, Shape c.Q c.d (g a) → ∀ ev, (macStep (c.accepts size p) i c.tree[i]).2 = ev → Shape c.Q c.d (c.visUpd (p a) (g a) ⟨i, ev⟩) := by
    intro a ha ev he
    have hev : ev = some (.com i) ∨ ev = some (.leaf i) ∨ ev = none := by
      rw [← he]; unfold macStep
      split
      · exact .inl rfl
      · split
        · exact .inr (.inl rfl)
        · exact .inr (.inr rfl)
    rcases hev with rfl | rfl | rfl
    · exact upd_shape (diffs_length _ (hp a) (h.com i hi)) ha
    · show Shape c.Q c.d ((c.srcs i).foldl _ (g a))
      apply fold_pred (Shape c.Q c.d)
      · exact ha
      · intro k hk r hr
        have e : c.srcs i = List.range' c.tree[i].beg (c.tree[i].fin - c.tree[i].beg) := by
          unfold Force.srcs; rw [List.getElem?_eq_getElem hi]
        rw [e, List.mem_range'_1] at hk
        have := h.ok.range _ (List.getElem_mem hi)
        exact upd_shape (diffs_length _ (hp a) (h.pos k (by omega))) hr
    · exact ha
  unfold Force.macCheckB
  refine Run.bufsBind ?_
  simp only
  rw [ht.1]
  refine Run.bind (P := fun _ b => HT c.d n p b ∧ HR c.Q c.d n g b ∧ TL c.Q c.d n (b.tmp c.Q)) ?_ ?_
  · refine (Run.each (I := fun k b => HT c.d n p b ∧ HR c.Q c.d n g b ∧ ∀ j < k, ∃ f, b.tmp c.Q j = Arr n f) ⟨ht, hr, by intro j hj; omega⟩ ?_)
    intro j _ t' hI
    refine Run.bufsBind (Run.bind (run_resize H n _ t') ?_)
    rintro v t'' ⟨hv, hbf⟩
    refine Run.set ?_
    rw [hbf]
    refine ⟨hI.1, hI.2.1, ?_⟩
    intro x hx
    simp only [if_true]
    by_cases e : x = j
    · subst e
      exact ⟨fun k => v.getD k .nan, by rw [setCol_same, ← hv]; exact list_eq_arr _ _⟩
    · rw [setCol_other _ _ e]
      exact hI.2.2 x (by omega)
  · rintro _ t' ⟨ht', hr', hl'⟩
    refine Run.bufsBind (Run.ubBind hpr (Run.ubBind ht'.2 ?_))
    obtain ⟨cols, m1, m2⟩ := macLoopB_ok (fails := macFails c.M (macLh c.hw.A c.mac c.macVal (c.pr i)) (c.pr i).com)
      (tmp := macTmp c.M c.eps2 (c.pr i).com) (vec := c.M.vec) hb hn p hl'
    refine Run.ubBind m1 (Run.setBind ?_)
    simp only
    have hacc : decide (∀ l < steps size (c.hw.batch c.d) * c.hw.batch c.d, macFails c.M (macLh c.hw.A c.mac c.macVal (c.pr i)) (c.pr i).com (p l) = false) =
      c.accepts size p i := rfl
    rw [hacc]
    unfold macStep at hvis ⊢
    by_cases ha : c.accepts size p i = true
    · have hT := m2 (of_decide_eq_true ha)
      rw [if_pos ha] at hvis
      rw [if_pos ha, if_pos ha]
      have hrow : ∀ a < n, tmpRow c.Q c.d c.M.fast.isSome cols a = some ((tmpRow c.Q c.d c.M.fast.isSome cols a).getD ([], ⟨true, .nan, .nan⟩)) := by
        intro a ha'
        obtain ⟨v, hv, _⟩ := tmpRow_ok hT ha' c.M.fast.isSome
        rw [hv]; rfl
      refine Run.ubBind (mapM_arr hrow) ?_
      refine Run.bind (run_updRes (p := p) (g := g) ht' hr' (comLoop_arr' hb hn _ _ _ _)) ?_
      rintro _ t'' ⟨q1, q2⟩
      refine Run.pure ⟨rfl, q1, q2.congr ?_⟩
      intro a han
      have hsa := hr.shape han
      by_cases hl : a / c.hw.batch c.d < steps size (c.hw.batch c.d)
      · rw [if_pos hl, if_pos hl]
        obtain ⟨v, hv, hv2⟩ := tmpRow_ok hT han c.M.fast.isSome
        have hlt : a < steps size (c.hw.batch c.d) * c.hw.batch c.d := by rw [← Nat.div_lt_iff_lt_mul hb]; exact hl
        have e := hv2 hlt (diffs_length _ (hp a) (h.com i hi)) (by unfold macTmp mkDist; cases c.M.fast <;> rfl)
        rw [hv, Option.getD_some, e, comUpd_mask hsa]
        exact norm_shape (hvis a hsa _ rfl)
      · rw [if_neg hl, if_neg hl, norm_shape hsa]
    · rw [if_neg ha] at hvis
      rw [if_neg ha, if_neg ha]
      by_cases hc : c.tree[i].nChildren = 0
      · rw [if_pos hc] at hvis
        rw [if_pos hc, if_pos hc]
        refine Run.ubBind (Force.ptsAt_eq h.ok (h.ok.range _ (List.getElem_mem hi)).2) ?_
        refine Run.bind (run_updRes (p := p) (g := g) ht' hr' (leafLoop_arr hb hn _ _ _ _)) ?_
        rintro _ t'' ⟨q1, q2⟩
        refine Run.pure ⟨rfl, q1, q2.congr ?_⟩
        intro a han
        have hsa := hr.shape han
        by_cases hl : a / c.hw.batch c.d < steps size (c.hw.batch c.d)
        · rw [if_pos hl, if_pos hl]
          have e : c.srcs i = List.range' c.tree[i].beg (c.tree[i].fin - c.tree[i].beg) := by
            unfold Force.srcs; rw [List.getElem?_eq_getElem hi]
          have e2 : c.visUpd (p a) (g a) ⟨i, some (.leaf i)⟩ =
              ((List.range' c.tree[i].beg (c.tree[i].fin - c.tree[i].beg)).map c.pt).foldl (fun r q => leafUpd c.M c.Q c.eps2 (p a) q r) (g a) := by
            show (c.srcs i).foldl (fun r k => leafUpd c.M c.Q c.eps2 (p a) (c.pt k) r) (g a) = _
            rw [e, List.foldl_map]
          rw [← e2]
          exact norm_shape (hvis a hsa _ rfl)
        · rw [if_neg hl, if_neg hl, norm_shape hsa]
      · rw [if_neg hc, if_neg hc]
        refine Run.pure ⟨rfl, ht', hr'.congr ?_⟩
        intro a _
        split <;> rfl

theorem run_loopB {m : Nat} (h : c.Full m) {size n code : Nat} (hn : size + (c.hw.batch c.d - 1) ≤ n) {p : Nat → Pt K} (hp : ∀ a, (p a).pos.length = c.d) :
    ∀ (fuel i : Nat) (vs : List Visit) (g : Nat → Res K) (t : Thr K), HT c.d n p t.bufs → HR c.Q c.d n g t.bufs →
      travGo c.over c.w c.d c.tree code (c.accepts size p) fuel i = some (.ok vs) →
      Run H (c.loopB H size code fuel i) t (fun _ b => HT c.d n p b ∧
        HR c.Q c.d n (fun a => if a / c.hw.batch c.d < steps size (c.hw.batch c.d) then vs.foldl (c.visUpd (p a)) (g a) else g a) b) := by
  intro fuel
  induction fuel with
  | zero =>
    intro i vs g t ht hr hv
    unfold travGo at hv
    unfold Force.loopB
    cases he : c.tree[i]? with
    | none =>
      rw [he] at hv
      simp only [Option.some.injEq, Except.ok.injEq] at hv
      subst hv
      exact Run.pure ⟨ht, hr.congr (by simp)⟩
    | some nd => rw [he] at hv; simp at hv
  | succ fuel ih =>
    intro i vs g t ht hr hv
    unfold travGo at hv
    unfold Force.loopB
    cases he : c.tree[i]? with
    | none =>
      rw [he] at hv
      simp only [Option.some.injEq, Except.ok.injEq] at hv
      subst hv
      exact Run.pure ⟨ht, hr.congr (by simp)⟩
    | some nd =>
      rw [he] at hv
      simp only at hv ⊢
      obtain ⟨hi, hnd⟩ := List.getElem?_eq_some_iff.1 he
      cases hs : travStep c.over c.w c.d code (c.accepts size p) i nd with
      | error e => rw [hs] at hv; simp at hv
      | ok je =>
        obtain ⟨j, ev⟩ := je
        rw [hs] at hv
        simp only [Option.map_eq_some_iff] at hv
        obtain ⟨r, h1, h2⟩ := hv
        cases r with
        | error e => simp [Except.map] at h2
        | ok us =>
          simp only [Except.map, Except.ok.injEq] at h2
          subst h2
          refine Run.bind (P := fun x b => x = j ∧ HT c.d n p b ∧ HR c.Q c.d n (fun a =>
              if a / c.hw.batch c.d < steps size (c.hw.batch c.d) then c.visUpd (p a) (g a) ⟨i, ev⟩ else g a) b) ?_ ?_
          · unfold travStep at hs
            unfold Force.stepB
            cases hsh : shrO c.over c.w code (mulSz (subW c.w (treeLevel c.w c.d code) nd.level) c.d) with
            | none => rw [hsh] at hs; simp [ofUB, bind, Except.bind] at hs
            | some y =>
              rw [hsh] at hs
              refine Run.ubBind rfl ?_
              simp only [ofUB, bind, Except.bind] at hs ⊢
              by_cases hy : y = nd.code
              · rw [if_pos hy] at hs ⊢
                simp only [Except.ok.injEq, Prod.mk.injEq] at hs
                refine Run.pure ⟨hs.1, ht, hr.congr ?_⟩
                intro a _
                rw [← hs.2]
                split <;> rfl
              · rw [if_neg hy] at hs ⊢
                simp only [Except.ok.injEq] at hs
                subst hnd
                have := run_macCheckB (H := H) h hn hp ht hr hi
                rw [hs] at this
                exact this
          · rintro x t' ⟨rfl, q1, q2⟩
            refine (ih x us _ t' q1 q2 h1).mono ?_
            rintro _ b ⟨r1, r2⟩
            refine ⟨r1, r2.congr ?_⟩
            intro a _
            by_cases hl : a / c.hw.batch c.d < steps size (c.hw.batch c.d)
            · rw [if_pos hl, if_pos hl, if_pos hl]; rfl
            · rw [if_neg hl, if_neg hl, if_neg hl]

/-- The results start with zeroes. -/
theorem run_prepRes (n : Nat) : Run H (c.prepRes H n) t (fun _ b => HR c.Q c.d n (fun _ => resZero c.Q c.d) b) := by
  unfold Force.prepRes
  refine (Run.each (I := fun k b => ∀ j < k, b.res c.Q j = Arr n (fun _ => .fin 0)) (by intro j hj; omega) ?_).mono ?_
  · intro j _ t' hI
    refine Run.bufsBind (Run.bind (run_resize H n _ t') ?_)
    rintro v t'' ⟨hv, hbf⟩
    refine Run.setBind ?_
    have hst : storeB v 0 (List.replicate n (.fin 0)) = some (Arr n (fun _ => (.fin 0 : Fl K))) := by
      rw [list_eq_arr v .nan, hv, replicate_arr, storeB_arr (by omega), Option.some.injEq]
      apply arr_ext
      intro i hi
      rw [if_pos (by omega)]
    refine Run.ubBind hst (Run.set ?_)
    intro x hx
    simp only [if_true]
    by_cases e : x = j
    · subst e; rw [setCol_same]
    · rw [setCol_other _ _ e, setCol_other _ _ e, hbf]
      exact hI x (by omega)
  · intro _ b hI
    apply mapM_arr
    intro i hi
    unfold resRow resZero
    have h1 : ∀ Q, Q = c.Q → (if Q = .pot then some [] else (List.range c.d).mapM (fun j => (b.res c.Q j)[i]?)) =
        some (if Q = .pot then [] else List.replicate c.d (.fin 0)) := by
      intro Q hQ
      by_cases hq : Q = .pot
      · rw [if_pos hq, if_pos hq]
      · rw [if_neg hq, if_neg hq, replicate_arr]
        apply mapM_arr
        intro j hj
        rw [hI j (by rw [← hQ]; cases Q <;> simp [nvecsRes] at hq ⊢ <;> omega), arr_get hi]
    have h2 : ∀ Q, Q = c.Q → (if Q = .acc then some [] else (b.res c.Q (potIdx Q c.d))[i]?.map (fun x => [x])) = some (if Q = .acc then [] else [.fin 0]) := by
      intro Q hQ
      by_cases hq : Q = .acc
      · rw [if_pos hq, if_pos hq]
      · rw [if_neg hq, if_neg hq]
        rw [hI _ (by rw [← hQ]; cases Q <;> simp [nvecsRes, potIdx] at hq ⊢), arr_get hi]
        rfl
    rw [h1 _ rfl, h2 _ rfl]
    rfl

/-- The target data. -/
theorem run_prepTgt {m : Nat} (h : c.Full m) {g : Nat → Res K} {cn : CNode} (hc : cn.beg ≤ cn.fin) (he : cn.fin ≤ m)
    (hr : HR c.Q c.d (cn.fin - cn.beg + c.hw.pad) g t.bufs) :
    Run H (c.prepTgt H (cn.fin - cn.beg + c.hw.pad) cn) t (fun _ b => HT c.d (cn.fin - cn.beg + c.hw.pad) (c.slot cn) b ∧
      HR c.Q c.d (cn.fin - cn.beg + c.hw.pad) g b) := by
  set n := cn.fin - cn.beg + c.hw.pad with hn
  unfold Force.prepTgt
  have hcol : ∀ j ≤ c.d, ∃ v, c.parts[j]? = some v ∧ v.length = m := h.parts
  refine (Run.each (I := fun k b => HR c.Q c.d n g b ∧ ∀ j < k, ∃ v, c.parts[j]? = some v ∧
    b.tgt j = Arr n (fun i => if i < cn.fin - cn.beg then v.getD (cn.beg + i) .nan else if j < c.d then c.padCoord else .fin 0))
    ⟨hr, by intro j hj; omega⟩ ?_).mono ?_
  · intro j hj t' hI
    obtain ⟨w, hw1, hw2⟩ := hcol j (by omega)
    refine Run.bufsBind (Run.bind (run_resize H n _ t') ?_)
    rintro v t'' ⟨hv, hbf⟩
    refine Run.setBind ?_
    have hld : (c.parts[j]?.bind (fun v => loadB v cn.beg (cn.fin - cn.beg))) = some (Arr (cn.fin - cn.beg) (fun l => w.getD (cn.beg + l) .nan)) := by
      rw [hw1, Option.bind_some]
      conv_lhs => rw [list_eq_arr w .nan]
      rw [loadB_arr (by omega)]
    refine Run.ubBind hld ?_
    have hs1 : storeB v 0 (Arr (cn.fin - cn.beg) (fun l => w.getD (cn.beg + l) .nan)) =
        some (Arr n (fun i => if 0 ≤ i ∧ i < 0 + (cn.fin - cn.beg) then w.getD (cn.beg + (i - 0)) .nan else v.getD i .nan)) := by
      conv_lhs => rw [list_eq_arr v .nan, hv]
      rw [storeB_arr (by omega)]
    refine Run.ubBind hs1 (Run.setBind ?_)
    have hs2 : storeB (Arr n (fun i => if 0 ≤ i ∧ i < 0 + (cn.fin - cn.beg) then w.getD (cn.beg + (i - 0)) .nan else v.getD i .nan)) (cn.fin - cn.beg)
        (List.replicate (n - (cn.fin - cn.beg)) (if j < c.d then c.padCoord else .fin 0)) =
        some (Arr n (fun i => if i < cn.fin - cn.beg then w.getD (cn.beg + i) .nan else if j < c.d then c.padCoord else .fin 0)) := by
      rw [replicate_arr, storeB_arr (by omega), Option.some.injEq]
      apply arr_ext
      intro i hi
      by_cases hl : i < cn.fin - cn.beg
      · rw [if_neg (by omega), if_pos (by omega), if_pos hl, Nat.sub_zero]
      · rw [if_pos (by omega), if_neg hl]
    refine Run.ubBind hs2 (Run.set ?_)
    refine ⟨?_, ?_⟩
    · rw [hbf]; exact hI.1
    · intro x hx
      by_cases e : x = j
      · subst e
        exact ⟨w, hw1, setCol_same _ _ _⟩
      · obtain ⟨u, hu1, hu2⟩ := hI.2 x (by omega)
        refine ⟨u, hu1, ?_⟩
        refine (setCol_other _ _ e).trans ((setCol_other _ _ e).trans ((setCol_other _ _ e).trans ?_))
        rw [hbf]
        exact hu2
  · rintro _ b ⟨h1, h2⟩
    refine ⟨⟨?_, ?_⟩, h1⟩
    · obtain ⟨v, _, hv⟩ := h2 0 (by omega)
      rw [hv]; simp
    · apply mapM_arr
      intro i hi
      unfold ptRow Force.slot
      by_cases hl : i < cn.fin - cn.beg
      · rw [if_pos hl]
        have hk : cn.beg + i < m := by omega
        have hpt := Force.pt_eq h.ok hk
        have hps := h.pos _ hk
        unfold ptAt at hpt
        simp only [Option.bind_eq_bind, Option.bind_eq_some_iff] at hpt
        obtain ⟨pos, p1, col, p2, mass, p3, p4⟩ := hpt
        simp only [Option.some.injEq] at p4
        rw [← p4] at hps
        rw [← p4]
        simp only at hps
        have e1 : (List.range c.d).mapM (fun j => (b.tgt j)[i]?) = some pos := by
          rw [list_eq_arr pos .nan, hps]
          apply mapM_arr
          intro j hj
          obtain ⟨v, v1, v2⟩ := h2 j (by omega)
          rw [v2, arr_get hi, if_pos hl]
          rw [mapM_some_iff] at p1
          have hjt : j < (c.parts.take c.d).length := by rw [p1.length_eq]; omega
          have := List.Forall₂.get p1 (i := j) hjt (by omega)
          obtain ⟨hjl, hjv⟩ := List.getElem?_eq_some_iff.1 v1
          simp only [List.get_eq_getElem, List.getElem_take, hjv] at this
          rw [List.getD_eq_getElem?_getD, this, List.getD_eq_getElem?_getD, List.getElem?_eq_getElem (by omega)]
        obtain ⟨v, v1, v2⟩ := h2 c.d (by omega)
        have e2 : (b.tgt c.d)[i]? = some mass := by
          rw [v2, arr_get hi, if_pos hl]
          rw [p2] at v1
          simp only [Option.some.injEq] at v1
          rw [← v1, List.getD_eq_getElem?_getD, p3]
          rfl
        rw [e1, e2]
        rfl
      · rw [if_neg hl]
        have e1 : (List.range c.d).mapM (fun j => (b.tgt j)[i]?) = some (List.replicate c.d c.padCoord) := by
          rw [replicate_arr]
          apply mapM_arr
          intro j hj
          obtain ⟨v, v1, v2⟩ := h2 j (by omega)
          rw [v2, arr_get hi, if_neg hl, if_pos hj]
        obtain ⟨v, v1, v2⟩ := h2 c.d (by omega)
        have e2 : (b.tgt c.d)[i]? = some (.fin 0) := by
          rw [v2, arr_get hi, if_neg hl, if_neg (by omega)]
        rw [e1, e2]
        rfl

/-- The results of a critical node do not depend on the vectors. -/
theorem run_nodeB {m : Nat} (h : c.Full m) {cn : CNode} (hc : cn.beg ≤ cn.fin) (he : cn.fin ≤ m) (hm : m + c.hw.pad < 2 ^ 64) {vs : List Visit}
    (hv : travGo c.over c.w c.d c.tree cn.code (c.accepts (cn.fin - cn.beg) (c.slot cn)) c.tree.length 0 = some (.ok vs))
    (hsh : ∀ a < cn.fin - cn.beg, Shape c.Q c.d (c.total cn vs a)) :
    Run H (c.nodeB H cn) t (fun r _ => r = Arr (cn.fin - cn.beg) (fun a => c.scaled (c.total cn vs a))) := by
  have hb := h.ok.hw.batch_pos c.d
  have hN : cn.fin - cn.beg + (c.hw.batch c.d - 1) ≤ cn.fin - cn.beg + c.hw.pad := by have := c.hw.batch_pad c.d; omega
  have hp : ∀ a, (c.slot cn a).pos.length = c.d := by
    intro a
    unfold Force.slot
    split
    · exact h.pos _ (by omega)
    · simp
  unfold Force.nodeB
  simp only
  rw [if_neg (by omega)]
  refine Run.bind (run_prepRes _) ?_
  intro _ t1 q1
  refine Run.bind (run_prepTgt h hc he q1) ?_
  rintro _ t2 ⟨q2, q3⟩
  refine Run.bind (run_loopB h hN hp _ _ _ _ _ q2 q3 hv) ?_
  rintro _ t3 ⟨q4, q5⟩
  obtain ⟨f, f1, f2⟩ := selfLoop_arr (selfOps c.M c.Q c.d c.eps2) hb hN (c.slot cn) (fun a =>
    if a / c.hw.batch c.d < steps (cn.fin - cn.beg) (c.hw.batch c.d) then vs.foldl (c.visUpd (c.slot cn a)) (resZero c.Q c.d)
      else resZero c.Q c.d)
  have hf : ∀ a < cn.fin - cn.beg, f a = c.total cn vs a := by
    intro a ha
    rw [f2 a ha, if_pos (div_steps hb ha)]
    rfl
  refine Run.bind (run_updRes q4 q5 f1) ?_
  rintro _ t4 ⟨q6, q7⟩
  have fin_ : ∀ (g : Nat → Res K) (b : Bufs K), HR c.Q c.d (cn.fin - cn.beg + c.hw.pad) g b →
      rowsOf (cn.fin - cn.beg) (resRow c.Q c.d (b.res c.Q)) = some (Arr (cn.fin - cn.beg) g) := by
    intro g b hg
    apply mapM_arr
    intro i hi
    exact mapM_arr_inv hg i (by omega)
  by_cases hG : c.G.eq (.fin 1) = true
  · rw [if_pos hG]
    refine Run.bufsBind (Run.ub (fin_ _ _ q7) ?_)
    apply arr_ext
    intro a ha
    unfold Force.scaled
    rw [if_pos hG, hf a ha, norm_shape (hsh a ha)]
  · rw [if_neg hG]
    refine Run.bind (run_updRes q6 q7 (scaleLoop_arr h.ok.hw.scale_pos (by rw [c.hw.scale_pad]) _ _)) ?_
    rintro _ t5 ⟨_, q9⟩
    refine Run.bufsBind (Run.ub (fin_ _ _ q9) ?_)
    apply arr_ext
    intro a ha
    have hsc := scaled_shape (c := c) (hsh a ha)
    unfold Force.scaled at hsc ⊢
    rw [if_neg hG] at hsc ⊢
    rw [hf a ha, norm_shape (hsh a ha), if_pos (div_steps h.ok.hw.scale_pos ha), norm_shape hsc]

end

end Rakau
