import Verif.Proof.Finite
import Verif.Props.Padding
import Verif.Props.Force

/-!
# C63: coincident particles without softening

Two particles at the same position, with a softening length whose square is zero: the results are not finite numbers. In any arithmetic.
-/
set_option linter.unusedSectionVars false

namespace Rakau
namespace Spec

/-- The results of a particle for which the mutual distance with another particle is zero: no component of the acceleration is a number, and the potential is not
finite. -/
def Singular {K : Type} (Q : Quant) (d : Nat) (r : Res K) : Prop :=
  r.acc = (if Q = .pot then [] else List.replicate d .nan) ∧ r.pot.length = (if Q = .acc then 0 else 1) ∧ ∀ v ∈ r.pot, v.isFinite = false

variable {K : Type} [Field K] [LinearOrder K] [FloorRing K]

/-- Particles `k` and `l` (in the order of the tree) have the same coordinates. -/
def Coincident {A : Arith K} {simd : Option (Simd K)} {mac : Mac} {w d : Nat} (s : TS (rakauEnv A simd mac w d)) (k l : Nat) : Prop :=
  k < s.n ∧ l < s.n ∧ k ≠ l ∧ ∀ j < d, unordered s j k = unordered s j l

end Spec
open Spec

variable {K : Type} [Field K] [LinearOrder K]

/-- The number of components. -/
def Shape (Q : Quant) (d : Nat) (r : Res K) : Prop := r.acc.length = (if Q = .pot then 0 else d) ∧ r.pot.length = (if Q = .acc then 0 else 1)

theorem shape_zero (Q : Quant) (d : Nat) : Shape Q d (resZero Q d : Res K) := by
  unfold Shape resZero
  cases Q <;> simp

theorem Spec.Singular.shape {Q : Quant} {d : Nat} {r : Res K} (h : Singular Q d r) : Shape Q d r := by
  refine ⟨?_, h.2.1⟩
  rw [h.1]
  cases Q <;> simp

section
variable (A : Arith K)

theorem add_nf {a : Fl K} (b : Fl K) (h : a.isFinite = false) : (A.add a b).isFinite = false := by
  cases a <;> cases b <;> first | rfl | (simp [Fl.isFinite] at h; done) | (simp only [Arith.add]; split <;> rfl)

theorem add_nf' (a : Fl K) {b : Fl K} (h : b.isFinite = false) : (A.add a b).isFinite = false := by
  cases a <;> cases b <;> first | rfl | (simp [Fl.isFinite] at h; done) | (simp only [Arith.add]; split <;> rfl)

theorem neg_nf {a : Fl K} (h : a.isFinite = false) : a.neg.isFinite = false := by
  cases a <;> simp_all [Fl.neg, Fl.isFinite]

theorem sub_nf {a : Fl K} (b : Fl K) (h : a.isFinite = false) : (A.sub a b).isFinite = false := add_nf A _ h

theorem sub_nf' (a : Fl K) {b : Fl K} (h : b.isFinite = false) : (A.sub a b).isFinite = false := add_nf' A _ (neg_nf h)

theorem add_nan (a : Fl K) : A.add a .nan = .nan := by cases a <;> rfl

theorem mulPre_nf {a b : Fl K} (h : a.isFinite = false ∨ b.isFinite = false) : Arith.mulPre a b = .nan ∨ ∃ t, Arith.mulPre a b = .inf t := by
  cases a <;> cases b <;> first | exact .inl rfl | (simp [Fl.isFinite] at h; done) | exact .inr ⟨_, rfl⟩ | skip
  all_goals
    simp only [Arith.mulPre]
    split
    · exact .inl rfl
    · exact .inr ⟨_, rfl⟩

theorem mul_nf (a : Fl K) {b : Fl K} (h : b.isFinite = false) : (A.mul a b).isFinite = false := by
  unfold Arith.mul
  rcases mulPre_nf (a := a) (b := b) (by tauto) with e | ⟨t, e⟩ <;> rw [e] <;> rfl

theorem mul_nf' {a : Fl K} (b : Fl K) (h : a.isFinite = false) : (A.mul a b).isFinite = false := by
  unfold Arith.mul
  rcases mulPre_nf (a := a) (b := b) (by tauto) with e | ⟨t, e⟩ <;> rw [e] <;> rfl

theorem mul_zero_nf {b : Fl K} (h : b.isFinite = false) : A.mul (.fin 0) b = .nan := by
  cases b <;> simp_all [Arith.mul, Arith.mulPre, Fl.isFinite]

theorem fma_zero_nf {b : Fl K} (c : Fl K) (h : b.isFinite = false) : A.fma (.fin 0) b c = .nan := by
  unfold Arith.fma
  rw [mul_zero_nf A h]
  split
  · cases b <;> simp_all [Arith.mulPre, Fl.isFinite]
  · rfl

theorem fma_nan (a b : Fl K) : A.fma a b .nan = .nan := by
  unfold Arith.fma
  rw [add_nan]
  split
  · cases Arith.mulPre a b <;> rfl
  · rfl

theorem fma_nf (a b : Fl K) {c : Fl K} (h : c.isFinite = false) : (A.fma a b c).isFinite = false := by
  unfold Arith.fma
  split
  · cases Arith.mulPre a b <;> cases c <;> first | rfl | (simp [Fl.isFinite] at h; done) | (simp only; split <;> rfl)
  · exact add_nf' A _ h

theorem fma_nf' (a : Fl K) {b : Fl K} (c : Fl K) (h : b.isFinite = false) : (A.fma a b c).isFinite = false := by
  unfold Arith.fma
  split
  · rcases mulPre_nf (a := a) (.inr h) with e | ⟨t, e⟩
    · rw [e]
      rfl
    · rw [e]
      cases c <;> first | rfl | (simp only; split <;> rfl)
  · exact add_nf A _ (mul_nf A _ h)

theorem div_zero_nf (m : Fl K) : (A.div m (.fin 0)).isFinite = false := by
  cases m with
  | nan => rfl
  | inf s => rfl
  | fin q =>
    simp only [Arith.div, if_true]
    split <;> rfl

end

/-! ### Updates -/

/-- The general form of the updates. -/
theorem upd_singular {Q : Quant} {d : Nat} {df : List (Fl K)} (hd : df.length = d) {f : Fl K → Fl K → Fl K} {g : Fl K → Fl K} (hf : ∀ t, f t .nan = .nan)
    (hg : ∀ a, a.isFinite = false → (g a).isFinite = false) {r : Res K} (h : Singular Q d r) : Singular Q d ⟨List.zipWith f df r.acc, r.pot.map g⟩ := by
  obtain ⟨h1, h2, h3⟩ := h
  refine ⟨?_, by simpa using h2, ?_⟩
  · simp only [h1]
    split
    · simp
    · apply List.ext_getElem
      · simp [hd]
      · intro i _ _
        simp [hf]
  · intro v hv
    obtain ⟨a, ha, rfl⟩ := List.mem_map.1 hv
    exact hg a (h3 a ha)

theorem upd_shape {Q : Quant} {d : Nat} {df : List (Fl K)} (hd : df.length = d) {f : Fl K → Fl K → Fl K} {g : Fl K → Fl K} {r : Res K} (h : Shape Q d r) :
    Shape Q d ⟨List.zipWith f df r.acc, r.pot.map g⟩ := by
  refine ⟨?_, by simpa using h.2⟩
  simp only [List.length_zipWith, hd, h.1]
  split <;> simp

/-- The update of a coincident pair. -/
theorem upd_make {Q : Quant} {d : Nat} {df : List (Fl K)} (hd : df = List.replicate d (.fin 0)) {f : Fl K → Fl K → Fl K} {g : Fl K → Fl K}
    (hf : ∀ a, f (.fin 0) a = .nan) (hg : ∀ a, (g a).isFinite = false) {r : Res K} (h : Shape Q d r) : Singular Q d ⟨List.zipWith f df r.acc, r.pot.map g⟩ := by
  refine ⟨?_, by simpa using h.2, ?_⟩
  · have h1 := h.1
    split
    · rename_i hq
      rw [if_pos hq] at h1
      simp [List.eq_nil_of_length_eq_zero h1]
    · rename_i hq
      rw [if_neg hq] at h1
      apply List.ext_getElem
      · simp [hd, h1]
      · intro i _ _
        simp [hd, hf]
  · intro v hv
    obtain ⟨a, _, rfl⟩ := List.mem_map.1 hv
    exact hg a

theorem diffs_length (A : Arith K) {d : Nat} {p q : List (Fl K)} (hp : p.length = d) (hq : q.length = d) : (diffs A p q).length = d := by
  simp [diffs, hp, hq]

section
variable [IsStrictOrderedRing K] {M : Mode K} (h0 : M.A.rnd 0 = .fin 0) (hs : M.A.sqrt 0 = .fin 0)
include h0

theorem diffs_same {p : List (Fl K)} (h : ∀ v ∈ p, v.isFinite = true) : diffs M.A p p = List.replicate p.length (.fin 0) := by
  apply List.ext_getElem
  · simp [diffs]
  · intro i h1 h2
    have hi : i < p.length := by simpa using h2
    have := h _ (List.getElem_mem hi)
    simp only [diffs, List.getElem_zipWith, List.getElem_replicate]
    cases hv : p[i] with
    | nan => rw [hv] at this; simp [Fl.isFinite] at this
    | inf s => rw [hv] at this; simp [Fl.isFinite] at this
    | fin q =>
      show M.A.rnd (q + -q) = _
      rw [add_neg_cancel, h0]

theorem fma_zeros : M.A.fma (.fin 0) (.fin 0) (.fin 0) = .fin 0 := by
  unfold Arith.fma
  have : M.A.mul (.fin 0) (.fin 0) = .fin 0 := by
    show M.A.rnd (0 * 0) = _
    rw [mul_zero, h0]
  rw [this]
  split
  · show M.A.rnd (0 * 0 + 0) = _
    rw [mul_zero, add_zero, h0]
  · show M.A.rnd (0 + 0) = _
    rw [add_zero, h0]

theorem softD2_zeros {d : Nat} (hv : M.vec = true → d = 3) : softD2 M (.fin 0) (List.replicate d (.fin 0)) = .fin 0 := by
  have m0 : M.A.mul (.fin 0) (.fin 0) = .fin 0 := by
    show M.A.rnd (0 * 0) = _
    rw [mul_zero, h0]
  have a0 : M.A.add (.fin 0) (.fin 0) = .fin 0 := by
    show M.A.rnd (0 + 0) = _
    rw [add_zero, h0]
  unfold softD2
  split
  · rename_i h
    rw [hv h]
    show M.A.add (M.A.add (M.A.mul (.fin 0) (.fin 0)) (M.A.mul (.fin 0) (.fin 0))) (M.A.fma (.fin 0) (.fin 0) (.fin 0)) = _
    rw [m0, fma_zeros h0, a0, a0]
  · induction d with
    | zero => rfl
    | succ d ih =>
      rw [List.replicate_succ, List.foldl_cons, fma_zeros h0]
      clear ih hv
      induction d with
      | zero => rfl
      | succ d ih => rw [List.replicate_succ, List.foldl_cons, fma_zeros h0]; exact ih

include hs

/-- Nothing divided by a zero distance is finite. -/
theorem over_zero (hf : ∀ e, M.fast = some e → (e (.fin 0)).isFinite = false) (m : Fl K) :
    ((mkDist M (.fin 0)).over M.A m).isFinite = false ∧ ((mkDist M (.fin 0)).over3 M.A m).isFinite = false := by
  have m0 : M.A.mul (.fin 0) (.fin 0) = .fin 0 := by
    show M.A.rnd (0 * 0) = _
    rw [mul_zero, h0]
  have s0 : M.A.fsqrt (.fin 0) = .fin 0 := by simp [Arith.fsqrt, hs]
  cases he : M.fast with
  | none =>
    simp only [mkDist, he, Dist.over, Dist.over3, s0, m0]
    exact ⟨div_zero_nf _ _, div_zero_nf _ _⟩
  | some e =>
    have hi : (invSqrt M.A e (.fin 0)).isFinite = false := by
      unfold invSqrt
      simp only
      exact mul_nf' _ _ (mul_nf' _ _ (hf e he))
    simp only [mkDist, he, Dist.over, Dist.over3]
    exact ⟨mul_nf _ _ hi, mul_nf _ _ (mul_nf _ _ hi)⟩

end

theorem mode_facts [IsStrictOrderedRing K] (hw : Hw K) (d : Nat) : (hw.mode d).A.rnd = hw.A.rnd ∧ (hw.mode d).A.sqrt = hw.A.sqrt ∧ ((hw.mode d).vec = true → d = 3) ∧
    ∀ e, (hw.mode d).fast = some e → hw.rsqrt = some e := by
  unfold Hw.mode Hw.vec
  cases hw.simd with
  | none => exact ⟨rfl, rfl, by simp, by simp⟩
  | some S =>
    by_cases hd : d = 3
    · simp [hd]
    · simp [hd]

variable [FloorRing K] [IsStrictOrderedRing K] {A : Arith K} {simd : Option (Simd K)} {mac : Mac} {w d : Nat} {s : TS (rakauEnv A simd mac w d)}

theorem coincident_coords (h : Reach _ s) {k l : Nat} (hc : Coincident s k l) : coordsAt d s.parts k = coordsAt d s.parts l := by
  have I := reach_inv h
  have ha : s.parts.length = d + 1 := I.arr
  unfold coordsAt
  have key : ∀ L : List (List (Fl K)), (∀ v ∈ L, v[k]? = v[l]?) → L.mapM (fun v => v[k]?) = L.mapM (fun v => v[l]?) := by
    intro L hL
    induction L with
    | nil => rfl
    | cons v L ih => simp [List.mapM_cons, hL v List.mem_cons_self, ih (fun v hv => hL v (List.mem_cons_of_mem _ hv))]
  apply key
  intro v hv
  obtain ⟨j, hj, rfl⟩ := List.getElem_of_mem hv
  have hj' : j < d := by rw [List.length_take] at hj; omega
  have := hc.2.2.2 j hj'
  unfold unordered at this
  rw [List.getElem?_eq_getElem (by omega : j < s.parts.length)] at this
  rw [List.getElem_take]
  exact this

/-- Coincident particles lie in the same nodes. -/
theorem coincident_node (hs : Supported w d) (h : Reach _ s) (hz : s.n * cbits w d < 2 ^ 64) {k l : Nat} (hc : Coincident s k l) {i : Nat} (hi : i < s.tree.length)
    (hk : s.tree[i].beg ≤ k ∧ k < s.tree[i].fin) : s.tree[i].beg ≤ l ∧ l < s.tree[i].fin := by
  obtain ⟨hcl, _, _, _, p, _, _, _, _, _, _, _, hin⟩ := reach_node (rakauEnv_ok A simd mac hs) h hz hi
  have I := reach_inv h
  obtain ⟨_, hcs⟩ := rawCodes_spec.1 I.codes
  have hk1 : k < s.codes.length := by rw [hcl]; exact hc.1
  have hl1 : l < s.codes.length := by rw [hcl]; exact hc.2.1
  have e1 := hcs k hk1
  have e2 := hcs l hl1
  have hco : coordsAt (rakauEnv A simd mac w d).d s.parts k = coordsAt (rakauEnv A simd mac w d).d s.parts l := coincident_coords h hc
  rw [hco] at e1
  have e : s.codes[k] = s.codes[l] := by
    have := e1.symm.trans e2
    simpa using this
  rw [hin l hl1, ← e]
  exact (hin k hk1).1 hk

/-- The particles of a reachable tree. -/
theorem pos_reach (hs : Supported w d) (h : Reach _ s) {k : Nat} {p : Pt K} (hk : k < s.n) (hp : ptAt d s.parts k = some p) :
    coordsAt d s.parts k = some p.pos ∧ p.pos.length = d ∧ ∀ v ∈ p.pos, v.isFinite = true := by
  obtain ⟨c, hc, e⟩ := reach_coords hs h hk
  have hpos : coordsAt d s.parts k = some p.pos := by
    unfold ptAt at hp
    unfold coordsAt
    cases hm : (s.parts.take d).mapM (fun v => v[k]?) with
    | none => rw [hm] at hp; simp at hp
    | some l =>
      rw [hm] at hp
      simp only [Option.bind_eq_bind, Option.bind_some, Option.bind_eq_some_iff, Option.some.injEq] at hp
      obtain ⟨a, _, m, _, rfl⟩ := hp
      rfl
  refine ⟨hpos, ?_⟩
  rw [hpos, Option.some.injEq] at e
  rw [e]
  refine ⟨by simpa using hc, ?_⟩
  intro v hv
  obtain ⟨q, _, rfl⟩ := List.mem_map.1 hv
  rfl

theorem fold_pred {ι β : Type} (P : β → Prop) (f : β → ι → β) : ∀ (l : List ι) (b : β), P b → (∀ i ∈ l, ∀ b, P b → P (f b i)) → P (l.foldl f b) := by
  intro l
  induction l with
  | nil => intro b hb _; exact hb
  | cons i l ih =>
    intro b hb h
    exact ih _ (h i List.mem_cons_self b hb) (fun j hj => h j (List.mem_cons_of_mem _ hj))

/-- One element of the list makes the result singular, and the others keep it so. -/
theorem fold_singular {ι : Type} {Q : Quant} {d : Nat} (f : Res K → ι → Res K) (l : List ι) (i : ι) (hi : i ∈ l) (r : Res K) (hr : Shape Q d r)
    (hsh : ∀ j ∈ l, ∀ r, Shape Q d r → Shape Q d (f r j)) (hk : ∀ j ∈ l, ∀ r, Singular Q d r → Singular Q d (f r j))
    (hm : ∀ r, Shape Q d r → Singular Q d (f r i)) : Singular Q d (l.foldl f r) := by
  obtain ⟨a, b, rfl⟩ := List.append_of_mem hi
  rw [List.foldl_append, List.foldl_cons]
  apply fold_pred (Singular Q d)
  · exact hm _ (fold_pred (Shape Q d) f a r hr (fun j hj => hsh j (by simp [hj])))
  · intro j hj
    exact hk j (by simp [hj])

theorem resAdd_singular {Q : Quant} {d : Nat} {r a : Res K} (h : (Singular Q d r ∧ Shape Q d a) ∨ (Shape Q d r ∧ Singular Q d a)) : Singular Q d (resAdd A r a) := by
  have hnn : ∀ a : Fl K, A.add .nan a = .nan := fun a => by cases a <;> rfl
  have hr : Shape Q d r := by rcases h with h | h; exacts [h.1.shape, h.1]
  have ha : Shape Q d a := by rcases h with h | h; exacts [h.2, h.2.shape]
  refine ⟨?_, ?_, ?_⟩
  · have r1 := hr.1
    have a1 := ha.1
    show List.zipWith A.add r.acc a.acc = _
    split
    · rename_i hq
      rw [if_pos hq] at r1
      simp [List.eq_nil_of_length_eq_zero r1]
    · rename_i hq
      rw [if_neg hq] at r1 a1
      apply List.ext_getElem
      · simp [r1, a1]
      · intro i h1 h2
        rw [List.getElem_zipWith, List.getElem_replicate]
        rcases h with h | h
        · have := h.1.1
          rw [if_neg hq] at this
          simp [this, hnn]
        · have := h.2.1
          rw [if_neg hq] at this
          simp [this, add_nan]
  · have r2 := hr.2
    have a2 := ha.2
    show (List.zipWith A.add r.pot a.pot).length = _
    rw [List.length_zipWith, r2, a2, min_self]
  · intro v hv
    have hv' : v ∈ List.zipWith A.add r.pot a.pot := hv
    obtain ⟨i, hi, rfl⟩ := List.getElem_of_mem hv'
    rw [List.getElem_zipWith]
    rcases h with h | h
    · exact add_nf A _ (h.1.2.2 _ (List.getElem_mem _))
    · exact add_nf' A _ (h.2.2.2 _ (List.getElem_mem _))

section
variable {M : Mode K} {Q : Quant} {e2 : Fl K} {p q : Pt K} {r : Res K} (hp : p.pos.length = d) (hq : q.pos.length = d)
include hp hq

theorem self1_keep (h : Singular Q d r) : Singular Q d (selfUpd1 M e2 p q r) :=
  upd_singular (diffs_length _ hp hq) (fun _ => fma_nan _ _ _) (fun _ h => sub_nf _ _ h) h

theorem self2_keep (h : Singular Q d r) : Singular Q d (selfUpd2 M e2 p q r) :=
  upd_singular (diffs_length _ hp hq) (fun _ => fma_nan _ _ _) (fun _ h => sub_nf _ _ h) h

theorem self1_shape (h : Shape Q d r) : Shape Q d (selfUpd1 M e2 p q r) := upd_shape (diffs_length _ hp hq) h

theorem self2_shape (h : Shape Q d r) : Shape Q d (selfUpd2 M e2 p q r) := upd_shape (diffs_length _ hp hq) h

theorem leaf_shape (h : Shape Q d r) : Shape Q d (leafUpd M Q e2 p q r) := upd_shape (diffs_length _ hp hq) h

theorem exact_shape {G : Fl K} (h : Shape Q d r) : Shape Q d (exactUpd A G e2 p q r) := upd_shape (diffs_length _ hp hq) h

theorem exact_keep {G : Fl K} (h : Singular Q d r) : Singular Q d (exactUpd A G e2 p q r) :=
  upd_singular (diffs_length _ hp hq) (fun _ => fma_nan _ _ _) (fun _ h => fma_nf _ _ _ h) h

end

section
variable {M : Mode K} (h0 : M.A.rnd 0 = .fin 0) (hs : M.A.sqrt 0 = .fin 0) (hv : M.vec = true → d = 3) (hf : ∀ e, M.fast = some e → (e (.fin 0)).isFinite = false)
  {Q : Quant} {p q : Pt K} {r : Res K} (hp : p.pos.length = d) (hfin : ∀ v ∈ p.pos, v.isFinite = true) (hpq : q.pos = p.pos) (hr : Shape Q d r)
include h0 hs hp hfin hpq hr

theorem exact_make {G : Fl K} : Singular Q d (exactUpd M.A G (.fin 0) p q r) := by
  have hd := diffs_same h0 hfin
  have hz : (List.replicate d (Fl.fin (0 : K))).foldl (fun acc t => M.A.fma t t acc) (.fin 0) = .fin 0 := by
    have := softD2_zeros (M := ⟨false, M.A, none⟩) h0 (d := d) (by simp)
    exact this
  have s0 : M.A.fsqrt (.fin 0) = .fin 0 := by simp [Arith.fsqrt, hs]
  unfold exactUpd
  rw [hpq, hd, hp]
  simp only [hz, s0]
  have hg : ∀ x : Fl K, (M.A.mul x (M.A.div (.fin 1) (.fin 0))).isFinite = false := fun x => mul_nf _ _ (div_zero_nf _ _)
  refine upd_make rfl (fun a => ?_) (fun a => ?_) hr
  · exact fma_zero_nf _ _ (mul_nf _ _ (hg _))
  have : ∀ {a b c : Fl K}, a.isFinite = false → (M.A.fma a b c).isFinite = false := by
    intro a b c ha
    unfold Arith.fma
    split
    · rcases mulPre_nf (a := a) (b := b) (.inl ha) with e | ⟨t, e⟩
      · rw [e]; rfl
      · rw [e]
        cases c <;> first | rfl | (simp only; split <;> rfl)
    · exact add_nf _ _ (mul_nf' _ _ ha)
  exact this (neg_nf (hg _))

include hv hf

theorem self1_make : Singular Q d (selfUpd1 M (.fin 0) p q r) := by
  unfold selfUpd1
  rw [hpq, diffs_same h0 hfin, hp]
  simp only [softD2_zeros h0 hv]
  exact upd_make rfl (fun a => by exact fma_zero_nf _ _ (over_zero h0 hs hf _).2) (fun a => sub_nf' _ _ (mul_nf' _ _ (over_zero h0 hs hf _).1)) hr

theorem self2_make : Singular Q d (selfUpd2 M (.fin 0) p q r) := by
  unfold selfUpd2
  rw [hpq, diffs_same h0 hfin, hp]
  simp only [softD2_zeros h0 hv]
  have hn : (Fl.fin (0 : K)).neg = .fin 0 := by simp [Fl.neg]
  exact upd_make rfl (fun a => by rw [hn]; exact fma_zero_nf _ _ (over_zero h0 hs hf _).2) (fun a => sub_nf' _ _ (mul_nf' _ _ (over_zero h0 hs hf _).1)) hr

end

theorem scaled_singular {c : Force K} {Q : Quant} {r : Res K} (h : Singular Q d r) : Singular Q d (c.scaled r) := by
  unfold Force.scaled
  split
  · exact h
  · refine ⟨?_, by simpa [resScale] using h.2.1, ?_⟩
    · simp only [resScale, h.1]
      split
      · rfl
      · rw [List.map_replicate]
        rfl
    · intro v hv
      obtain ⟨a, ha, rfl⟩ := List.mem_map.1 hv
      exact mul_nf' _ _ (h.2.2 a ha)

/-! ### C63 -/

/-- Particles at (-4, -4, -4), (2, 2, 2) and again (2, 2, 2), with masses 1, 3, 0, in a box of size 16. -/
def sgInp (simd : Option (Simd ℚ)) : Input (mixEnv simd) :=
  ⟨some (.fin 16), 2, 2, [[-4, 2, 2], [-4, 2, 2], [-4, 2, 2], [1, 3, 0]].map (·.map .fin)⟩

def sgS (simd : Option (Simd ℚ)) : TS (mixEnv simd) := okOr (sgInp simd).exec (TS.default _)

theorem sg_reach : Reach _ (sgS (some avx64)) ∧ Reach _ (sgS none) :=
  ⟨reach_exec _ rfl (by decide +kernel) (by decide +kernel), reach_exec _ rfl (by decide +kernel) (by decide +kernel)⟩

/-- C63: the exact functions. Two particles at the same place, and a softening length whose square is zero (zero, or so small that the square underflows): all the components of the acceleration
of both are NaN and their potentials are not finite. Whatever the masses (zero included), the other particles, the dimension, the arithmetic (in which only `rnd 0 = 0` and `sqrt 0 = 0` matter). -/
theorem C63_exact (h0 : A.rnd 0 = .fin 0) (hq : A.sqrt 0 = .fin 0) (hS : SimdPos simd) (hs : Supported w d) (h : Reach _ s) (hz : s.n * cbits w d < 2 ^ 64)
    {eps g : K} (he : 0 ≤ eps) (he2 : A.mul (.fin eps) (.fin eps) = .fin 0) {k l : Nat} (hc : Coincident s k l) (Q : Quant) (ordered : Bool) :
    ∃ i r, (if ordered then s.perm[k]? else some k) = some i ∧ s.exact Q ordered (.fin g) (.fin eps) i = .ok r ∧ Singular Q d r := by
  obtain ⟨pt, p1, p2⟩ := C40_each_once hS hs h hz Q (g := g) (eps := .fin eps) ⟨⟨eps, rfl, he⟩, 0, he2, le_rfl⟩ hc.1
  have hpos : ∀ k < s.n, coordsAt d s.parts k = some (pt k).pos ∧ (pt k).pos.length = d ∧ ∀ v ∈ (pt k).pos, v.isFinite = true :=
    fun k hk => pos_reach hs h hk (p1 k hk)
  have hsame : (pt l).pos = (pt k).pos := by
    have := coincident_coords h hc
    rw [(hpos k hc.1).1, (hpos l hc.2.1).1, Option.some.injEq] at this
    exact this.symm
  have hsing : Singular Q d (((List.range s.n).filter (· ≠ k)).foldl (fun r j => exactUpd A (.fin g) (A.mul (.fin eps) (.fin eps)) (pt k) (pt j) r) (resZero Q d)) := by
    rw [he2]
    refine fold_singular _ _ l (by simp [hc.2.1, Ne.symm hc.2.2.1]) _ (shape_zero Q d) ?_ ?_ ?_
    · intro j hj r hr
      simp at hj
      exact exact_shape (hpos k hc.1).2.1 (hpos j hj.1).2.1 hr
    · intro j hj r hr
      simp at hj
      exact exact_keep (hpos k hc.1).2.1 (hpos j hj.1).2.1 hr
    · intro r hr
      exact exact_make (M := ⟨false, A, none⟩) h0 hq (hpos k hc.1).2.1 (hpos k hc.1).2.2 hsame hr
  cases ordered with
  | false => exact ⟨k, _, rfl, p2, hsing⟩
  | true =>
    obtain ⟨i, i1, _, i2⟩ := (C40_ordered h Q (.fin g) (.fin eps)).2 k hc.1
    exact ⟨i, _, i1, i2.trans p2, hsing⟩

/-- Double precision, softening length `2⁻⁶⁰⁰`: the massless particle makes the results of the other one singular, and conversely. The third one is not affected. -/
example : (∃ r, (sgS none).exact .both true (.fin 2) (.fin (1 / 2 ^ 600)) 1 = .ok r ∧ Singular .both 3 r) ∧
    (∃ r, (sgS none).exact .acc true (.fin 2) (.fin (1 / 2 ^ 600)) 2 = .ok r ∧ Singular .acc 3 r) ∧
    ∃ r, (sgS none).exact .both true (.fin 2) (.fin (1 / 2 ^ 600)) 0 = .ok r ∧ ∀ v ∈ r.acc ++ r.pot, v.isFinite = true := by
  have key : ∀ k l : Nat, k < 3 → l < 3 → k ≠ l → 0 < k → 0 < l → Coincident (sgS none) k l := by
    intro k l h1 h2 h3 h4 h5
    refine ⟨by rw [show (sgS none).n = 3 by decide +kernel]; exact h1, by rw [show (sgS none).n = 3 by decide +kernel]; exact h2, h3, ?_⟩
    have : ∀ j < 3, @Eq (Option (Fl ℚ)) (unordered (sgS none) j 1) (unordered (sgS none) j 2) := by decide +kernel
    rcases (by omega : (k = 1 ∧ l = 2) ∨ (k = 2 ∧ l = 1)) with ⟨rfl, rfl⟩ | ⟨rfl, rfl⟩
    · exact this
    · exact fun j hj => (this j hj).symm
  refine ⟨?_, ?_, _, eq_okOr (d := ⟨[], []⟩) (by decide +kernel), by decide +kernel⟩
  · obtain ⟨i, r, h1, h2, h3⟩ := C63_exact (s := sgS none) (eps := 1 / 2 ^ 600) (g := 2) (by decide +kernel) (by decide +kernel) (by intro S hS; cases hS) ⟨.inl rfl, by decide⟩ sg_reach.2
      (by decide +kernel) (by norm_num) (by decide +kernel) (key 1 2 (by norm_num) (by norm_num) (by norm_num) (by norm_num) (by norm_num)) .both true
    obtain rfl : 1 = i := Option.some.inj ((show (sgS none).perm[1]? = some 1 by decide +kernel).symm.trans h1)
    exact ⟨r, h2, h3⟩
  · obtain ⟨i, r, h1, h2, h3⟩ := C63_exact (s := sgS none) (eps := 1 / 2 ^ 600) (g := 2) (by decide +kernel) (by decide +kernel) (by intro S hS; cases hS) ⟨.inl rfl, by decide⟩ sg_reach.2
      (by decide +kernel) (by norm_num) (by decide +kernel) (key 2 1 (by norm_num) (by norm_num) (by norm_num) (by norm_num) (by norm_num)) .acc true
    obtain rfl : 2 = i := Option.some.inj ((show (sgS none).perm[2]? = some 2 by decide +kernel).symm.trans h1)
    exact ⟨r, h2, h3⟩

/-- C63: the functions using the tree, under the same conditions; the estimate of the inverse square root of zero, if it is used, is not finite. -/
theorem C63_tree (h0 : A.rnd 0 = .fin 0) (hq : A.sqrt 0 = .fin 0) (hS : SimdPos simd) (hs : Supported w d) (h : Reach _ s) (hz : s.n * cbits w d < 2 ^ 64)
    {rsqrt : Option (Fl K → Fl K)} (hf : ∀ e, rsqrt = some e → (e (.fin 0)).isFinite = false) {over : Overshift} (ho : over.Small)
    (hr : s.n + (⟨A, simd, rsqrt⟩ : Hw K).pad < 2 ^ 64) (Q : Quant) {theta G eps mv : Fl K} {split : List (Fl K)}
    (hp : checkParams A mac theta G eps = .ok (mv, .fin 0)) (hsp : checkSplit split = .ok ()) (hpad : (s.force rsqrt over Q mv G (.fin 0)).padCoord.isFinite = true)
    {k l : Nat} (hc : Coincident s k l) (ordered : Bool) {order : List Nat} (hord : order.Perm (List.range s.crit.length)) {out : List (Res K)} (hout : out.length = s.n) :
    ∃ out' i r, s.accPot rsqrt over Q ordered theta G eps split order out = .ok out' ∧ (if ordered then s.perm[k]? else some k) = some i ∧
      out'[i]? = some r ∧ Singular Q d r := by
  obtain ⟨val, hval, hall⟩ := C27_outputs hS hs h hz ho hr Q hp hsp hpad
  obtain ⟨out', o1, o2, o3⟩ := hall ordered order out hord hout
  obtain ⟨i, hi, hoi⟩ := o3 k hc.1
  refine ⟨out', i, _, o1, hi, hoi, ?_⟩
  have E := rakauEnv_ok A simd mac hs
  obtain ⟨m, ⟨hm, hk1, hk2⟩, _⟩ := (crit_tiling E h hz).2 k hc.1
  have hcn := List.getElem_mem hm
  obtain ⟨t, vs, ht, _, t2, t3, hv, hsrc, htr, hnd, _⟩ := node_val hS hs h hz ho hr Q mv G (.fin 0) hcn
  generalize s.crit[m] = cn at *
  obtain ⟨hl1, hl2⟩ := coincident_node hs h hz hc ht ⟨by omega, by omega⟩
  have hrg := reach_range hs h hz (List.getElem_mem ht)
  have hkv : val k = (s.force rsqrt over Q mv G (.fin 0)).scaled ((s.force rsqrt over Q mv G (.fin 0)).total cn vs (k - cn.beg)) := by
    have h1 := (hval cn hcn).symm.trans hnd
    rw [Except.ok.injEq] at h1
    have h2 := congrArg (fun l => l[k - cn.beg]?) h1
    rw [arr_get (by omega), arr_get (by omega), Option.some.injEq, show cn.beg + (k - cn.beg) = k by omega] at h2
    exact h2
  rw [hkv]
  apply scaled_singular
  set c := s.force rsqrt over Q mv G (.fin 0) with hcdef
  have hok := force_ok (s := s) hS hs h hz rsqrt over Q mv G (.fin 0)
  rw [← hcdef] at hok
  obtain ⟨f1, f2, f3, f4⟩ := mode_facts c.hw c.d
  have g0 : c.M.A.rnd 0 = .fin 0 := by rw [f1]; exact h0
  have gs : c.M.A.sqrt 0 = .fin 0 := by rw [f2]; exact hq
  have gf : ∀ e, c.M.fast = some e → (e (.fin 0)).isFinite = false := fun e he => hf e (f4 e he)
  have hpt : ∀ k < s.n, coordsAt d s.parts k = some (c.pt k).pos ∧ (c.pt k).pos.length = d ∧ ∀ v ∈ (c.pt k).pos, v.isFinite = true := by
    intro k hk
    obtain ⟨p, hp⟩ := reach_pts h hk
    have : c.pt k = p := by
      unfold Force.pt
      rw [show ptAt c.d c.parts k = some p from hp]
      rfl
    rw [this]
    exact pos_reach hs h hk hp
  have hslot : ∀ l, (c.slot cn l).pos.length = d := by
    intro l
    unfold Force.slot
    split
    · exact (hpt _ (by omega)).2.1
    · exact List.length_replicate
  have hsame : (c.slot cn (l - cn.beg)).pos = (c.slot cn (k - cn.beg)).pos := by
    unfold Force.slot
    rw [if_pos (by omega), if_pos (by omega), show cn.beg + (l - cn.beg) = l by omega, show cn.beg + (k - cn.beg) = k by omega]
    have := coincident_coords h hc
    rw [(hpt k hc.1).1, (hpt l hc.2.1).1, Option.some.injEq] at this
    exact this.symm
  have hfin : ∀ v ∈ (c.slot cn (k - cn.beg)).pos, v.isFinite = true := by
    unfold Force.slot
    rw [if_pos (by omega), show cn.beg + (k - cn.beg) = k by omega]
    exact (hpt k hc.1).2.2
  have hfin' : ∀ v ∈ (c.slot cn (l - cn.beg)).pos, v.isFinite = true := by rw [hsame]; exact hfin
  have hvis : Shape Q d (vs.foldl (c.visUpd (c.slot cn (k - cn.beg))) (resZero Q d)) := by
    apply fold_pred (Shape Q d)
    · exact shape_zero Q d
    · intro v hvm r hr
      have hvo := hv v hvm
      unfold Force.visUpd
      split
      · exact hr
      · rename_i i he
        obtain ⟨rfl, _⟩ := hvo.com i he
        obtain ⟨hpl, hcl, _⟩ := reach_props hs h hz hvo.idx
        have hpr : (c.pr v.idx).com.length = d := by
          unfold Force.pr
          rw [List.getD_eq_getElem?_getD, show c.props[v.idx]? = some s.props[v.idx] from List.getElem?_eq_getElem hpl]
          exact hcl
        exact upd_shape (diffs_length _ (hslot _) hpr) hr
      · rename_i i he
        obtain ⟨rfl, _⟩ := hvo.leaf i he
        apply fold_pred (Shape Q d)
        · exact hr
        · intro j hj r hr
          have hjn : j < s.n := by
            unfold Force.srcs at hj
            have e : c.tree[v.idx]? = some (s.tree[v.idx]'hvo.idx) := List.getElem?_eq_getElem hvo.idx
            rw [e] at hj
            have := reach_range hs h hz (List.getElem_mem hvo.idx)
            simp only [List.mem_range'_1] at hj
            omega
          exact leaf_shape (hslot _) (hpt j hjn).2.1 hr
  have hrz : Shape Q d (resZero Q d : Res K) := shape_zero Q d
  unfold Force.total
  apply resAdd_singular
  rcases Nat.lt_or_gt_of_ne hc.2.2.1 with hlt | hlt
  · refine .inr ⟨?_, ?_⟩
    · apply fold_pred (Shape Q d)
      · exact hvis
      · intro j _ r hr
        exact self2_shape (hslot _) (hslot _) hr
    · refine fold_singular _ _ (l - cn.beg) (by simp only [List.mem_range'_1]; omega) _ hrz ?_ ?_ ?_
      · intro j _ r hr
        exact self1_shape (hslot _) (hslot _) hr
      · intro j _ r hr
        exact self1_keep (hslot _) (hslot _) hr
      · intro r hr
        exact self1_make g0 gs f3 gf (hslot _) hfin hsame hr
  · refine .inl ⟨?_, ?_⟩
    · refine fold_singular _ _ (l - cn.beg) ((before'_perm _ _).mem_iff.2 (List.mem_range.2 (by omega))) _ hvis ?_ ?_ ?_
      · intro j _ r hr
        exact self2_shape (hslot _) (hslot _) hr
      · intro j _ r hr
        exact self2_keep (hslot _) (hslot _) hr
      · intro r hr
        exact self2_make g0 gs f3 gf (hslot _) hfin' hsame.symm hr
    · apply fold_pred (Shape Q d)
      · exact hrz
      · intro j _ r hr
        exact self1_shape (hslot _) (hslot _) hr

/-- The same with vector kernels, and estimates of inverse square roots that are infinite for zero. -/
example : ∃ out' r r', (sgS (some avx64)).accPot (some (fun _ => .inf false)) (maskedShift 32) .both true (.fin (1 / 2)) (.fin 3) (.fin (1 / 2 ^ 600)) [] [1, 0]
      (List.replicate 3 ⟨[], []⟩) = .ok out' ∧ out'[1]? = some r ∧ Singular .both 3 r ∧ out'[2]? = some r' ∧ Singular .both 3 r' := by
  have hn : (sgS (some avx64)).n = 3 := by decide +kernel
  have key : ∀ k l : Nat, k < 3 → l < 3 → k ≠ l → 0 < k → 0 < l → Coincident (sgS (some avx64)) k l := by
    intro k l h1 h2 h3 h4 h5
    refine ⟨by rw [hn]; exact h1, by rw [hn]; exact h2, h3, ?_⟩
    have : ∀ j < 3, @Eq (Option (Fl ℚ)) (unordered (sgS (some avx64)) j 1) (unordered (sgS (some avx64)) j 2) := by decide +kernel
    rcases (by omega : (k = 1 ∧ l = 2) ∨ (k = 2 ∧ l = 1)) with ⟨rfl, rfl⟩ | ⟨rfl, rfl⟩
    · exact this
    · exact fun j hj => (this j hj).symm
  have main : ∀ k l : Nat, k < 3 → l < 3 → k ≠ l → 0 < k → 0 < l → ∃ out' i r, (sgS (some avx64)).accPot (some (fun _ => .inf false)) (maskedShift 32) .both true (.fin (1 / 2)) (.fin 3)
      (.fin (1 / 2 ^ 600)) [] [1, 0] (List.replicate 3 ⟨[], []⟩) = .ok out' ∧ (sgS (some avx64)).perm[k]? = some i ∧ out'[i]? = some r ∧ Singular .both 3 r := by
    intro k l h1 h2 h3 h4 h5
    exact C63_tree (s := sgS (some avx64)) (mv := .fin 4) (by decide +kernel) (by decide +kernel) (by intro S hS; cases hS; decide) ⟨.inl rfl, by decide⟩ sg_reach.1 (by decide +kernel)
      (fun e he => by cases he; rfl) (maskedShift_small _) (by decide +kernel) .both (by decide +kernel) rfl (by decide +kernel) (key k l h1 h2 h3 h4 h5) true
      (by rw [show (sgS (some avx64)).crit.length = 2 by decide +kernel]; decide) (by rw [hn]; rfl)
  obtain ⟨o, i, r, a1, a2, a3, a4⟩ := main 1 2 (by norm_num) (by norm_num) (by norm_num) (by norm_num) (by norm_num)
  obtain ⟨o', i', r', b1, b2, b3, b4⟩ := main 2 1 (by norm_num) (by norm_num) (by norm_num) (by norm_num) (by norm_num)
  obtain rfl : o = o' := by rw [a1, Except.ok.injEq] at b1; exact b1
  obtain rfl : 1 = i := Option.some.inj ((show (sgS (some avx64)).perm[1]? = some 1 by decide +kernel).symm.trans a2)
  obtain rfl : 2 = i' := Option.some.inj ((show (sgS (some avx64)).perm[2]? = some 2 by decide +kernel).symm.trans b2)
  exact ⟨o, r, r', a1, a3, a4, b3, b4⟩

end Rakau
