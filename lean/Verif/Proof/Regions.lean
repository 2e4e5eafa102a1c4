import Verif.Spec.Regions
import Verif.Proof.Par
import Verif.Proof.State

/-! The parallel regions of the library have separate footprints. -/
namespace Rakau
namespace Par

variable {L V : Type} [DecidableEq L]

omit [DecidableEq L] in
theorem apart_of {ι : Type} {F W : ι → Set L} {is : List ι} (hn : is.Nodup) (h : ∀ i ∈ is, ∀ j ∈ is, i ≠ j → ∀ l ∈ W i, l ∉ F j) : Apart F W is := by
  induction is with
  | nil => exact List.Pairwise.nil
  | cons i is ih =>
    obtain ⟨h1, h2⟩ := List.nodup_cons.1 hn
    refine List.pairwise_cons.2 ⟨fun j hj => ?_, ih h2 fun a ha b hb => h a (by simp [ha]) b (by simp [hb])⟩
    have hij : i ≠ j := by rintro rfl; exact h1 hj
    exact ⟨h i (by simp) j (by simp [hj]) hij, h j (by simp [hj]) i (by simp) hij.symm⟩

/-- Parallel loops in which iteration `i` writes to `dst i` only. -/
theorem Does.map {n : Nat} {bl : List (List Nat)} (hb : bl.flatten.Perm (List.range n)) {body : Nat → P L V} {m g : L → V} {bad : Nat → Prop} {src : Nat → Set L} {dst : Nat → L}
    {F W : Set L} (hinj : ∀ i < n, ∀ j < n, dst i = dst j → i = j) (hsep : ∀ i < n, ∀ j < n, dst i ∉ src j) (h : ∀ i < n, Does (body i) (src i ∪ {dst i}) {dst i} m g (bad i))
    (hF : ∀ i < n, src i ⊆ F) (hW : ∀ i < n, dst i ∈ W) (hWF : W ⊆ F) (hg : ∀ l ∈ W, (∀ i < n, l ≠ dst i) → g l = m l) :
    Does (P.pfor bl body) F W m g (∃ i < n, bad i) := by
  have hm : ∀ i, i ∈ bl.flatten ↔ i < n := fun i => by rw [hb.mem_iff, List.mem_range]
  have hnd : bl.flatten.Nodup := hb.nodup_iff.2 List.nodup_range
  refine ((Does.pfor (F := fun i => src i ∪ {dst i}) (W := fun i => {dst i}) (m := m) (g := g) (bad := bad) (body := body) (apart_of hnd ?_) fun i hi => h i ((hm i).1 hi)).mono ?_ ?_ hWF ?_).congr
    (fun _ _ => rfl) (fun _ _ => rfl) (by simp only [hm])
  · rintro i hi j hj hij l rfl (hl | hl)
    · exact hsep i ((hm i).1 hi) j ((hm j).1 hj) hl
    · exact hij (hinj i ((hm i).1 hi) j ((hm j).1 hj) hl)
  · rintro l ⟨i, hi, hl | rfl⟩
    · exact hF i ((hm i).1 hi) hl
    · exact hWF (hW i ((hm i).1 hi))
  · rintro l ⟨i, hi, rfl⟩
    exact hW i ((hm i).1 hi)
  · intro l hl hl'
    refine hg l hl fun i hi e => hl' ⟨i, (hm i).2 hi, e⟩

end Par

open Par Spec

variable {env : Env} {R : Type}

theorem Does.gather {ls : List Loc} {k : List (Cell env R) → Reg env R} {F W : Set Loc} {m g : Loc → Cell env R} {bad : Prop} (hl : ∀ l ∈ ls, l ∈ F) (h : Does (k (ls.map m)) F W m g bad) :
    Does (gatherP ls k) F W m g bad := by
  induction ls generalizing k with
  | nil => exact h
  | cons l ls ih => exact Does.read (hl l (by simp)) (ih (fun x hx => hl x (by simp [hx])) h)

theorem copy_does {n : Nat} {bl : List (List Nat)} (hb : bl.flatten.Perm (List.range n)) {src dst : Name} (h : dst ≠ src) {m g : Loc → Cell env R} (hg : ∀ i < n, g (dst, i) = m (src, i)) :
    Does (copyP src dst bl) (cells n [src, dst]) (cells n [dst]) m g False := by
  refine (Does.map (bad := fun _ => False) hb (src := fun i => {(src, i)}) (dst := fun i => (dst, i)) ?_ ?_ ?_ ?_ ?_ ?_ ?_).congr (fun _ _ => rfl) (fun _ _ => rfl) (by simp)
  · rintro i _ j _ e; simpa using e
  · rintro i _ j _ e
    exact h (congrArg Prod.fst (show (dst, i) = (src, j) from e))
  · intro i hi
    refine Does.read (.inl rfl) ((Does.write (hg i hi)).mono (fun _ => .inr) (fun _ h => h) (fun _ => .inr) ?_)
    intro l hl hl'
    exact absurd hl hl'
  · rintro i hi l rfl; exact ⟨by simp, hi⟩
  · intro i hi; exact ⟨by simp, hi⟩
  · rintro l ⟨h1, h2⟩
    exact ⟨by simp only [List.mem_singleton] at h1; simp [h1], h2⟩
  · rintro ⟨a, i⟩ ⟨h1, h2⟩ hl
    simp only [List.mem_singleton] at h1
    subst h1
    exact absurd rfl (hl i h2)

theorem iota_does {n : Nat} {bl : List (List Nat)} (hb : bl.flatten.Perm (List.range n)) {dst : Name} {m g : Loc → Cell env R} (hg : ∀ i < n, g (dst, i) = .num i) :
    Does (iotaP dst bl) (cells n [dst]) (cells n [dst]) m g False := by
  refine (Does.map (bad := fun _ => False) hb (src := fun _ => ∅) (dst := fun i => (dst, i)) ?_ ?_ ?_ ?_ ?_ ?_ ?_).congr (fun _ _ => rfl) (fun _ _ => rfl) (by simp)
  · rintro i _ j _ e; simpa using e
  · rintro i _ j _ e; exact e
  · intro i hi
    refine (Does.write (hg i hi)).mono (fun _ => .inr) (fun _ h => h) (fun _ => .inr) ?_
    intro l hl hl'
    exact absurd hl hl'
  · rintro i hi l h; exact absurd h (by simp)
  · intro i hi; exact ⟨by simp, hi⟩
  · exact fun _ h => h
  · rintro ⟨a, i⟩ ⟨h1, h2⟩ hl
    simp only [List.mem_singleton] at h1
    subst h1
    exact absurd rfl (hl i h2)

theorem isort_does {n : Nat} {bl : List (List Nat)} (hb : bl.flatten.Perm (List.range n)) {src new p : Name} (h1 : new ≠ src) (h2 : new ≠ p) {m g : Loc → Cell env R}
    (hlt : ∀ i < n, (m (p, i)).idx < n) (hg : ∀ i < n, g (new, i) = m (src, (m (p, i)).idx)) :
    Does (isortP src new p bl) (cells n [p, src, new]) (cells n [new]) m g False := by
  refine (Does.map (bad := fun _ => False) hb (src := fun i => {(p, i), (src, (m (p, i)).idx)}) (dst := fun i => (new, i)) ?_ ?_ ?_ ?_ ?_ ?_ ?_).congr (fun _ _ => rfl) (fun _ _ => rfl) (by simp)
  · rintro i _ j _ e; simpa using e
  · rintro i _ j _ (e | e)
    · exact h2 (congrArg Prod.fst e)
    · exact h1 (congrArg Prod.fst (show (new, i) = (src, _) from e))
  · intro i hi
    refine Does.read (.inl (.inl rfl)) (Does.read (.inl (.inr rfl)) ((Does.write (hg i hi)).mono (fun _ => .inr) (fun _ h => h) (fun _ => .inr) ?_))
    intro l hl hl'
    exact absurd hl hl'
  · rintro i hi l (rfl | rfl)
    · exact ⟨by simp, hi⟩
    · exact ⟨by simp, hlt i hi⟩
  · intro i hi; exact ⟨by simp, hi⟩
  · rintro l ⟨h1, h2⟩
    exact ⟨by simp only [List.mem_singleton] at h1; simp [h1], h2⟩
  · rintro ⟨a, i⟩ ⟨ha, hi⟩ hl
    simp only [List.mem_singleton] at ha
    subst ha
    exact absurd rfl (hl i hi)

theorem inv_does {n : Nat} {bl : List (List Nat)} (hb : bl.flatten.Perm (List.range n)) {p : Name} (h1 : p ≠ .invPerm) {m g : Loc → Cell env R}
    (hlt : ∀ i < n, (m (p, i)).idx < n) (hinj : ∀ i < n, ∀ j < n, (m (p, i)).idx = (m (p, j)).idx → i = j) (hsurj : ∀ k < n, ∃ i < n, (m (p, i)).idx = k)
    (hg : ∀ i < n, g (.invPerm, (m (p, i)).idx) = .num i) :
    Does (invP p bl) (cells n [p, .invPerm]) (cells n [.invPerm]) m g False := by
  refine (Does.map (bad := fun _ => False) hb (src := fun i => {(p, i)}) (dst := fun i => (.invPerm, (m (p, i)).idx)) ?_ ?_ ?_ ?_ ?_ ?_ ?_).congr (fun _ _ => rfl) (fun _ _ => rfl) (by simp)
  · rintro i hi j hj e
    exact hinj i hi j hj (congrArg Prod.snd e)
  · rintro i _ j _ e
    exact h1 (congrArg Prod.fst (show (_, _) = (p, j) from e)).symm
  · intro i hi
    refine Does.read (.inl rfl) ((Does.write (hg i hi)).mono (fun _ => .inr) (fun _ h => h) (fun _ => .inr) ?_)
    intro l hl hl'
    exact absurd hl hl'
  · rintro i hi l rfl; exact ⟨by simp, hi⟩
  · intro i hi; exact ⟨by simp, hlt i hi⟩
  · rintro l ⟨h1, h2⟩
    exact ⟨by simp only [List.mem_singleton] at h1; simp [h1], h2⟩
  · rintro ⟨a, k⟩ ⟨h1, h2⟩ hl
    simp only [List.mem_singleton] at h1
    subst h1
    obtain ⟨i, hi, rfl⟩ := hsurj k h2
    exact absurd rfl (hl i hi)

theorem cells_names {n : Nat} {a b : List Name} (h : ∀ x ∈ a, x ∈ b) : cells n a ⊆ cells n b := fun _ hl => ⟨h _ hl.1, hl.2⟩

/-- The tasks that reorder the arrays, and the arrays that they read and write. -/
inductive Task
  | codes | inv | last | part (j : Nat)
  deriving DecidableEq

def Task.reads : Task → List Name
  | .codes => [.perm, .codes, .newCodes]
  | .inv => [.perm, .invPerm]
  | .last => [.perm, .lastPerm]
  | .part j => [.perm, .parts j, .newParts j]

def Task.writes : Task → List Name
  | .codes => [.newCodes]
  | .inv => [.invPerm]
  | .last => [.lastPerm]
  | .part j => [.newParts j]

theorem nodup_parts (l : List Task) (hl : l.Nodup) (h : ∀ j, Task.part j ∉ l) (d : Nat) : (l ++ (List.range d).map Task.part).Nodup := by
  rw [List.nodup_append]
  refine ⟨hl, ?_, ?_⟩
  · exact List.Nodup.map (fun a b e => by simpa using e) List.nodup_range
  · rintro a ha b hb rfl
    obtain ⟨j, _, rfl⟩ := List.mem_map.1 hb
    exact h j ha

theorem permute_does {n : Nat} {bl : Nat → List (List Nat)} (hb : ∀ t, (bl t).flatten.Perm (List.range n)) {m g : Loc → Cell env R}
    (hlt : ∀ i < n, (m (.perm, i)).idx < n) (hinj : ∀ i < n, ∀ j < n, (m (.perm, i)).idx = (m (.perm, j)).idx → i = j) (hsurj : ∀ k < n, ∃ i < n, (m (.perm, i)).idx = k)
    (g1 : ∀ i < n, g (.newCodes, i) = m (.codes, (m (.perm, i)).idx)) (g2 : ∀ i < n, g (.invPerm, (m (.perm, i)).idx) = .num i) (g3 : ∀ i < n, g (.lastPerm, i) = m (.perm, i))
    (g4 : ∀ j ≤ env.d, ∀ i < n, g (.newParts j, i) = m (.parts j, (m (.perm, i)).idx)) :
    ∃ F, F ⊆ cells n (permuteIn env.d ++ permuteOut env.d) ∧ Does (permuteP env bl) F (cells n (permuteOut env.d)) m g False := by
  have key := Does.all (F := fun t : Task => cells n t.reads) (W := fun t => cells n t.writes) (m := m) (g := g) (bad := fun _ => False)
    (prog := fun t => match t with
      | .codes => isortP .codes .newCodes .perm (bl 0)
      | .inv => invP .perm (bl 1)
      | .last => copyP .perm .lastPerm (bl 2)
      | .part j => isortP (.parts j) (.newParts j) .perm (bl (3 + j)))
    (is := [.codes, .inv, .last] ++ (List.range (env.d + 1)).map .part)
    (apart_of (nodup_parts _ (by decide) (by simp) _) ?_) ?_
  · rw [List.map_append, List.map_map] at key
    have key : Does (permuteP env bl) _ _ m g _ := key
    refine ⟨_, ?_, (key.mono (W' := cells n (permuteOut env.d)) (fun _ h => h) ?_ ?_ ?_).congr (fun _ _ => rfl) (fun _ _ => rfl) (iff_of_false id (by simp))⟩
    · rintro l ⟨t, ht, hl⟩
      refine ⟨?_, hl.2⟩
      have := hl.1
      simp only [List.mem_append, List.mem_cons, List.not_mem_nil, or_false, List.mem_map, List.mem_range] at ht
      rcases ht with (rfl | rfl | rfl) | ⟨j, hj, rfl⟩ <;> simp only [Task.reads, List.mem_cons, List.not_mem_nil, or_false] at this <;>
        (repeat' rcases this with this | this) <;> simp_all [permuteIn, permuteOut, family]
    · rintro l ⟨t, ht, hl⟩
      refine ⟨?_, hl.2⟩
      have := hl.1
      simp only [List.mem_append, List.mem_cons, List.not_mem_nil, or_false, List.mem_map, List.mem_range] at ht
      rcases ht with (rfl | rfl | rfl) | ⟨j, hj, rfl⟩ <;> simp_all [Task.writes, permuteOut, family]
    · rintro l ⟨h1, h2⟩
      simp only [permuteOut, family, List.mem_append, List.mem_cons, List.not_mem_nil, or_false, List.mem_map, List.mem_range] at h1
      rcases h1 with (h | h | h) | ⟨j, hj, h⟩
      · exact ⟨.codes, by simp, by simp [h, Task.reads], h2⟩
      · exact ⟨.inv, by simp, by simp [h, Task.reads], h2⟩
      · exact ⟨.last, by simp, by simp [h, Task.reads], h2⟩
      · exact ⟨.part j, by simp; omega, by simp [← h, Task.reads], h2⟩
    · rintro l ⟨h1, h2⟩ hl
      exfalso
      apply hl
      simp only [permuteOut, family, List.mem_append, List.mem_cons, List.not_mem_nil, or_false, List.mem_map, List.mem_range] at h1
      rcases h1 with (h | h | h) | ⟨j, hj, h⟩
      · exact ⟨.codes, by simp, by simp [h, Task.writes], h2⟩
      · exact ⟨.inv, by simp, by simp [h, Task.writes], h2⟩
      · exact ⟨.last, by simp, by simp [h, Task.writes], h2⟩
      · exact ⟨.part j, by simp; omega, by simp [← h, Task.writes], h2⟩
  · rintro a _ b _ hab l ⟨h1, _⟩ ⟨h2, _⟩
    cases a <;> cases b <;> simp_all [Task.writes, Task.reads]
  · intro t ht
    simp only [List.mem_append, List.mem_cons, List.not_mem_nil, or_false, List.mem_map, List.mem_range] at ht
    rcases ht with (rfl | rfl | rfl) | ⟨j, hj, rfl⟩
    · exact isort_does (hb 0) (by simp) (by simp) hlt g1
    · exact inv_does (hb 1) (by simp) hlt hinj hsurj g2
    · exact copy_does (hb 2) (by simp) g3
    · exact isort_does (hb _) (by simp) (by simp) hlt (g4 j (by omega))

/-- The tasks of `sync`. -/
def Task.reads2 : Task → List Name
  | .codes => [.lastPerm, .codes, .newCodes]
  | .part j => [.lastPerm, .parts j, .newParts j]
  | _ => [.lastPerm, .perm, .newPerm, .invPerm]

def Task.writes2 : Task → List Name
  | .codes => [.newCodes]
  | .part j => [.newParts j]
  | _ => [.newPerm, .invPerm]

theorem isort_inv_does {n : Nat} {bl bl' : List (List Nat)} (hb : bl.flatten.Perm (List.range n)) (hb' : bl'.flatten.Perm (List.range n)) {m g : Loc → Cell env R}
    (hlt : ∀ i < n, (m (.lastPerm, i)).idx < n) (g1 : ∀ i < n, g (.newPerm, i) = m (.perm, (m (.lastPerm, i)).idx))
    (hlt' : ∀ i < n, (g (.newPerm, i)).idx < n) (hinj : ∀ i < n, ∀ j < n, (g (.newPerm, i)).idx = (g (.newPerm, j)).idx → i = j) (hsurj : ∀ k < n, ∃ i < n, (g (.newPerm, i)).idx = k)
    (g2 : ∀ i < n, g (.invPerm, (g (.newPerm, i)).idx) = .num i) :
    Does (.seq (isortP .perm .newPerm .lastPerm bl) (invP .newPerm bl')) (cells n [.lastPerm, .perm, .newPerm, .invPerm]) (cells n [.newPerm, .invPerm]) m g False := by
  have hWF : cells n [Name.newPerm, .invPerm] ⊆ cells n [.lastPerm, .perm, .newPerm, .invPerm] := cells_names (by simp)
  have s1 : Does (isortP .perm .newPerm .lastPerm bl) (cells n [.lastPerm, .perm, .newPerm, .invPerm]) (cells n [.newPerm, .invPerm]) m (fun l => if l.1 = .newPerm then g l else m l) False := by
    refine (isort_does hb (by simp) (by simp) hlt ?_).mono (cells_names (by simp)) (cells_names (by simp)) hWF ?_
    · intro i hi; simp [g1 i hi]
    · rintro l ⟨h1, h2⟩ h3
      have : l.1 ≠ .newPerm := fun h => h3 ⟨by simp [h], h2⟩
      simp [this]
  refine s1.seq ?_
  have hm : ∀ i < n, upd (cells n [.newPerm, .invPerm]) (fun l => if l.1 = .newPerm then g l else m l) m (Name.newPerm, i) = g (.newPerm, i) := by
    intro i hi
    rw [upd_in (show (Name.newPerm, i) ∈ cells n [.newPerm, .invPerm] from ⟨by simp, hi⟩)]
    simp
  refine (inv_does (p := .newPerm) hb' (by simp) ?_ ?_ ?_ ?_).mono (cells_names (by simp)) (cells_names (by simp)) hWF ?_
  · intro i hi; rw [hm i hi]; exact hlt' i hi
  · intro i hi j hj e; rw [hm i hi, hm j hj] at e; exact hinj i hi j hj e
  · intro k hk
    obtain ⟨i, hi, e⟩ := hsurj k hk
    exact ⟨i, hi, by rw [hm i hi]; exact e⟩
  · intro i hi; rw [hm i hi]; exact g2 i hi
  · rintro ⟨a, i⟩ ⟨h1, h2⟩ h3
    have : a = .newPerm := by
      simp only [List.mem_cons, List.not_mem_nil, or_false] at h1
      rcases h1 with h | h
      · exact h
      · exact absurd ⟨by simp [h], h2⟩ h3
    subst this
    exact (hm i h2).symm

theorem sync_does {n : Nat} {bl : Nat → List (List Nat)} (hb : ∀ t, (bl t).flatten.Perm (List.range n)) {m g : Loc → Cell env R}
    (hlt : ∀ i < n, (m (.lastPerm, i)).idx < n) (g1 : ∀ i < n, g (.newCodes, i) = m (.codes, (m (.lastPerm, i)).idx))
    (g2 : ∀ i < n, g (.newPerm, i) = m (.perm, (m (.lastPerm, i)).idx))
    (hlt' : ∀ i < n, (g (.newPerm, i)).idx < n) (hinj : ∀ i < n, ∀ j < n, (g (.newPerm, i)).idx = (g (.newPerm, j)).idx → i = j) (hsurj : ∀ k < n, ∃ i < n, (g (.newPerm, i)).idx = k)
    (g3 : ∀ i < n, g (.invPerm, (g (.newPerm, i)).idx) = .num i)
    (g4 : ∀ j ≤ env.d, ∀ i < n, g (.newParts j, i) = m (.parts j, (m (.lastPerm, i)).idx)) :
    ∃ F, F ⊆ cells n (syncIn env.d ++ syncOut env.d) ∧ Does (syncP env bl) F (cells n (syncOut env.d)) m g False := by
  have key := Does.all (F := fun t : Task => cells n t.reads2) (W := fun t => cells n t.writes2) (m := m) (g := g) (bad := fun _ => False)
    (prog := fun t => match t with
      | .codes => isortP .codes .newCodes .lastPerm (bl 0)
      | .part j => isortP (.parts j) (.newParts j) .lastPerm (bl (3 + j))
      | _ => .seq (isortP .perm .newPerm .lastPerm (bl 1)) (invP .newPerm (bl 2)))
    (is := [.codes, .inv] ++ (List.range (env.d + 1)).map .part)
    (apart_of (nodup_parts _ (by decide) (by simp) _) ?_) ?_
  · rw [List.map_append, List.map_map] at key
    have key : Does (syncP env bl) _ _ m g _ := key
    refine ⟨_, ?_, (key.mono (W' := cells n (syncOut env.d)) (fun _ h => h) ?_ ?_ ?_).congr (fun _ _ => rfl) (fun _ _ => rfl) (iff_of_false id (by simp))⟩
    · rintro l ⟨t, ht, hl⟩
      refine ⟨?_, hl.2⟩
      have := hl.1
      simp only [List.mem_append, List.mem_cons, List.not_mem_nil, or_false, List.mem_map, List.mem_range] at ht
      rcases ht with (rfl | rfl) | ⟨j, hj, rfl⟩ <;> simp only [Task.reads2, List.mem_cons, List.not_mem_nil, or_false] at this <;>
        (repeat' rcases this with this | this) <;> simp_all [syncIn, syncOut, family]
    · rintro l ⟨t, ht, hl⟩
      refine ⟨?_, hl.2⟩
      have := hl.1
      simp only [List.mem_append, List.mem_cons, List.not_mem_nil, or_false, List.mem_map, List.mem_range] at ht
      rcases ht with (rfl | rfl) | ⟨j, hj, rfl⟩
      · simp_all [Task.writes2, syncOut, family]
      · simp only [Task.writes2, List.mem_cons, List.not_mem_nil, or_false] at this
        rcases this with h | h <;> simp [syncOut, family, h]
      · simp_all [Task.writes2, syncOut, family]
    · rintro l ⟨h1, h2⟩
      simp only [syncOut, family, List.mem_append, List.mem_cons, List.not_mem_nil, or_false, List.mem_map, List.mem_range] at h1
      rcases h1 with (h | h | h) | ⟨j, hj, h⟩
      · exact ⟨.codes, by simp, by simp [h, Task.reads2], h2⟩
      · exact ⟨.inv, by simp, by simp [h, Task.reads2], h2⟩
      · exact ⟨.inv, by simp, by simp [h, Task.reads2], h2⟩
      · exact ⟨.part j, by simp; omega, by simp [← h, Task.reads2], h2⟩
    · rintro l ⟨h1, h2⟩ hl
      exfalso
      apply hl
      simp only [syncOut, family, List.mem_append, List.mem_cons, List.not_mem_nil, or_false, List.mem_map, List.mem_range] at h1
      rcases h1 with (h | h | h) | ⟨j, hj, h⟩
      · exact ⟨.codes, by simp, by simp [h, Task.writes2], h2⟩
      · exact ⟨.inv, by simp, by simp [h, Task.writes2], h2⟩
      · exact ⟨.inv, by simp, by simp [h, Task.writes2], h2⟩
      · exact ⟨.part j, by simp; omega, by simp [← h, Task.writes2], h2⟩
  · rintro a ha b hb' hab l ⟨h1, _⟩ ⟨h2, _⟩
    simp only [List.mem_append, List.mem_cons, List.not_mem_nil, or_false, List.mem_map, List.mem_range] at ha hb'
    rcases ha with (rfl | rfl) | ⟨j, hj, rfl⟩ <;> rcases hb' with (rfl | rfl) | ⟨j', hj', rfl⟩ <;>
      simp only [Task.writes2, Task.reads2, List.mem_cons, List.not_mem_nil, or_false] at h1 h2 <;> (try rcases h1 with h1 | h1) <;> simp_all
  · intro t ht
    simp only [List.mem_append, List.mem_cons, List.not_mem_nil, or_false, List.mem_map, List.mem_range] at ht
    rcases ht with (rfl | rfl) | ⟨j, hj, rfl⟩
    · exact isort_does (hb 0) (by simp) (by simp) hlt g1
    · exact isort_inv_does (hb 1) (hb 2) hlt g2 hlt' hinj hsurj g3
    · exact isort_does (hb _) (by simp) (by simp) hlt (g4 j (by omega))

/-- Morton codes: an invalid particle makes the region throw, whatever the schedule. -/
theorem encode_does {n : Nat} {bl : List (List Nat)} (hb : bl.flatten.Perm (List.range n)) {box : env.F} {m g : Loc → Cell env R} {code : Nat → Except Err Nat}
    (hc : ∀ i < n, env.code box ((List.range env.d).map fun j => (m (.parts j, i)).coord) = code i) (hg : ∀ i < n, ∀ c, code i = .ok c → g (.codes, i) = .num c) (hg' : ∀ i < n, ∀ e, code i = .error e → g (.codes, i) = m (.codes, i)) :
    Does (encodeP env box bl) (cells n (.codes :: family .parts env.d)) (cells n [.codes]) m g (∃ i < n, ∃ e, code i = .error e) := by
  refine (Does.map (bad := fun i => ∃ e, code i = .error e) hb (src := fun i => {l | ∃ j < env.d, l = (.parts j, i)}) (dst := fun i => (.codes, i)) ?_ ?_ ?_ ?_ ?_ ?_ ?_)
  · rintro i _ j _ e; simpa using e
  · rintro i _ j _ ⟨k, _, e⟩
    simp at e
  · intro i hi
    refine Does.gather ?_ ?_
    · intro l hl
      obtain ⟨j, hj, rfl⟩ := List.mem_map.1 hl
      exact .inl ⟨j, List.mem_range.1 hj, rfl⟩
    · have e := hc i hi
      rw [List.map_map, List.map_map]
      rw [show (List.map ((Cell.coord ∘ m) ∘ fun j => (Name.parts j, i)) (List.range env.d)) = (List.range env.d).map fun j => (m (.parts j, i)).coord from rfl, e]
      cases hci : code i with
      | ok c =>
        refine ((Does.write (hg i hi c hci)).mono (fun _ => .inr) (fun _ h => h) (fun _ => .inr) ?_).congr (fun _ _ => rfl) (fun _ _ => rfl) (by simp)
        intro l hl hl'
        exact absurd hl hl'
      | error x =>
        refine ((Does.throw _ m g).mono (fun _ h => h) (by simp) (fun _ => .inr) ?_).congr (fun _ _ => rfl) (fun _ _ => rfl) (by simp)
        rintro l rfl _
        exact hg' i hi x hci
  · rintro i hi l ⟨j, hj, rfl⟩
    exact ⟨by simp [family, hj], hi⟩
  · intro i hi; exact ⟨by simp, hi⟩
  · exact cells_names (by simp)
  · rintro ⟨a, i⟩ ⟨ha, hi⟩ hl
    simp only [List.mem_singleton] at ha
    subst ha
    exact absurd rfl (hl i hi)

theorem mem_partLocs {d n : Nat} {l : Loc} : l ∈ partLocs d n ↔ ∃ j ≤ d, l.1 = .parts j ∧ l.2 < n := by
  obtain ⟨a, i⟩ := l
  simp only [partLocs, List.mem_flatten, List.mem_map, List.mem_range]
  constructor
  · rintro ⟨_, ⟨j, hj, rfl⟩, h⟩
    obtain ⟨i, hi, e⟩ := List.mem_map.1 h
    cases e
    exact ⟨j, by omega, rfl, List.mem_range.1 hi⟩
  · rintro ⟨j, hj, rfl, hi⟩
    exact ⟨_, ⟨j, by omega, rfl⟩, List.mem_map.2 ⟨i, List.mem_range.2 hi, rfl⟩⟩

/-- Arrays of the same length, one after the other, taken apart again. -/
theorem chunks {α : Type} {n : Nat} : ∀ {a : List (List α)}, (∀ v ∈ a, v.length = n) → (List.range a.length).map (fun j => (a.flatten.drop (j * n)).take n) = a
  | [], _ => rfl
  | v :: a, h => by
    rw [List.length_cons, List.range_succ_eq_map, List.map_cons, List.map_map, List.flatten_cons]
    have hv := h v (by simp)
    congr 1
    · simp [← hv]
    · refine Eq.trans ?_ (chunks (n := n) fun w hw => h w (by simp [hw]))
      refine List.map_congr_left fun j _ => ?_
      simp only [Function.comp]
      rw [Nat.succ_mul, Nat.add_comm, ← List.drop_drop, ← hv, List.drop_left]

theorem has_map {m : Loc → Cell env R} {a : Name} {xs : List (Cell env R)} (h : Has m a xs) {n : Nat} (hn : n = xs.length) : ((List.range n).map fun i => (a, i)).map m = xs := by
  subst hn
  apply List.ext_getElem (by simp)
  intro i h1 h2
  simp [h i h2]

theorem partLocs_map {m : Loc → Cell env R} {n : Nat} {parts : List (List env.F)} {d : Nat} (hd : parts.length = d + 1) (hl : ∀ v ∈ parts, v.length = n)
    (h : HasParts m parts) : (partLocs d n).map m = parts.flatten.map .val := by
  unfold partLocs
  rw [List.map_flatten, List.map_map, List.map_flatten]
  congr 1
  apply List.ext_getElem (by simp [hd])
  intro j h1 h2
  simp only [List.length_map, List.length_range] at h1
  simp only [List.getElem_map, List.getElem_range, Function.comp]
  exact has_map (h j (by omega)) (by simp [hl _ (List.getElem_mem (show j < parts.length by omega))])

/-- The cells of one kind, among others. -/
theorem filterMap_kind {α β : Type} (f : β → Option α) (mk : α → β) (h : ∀ x, f (mk x) = some x) (pre post : List β) (xs : List α) (h1 : ∀ v ∈ pre, f v = none) (h2 : ∀ v ∈ post, f v = none) :
    (pre ++ xs.map mk ++ post).filterMap f = xs := by
  rw [List.filterMap_append, List.filterMap_append, List.filterMap_eq_nil_iff.2 h1, List.filterMap_eq_nil_iff.2 h2, List.filterMap_map, List.append_nil, List.nil_append,
    show f ∘ mk = some from funext h]
  exact List.filterMap_some

theorem partsOf_vals {n : Nat} {parts : List (List env.F)} {d : Nat} (hd : parts.length = d + 1) (hl : ∀ v ∈ parts, v.length = n) (vs : List (Cell env R))
    (hv : ∀ v ∈ vs, v.val? = none) : partsOf d n ((parts.flatten.map .val : List (Cell env R)) ++ vs) = parts := by
  have e := filterMap_kind (Cell.val? (env := env) (R := R)) .val (fun _ => rfl) [] vs parts.flatten (by simp) hv
  rw [List.nil_append] at e
  unfold partsOf
  rw [e, ← hd]
  exact chunks hl

/-- Node properties. -/
theorem props_does {N n : Nat} {bl : List (List Nat)} (hb : bl.flatten.Perm (List.range N)) {box : env.F} {parts : List (List env.F)} (hd : parts.length = env.d + 1) (hl : ∀ v ∈ parts, v.length = n)
    {m g : Loc → Cell env R} (hp : HasParts m parts) {tree : List Node} (ht : Has m .tree (tree.map .node)) (hN : N = tree.length)
    (hg : ∀ i (h : i < tree.length), ∀ p, env.props box tree[i] parts = .ok p → g (.props, i) = .props p)
    (hg' : ∀ i (h : i < tree.length), ∀ e, env.props box tree[i] parts = .error e → g (.props, i) = m (.props, i)) :
    Does (propsP env box n bl) ({l | l ∈ partLocs env.d n} ∪ cells N [.tree, .props]) (cells N [.props]) m g (∃ i < N, ∃ nd e, tree[i]? = some nd ∧ env.props box nd parts = .error e) := by
  subst hN
  refine (Does.map (bad := fun i => ∃ nd e, tree[i]? = some nd ∧ env.props box nd parts = .error e) hb (src := fun i => {l | l ∈ partLocs env.d n} ∪ {(.tree, i)}) (dst := fun i => (.props, i)) ?_ ?_ ?_ ?_ ?_ ?_ ?_)
  · rintro i _ j _ e; simpa using e
  · rintro i _ j _ (h | h)
    · obtain ⟨j, _, h, _⟩ := mem_partLocs.1 h
      cases h
    · cases h
  · intro i hi
    refine Does.read (.inl (.inr rfl)) (Does.gather (fun l hl => .inl (.inl hl)) ?_)
    rw [ht i (by simpa using hi), partLocs_map hd hl hp]
    simp only [List.getElem_map]
    have e := partsOf_vals (env := env) (R := R) hd hl [] (by simp)
    rw [List.append_nil] at e
    rw [e]
    cases hp : env.props box tree[i] parts with
    | ok p =>
      refine ((Does.write (hg i hi p hp)).mono (fun _ => .inr) (fun _ h => h) (fun _ => .inr) ?_).congr (fun _ _ => rfl) (fun _ _ => rfl) ?_
      · intro l hl hl'
        exact absurd hl hl'
      · simp [List.getElem?_eq_getElem hi, hp]
    | error e =>
      refine ((Does.throw _ m g).mono (fun _ h => h) (by simp) (fun _ => .inr) ?_).congr (fun _ _ => rfl) (fun _ _ => rfl) ?_
      · rintro l rfl _
        exact hg' i hi e hp
      · simp [List.getElem?_eq_getElem hi, hp]
  · rintro i hi l (h | rfl)
    · exact .inl h
    · exact .inr ⟨by simp, hi⟩
  · intro i hi; exact ⟨by simp, hi⟩
  · exact fun l hl => .inr (cells_names (by simp) hl)
  · rintro ⟨a, i⟩ ⟨ha, hi⟩ hl
    simp only [List.mem_singleton] at ha
    subst ha
    exact absurd rfl (hl i hi)

/-- The position of element `k` of piece `i` in the merged array. -/
theorem merge_pos {lens : List Nat} {i i' k k' : Nat} (hi : i < lens.length) (hi' : i' < lens.length) (hk : k < lens[i]) (hk' : k' < lens[i'])
    (h : (lens.take i).sum + k = (lens.take i').sum + k') : i = i' ∧ k = k' := by
  have step : ∀ {a b : Nat} (hab : a < b) (hb : b ≤ lens.length), (lens.take a).sum + (lens[a]'(by omega)) ≤ (lens.take b).sum := by
    intro a b hab hb
    obtain ⟨c, rfl⟩ : ∃ c, b = a + 1 + c := ⟨b - a - 1, by omega⟩
    rw [List.take_add, List.take_add, List.sum_append, List.sum_append]
    have : (List.drop a lens).take 1 = [lens[a]'(by omega)] := by
      rw [List.drop_eq_getElem_cons (by omega)]
      rfl
    rw [this]
    simp
  rcases Nat.lt_trichotomy i i' with h1 | h1 | h1
  · have := step h1 (by omega)
    omega
  · subst h1
    exact ⟨rfl, by omega⟩
  · have := step h1 (by omega)
    omega

theorem merge_lt {lens : List Nat} {i k : Nat} (hi : i < lens.length) (hk : k < lens[i]) : (lens.take i).sum + k < lens.sum := by
  conv => rhs; rw [← List.take_append_drop i lens]
  rw [List.sum_append, List.drop_eq_getElem_cons hi, List.sum_cons]
  omega

/-- Every position is that of an element of a piece. -/
theorem merge_surj : ∀ {lens : List Nat} {x : Nat}, x < lens.sum → ∃ i, ∃ h : i < lens.length, ∃ k < lens[i], x = (lens.take i).sum + k
  | [], x, h => by simp at h
  | n :: lens, x, h => by
    by_cases hx : x < n
    · exact ⟨0, by simp, x, hx, by simp⟩
    · rw [List.sum_cons] at h
      obtain ⟨i, hi, k, hk, e⟩ := merge_surj (lens := lens) (x := x - n) (by omega)
      exact ⟨i + 1, by simp; omega, k, by simpa using hk, by simp; omega⟩

/-- Merging of partial trees. -/
theorem merge_does {piece : Nat → Name} {dst : Name} {start : Nat} {lens : List Nat} {ob : List (List Nat)} {bl : Nat → List (List Nat)} (hd : ∀ i, piece i ≠ dst)
    (ho : ob.flatten.Perm (List.range lens.length)) (hb : ∀ i (h : i < lens.length), (bl i).flatten.Perm (List.range lens[i])) {m g : Loc → Cell env R}
    (hg : ∀ i (h : i < lens.length), ∀ k < lens[i], g (dst, start + (lens.take i).sum + k) = m (piece i, k)) :
    Does (mergeP piece dst start lens ob bl) (pieceLocs piece lens ∪ destLocs dst start lens) (destLocs dst start lens) m g False := by
  have hm : ∀ i, i ∈ ob.flatten ↔ i < lens.length := fun i => by rw [ho.mem_iff, List.mem_range]
  have hnd : ob.flatten.Nodup := ho.nodup_iff.2 List.nodup_range
  have key := Does.pfor (F := fun i => {l : Loc | ∃ h : i < lens.length, ∃ k < lens[i], l = (piece i, k) ∨ l = (dst, start + (lens.take i).sum + k)})
    (W := fun i => {l : Loc | ∃ h : i < lens.length, ∃ k < lens[i], l = (dst, start + (lens.take i).sum + k)}) (m := m) (g := g) (bad := fun _ => False)
    (body := fun i => .pfor (bl i) fun k => .read (piece i, k) fun v => .write (dst, start + (lens.take i).sum + k) v)
    (blocks := ob) (apart_of hnd ?_) ?_
  · refine (key.mono ?_ ?_ ?_ ?_).congr (fun _ _ => rfl) (fun _ _ => rfl) (iff_of_false id (by simp))
    · rintro l ⟨i, _, h, k, hk, rfl | rfl⟩
      · exact .inl ⟨i, h, rfl, hk⟩
      · have := merge_lt h hk
        exact .inr ⟨rfl, by simp only; omega, by simp only; omega⟩
    · rintro l ⟨i, _, h, k, hk, rfl⟩
      have := merge_lt h hk
      exact ⟨rfl, by simp only; omega, by simp only; omega⟩
    · exact fun _ => .inr
    · rintro ⟨a, x⟩ ⟨rfl, h1, h2⟩ hn
      simp only at h1 h2
      obtain ⟨i, h, k, hk, e⟩ := merge_surj (lens := lens) (x := x - start) (by omega)
      refine absurd ⟨i, (hm i).2 h, h, k, hk, ?_⟩ hn
      rw [show x = start + (lens.take i).sum + k by omega]
  · rintro i _ j _ hij l ⟨h, k, hk, rfl⟩ ⟨h', k', hk', e | e⟩
    · exact hd _ (congrArg Prod.fst e).symm
    · simp only [Prod.mk.injEq, true_and] at e
      exact hij (merge_pos h h' hk hk' (by omega)).1
  · intro i hi
    have h := (hm i).1 hi
    refine (Does.map (bad := fun _ => False) (hb i h) (src := fun k => {(piece i, k)}) (dst := fun k => (dst, start + (lens.take i).sum + k)) ?_ ?_ ?_ ?_ ?_ ?_ ?_).congr (fun _ _ => rfl) (fun _ _ => rfl) (by simp)
    · rintro a _ b _ e; simp only [Prod.mk.injEq, true_and] at e; omega
    · rintro a _ b _ e; exact hd _ (congrArg Prod.fst e).symm
    · intro k hk
      refine Does.read (.inl rfl) ((Does.write (hg i h k hk)).mono (fun _ => .inr) (fun _ h => h) (fun _ => .inr) ?_)
      intro l hl hl'
      exact absurd hl hl'
    · rintro k hk l rfl; exact ⟨h, k, hk, .inl rfl⟩
    · intro k hk; exact ⟨h, k, hk, rfl⟩
    · rintro l ⟨h, k, hk, e⟩; exact ⟨h, k, hk, .inr e⟩
    · rintro l ⟨_, k, hk, e⟩ hn
      exact absurd e (hn k hk)

/-- The results of one critical node. -/
theorem out_does {ordered : Bool} {n beg : Nat} {rs : List R} {π : Nat → Nat} (hfin : beg + rs.length ≤ n) (hinj : ∀ i < n, ∀ j < n, π i = π j → i = j) {m g : Loc → Cell env R}
    (hπ : ∀ k < n, if ordered then (m (.perm, k)).idx = π k else π k = k) (hg : ∀ k (h : k < rs.length), g (.out, π (beg + k)) = .res rs[k]) :
    Does (outP ordered beg rs) {l | ∃ k < rs.length, l = (.perm, beg + k) ∨ l = (.out, π (beg + k))} {l | ∃ k < rs.length, l = (.out, π (beg + k))} m g False := by
  have key := Does.loop (F := fun k => {l : Loc | k < rs.length ∧ (l = (.perm, beg + k) ∨ l = (.out, π (beg + k)))}) (W := fun k => {l : Loc | k < rs.length ∧ l = (.out, π (beg + k))})
    (m := m) (g := g) (bad := fun _ => False) (body := fun k => match rs[k]? with
      | none => .throw
      | some r => if ordered then .read (.perm, beg + k) fun i => .write (.out, i.idx) (.res r) else .write (.out, beg + k) (.res r))
    (is := List.range rs.length) (apart_of List.nodup_range ?_) ?_
  · refine (key.mono ?_ ?_ ?_ ?_).congr (fun _ _ => rfl) (fun _ _ => rfl) (by simp)
    · rintro l ⟨k, _, hk, e⟩; exact ⟨k, hk, e⟩
    · rintro l ⟨k, _, hk, e⟩; exact ⟨k, hk, e⟩
    · rintro l ⟨k, hk, e⟩; exact ⟨k, hk, .inr e⟩
    · rintro l ⟨k, hk, e⟩ hn
      exact absurd ⟨k, List.mem_range.2 hk, hk, e⟩ hn
  · rintro i _ j _ hij l ⟨hi, rfl⟩ ⟨hj, e | e⟩
    · cases e
    · have := hinj _ (by omega) _ (by omega) (congrArg Prod.snd e)
      omega
  · intro k hk
    have hk := List.mem_range.1 hk
    have hw := hg k hk
    have hp := hπ (beg + k) (by omega)
    simp only [List.getElem?_eq_getElem hk]
    cases ordered with
    | true =>
      simp only [if_true] at hp ⊢
      refine Does.read ⟨hk, .inl rfl⟩ ?_
      rw [hp]
      refine (Does.write hw).mono ?_ ?_ ?_ ?_
      · rintro l rfl; exact ⟨hk, .inr rfl⟩
      · rintro l rfl; exact ⟨hk, rfl⟩
      · rintro l ⟨h, e⟩; exact ⟨h, .inr e⟩
      · rintro l ⟨h, e⟩ hn; exact absurd e hn
    | false =>
      simp only [Bool.false_eq_true, if_false] at hp ⊢
      rw [hp] at hw
      refine (Does.write hw).mono ?_ ?_ ?_ ?_
      · rintro l rfl; exact ⟨hk, .inr (by rw [hp])⟩
      · rintro l rfl; exact ⟨hk, by rw [hp]⟩
      · rintro l ⟨h, e⟩; exact ⟨h, .inr e⟩
      · rintro l ⟨h, e⟩ hn; rw [hp] at e; exact absurd e hn

/-- The force computation on the CPU. -/
theorem crit_does {cs : List CNode} {bl : List (List Nat)} (hb : bl.flatten.Perm (List.range cs.length)) {srcs : List Loc} (hs : ∀ l ∈ srcs, l.1 ≠ .out)
    {fn : List (Cell env R) → CNode → Option (List R)} {ordered : Bool} {n : Nat} {π : Nat → Nat} {val : Nat → R} {m g : Loc → Cell env R}
    (hc : ∀ t (h : t < cs.length), m (.crit, t) = .crit cs[t]) (hle : ∀ cn ∈ cs, cn.beg ≤ cn.fin ∧ cn.fin ≤ n)
    (htile : ∀ k < n, ∃ t, (∃ h : t < cs.length, cs[t].beg ≤ k ∧ k < cs[t].fin) ∧ ∀ t', (∃ h : t' < cs.length, cs[t'].beg ≤ k ∧ k < cs[t'].fin) → t' = t)
    (hf : ∀ cn ∈ cs, fn (srcs.map m) cn = some ((List.range (cn.fin - cn.beg)).map fun a => val (cn.beg + a)))
    (hlt : ∀ k < n, π k < n) (hinj : ∀ i < n, ∀ j < n, π i = π j → i = j) (hsurj : ∀ i < n, ∃ k < n, π k = i)
    (hπ : ∀ k < n, if ordered then (m (.perm, k)).idx = π k else π k = k) (hg : ∀ k < n, g (.out, π k) = .res (val k)) :
    Does (tasksP srcs fn ordered bl) ({l | l ∈ srcs} ∪ cells cs.length [.crit] ∪ cells n [.perm, .out]) (cells n [.out]) m g False := by
  have hm : ∀ t, t ∈ bl.flatten ↔ t < cs.length := fun t => by rw [hb.mem_iff, List.mem_range]
  have hnd : bl.flatten.Nodup := hb.nodup_iff.2 List.nodup_range
  have key := Does.pfor (F := fun t => {l : Loc | l ∈ srcs ∨ l = (.crit, t) ∨ ∃ h : t < cs.length, ∃ k, cs[t].beg ≤ k ∧ k < cs[t].fin ∧ (l = (.perm, k) ∨ l = (.out, π k))})
    (W := fun t => {l : Loc | ∃ h : t < cs.length, ∃ k, cs[t].beg ≤ k ∧ k < cs[t].fin ∧ l = (.out, π k)})
    (m := m) (g := g) (bad := fun _ => False) (blocks := bl) (body := fun t => .read (.crit, t) fun c => gatherP srcs fun vs =>
    match c with
    | .crit cn => match fn vs cn with
      | some rs => outP ordered cn.beg rs
      | none => .throw
    | _ => .throw) (apart_of hnd ?_) ?_
  · refine (key.mono ?_ ?_ ?_ ?_).congr (fun _ _ => rfl) (fun _ _ => rfl) (by simp)
    · rintro l ⟨t, ht, h | rfl | ⟨h, k, h1, h2, e⟩⟩
      · exact .inl (.inl h)
      · exact .inl (.inr ⟨by simp, (hm t).1 ht⟩)
      · have := (hle _ (List.getElem_mem h)).2
        rcases e with rfl | rfl
        · exact .inr ⟨by simp, by simp only; omega⟩
        · exact .inr ⟨by simp, hlt k (by omega)⟩
    · rintro l ⟨t, ht, h, k, h1, h2, rfl⟩
      have := (hle _ (List.getElem_mem h)).2
      exact ⟨by simp, hlt k (by omega)⟩
    · exact fun l hl => .inr (cells_names (by simp) hl)
    · rintro ⟨a, i⟩ ⟨ha, hi⟩ hn
      simp only [List.mem_singleton] at ha
      subst ha
      obtain ⟨k, hk, rfl⟩ := hsurj i hi
      obtain ⟨t, ⟨h, h1, h2⟩, _⟩ := htile k hk
      exact absurd ⟨t, (hm t).2 h, h, k, h1, h2, rfl⟩ hn
  · rintro i hi j hj hij l ⟨h, k, h1, h2, rfl⟩ (h' | h' | ⟨h', k', h1', h2', e | e⟩)
    · exact hs _ h' rfl
    · cases h'
    · cases e
    · have l1 := (hle _ (List.getElem_mem h)).2
      have l2 := (hle _ (List.getElem_mem h')).2
      have := hinj k (by omega) k' (by omega) (congrArg Prod.snd e)
      subst this
      obtain ⟨t, _, hu⟩ := htile k (by omega)
      exact hij ((hu i ⟨h, h1, h2⟩).trans (hu j ⟨h', h1', h2'⟩).symm)
  · intro t ht
    have ht := (hm t).1 ht
    obtain ⟨l1, l2⟩ := hle _ (List.getElem_mem ht)
    refine Does.read (.inr (.inl rfl)) (Does.gather (fun l hl => .inl hl) ?_)
    rw [hc t ht]
    simp only
    rw [hf _ (List.getElem_mem ht)]
    simp only
    refine Does.mono (out_does (n := n) (π := π) ?_ hinj hπ ?_) ?_ ?_ ?_ ?_
    · simp; omega
    · intro k hk
      simp only [List.length_map, List.length_range] at hk
      rw [hg _ (by omega)]
      simp
    · rintro l ⟨k, hk, e⟩
      simp only [List.length_map, List.length_range] at hk
      exact .inr (.inr ⟨ht, cs[t].beg + k, by omega, by omega, e⟩)
    · rintro l ⟨k, hk, e⟩
      simp only [List.length_map, List.length_range] at hk
      exact ⟨ht, cs[t].beg + k, by omega, by omega, e⟩
    · rintro l ⟨h, k, h1, h2, e⟩
      exact .inr (.inr ⟨h, k, h1, h2, .inr e⟩)
    · rintro l ⟨h, k, h1, h2, rfl⟩ hn
      refine absurd ⟨k - cs[t].beg, by simp; omega, ?_⟩ hn
      rw [show cs[t].beg + (k - cs[t].beg) = k by omega]

end Rakau
