import Verif.Model.MoveBench
import Verif.Proof.Leapfrog

/-! Lemmas about the program that moves all particles. -/
namespace Rakau
open Spec

section
variable {F : Type}

theorem mem_moveElems {d n : Nat} {p : Nat × Nat} : p ∈ moveElems d n ↔ p.1 < d ∧ p.2 < n := by
  unfold moveElems
  rw [List.mem_flatMap]
  constructor
  · rintro ⟨i, hi, hp⟩
    obtain ⟨j, hj, rfl⟩ := List.mem_map.1 hp
    exact ⟨List.mem_range.1 hj, List.mem_range.1 hi⟩
  · rintro ⟨h1, h2⟩
    exact ⟨p.2, List.mem_range.2 h2, List.mem_map.2 ⟨p.1, List.mem_range.2 h1, rfl⟩⟩

theorem nodup_moveElems (d n : Nat) : (moveElems d n).Nodup := by
  unfold moveElems
  rw [List.nodup_flatMap]
  refine ⟨fun i _ => (List.nodup_range).map (fun a b h => (Prod.mk.inj h).1), ?_⟩
  refine List.Pairwise.imp_of_mem ?_ (List.nodup_range (n := n))
  intro a b _ _ hab x h1 h2
  obtain ⟨j, _, rfl⟩ := List.mem_map.1 h1
  obtain ⟨k, _, e⟩ := List.mem_map.1 h2
  exact hab (Prod.mk.inj e).2.symm

theorem moveProg_eq (shift : F → F) (z : F) : ∀ l : List (Nat × Nat), moveProg shift l = driftProg (fun _ x => shift x) (l.map (fun p => (p.1, p.2, z)))
  | [] => rfl
  | (j, i) :: l => by
    show Prog.read j i _ = Prog.read j i _
    rw [moveProg_eq shift z l]

theorem moveProg_bounds (shift : F → F) {d n : Nat} : ∀ l : List (Nat × Nat), (∀ p ∈ l, p.1 < d ∧ p.2 < n) → (moveProg shift l).InBounds (d + 1) n
  | [], _ => trivial
  | p :: l, h => by
    obtain ⟨b1, b2⟩ := h p List.mem_cons_self
    exact ⟨by omega, b2, fun x => ⟨by omega, b2, moveProg_bounds shift l (fun p hp => h p (List.mem_cons_of_mem _ hp))⟩⟩

/-- What the callback does to the particles. -/
theorem move_run (shift : F → F) (z : F) {d n : Nat} {a : List (List F)} (h : Tbl (d + 1) n a) : ∃ b, (moveProg shift (moveElems d n)).run (fun k => some k) a = .ok b ∧
    (∀ j < d, ∀ i < n, at2 b j i = (at2 a j i).map shift) ∧ ∀ i, at2 b d i = at2 a d i := by
  have hm : ((moveElems d n).map (fun p => (p.1, p.2, z))).map (fun m => (m.1, m.2.1)) = moveElems d n := by
    rw [List.map_map]
    exact List.map_id' (moveElems d n)
  obtain ⟨b, b1, b2, b3⟩ := drift_run (fun _ x => shift x) ((moveElems d n).map (fun p => (p.1, p.2, z))) a (by rw [hm]; exact nodup_moveElems d n) (by
    intro m hm
    obtain ⟨p, hp, rfl⟩ := List.mem_map.1 hm
    obtain ⟨p1, p2⟩ := mem_moveElems.1 hp
    exact h.get (by simp only; omega) p2)
  refine ⟨b, by rw [moveProg_eq shift z]; exact b1, fun j hj i hi => ?_, fun i => ?_⟩
  · exact b2 (j, i, z) (List.mem_map.2 ⟨(j, i), mem_moveElems.2 ⟨hj, hi⟩, rfl⟩)
  · apply b3
    rw [hm, mem_moveElems]
    simp

end

section
variable {K : Type} [Field K] [LinearOrder K] [IsStrictOrderedRing K] [FloorRing K] {A : Arith K} {simd : Option (Simd K)} {mac : Mac} {w d : Nat}

theorem exact_noUB (hS : SimdPos simd) (hs : Supported w d) {s : TS (rakauEnv A simd mac w d)} (h : Reach _ s) (hz : s.n * cbits w d < 2 ^ 64) (Q : Quant) (g : K) (eps : Fl K)
    {i : Nat} (hi : i < s.n) : s.exact Q false (.fin g) eps i ≠ .error .ub := by
  rcases computeEps2_cases A eps with ⟨c1, c2, _⟩ | ⟨_, h4⟩
  · obtain ⟨pt, _, e⟩ := C40_each_once hS hs h hz Q (g := g) ⟨c1, c2⟩ hi
    rw [e]
    exact fun h => by cases h
  · unfold TS.exact
    rw [h4]
    exact fun h => by cases h

end
end Rakau
