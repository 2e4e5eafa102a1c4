import Verif.Props.Ctor
import Verif.Props.AccPot

/-! C54: the data of a tree are finite. -/
namespace Rakau
open Spec

variable {K : Type} [Field K] [LinearOrder K] [IsStrictOrderedRing K] [FloorRing K]

/-- C54: in any arithmetic, all coordinates, masses and node data of a reachable tree are finite, although only the coordinates are checked one by one: a
mass that is not finite is found out by the check of the node masses. -/
theorem C54_finite {A : Arith K} {simd : Option (Simd K)} (hH : HaddNonfin simd) {mac : Mac} {w d : Nat} (hs : Supported w d) {s : TS (rakauEnv A simd mac w d)}
    (h : Reach (rakauEnv A simd mac w d) s) (hz : s.n * cbits w d < 2 ^ 64) :
    s.parts.length = d + 1 ∧ (∀ v ∈ s.parts, v.length = s.n ∧ ∀ a ∈ v, a.isFinite = true) ∧
      ∀ r ∈ s.props, (∀ a ∈ r.com, a.isFinite = true) ∧ r.mass.isFinite = true ∧ r.dim.isFinite = true ∧ r.delta.isFinite = true := by
  have I := reach_inv h
  have E := rakauEnv_ok A simd mac hs
  have hl : s.parts.length = d + 1 := I.arr
  refine ⟨hl, fun v hv => ⟨I.len v hv, ?_⟩, ?_⟩
  · obtain ⟨j, hj, rfl⟩ := List.getElem_of_mem hv
    intro a ha
    obtain ⟨k, hk, rfl⟩ := List.getElem_of_mem ha
    have hkn : k < s.n := by rw [← I.len _ (List.getElem_mem hj)]; exact hk
    by_cases hjd : j < d
    · obtain ⟨c, c1, c2⟩ := reach_coords hs h hkn
      unfold coordsAt at c2
      obtain ⟨f1, f2⟩ := forall₂_getElem (mapM_some_iff.1 c2)
      have f3 := f2 j (by rw [List.length_take]; omega) (by rw [List.length_map]; omega)
      rw [List.getElem_take, List.getElem_map, List.getElem?_eq_getElem hk, Option.some.injEq] at f3
      rw [f3]; rfl
    · have hjd : j = d := by omega
      subst hjd
      by_contra hf
      rw [Bool.not_eq_true] at hf
      obtain ⟨_, t2⟩ := crit_tiling E h hz
      obtain ⟨i, ⟨hi, i1, i2⟩, _⟩ := t2 k hkn
      obtain ⟨t, _, ht, _, b1, b2, _⟩ := reach_visits E h hz (maskedShift_small w) (fun _ => true) (List.getElem_mem hi) (by omega)
      obtain ⟨_, _, _, hp, p, p1, p2, p3, p4, p5, p6, p7, _⟩ := reach_node E h hz ht
      rcases nodeProps_cases A simd mac hs s.box I.arr I.len p5.le p6 p1 p2 p3 p4 with ⟨r, e, com, hsum, hfin⟩ | e
      · have := nodeSums_nonfin A hH hsum (m := s.parts[j]) (List.getElem?_eq_getElem hj) (k := k) (by omega) (by omega)
          (List.getElem?_eq_getElem hk) hf
        rw [this] at hfin
        cases hfin
      · have p7 : nodeProps A simd mac w j s.box s.tree[t] s.parts = .ok s.props[t] := p7
        rw [e] at p7; cases p7
  · intro r hr
    obtain ⟨i, hi, rfl⟩ := List.getElem_of_mem hr
    obtain ⟨_, _, a1, a2, a3, a4⟩ := reach_props hs h hz (i := i) (by rw [← reach_props_length h]; exact hi)
    exact ⟨a1, a2, a3, a4⟩

/-- The data that the theorems on exact arithmetic ask for always exist. -/
theorem C54_data {A : Arith K} {simd : Option (Simd K)} (hH : HaddNonfin simd) {mac : Mac} {w d : Nat} (hs : Supported w d) {s : TS (rakauEnv A simd mac w d)}
    (h : Reach (rakauEnv A simd mac w d) s) (hz : s.n * cbits w d < 2 ^ 64) : ∃ x, IsData d s.n s.parts x := by
  obtain ⟨h1, h2, _⟩ := C54_finite hH hs h hz
  exact isData_exists h1 (fun v hv => (h2 v hv).1) (fun v hv => (h2 v hv).2)

/-- A tree with five particles. -/
example : (gS .bh).n = 5 ∧ ∀ v ∈ (gS .bh).parts, v.length = (gS .bh).n ∧ ∀ a ∈ v, a.isFinite = true :=
  ⟨g_n .bh, (C54_finite simd4_nonfin g_supp (g_reach .bh) (g_size .bh)).2.1⟩

end Rakau
