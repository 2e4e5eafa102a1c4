import Verif.Proof.CollBench
import Verif.Props.CollIeee
import Verif.Props.User

/-!
Property theorems on the number of collisions reported by the benchmark: C81.
-/
namespace Rakau
open Spec

section Any

variable {K : Type} [Field K] [LinearOrder K] [IsStrictOrderedRing K] [FloorRing K] {A : Arith K} {simd : Option (Simd K)} {mac : Mac}
  {w d : Nat} {s : TS (rakauEnv A simd mac w d)} {over : Overshift} {top : K} {o : Bool}

/-- C81, in any arithmetic: the reported number is the number of pairs of particles that are in each other's lists. -/
theorem C81_edges {psize : Fl K} (hs : Supported w d) (hr : Reach (rakauEnv A simd mac w d) s) (hz : s.n * cbits w d < 2 ^ 64) (hn : s.n * (s.n - 1) < 2 ^ 64)
    {c : Nat} (h : CollBench s over top o psize (.ok c)) : ∃ g, Cgraph s over top o (List.replicate s.n psize) [] (.ok g) ∧
      c = numPairs s.n (fun i j => ∃ l, g[i]? = some l ∧ j ∈ l) := by
  generalize hR : (Except.ok c : Except Err Nat) = R at h
  obtain ⟨r, hc⟩ := h
  cases r with
  | error e => exact absurd hR (by simp [Except.map])
  | ok g =>
    simp only [Except.map, Except.ok.injEq] at hR
    obtain ⟨hl, hg⟩ := C32_structure hs hr hz hc
    refine ⟨g, hc, ?_⟩
    rw [hR, reported_eq (by rw [hl]; exact hn) (fun i hi => ⟨(hg i hi).1, (hg i hi).2.1, (hg i hi).2.2.1⟩), ← hl]
    congr 1
    funext i j
    simp only [eq_iff_iff]
    constructor
    · rintro ⟨hi, hj⟩
      exact ⟨_, List.getElem?_eq_getElem hi, hj⟩
    · rintro ⟨l, h1, h2⟩
      obtain ⟨hi, rfl⟩ := List.getElem?_eq_some_iff.1 h1
      exact ⟨hi, h2⟩

omit [IsStrictOrderedRing K] in
/-- The user's index of the particle with index `i` in the graph. -/
theorem user_map (hr : Reach (rakauEnv A simd mac w d) s) (o : Bool) : ∃ ρ : Nat → Nat, (∀ i < s.n, ρ i < s.n) ∧ (∀ i j, i < s.n → j < s.n → ρ i = ρ j → i = j) ∧
    (∀ i < s.n, ∃ k < s.n, ρ k = i) ∧ (∀ i < s.n, ∃ a < s.n, UserIdx s.perm o a i) ∧ ∀ a i, a < s.n → UserIdx s.perm o a i → s.perm.getD a 0 = ρ i := by
  cases o with
  | true =>
    refine ⟨id, fun _ h => h, fun _ _ _ _ h => h, fun i h => ⟨i, h, rfl⟩, fun i hi => ?_, fun a i ha h => ?_⟩
    · obtain ⟨k, h1, h2⟩ := perm_inv hr hi
      exact ⟨k, h1, by simpa [UserIdx] using h2⟩
    · have : s.perm[a]? = some i := by simpa [UserIdx] using h
      simp [List.getD, this]
  | false =>
    refine ⟨fun i => s.perm.getD i 0, fun i hi => ?_, fun i j hi hj h => ?_, fun i hi => ?_, fun i hi => ⟨i, hi, by simp [UserIdx]⟩, fun a i ha h => ?_⟩
    · obtain ⟨k, _, h2, h3⟩ := perm_at hr hi
      show s.perm.getD i 0 < s.n
      rw [h3]; exact h2
    · by_contra hc
      exact perm_ne hr hi hj hc h
    · obtain ⟨k, h1, h2⟩ := perm_inv hr hi
      exact ⟨k, h1, by simp [List.getD, h2]⟩
    · have : a = i := by simpa [UserIdx] using h
      rw [this]

omit [IsStrictOrderedRing K] in
/-- The number of edges is between the numbers of pairs of the user's particles for which there must be an edge and for which there may be one. -/
theorem pairs_between (hr : Reach (rakauEnv A simd mac w d) s) {E R R' : Nat → Nat → Prop} (hR : ∀ i j, R i j → R j i) (hR' : ∀ i j, R' i j → R' j i)
    (h1 : ∀ a b i j, a < s.n → b < s.n → a ≠ b → UserIdx s.perm o a i → UserIdx s.perm o b j → R (s.perm.getD a 0) (s.perm.getD b 0) → E i j)
    (h2 : ∀ i j, E i j → ∃ a b, a < s.n ∧ b < s.n ∧ a ≠ b ∧ UserIdx s.perm o a i ∧ UserIdx s.perm o b j ∧ R' (s.perm.getD a 0) (s.perm.getD b 0)) :
    numPairs s.n R ≤ numPairs s.n E ∧ numPairs s.n E ≤ numPairs s.n R' := by
  obtain ⟨ρ, r1, r2, r3, r4, r5⟩ := user_map hr o
  have key : ∀ Q : Nat → Nat → Prop, (∀ i j, Q i j → Q j i) → numPairs s.n (fun i j => i ≠ j ∧ Q (ρ i) (ρ j)) = numPairs s.n Q := by
    intro Q hQ
    rw [numPairs_map (n := s.n) (R := fun i j => i ≠ j ∧ Q (ρ i) (ρ j)) (R' := fun i j => i ≠ j ∧ Q i j) (fun i j h => ⟨h.1.symm, hQ _ _ h.2⟩) (fun i h => h.1 rfl)
      (fun i j h => ⟨h.1.symm, hQ _ _ h.2⟩) (fun i h => h.1 rfl) r1 r2 r3
      (fun i j hi hj => and_congr_left fun _ => not_congr ⟨fun h => by rw [h], fun h => r2 _ _ hi hj h⟩)]
    exact le_antisymm (numPairs_mono fun i j _ _ _ h => h.2) (numPairs_mono fun i j _ _ h h' => ⟨ne_of_lt h, h'⟩)
  rw [← key R hR, ← key R' hR']
  constructor
  · refine numPairs_mono fun i j hi hj _ h => ?_
    obtain ⟨a, a1, a2⟩ := r4 i hi
    obtain ⟨b, b1, b2⟩ := r4 j hj
    have ea := r5 a i a1 a2
    have eb := r5 b j b1 b2
    refine h1 a b i j a1 b1 (fun hab => h.1 (r2 _ _ hi hj ?_)) a2 b2 (by rw [ea, eb]; exact h.2)
    rw [← ea, ← eb, hab]
  · refine numPairs_mono fun i j hi hj hij h => ⟨ne_of_lt hij, ?_⟩
    obtain ⟨a, b, a1, b1, _, a2, b2, h3⟩ := h2 i j h
    rw [← r5 a i a1 a2, ← r5 b j b1 b2]
    exact h3

omit [FloorRing K] [IsStrictOrderedRing K] in
theorem cubesMeet_symm {d : Nat} {x y : Nat → K} {a b : K} (h : CubesMeet d x a y b) : CubesMeet d y b x a := by
  obtain ⟨z, hz⟩ := h
  exact ⟨z, fun j hj => ⟨(hz j hj).2, (hz j hj).1⟩⟩

/-- C81: in exact arithmetic the benchmark always reports the number of pairs of the user's particles whose AABBs overlap, for both orders, whatever the schedule. Position of the user's particle `i`: `X 0 i`, …,
`X (d - 1) i`; `σ` is the size of the AABBs. -/
theorem C81_exact (hA : A.Exact) (hs : Supported w d) (hr : Reach (rakauEnv A simd mac w d) s) (hz : s.n * cbits w d < 2 ^ 64) (hn : s.n * (s.n - 1) < 2 ^ 64) {b : K}
    (hbox : s.box = .fin b) (hb : 0 < b) (h0 : 0 ≤ top) (h1 : top < 2 ^ cbits w d) {X : Nat → Nat → K} (hX : ∀ j ≤ d, ∀ i < s.n, ordered s j i = some (.fin (X j i)))
    (htree : ∀ nd ∈ s.tree, nd.nChildren = 0 → nd.level < cbits w d) {σ : K} (hσ : b / 2 ^ cbits w d ≤ σ)
    {r : Except Err Nat} (h : CollBench s over top o (.fin σ) r) :
    r = .ok (numPairs s.n (fun i j => CubesMeet d (fun k => X k i) σ (fun k => X k j) σ)) := by
  have hσ0 : 0 < σ := lt_of_lt_of_le (div_pos hb (by positivity)) hσ
  have hg : ∃ g, r = .ok (reported g) ∧ IsOverlapGraph d s.n s.perm o (fun j k => X j (s.perm.getD k 0)) (fun _ => σ) g := by
    obtain ⟨r', hc⟩ := h
    obtain ⟨g, rfl, hg⟩ := C31_exact hA hs hr hz hbox hb h0 h1 (data_of_view hr hX) (size := fun _ => σ) (fun i hi => by simp [hi]) (fun _ _ => hσ0.le) htree (fun _ _ _ => hσ) hc
    exact ⟨g, rfl, hg⟩
  obtain ⟨g, rfl, hg⟩ := hg
  obtain ⟨g', hc', he⟩ := C81_edges hs hr hz hn h
  obtain ⟨g'', hg1, hl, hiff⟩ := C31_exact hA hs hr hz hbox hb h0 h1 (data_of_view hr hX) (size := fun _ => σ) (fun i hi => by simp [hi]) (fun _ _ => hσ0.le) htree (fun _ _ _ => hσ) hc'
  simp only [Except.ok.injEq] at hg1
  subst hg1
  rw [he]
  congr 1
  have := pairs_between (o := o) (s := s) (E := fun i j => ∃ l, g'[i]? = some l ∧ j ∈ l) (R := fun i j => CubesMeet d (fun k => X k i) σ (fun k => X k j) σ)
    (R' := fun i j => CubesMeet d (fun k => X k i) σ (fun k => X k j) σ) hr (fun _ _ h => cubesMeet_symm h) (fun _ _ h => cubesMeet_symm h) ?_ ?_
  · exact le_antisymm this.2 this.1
  · intro a b i j ha hb' hab hi hj hm
    have hi' : i < g'.length := by rw [hl]; exact (graphIdx_some ((userIdx_iff hr).2 ⟨ha, hi⟩)).1
    exact ⟨_, List.getElem?_eq_getElem hi', (hiff i hi' j).2 ⟨a, b, ha, hb', hab, hi, hj, hσ0.ne', hσ0.ne', hm⟩⟩
  · rintro i j ⟨l, l1, l2⟩
    obtain ⟨hi, rfl⟩ := List.getElem?_eq_some_iff.1 l1
    obtain ⟨a, b, ha, hb', hab, hi', hj, _, _, hm⟩ := (hiff i hi j).1 l2
    exact ⟨a, b, ha, hb', hab, hi', hj, hm⟩

/-- C81: empty AABBs do not collide, in any arithmetic. -/
theorem C81_zero (hs : Supported w d) (hr : Reach (rakauEnv A simd mac w d) s) (hz : s.n * cbits w d < 2 ^ 64) {c : Nat} (h : CollBench s over top o (.fin 0) (.ok c)) : c = 0 := by
  generalize hR : (Except.ok c : Except Err Nat) = R at h
  obtain ⟨r, hc⟩ := h
  cases r with
  | error e => exact absurd hR (by simp [Except.map])
  | ok g =>
    simp only [Except.map, Except.ok.injEq] at hR
    obtain ⟨hl, hg⟩ := C32_structure hs hr hz hc
    have : ∀ l ∈ g, l.length = 0 := by
      intro l hlm
      obtain ⟨i, hi, rfl⟩ := List.mem_iff_getElem.1 hlm
      rw [(hg i hi).2.2.2 (.fin 0) (by simp [hl ▸ hi]) (by simp [Fl.eq])]
      rfl
    rw [hR]
    unfold reported
    rw [sumSizes_eq, show (g.map List.length).sum = 0 from List.sum_eq_zero (by simpa using this)]
    rfl

end Any

section Ieee

variable {f : Format} {fused : Bool} {simd : Option (Simd ℚ)} {mac : Mac} {w d : Nat} {s : TS (rakauEnv (f.ieee fused) simd mac w d)} {over : Overshift} {top b : ℚ} {o : Bool}

/-- C81: in IEEE arithmetic the reported number is at least the number of pairs of particles whose AABBs overlap, and at most that of pairs whose AABBs are at most `3 u b` apart in every dimension. The size of the
AABBs is subject to the condition of `C80_partial`. -/
theorem C81_ieee (hf : f.Std) (hs : Supported w d) (hr : Reach (rakauEnv (f.ieee fused) simd mac w d) s) (hz : s.n * cbits w d < 2 ^ 64) (hn : s.n * (s.n - 1) < 2 ^ 64)
    (hbox : s.box = .fin b) (hb : 0 < b) (hbr : f.near b = b) (hb1 : f.minNormal ≤ 1 / b) (hb2 : 1 / b ≤ 2 ^ (f.emax - 1))
    (hb3 : 2 ^ (cbits w d + 1) * f.minNormal ≤ b) (hb4 : 2 * b ≤ 2 ^ (f.emax - 1))
    (h0 : 0 ≤ top) (h1 : top < 2 ^ cbits w d) {X : Nat → Nat → ℚ} (hX : ∀ j ≤ d, ∀ i < s.n, ordered s j i = some (.fin (X j i)))
    (htree : ∀ nd ∈ s.tree, nd.nChildren = 0 → nd.level < cbits w d) {σ : ℚ} (hσr : f.near σ = σ) (hσ : b / 2 ^ cbits w d ≤ σ) (hσb : σ ≤ b)
    (hroom : Roomy (cbits w d) b (16 * f.unit * b) σ) {r : Except Err Nat} (h : CollBench s over top o (.fin σ) r) :
    ∃ c, r = .ok c ∧ numPairs s.n (fun i j => CubesMeet d (fun k => X k i) σ (fun k => X k j) σ) ≤ c ∧
      c ≤ numPairs s.n (fun i j => ∀ k < d, |X k i - X k j| ≤ σ + 3 * f.unit * b) := by
  have hσ0 : 0 < σ := lt_of_lt_of_le (div_pos hb (by positivity)) hσ
  have hC : ∀ {r}, Cgraph s over top o (List.replicate s.n (.fin σ)) [] r →
      ∃ g, r = .ok g ∧ IsOverlapGraphUpTo (3 * f.unit * b) d s.n s.perm o (fun j k => X j (s.perm.getD k 0)) (fun _ => σ) g := fun hc =>
    C80_partial hf hs hr hz hbox hb hbr hb1 hb2 hb3 hb4 h0 h1 (data_of_view hr hX) htree (size := fun _ => σ) (fun i hi => by simp [hi]) (fun _ _ _ => ⟨hσr, hσ, hσb, hroom⟩) hc
  have hg : ∃ g, r = .ok (reported g) := by
    obtain ⟨r', hc⟩ := h
    obtain ⟨g, rfl, _⟩ := hC hc
    exact ⟨g, rfl⟩
  obtain ⟨g, rfl⟩ := hg
  obtain ⟨g', hc', he⟩ := C81_edges hs hr hz hn h
  obtain ⟨g'', hg1, hl, q1, q2⟩ := hC hc'
  simp only [Except.ok.injEq] at hg1
  subst hg1
  refine ⟨_, rfl, ?_⟩
  rw [he]
  refine pairs_between (o := o) (s := s) hr (fun _ _ h => cubesMeet_symm h) (fun _ _ h k hk => by rw [abs_sub_comm]; exact h k hk) ?_ ?_
  · intro a b i j ha hb' hab hi hj hm
    obtain ⟨hi', hj'⟩ := q1 a b i j ha hb' hab hi hj hσ0.ne' hσ0.ne' hm
    exact ⟨_, List.getElem?_eq_getElem hi', hj'⟩
  · rintro i j ⟨l, l1, l2⟩
    obtain ⟨hi, rfl⟩ := List.getElem?_eq_some_iff.1 l1
    obtain ⟨a, b, ha, hb', hab, hi', hj, _, _, hm⟩ := q2 i hi j l2
    refine ⟨a, b, ha, hb', hab, hi', hj, fun k hk => ?_⟩
    have := hm k hk
    linarith

end Ieee

/-! ### Concrete cases -/

/-- The coordinates and masses of `collS`, as the user gave them. -/
def collU (j i : Nat) : ℚ := (collData.getD j []).getD i 0

example (o : Bool) : ∀ r, CollBench collS strictShift 1023 o (.fin (5 / 2)) r → r = .ok (numPairs collS.n (fun i j => CubesMeet 3 (fun k => collU k i) (5 / 2) (fun k => collU k j) (5 / 2))) :=
  fun _ h => C81_exact exactQ_exact ⟨.inl rfl, .inr rfl⟩ coll_reach (by decide +kernel) (by decide +kernel) (b := 8) (by decide +kernel) (by norm_num) (by norm_num) (by decide +kernel)
    (by decide +kernel) (by decide +kernel) (by decide +kernel) h

/-- In the example five pairs overlap. -/
example : numPairs 5 (fun i j => CubesMeet 3 (fun k => collU k i) (5 / 2) (fun k => collU k j) (5 / 2)) = 5 := by
  have h := coll_exec collS strictShift 1023 false (List.replicate collS.n (.fin (5 / 2))) []
  rw [show collExec collS strictShift 1023 false (List.replicate collS.n (.fin (5 / 2))) = .ok [[1], [0, 2, 3], [1, 3], [1, 2, 4], [3]] by decide +kernel] at h
  have := C81_exact exactQ_exact ⟨.inl rfl, .inr rfl⟩ coll_reach (by decide +kernel) (by decide +kernel) (b := 8) (by decide +kernel) (by norm_num) (by norm_num) (by decide +kernel)
    (X := collU) (by decide +kernel) (by decide +kernel) (by decide +kernel) (.mk _ h)
  rw [show collS.n = 5 by decide +kernel] at this
  exact (Except.ok.inj this).symm

example : ∃ g, Cgraph collS strictShift 1023 false (List.replicate collS.n (.fin (5 / 2))) [] (.ok g) ∧ 5 = numPairs collS.n (fun i j => ∃ l, g[i]? = some l ∧ j ∈ l) := by
  have h := coll_exec collS strictShift 1023 false (List.replicate collS.n (.fin (5 / 2))) []
  rw [show collExec collS strictShift 1023 false (List.replicate collS.n (.fin (5 / 2))) = .ok [[1], [0, 2, 3], [1, 3], [1, 2, 4], [3]] by decide +kernel] at h
  exact C81_edges ⟨.inl rfl, .inr rfl⟩ coll_reach (by decide +kernel) (by decide +kernel) (.mk _ h)

example (o : Bool) : ∃ c, CollBench collS strictShift 1023 o (.fin 0) (.ok c) ∧ c = 0 := by
  have h := coll_exec collS strictShift 1023 o (List.replicate collS.n (.fin 0)) []
  rw [show collExec collS strictShift 1023 o (List.replicate collS.n (.fin 0)) = .ok [[], [], [], [], []] by cases o <;> decide +kernel] at h
  exact ⟨_, .mk _ h, C81_zero ⟨.inl rfl, .inr rfl⟩ coll_reach (by decide +kernel) (.mk _ h)⟩

/-- The data of `missS`, as the user gave them. -/
def missU (j i : Nat) : ℚ := (missData.getD j []).getD i 0

example (fused o : Bool) : ∀ r, CollBench (missS fused) strictShift missTop o (.fin (1 / 4)) r → ∃ c, r = .ok c ∧
    numPairs (missS fused).n (fun i j => CubesMeet 2 (fun k => missU k i) (1 / 4) (fun k => missU k j) (1 / 4)) ≤ c ∧
    c ≤ numPairs (missS fused).n (fun i j => ∀ k < 2, |missU k i - missU k j| ≤ 1 / 4 + 3 * binary64.unit * 1) :=
  fun _ h => C81_ieee binary64_std ⟨.inr rfl, .inl rfl⟩ (miss_reach fused) (by cases fused <;> decide +kernel) (by cases fused <;> decide +kernel) (b := 1)
    (by cases fused <;> decide +kernel) (by norm_num) (by decide +kernel) (by decide +kernel) (by decide +kernel) (by decide +kernel) (by decide +kernel) (by decide +kernel) (by decide +kernel)
    (by cases fused <;> decide +kernel) (miss_shallow fused) (by decide +kernel) (by decide +kernel) (by decide +kernel) (by decide +kernel) h

end Rakau
