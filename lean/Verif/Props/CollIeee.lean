import Verif.Proof.CollIeee
import Verif.Spec.CollIeee

/-!
Property theorems on the collision graph in IEEE arithmetic: C80.
-/
namespace Rakau
open Spec

/-! ### Concrete cases -/

@[reducible] def missEnv (fused : Bool) : Env := rakauEnv (binary64.ieee fused) none .bh 64 2

/-- Six particles in the plane: the AABB of the first reaches over three cells in each dimension, the second is in the middle cell, the others in the corner cells. -/
def missC : List ℚ := [1 / 8 - 1 / 2 ^ 54, 1 / 16, -1 / 8, 3 / 8]
def missCol (ix : List Nat) : List ℚ := ix.map (fun i => missC.getD i 0)
def missData : List (List ℚ) := [missCol [0, 1, 2, 2, 3, 3], missCol [0, 1, 2, 3, 2, 3], [1, 1, 1, 1, 1, 1]]
def missInp (fused : Bool) : Input (missEnv fused) := ⟨some (.fin 1), 1, 1, missData.map (·.map .fin)⟩
def missS (fused : Bool) : TS (missEnv fused) := okOr (missInp fused).exec (TS.default _)
/-- The largest floating-point number below `2 ^ 31`. -/
def missTop : ℚ := 2 ^ 31 - 1 / 2 ^ 22
/-- The size of the first AABB is the largest number below the size of a cell of the second level. -/
def missSize (i : Nat) : ℚ := [1 / 4 - 1 / 2 ^ 55, 1 / 64].getD i 0
def missSz : List (Fl ℚ) := (List.range 6).map (fun i => .fin (missSize i))

theorem miss_reach (fused : Bool) : Reach (missEnv fused) (missS fused) := by
  have h : Construct (missInp fused) (missInp fused).exec := construct_exec (by cases fused <;> decide +kernel)
  rw [eq_okOr (d := TS.default _) (show isOk (missInp fused).exec = true by cases fused <;> decide +kernel)] at h
  exact .construct (missInp fused) (missS fused) rfl h

/-- The data of `missS`, in the order of the tree. -/
def missX (j k : Nat) : ℚ := (missData.getD j []).getD ([2, 4, 3, 1, 0, 5].getD k 0) 0

theorem miss_data (fused : Bool) : IsData 2 (missS fused).n (missS fused).parts missX := isData_of_eq (by cases fused <;> decide +kernel)

section Ieee

variable {f : Format} {fused : Bool} {simd : Option (Simd ℚ)} {mac : Mac} {w d : Nat} {s : TS (rakauEnv (f.ieee fused) simd mac w d)} {over : Overshift} {top b : ℚ}
  {ordered : Bool} {sz : List (Fl ℚ)}

/-- C80 (part): in IEEE arithmetic every execution returns a graph that has all edges between particles whose AABBs overlap in exact arithmetic, and no edge between particles whose AABBs are more than
`3 u b` apart, provided that the sizes of the AABBs are zero or between the size of a cell and that of the box and not within `16 u b` below a size of cells (`u` is the unit roundoff, `b` the box size).
Missing: sizes just below a size of cells, for which collisions can be missed (`C80_fails`). -/
theorem C80_partial (hf : f.Std) (hs : Supported w d) (hr : Reach (rakauEnv (f.ieee fused) simd mac w d) s) (hz : s.n * cbits w d < 2 ^ 64)
    (hbox : s.box = .fin b) (hb : 0 < b) (hbr : f.near b = b) (hb1 : f.minNormal ≤ 1 / b) (hb2 : 1 / b ≤ 2 ^ (f.emax - 1))
    (hb3 : 2 ^ (cbits w d + 1) * f.minNormal ≤ b) (hb4 : 2 * b ≤ 2 ^ (f.emax - 1))
    (h0 : 0 ≤ top) (h1 : top < 2 ^ cbits w d) {x : Nat → Nat → ℚ} (hx : IsData d s.n s.parts x)
    (htree : ∀ nd ∈ s.tree, nd.nChildren = 0 → nd.level < cbits w d) {size : Nat → ℚ} (hsz : ∀ i < s.n, sz[i]? = some (.fin (size i)))
    (hsize : ∀ i < s.n, size i ≠ 0 → f.near (size i) = size i ∧ b / 2 ^ cbits w d ≤ size i ∧ size i ≤ b ∧ Roomy (cbits w d) b (16 * f.unit * b) (size i))
    {old : List (List Nat)} {r : Except Err (List (List Nat))} (h : Cgraph s over top ordered sz old r) :
    ∃ g, r = .ok g ∧ IsOverlapGraphUpTo (3 * f.unit * b) d s.n s.perm ordered x size g := by
  have hd := hs.dim
  have B : BoxOk f (cbits w d) b := ⟨hb, hbr, hb1, hb2, hb3, hb4⟩
  have L : (f.ieee fused).Laws := Format.arith_laws hf.toOk fused (f.ieee fused).sqrt
  have hlev := levels_of_lt (over := over) htree
  have hcoord : ∀ a < s.n, coordsAt d s.parts a = some (((List.range d).map (fun k => x k a)).map .fin) := by
    intro a ha
    rw [coordsAt_data hx ha, List.map_map]; rfl
  have hin : ∀ a < s.n, ∀ k < d, |(x k a : ℝ) / b| ≤ 33 / 64 := by
    intro a ha k hk
    obtain ⟨_, xs, hl, x1, _, _, x4⟩ := coords_at hf hs hr hx hbox hb hb1 hb2 ha
    obtain ⟨c1, c2⟩ := x4 k hk
    have hv := x1 xs[k] (List.getElem_mem _)
    have u1 : (f.unit : ℝ) ≤ 1 / 1024 := (Format.ieee_model hf fused).u1
    have c3 : (0 : ℝ) ≤ (xs[k] : ℝ) / 2 ^ cbits w d := by positivity
    have c4 : ((xs[k] + 1 : ℕ) : ℝ) / 2 ^ cbits w d ≤ 1 := by
      rw [div_le_one (by positivity)]
      exact_mod_cast hv
    rw [abs_le]
    constructor <;> linarith
  have hin' : ∀ a < s.n, ∀ y ∈ (List.range d).map (fun k => x k a), |(y : ℝ) / b| ≤ 33 / 64 := by
    intro a ha y hy
    obtain ⟨k, hk, rfl⟩ := List.mem_map.1 hy
    exact hin a ha k (List.mem_range.1 hk)
  have hpos : ∀ i < s.n, size i ≠ 0 → 0 < size i := fun i hi hn => lt_of_lt_of_le (div_pos hb (by positivity)) (hsize i hi hn).2.1
  have hhalf : ∀ i < s.n, size i ≠ 0 → HalfOk (f.ieee fused) (size i) := fun i hi hn =>
    B.half hf (hsize i hi hn).1 (hsize i hi hn).2.1 (hsize i hi hn).2.2.1
  have hlv : ∀ i < s.n, size i ≠ 0 → LevelOk over w d (sizeToLevel (f.ieee fused) (cbits w d) (.fin (size i)) s.box) := by
    intro i hi hn
    obtain ⟨s1, s2, _⟩ := sizeLoop_halves (A := f.ieee fused) (σ := size i) (cbits w d) b (fun k hk => B.rnd hf (by omega))
    rw [hbox]
    unfold sizeToLevel
    refine .of_lt (lt_of_le_of_ne s1 fun he => ?_)
    rcases s2 with s2 | s2
    · have := cb_ge hs; omega
    · rw [he] at s2
      exact absurd (hsize i hi hn).2.1 (not_le.2 s2)
  have htwo : ∀ i < s.n, size i ≠ 0 → ∀ a < s.n, TwoCells (f.ieee fused) w d top s.box (.fin (size i)) (((List.range d).map (fun k => x k a)).map .fin) := by
    intro i hi hn a ha
    rw [hbox]
    refine twoCells_ieee hf hs h0 h1 B (hhalf i hi hn) (hpos i hi hn).le (hsize i hi hn).2.2.1 (fun l l1 l2 l3 l4 => ?_) (hin' a ha)
    rcases lt_or_eq_of_le l2 with l2 | l2
    · exact (hsize i hi hn).2.2.2 l l2 l1 (l4 l2) l3
    · rw [l2] at l3
      exact absurd (hsize i hi hn).2.1 (not_le.2 l3)
  have hszl : s.n ≤ sz.length := by
    by_contra hc
    push Not at hc
    have := hsz sz.length hc
    simp at this
  have hok : ∃ g, r = .ok g := by
    rcases cgraph_noUB hs hr hz hlev h0 h1 hszl (fun i hi a ha _ hn => by
      rw [hsz i hi, Option.some.injEq] at ha
      subst ha
      exact hlv i hi (by simpa [Fl.eq] using hn)) h with hg | hg
    · exact hg
    · exfalso
      subst hg
      generalize hr0 : (Except.error Err.invalidArg : Except Err (List (List Nat))) = r0 at h
      cases h with
      | ok => simp at hr0
      | ub => simp at hr0
      | fail lf p e ht he =>
        simp only [Except.error.injEq] at hr0
        subst hr0
        obtain ⟨t1, t2, t3⟩ := mem_collTasks.1 ht
        have LF := (leaves_spec (rakauEnv_ok (f.ieee fused) simd mac hs) hr hz).1 lf t1
        have hcl : s.codes.length = s.n := (rawCodes_spec.1 (reach_inv hr).codes).1
        have hp : p < s.n := by have := LF.fin; omega
        obtain ⟨i, hi, _, i2⟩ := graphIdx_ok (ordered := ordered) (sz := sz) hr hp
        rw [hsz i hi] at i2
        rcases collParticle_cases hs hr hz hlev h0 h1 ht i2 (fun hn => hlv i hi (by simpa [Fl.eq] using hn)) with
          ⟨q, _⟩ | ⟨_, q⟩ | ⟨_, _, q0, pos, p1, p2, ⟨q1, _⟩ | ⟨_, _, _, q, _⟩⟩
        · have hn : ¬ size i < 0 := by
            by_cases hn : size i = 0
            · rw [hn]; simp
            · exact not_lt.2 (hpos i hi hn).le
          simp [Fl.isFinite, Fl.lt, hn] at q
        · rw [q] at he; simp at he
        · have hn : size i ≠ 0 := by simpa [Fl.eq] using q0
          rw [hcoord p hp, Option.some.injEq] at p1
          subst p1
          refine aabbCodes_ok (fun y hy => ?_) q1
          obtain ⟨v, hv, rfl⟩ := List.mem_map.1 hy
          rw [hbox]
          exact endCells_ok hf hs h0 h1 B (hin' p hp v hv) (hhalf i hi hn) (hpos i hi hn).le (hsize i hi hn).2.2.1
        · rw [q] at he; simp at he
  obtain ⟨g, rfl⟩ := hok
  have hgl := (cgraph_edges h).1
  refine ⟨g, rfl, hgl, ?_, ?_⟩
  · intro a c i j ha1 hc1 hne ha2 hc2 hi0 hj0 hm
    have ha := (userIdx_iff hr).2 ⟨ha1, ha2⟩
    have hc := (userIdx_iff hr).2 ⟨hc1, hc2⟩
    have hin := (graphIdx_some ha).1
    have hjn := (graphIdx_some hc).1
    rw [cubesMeet_iff (hpos i hin hi0).le (hpos j hjn hj0).le] at hm
    refine cgraph_complete L (half_neg hf) hs hr hz hlev h0 h1 hbox hb.le h hne ha1 hc1 ha2 hc2 (hsz i hin) (hsz j hjn) hi0 hj0 (hhalf i hin hi0) (hhalf j hjn hj0)
      (hlv i hin hi0) (hlv j hjn hj0) (hcoord a ha1) (hcoord c hc1) (htwo i hin hi0 a ha1) (htwo j hjn hj0 c hc1) ?_
    unfold overlap
    rw [List.all_eq_true]
    intro p hp
    obtain ⟨k, hk, rfl⟩ := List.mem_iff_getElem.1 hp
    have hk' : k < d := by simpa using hk
    simp only [List.getElem_zip, List.getElem_map, List.getElem_range]
    rw [segment_eq L (half_neg hf) (hhalf i hin hi0), segment_eq L (half_neg hf) (hhalf j hjn hj0)]
    have m1 := L.mono _ _ (hm k hk').1
    have m2 := L.mono _ _ (hm k hk').2
    simp only [Bool.and_eq_true]
    exact ⟨m2, m1⟩
  · intro i hi j hj
    obtain ⟨l, a, c, _, _, hne, ha, hc, sa, sb, pa, pb, e1, e2, e3, e4, e5, e6, e7⟩ := (cgraph_iff (rakauEnv_ok (f.ieee fused) simd mac hs) hr hz h hi j).1 hj
    obtain ⟨ha1, ha2⟩ := (userIdx_iff hr).1 ha
    obtain ⟨hc1, hc2⟩ := (userIdx_iff hr).1 hc
    have hjn := (graphIdx_some hc).1
    rw [aabbSize_user ha2, hsz i (by omega), Option.some.injEq] at e1
    rw [aabbSize_user hc2, hsz j hjn, Option.some.injEq] at e2
    rw [hcoord a ha1, Option.some.injEq] at e5
    rw [hcoord c hc1, Option.some.injEq] at e6
    subst e1 e2 e5 e6
    have hi0 : size i ≠ 0 := by simpa [Fl.eq] using e3
    have hj0 : size j ≠ 0 := by simpa [Fl.eq] using e4
    refine ⟨a, c, ha1, hc1, hne, ha2, hc2, hi0, hj0, ?_⟩
    intro k hk
    have ho := (List.all_eq_true.1 e7) (.fin (x k a), .fin (x k c)) (by
      rw [List.mem_iff_getElem]
      exact ⟨k, by simp [hk], by simp⟩)
    obtain ⟨lo, hi', l1, l2, _, l4, l5, _⟩ := ends (fused := fused) hf (cb_ge hs) B (hin a ha1 k hk) (hpos i (by omega) hi0).le (hsize i (by omega) hi0).2.2.1
    obtain ⟨lo', hi'', k1, k2, _, k4, k5, _⟩ := ends (fused := fused) hf (cb_ge hs) B (hin c hc1 k hk) (hpos j hjn hj0).le (hsize j hjn hj0).2.2.1
    rw [segment_eq L (half_neg hf) (hhalf i (by omega) hi0), segment_eq L (half_neg hf) (hhalf j hjn hj0), l1, l2, k1, k2] at ho
    simp only [Fl.ge, Fl.le, Fl.lt, Bool.and_eq_true, Bool.not_eq_true', decide_eq_false_iff_not, not_lt] at ho
    have o1 : (lo' : ℝ) ≤ hi' := by exact_mod_cast ho.1
    have o2 : (lo : ℝ) ≤ hi'' := by exact_mod_cast ho.2
    have hub : (0 : ℝ) ≤ f.unit * b := mul_nonneg (Format.ieee_model hf fused).u0 (by exact_mod_cast hb.le)
    have : |(x k a : ℝ) - x k c| ≤ (size i + size j) / 2 + 3 * f.unit * b := by
      rw [abs_le] at *
      constructor <;> linarith [l4.1, l4.2, l5.1, l5.2, k4.1, k4.2, k5.1, k5.2]
    exact_mod_cast this

end Ieee

instance (cb : Nat) (b ε σ : ℚ) : Decidable (Roomy cb b ε σ) :=
  inferInstanceAs (Decidable (∀ l < cb, 1 ≤ l → b / 2 ^ (l + 1) ≤ σ → σ < b / 2 ^ l → σ + ε ≤ b / 2 ^ l))

/-- The sizes of the example, kept away from the size of the cells. -/
def roomySize (i : Nat) : ℚ := [1 / 4 - 1 / 2 ^ 45, 1 / 64].getD i 0
def roomySz : List (Fl ℚ) := (List.range 6).map (fun i => .fin (roomySize i))

theorem roomy_ok (fused : Bool) : ∀ i < (missS fused).n, roomySize i ≠ 0 → binary64.near (roomySize i) = roomySize i ∧ 1 / 2 ^ cbits 64 2 ≤ roomySize i ∧
    roomySize i ≤ 1 ∧ Roomy (cbits 64 2) 1 (16 * binary64.unit * 1) (roomySize i) := by
  cases fused <;> decide +kernel

theorem miss_shallow (fused : Bool) : ∀ nd ∈ (missS fused).tree, nd.nChildren = 0 → nd.level < cbits 64 2 := by cases fused <;> decide +kernel

example (fused : Bool) : ∀ r old, Cgraph (missS fused) strictShift missTop true roomySz old r →
    ∃ g, r = .ok g ∧ IsOverlapGraphUpTo (3 * binary64.unit * 1) 2 (missS fused).n (missS fused).perm true missX roomySize g :=
  fun _ _ h => C80_partial binary64_std ⟨.inr rfl, .inl rfl⟩ (miss_reach fused) (by cases fused <;> decide +kernel) (b := 1) (by cases fused <;> decide +kernel) (by norm_num)
    (by decide +kernel) (by decide +kernel) (by decide +kernel) (by decide +kernel) (by decide +kernel) (by decide +kernel) (by decide +kernel) (miss_data fused)
    (miss_shallow fused) (size := roomySize) (by cases fused <;> decide +kernel) (roomy_ok fused) h

/-- The graph of the example has an edge. -/
example (fused : Bool) : ∀ r old, Cgraph (missS fused) strictShift missTop true roomySz old r → r = .ok [[1], [0], [], [], [], []] := by
  intro r old h
  have := coll_exec (missS fused) strictShift missTop true roomySz []
  rw [show collExec (missS fused) strictShift missTop true roomySz = .ok [[1], [0], [], [], [], []] by cases fused <;> decide +kernel] at this
  exact C33_schedule this h

/-- C80 is false without the condition on the sizes, with and without fused multiply-add: the size of the first AABB is the largest number below a size of cells, between the size of the smallest cells
and that of the box; the tree does not reach the deepest level; the AABB of the second particle lies inside that of the first; and no execution finds the collision. -/
theorem C80_fails (fused : Bool) : Reach (missEnv fused) (missS fused) ∧ (missS fused).box = .fin 1 ∧ IsData 2 (missS fused).n (missS fused).parts missX ∧
    (∀ nd ∈ (missS fused).tree, nd.nChildren = 0 → nd.level < cbits 64 2) ∧
    (∀ k < 6, ∀ j < 2, binary64.near (missX j k) = missX j k) ∧ (∀ i < 2, binary64.near (missSize i) = missSize i ∧ 1 / 2 ^ cbits 64 2 ≤ missSize i ∧ missSize i ≤ 1) ∧
    (∃ a c, a < (missS fused).n ∧ c < (missS fused).n ∧ a ≠ c ∧ UserIdx (missS fused).perm true a 0 ∧ UserIdx (missS fused).perm true c 1 ∧
      CubesMeet 2 (fun k => missX k a) (missSize 0) (fun k => missX k c) (missSize 1) ∧
      ∀ j < 2, |missX j a - missX j c| + missSize 1 / 2 < missSize 0 / 2) ∧
    ∀ r old, Cgraph (missS fused) strictShift missTop true missSz old r → r = .ok [[], [], [], [], [], []] := by
  refine ⟨miss_reach fused, by cases fused <;> decide +kernel, miss_data fused, miss_shallow fused, by decide +kernel, by decide +kernel, ?_, ?_⟩
  · have hp : (missS fused).perm = [2, 4, 3, 1, 0, 5] := by cases fused <;> decide +kernel
    refine ⟨4, 3, by cases fused <;> decide +kernel, by cases fused <;> decide +kernel, by decide, by rw [hp]; rfl, by rw [hp]; rfl, ?_, by decide +kernel⟩
    rw [cubesMeet_iff (by decide +kernel) (by decide +kernel)]
    decide +kernel
  · intro r old h
    have := coll_exec (missS fused) strictShift missTop true missSz []
    rw [show collExec (missS fused) strictShift missTop true missSz = .ok [[], [], [], [], [], []] by cases fused <;> decide +kernel] at this
    exact C33_schedule this h

end Rakau
