import Verif.Props.Leapfrog

/-!
# C82: total force, torque and energy of the tree code

Newton's third law holds for the exact sums (C25), not for the tree code: if particle `i` is accepted as part of a node by particle `l` but not the other way round, the two forces do not cancel. Here: the sums over all
particles vanish up to the error of the approximation, for any opening angle, and so do the changes of momentum in the leapfrog benchmark.
-/
namespace Rakau
open Spec

section
variable {simd : Option (Simd ℝ)} {mac : Mac} {w d : Nat} {s : TS (rakauEnv realA simd mac w d)}

/-- Sums of products, when the second factors are known approximately. -/
theorem sum_close {n : Nat} {c f g B : Nat → ℝ} (h : ∀ i < n, |f i - g i| ≤ B i) : |∑ i ∈ Finset.range n, c i * f i - ∑ i ∈ Finset.range n, c i * g i| ≤ ∑ i ∈ Finset.range n, |c i| * B i := by
  rw [← Finset.sum_sub_distrib]
  refine (Finset.abs_sum_le_sum_abs _ _).trans (Finset.sum_le_sum fun i hi => ?_)
  rw [← mul_sub, abs_mul]
  exact mul_le_mul_of_nonneg_left (h i (Finset.mem_range.1 hi)) (abs_nonneg _)

/-- C82: in real arithmetic, for an opening angle `t` with `√d t ≤ κ < 1`: the total force and the total torque of the computed accelerations are zero, and the sum of the computed potentials is twice the binding energy,
up to the relative errors of C51 and C55. `X j i` are coordinates and masses of the user's particles. -/
theorem C82_total (hS : ∀ S, simd = some S → S.Ok) (hs : Supported w d) (h : Reach _ s) (hz : s.n * cbits w d < 2 ^ 64)
    {over : Overshift} (hov : over.Small) (hr : s.n + (⟨realA, simd, none⟩ : Hw ℝ).pad < 2 ^ 64) (hn : s.n ≠ 0)
    {X : Nat → Nat → ℝ} (hX : ∀ j ≤ d, ∀ i < s.n, ordered s j i = some (.fin (X j i))) (hm : ∀ i < s.n, 0 ≤ X d i)
    {t u κ : ℝ} (ht : 0 < t) (hu : 0 ≤ u) (h0 : 0 ≤ κ) (h1 : κ < 1) (hκ : d * t ^ 2 ≤ κ ^ 2)
    (hsep : ∀ i l, i < s.n → l < s.n → i ≠ l → 0 < ∑ j ∈ Finset.range d, (X j l - X j i) ^ 2 + u * u)
    (Q : Quant) (g : ℝ) {split : List (Fl ℝ)} (hsp : checkSplit split = .ok ()) {order : List Nat} {out : List (Res ℝ)}
    (ho : order.Perm (List.range s.crit.length)) (hout : out.length = s.n) :
    ∃ (out' : List (Res ℝ)) (a : Nat → Nat → ℝ) (p : Nat → ℝ), s.accPot none over Q true (.fin t) (.fin g) (.fin u) split order out = .ok out' ∧
      (∀ i < s.n, out'[i]? = some (mkRes Q d (a i, p i))) ∧
      (∀ j < d, |∑ i ∈ Finset.range s.n, X d i * a i j| ≤ accErr κ * (1 + κ) ^ 2 * |g| * ∑ i ∈ Finset.range s.n, X d i * accSize d (u * u) X s.n i) ∧
      (∀ j < d, ∀ k < d, |∑ i ∈ Finset.range s.n, X d i * (X j i * a i k - X k i * a i j)| ≤
        accErr κ * (1 + κ) ^ 2 * |g| * ∑ i ∈ Finset.range s.n, X d i * (|X j i| + |X k i|) * accSize d (u * u) X s.n i) ∧
      |∑ i ∈ Finset.range s.n, p i - 2 * g * binding d (u * u) X s.n| ≤ κ ^ 2 / (1 - κ) * ∑ i ∈ Finset.range s.n, |p i| := by
  obtain ⟨out', o1, _, o3⟩ := C57_user hS hs h hz hov hr hn hX hm ht hu h0 h1 hκ hsep Q g hsp ho hout
  have : ∀ i, ∃ v : (Nat → ℝ) × ℝ, i < s.n → out'[i]? = some (mkRes Q d v) ∧ |v.2 - g * energy d (u * u) X s.n i| ≤ κ ^ 2 / (1 - κ) * |v.2| ∧
      ∀ j < d, |v.1 j - g * accel d (u * u) X s.n i j| ≤ accErr κ * (1 + κ) ^ 2 * |g| * accSize d (u * u) X s.n i := by
    intro i
    by_cases hi : i < s.n
    · obtain ⟨a, p, q⟩ := o3 i hi
      exact ⟨(a, p), fun _ => q⟩
    · exact ⟨(fun _ => 0, 0), fun h => absurd h hi⟩
  choose v hv using this
  refine ⟨out', fun i => (v i).1, fun i => (v i).2, o1, fun i hi => (hv i hi).1, fun j hj => ?_, fun j hj k hk => ?_, ?_⟩
  · have e := sum_close (c := X d) (fun i hi => (hv i hi).2.2 j hj)
    have z : ∑ i ∈ Finset.range s.n, X d i * (g * accel d (u * u) X s.n i j) = 0 := by
      have := accel_total d (u * u) X s.n j
      rw [Finset.sum_congr rfl (fun i _ => show X d i * (g * accel d (u * u) X s.n i j) = g * (X d i * accel d (u * u) X s.n i j) by ring), ← Finset.mul_sum, this, mul_zero]
    rw [z, sub_zero] at e
    refine e.trans (le_of_eq ?_)
    rw [Finset.mul_sum]
    refine Finset.sum_congr rfl fun i hi => ?_
    rw [abs_of_nonneg (hm i (Finset.mem_range.1 hi))]
    ring
  · have e1 := sum_close (c := X d) (n := s.n) (f := fun i => X j i * (v i).1 k - X k i * (v i).1 j)
      (g := fun i => g * (X j i * accel d (u * u) X s.n i k - X k i * accel d (u * u) X s.n i j))
      (B := fun i => (|X j i| + |X k i|) * (accErr κ * (1 + κ) ^ 2 * |g| * accSize d (u * u) X s.n i)) (fun i hi => by
        have b1 := (hv i hi).2.2 k hk
        have b2 := (hv i hi).2.2 j hj
        rw [show X j i * (v i).1 k - X k i * (v i).1 j - g * (X j i * accel d (u * u) X s.n i k - X k i * accel d (u * u) X s.n i j) =
          X j i * ((v i).1 k - g * accel d (u * u) X s.n i k) - X k i * ((v i).1 j - g * accel d (u * u) X s.n i j) by ring]
        refine (abs_sub _ _).trans ?_
        rw [abs_mul, abs_mul, add_mul]
        exact add_le_add (mul_le_mul_of_nonneg_left b1 (abs_nonneg _)) (mul_le_mul_of_nonneg_left b2 (abs_nonneg _)))
    have z : ∑ i ∈ Finset.range s.n, X d i * (g * (X j i * accel d (u * u) X s.n i k - X k i * accel d (u * u) X s.n i j)) = 0 := by
      have := torque_total d (u * u) X s.n j k
      rw [Finset.sum_congr rfl (fun i _ => show X d i * (g * (X j i * accel d (u * u) X s.n i k - X k i * accel d (u * u) X s.n i j)) =
        g * (X d i * (X j i * accel d (u * u) X s.n i k - X k i * accel d (u * u) X s.n i j)) by ring), ← Finset.mul_sum, this, mul_zero]
    rw [z, sub_zero] at e1
    refine e1.trans (le_of_eq ?_)
    rw [Finset.mul_sum]
    refine Finset.sum_congr rfl fun i hi => ?_
    rw [abs_of_nonneg (hm i (Finset.mem_range.1 hi))]
    ring
  · have e := sum_close (c := fun _ => 1) (fun i hi => (hv i hi).2.1)
    simp only [one_mul, abs_one] at e
    rw [← Finset.mul_sum, ← Finset.mul_sum, energy_total] at e
    rw [show 2 * g * binding d (u * u) X s.n = g * (2 * binding d (u * u) X s.n) by ring]
    exact e

end

/-! ### The leapfrog benchmark -/

/-- Exact parameters of the leapfrog integration, with any opening angle `θ` for which `√d θ ≤ κ < 1`. -/
structure RealLeap (d : Nat) (P : LeapPar ℝ) (θ κ u h τ : ℝ) : Prop where
  kick : ∀ a v, P.kick (.fin a) (.fin v) = .fin (v + h * a)
  drift : ∀ v x, P.drift (.fin v) (.fin x) = .fin (x + τ * v)
  theta : P.theta = .fin θ
  pos : 0 < θ
  nonneg : 0 ≤ κ
  lt : κ < 1
  angle : d * θ ^ 2 ≤ κ ^ 2
  eps : P.eps = .fin u
  soft : 0 < u
  split : checkSplit P.split = .ok ()

section
variable {simd : Option (Simd ℝ)} {mac : Mac} {w d : Nat} {P : LeapPar ℝ}
  {over : Overshift} {n : Nat} (hS : ∀ S, simd = some S → S.Ok) (hs : Supported w d) (ho : over.Small) (hz : n * cbits w d < 2 ^ 64)
  (hr : n + (⟨realA, simd, none⟩ : Hw ℝ).pad < 2 ^ 64) (hQ : P.Q ≠ .pot)
  {inp : Input (rakauEnv realA simd mac w d)} (hl : inp.parts.length = d + 1) (hn : (inp.parts.headD []).length = n) {vel : List (List (Fl ℝ))} (hv : IsVel d n vel)
  {buf : List (Res ℝ)} (hb : buf.length = n) (hn0 : n ≠ 0) {X0 V0 : Nat → Nat → ℝ} (hX0 : ∀ j ≤ d, ∀ k < n, at2 inp.parts j k = some (.fin (X0 j k)))
  (hV0 : ∀ j < d, ∀ k < n, at2 vel j k = some (.fin (V0 j k))) (hm : ∀ k < n, 0 ≤ X0 d k) {θ κ u h τ : ℝ} (hP : RealLeap d P θ κ u h τ)
  {st : Nat → Leap realA simd mac w d} {N : Nat} (h0 : Leap.Start P none over inp vel buf (.ok (st 0)))
  (hstep : ∀ t < N, (st t).Step P none over (.ok (st (t + 1))))
include hS hs ho hz hr hQ hl hn hv hb hn0 hX0 hV0 hm hP h0 hstep

/-- C82: a run of the benchmark is the leapfrog scheme with accelerations that are within the bound of C55 of Newton's, at every step. -/
theorem C82_motion : ∃ x v α : Nat → Nat → Nat → ℝ, (∀ k < n, (∀ j ≤ d, x 0 j k = X0 j k) ∧ ∀ j < d, v 0 j k = V0 j k) ∧
    (∀ t ≤ N, (st t).t.n = n ∧ (∀ j ≤ d, ∀ k < n, ordered (st t).t j k = some (.fin (x t j k))) ∧ (∀ k < n, x t d k = X0 d k) ∧
      (∀ i < n, ∃ k < n, (st t).t.perm[i]? = some k ∧ ∀ j < d, at2 (st t).vel j i = some (.fin (v t j k))) ∧
      ∀ k < n, ∀ j < d, |α t j k - accel d (u * u) (x t) n k j| ≤ accErr κ * (1 + κ) ^ 2 * accSize d (u * u) (x t) n k) ∧
    ∀ t < N, ∀ k < n, ∀ j < d, x (t + 1) j k = x t j k + τ * (v t j k + h * α t j k) ∧ v (t + 1) j k = v t j k + h * α t j k + h * α (t + 1) j k := by
  have hS' : SimdPos simd := fun S h => (hS S h).pos
  have G := run_good hS' hs ho hz hr hQ hl hn hv hb h0 hstep
  obtain ⟨X, V, a, m1, m2, m3⟩ := C78_motion hS' hs ho hz hr hQ hl hn hv hb h0 hstep
  -- one instant
  have inst : ∀ t ≤ N, (∀ j < d, ∀ k < n, ∃ q, X t j k = .fin q) →
      (∀ j ≤ d, ∀ k < n, ordered (st t).t j k = some (.fin (if j = d then X0 d k else (X t j k).val))) ∧
      ∀ k < n, ∃ (f : Nat → ℝ) (p : ℝ), a t k = mkRes P.Q d (f, p) ∧ ∀ j < d, |f j - accel d (u * u) (fun j k => if j = d then X0 d k else (X t j k).val) n k j| ≤
        accErr κ * (1 + κ) ^ 2 * accSize d (u * u) (fun j k => if j = d then X0 d k else (X t j k).val) n k := by
    intro t ht hfin
    obtain ⟨tn, t1, t2, t3⟩ := m2 t ht
    have hX : ∀ j ≤ d, ∀ k < n, ordered (st t).t j k = some (.fin (if j = d then X0 d k else (X t j k).val)) := by
      intro j hj k hk
      by_cases hjd : j = d
      · subst hjd; rw [if_pos rfl, (t1 k hk).1]; exact hX0 j le_rfl k hk
      · rw [if_neg hjd, (t1 k hk).2 j (by omega)]
        obtain ⟨q, hq⟩ := hfin j (by omega) k hk
        rw [hq]; rfl
    refine ⟨hX, fun k hk => ?_⟩
    obtain ⟨out', o1, o2⟩ := t2 (List.range (st t).t.crit.length) (List.replicate n ⟨[], []⟩) (List.Perm.refl _) (by simp)
    obtain ⟨out2, p1, _, p2⟩ := C57_user hS hs (G t ht).reach (by rw [tn]; exact hz) ho (by rw [tn]; exact hr) (by rw [tn]; exact hn0)
      (X := fun j k => if j = d then X0 d k else (X t j k).val) (by rw [tn]; exact hX) (by rw [tn]; intro i hi; simp only [if_true]; exact hm i hi)
      hP.pos hP.soft.le hP.nonneg hP.lt hP.angle (fun i l _ _ _ => soft_pos hP.soft (fun j k => if j = d then X0 d k else (X t j k).val) i l) P.Q 1 hP.split (order := List.range (st t).t.crit.length) (out := List.replicate n ⟨[], []⟩) (List.Perm.refl _) (by simp [tn])
    rw [hP.theta, hP.eps, p1, Except.ok.injEq] at o1
    subst o1
    obtain ⟨f, p, r1, _, r3⟩ := p2 k (by rw [tn]; exact hk)
    rw [o2 k hk] at r1
    refine ⟨f, p, Option.some.inj r1, fun j hj => ?_⟩
    have := r3 j hj
    rwa [one_mul, abs_one, mul_one, tn] at this
  have accj : ∀ t k (f : Nat → ℝ) (p : ℝ) (j : Nat), j < d → a t k = mkRes P.Q d (f, p) → (a t k).acc[j]? = some (.fin (f j)) := by
    intro t k f p j hj hk
    rw [hk]
    unfold mkRes
    rw [if_neg hQ]
    simp [Arr, hj]
  have fin : ∀ t ≤ N, ∀ j < d, ∀ k < n, (∃ q, X t j k = .fin q) ∧ ∃ q, V t j k = .fin q := by
    intro t
    induction t with
    | zero =>
      intro _ j hj k hk
      obtain ⟨e1, e2⟩ := m1 j hj k hk
      rw [hX0 j hj.le k hk, Option.some.injEq] at e1
      rw [hV0 j hj k hk, Option.some.injEq] at e2
      exact ⟨⟨_, e1.symm⟩, ⟨_, e2.symm⟩⟩
    | succ t ih =>
      intro ht
      have i0 := (inst t (by omega) (fun j hj k hk => (ih (by omega) j hj k hk).1)).2
      have hXf : ∀ j < d, ∀ k < n, ∃ q, X (t + 1) j k = .fin q := by
        intro j hj k hk
        obtain ⟨a0, a1, q1, _, q3, _⟩ := m3 t (by omega) k hk j hj
        obtain ⟨f, p, hf, _⟩ := i0 k hk
        rw [accj t k f p j hj hf, Option.some.injEq] at q1
        obtain ⟨⟨x, hx⟩, ⟨v, hv⟩⟩ := ih (by omega) j hj k hk
        rw [q3, ← q1, hx, hv, hP.kick, hP.drift]
        exact ⟨_, rfl⟩
      have i1 := (inst (t + 1) ht hXf).2
      intro j hj k hk
      refine ⟨hXf j hj k hk, ?_⟩
      obtain ⟨a0, a1, q1, q2, _, q4⟩ := m3 t (by omega) k hk j hj
      obtain ⟨f, p, hf, _⟩ := i0 k hk
      obtain ⟨f', p', hf', _⟩ := i1 k hk
      rw [accj t k f p j hj hf, Option.some.injEq] at q1
      rw [accj (t + 1) k f' p' j hj hf', Option.some.injEq] at q2
      obtain ⟨_, ⟨v, hv⟩⟩ := ih (by omega) j hj k hk
      rw [q4, ← q1, ← q2, hv, hP.kick, hP.kick]
      exact ⟨_, rfl⟩
  refine ⟨fun t j k => if j = d then X0 d k else (X t j k).val, fun t j k => (V t j k).val,
    fun t j k => ((a t k).acc[j]?.getD (.fin 0)).val, ?_, ?_, ?_⟩
  · intro k hk
    refine ⟨fun j hj => ?_, fun j hj => ?_⟩
    · by_cases hjd : j = d
      · subst hjd; simp
      · simp only [if_neg hjd]
        have := (m1 j (by omega) k hk).1
        rw [hX0 j hj k hk, Option.some.injEq] at this
        rw [← this]; rfl
    · have := (m1 j hj k hk).2
      rw [hV0 j hj k hk, Option.some.injEq] at this
      simp only
      rw [← this]; rfl
  · intro t ht
    obtain ⟨tn, _, _, t3⟩ := m2 t ht
    obtain ⟨i1, i2⟩ := inst t ht (fun j hj k hk => (fin t ht j hj k hk).1)
    refine ⟨tn, i1, fun k _ => by simp, fun i hi => ?_, fun k hk j hj => ?_⟩
    · obtain ⟨k, k1, k2, k3, k4⟩ := t3 i hi
      refine ⟨k, k1, k2, fun j hj => ?_⟩
      obtain ⟨_, ⟨q, hq⟩⟩ := fin t ht j hj k k1
      rw [k4 j hj]
      show some (V t j k) = some (.fin (V t j k).val)
      rw [hq]; rfl
    · obtain ⟨f, p, hf, hb⟩ := i2 k hk
      beta_reduce
      rw [accj t k f p j hj hf]
      exact hb j hj
  · intro t ht k hk j hj
    have i0 := (inst t (by omega) (fun j hj k hk => (fin t (by omega) j hj k hk).1)).2
    have i1 := (inst (t + 1) (by omega) (fun j hj k hk => (fin (t + 1) (by omega) j hj k hk).1)).2
    obtain ⟨a0, a1, q1, q2, q3, q4⟩ := m3 t ht k hk j hj
    obtain ⟨f, p, hf, _⟩ := i0 k hk
    obtain ⟨f', p', hf', _⟩ := i1 k hk
    have g1 := accj t k f p j hj hf
    have g2 := accj (t + 1) k f' p' j hj hf'
    rw [g1, Option.some.injEq] at q1
    rw [g2, Option.some.injEq] at q2
    obtain ⟨⟨x, hx⟩, ⟨v, hv⟩⟩ := fin t (by omega) j hj k hk
    have hjd : j ≠ d := by omega
    rw [← q1, hx, hv, hP.kick, hP.drift] at q3
    rw [← q1, ← q2, hv, hP.kick, hP.kick] at q4
    simp only [if_neg hjd, hx, hv, q3, q4, g1, g2, Option.getD_some, Fl.val]
    exact ⟨trivial, trivial⟩



/-- C82: the total momentum of a run changes by no more than the sum of the bounds on the total force: `x` and `v` are the positions that the tree shows and the velocities of the program, by the user's numbers. -/
theorem C82_drift : ∃ x v : Nat → Nat → Nat → ℝ, (∀ k < n, ∀ j < d, v 0 j k = V0 j k) ∧
    (∀ t ≤ N, (∀ j ≤ d, ∀ k < n, ordered (st t).t j k = some (.fin (x t j k))) ∧
      ∀ i < n, ∃ k < n, (st t).t.perm[i]? = some k ∧ ∀ j < d, at2 (st t).vel j i = some (.fin (v t j k))) ∧
    ∀ t ≤ N, ∀ j < d, |∑ k ∈ Finset.range n, X0 d k * v t j k - ∑ k ∈ Finset.range n, X0 d k * V0 j k| ≤
      |h| * (accErr κ * (1 + κ) ^ 2) * ∑ r ∈ Finset.range t, (∑ k ∈ Finset.range n, X0 d k * accSize d (u * u) (x r) n k + ∑ k ∈ Finset.range n, X0 d k * accSize d (u * u) (x (r + 1)) n k) := by
  obtain ⟨x, v, α, a1, a2, a3⟩ := C82_motion hS hs ho hz hr hQ hl hn hv hb hn0 hX0 hV0 hm hP h0 hstep
  refine ⟨x, v, fun k hk => (a1 k hk).2, fun t ht => ⟨(a2 t ht).2.1, (a2 t ht).2.2.2.1⟩, ?_⟩
  -- the total force
  have tot : ∀ t ≤ N, ∀ j < d, |∑ k ∈ Finset.range n, X0 d k * α t j k| ≤ accErr κ * (1 + κ) ^ 2 * ∑ k ∈ Finset.range n, X0 d k * accSize d (u * u) (x t) n k := by
    intro t ht j hj
    obtain ⟨_, _, b2, _, b4⟩ := a2 t ht
    have e := sum_close (c := X0 d) (fun k hk => b4 k hk j hj)
    have z : ∑ k ∈ Finset.range n, X0 d k * accel d (u * u) (x t) n k j = 0 := by
      rw [← accel_total d (u * u) (x t) n j]
      exact Finset.sum_congr rfl (fun k hk => by rw [b2 k (Finset.mem_range.1 hk)])
    rw [z, sub_zero] at e
    refine e.trans (le_of_eq ?_)
    rw [Finset.mul_sum]
    refine Finset.sum_congr rfl fun k hk => ?_
    rw [abs_of_nonneg (hm k (Finset.mem_range.1 hk))]
    ring
  intro t
  induction t with
  | zero =>
    intro _ j hj
    rw [Finset.sum_congr rfl (fun k hk => by rw [(a1 k (Finset.mem_range.1 hk)).2 j hj] : ∀ k ∈ Finset.range n, X0 d k * v 0 j k = X0 d k * V0 j k)]
    simp
  | succ t ih =>
    intro ht j hj
    have e1 : ∑ k ∈ Finset.range n, X0 d k * v (t + 1) j k = ∑ k ∈ Finset.range n, X0 d k * v t j k + h * ∑ k ∈ Finset.range n, X0 d k * α t j k +
        h * ∑ k ∈ Finset.range n, X0 d k * α (t + 1) j k := by
      rw [Finset.mul_sum, Finset.mul_sum, ← Finset.sum_add_distrib, ← Finset.sum_add_distrib]
      refine Finset.sum_congr rfl (fun k hk => ?_)
      rw [(a3 t (by omega) k (Finset.mem_range.1 hk) j hj).2]
      ring
    have i0 := ih (by omega) j hj
    have t0 := mul_le_mul_of_nonneg_left (tot t (by omega) j hj) (abs_nonneg h)
    have t1 := mul_le_mul_of_nonneg_left (tot (t + 1) ht j hj) (abs_nonneg h)
    rw [← abs_mul] at t0 t1
    rw [e1, Finset.sum_range_succ, mul_add]
    have := abs_add_le (∑ k ∈ Finset.range n, X0 d k * v t j k - ∑ k ∈ Finset.range n, X0 d k * V0 j k)
      (h * ∑ k ∈ Finset.range n, X0 d k * α t j k + h * ∑ k ∈ Finset.range n, X0 d k * α (t + 1) j k)
    have t2 := abs_add_le (h * ∑ k ∈ Finset.range n, X0 d k * α t j k) (h * ∑ k ∈ Finset.range n, X0 d k * α (t + 1) j k)
    rw [show ∑ k ∈ Finset.range n, X0 d k * v t j k + h * ∑ k ∈ Finset.range n, X0 d k * α t j k + h * ∑ k ∈ Finset.range n, X0 d k * α (t + 1) j k -
      ∑ k ∈ Finset.range n, X0 d k * V0 j k = (∑ k ∈ Finset.range n, X0 d k * v t j k - ∑ k ∈ Finset.range n, X0 d k * V0 j k) +
      (h * ∑ k ∈ Finset.range n, X0 d k * α t j k + h * ∑ k ∈ Finset.range n, X0 d k * α (t + 1) j k) by ring]
    linarith

end

/-! ### Concrete cases -/

/-- The tree of three particles on the diagonal, opening angle 1/2. -/
example (mac : Mac) (Q : Quant) (g : ℝ) : ∃ s : TS (rakauEnv realA none mac 64 2), Reach _ s ∧ s.n = 3 ∧ ∀ out : List (Res ℝ), out.length = 3 →
    ∃ (out' : List (Res ℝ)) (a : Nat → Nat → ℝ) (p : Nat → ℝ), s.accPot none (maskedShift 64) Q true (.fin (1 / 2)) (.fin g) (.fin 0) [] (List.range s.crit.length) out = .ok out' ∧
      (∀ i < 3, out'[i]? = some (mkRes Q 2 (a i, p i))) ∧
      |∑ i ∈ Finset.range 3, diagX 2 i * a i 0| ≤ accErr (3 / 4) * (1 + 3 / 4) ^ 2 * |g| * ∑ i ∈ Finset.range 3, diagX 2 i * accSize 2 (0 * 0) diagX 3 i := by
  obtain ⟨s, h, hn, hX⟩ := diag_tree mac
  refine ⟨s, h, hn, fun out ho => ?_⟩
  obtain ⟨out', a, p, o1, o2, o3, _⟩ := C82_total (by simp) diag_supp h (by rw [hn]; decide) (maskedShift_small 64) (by rw [hn]; decide) (by omega) hX (fun i _ => diag_mass i)
    (t := 1 / 2) (u := 0) (κ := 3 / 4) (by norm_num) le_rfl (by norm_num) (by norm_num) (by norm_num) (fun i l _ _ hil => diag_sep hil 0) Q g (split := []) rfl
    (.refl _) (ho.trans hn.symm)
  rw [hn] at o2 o3
  exact ⟨out', a, p, o1, o2, o3 0 (by decide)⟩

theorem leap_real : RealLeap 2 leapPar (1 / (4 * 2 ^ cbits 64 2)) (1 / 2) 1 (1 / 20) (1 / 10) where
  kick _ _ := rfl
  drift _ _ := rfl
  theta := rfl
  pos := by positivity
  nonneg := by norm_num
  lt := by norm_num
  angle := by
    have h : (1 : ℝ) / (4 * 2 ^ cbits 64 2) ≤ 1 / 4 := by
      refine div_le_div_of_nonneg_left one_pos.le (by norm_num) ?_
      have : (1 : ℝ) ≤ 2 ^ cbits 64 2 := one_le_pow₀ (by norm_num)
      linarith
    have := pow_le_pow_left₀ (by positivity : (0 : ℝ) ≤ 1 / (4 * 2 ^ cbits 64 2)) h 2
    push_cast
    linarith
  eps := rfl
  soft := one_pos
  split := by decide

/-- The sample of C78: the momentum of a run of any length. -/
example (mac : Mac) (N : Nat) : ∃ (st : Nat → Leap realA none mac 64 2) (x v : Nat → Nat → Nat → ℝ), leapStart mac leapX leapV (.ok (st 0)) ∧ (∀ t < N, leapStep mac (st t) (.ok (st (t + 1)))) ∧
    (∀ i < 3, ∃ k < 3, (st N).t.perm[i]? = some k ∧ ∀ j < 2, at2 (st N).vel j i = some (.fin (v N j k))) ∧
    ∀ j < 2, |∑ k ∈ Finset.range 3, leapX 2 k * v N j k - ∑ k ∈ Finset.range 3, leapX 2 k * leapV j k| ≤
      |1 / 20| * (accErr (1 / 2) * (1 + 1 / 2) ^ 2) * ∑ r ∈ Finset.range N, (∑ k ∈ Finset.range 3, leapX 2 k * accSize 2 (1 * 1) (x r) 3 k +
        ∑ k ∈ Finset.range 3, leapX 2 k * accSize 2 (1 * 1) (x (r + 1)) 3 k) := by
  obtain ⟨st, _, _, _, _, h0, hst, _⟩ := leap_sample mac
  obtain ⟨x, v, _, b2, b3⟩ := C82_drift (N := N) (by simp) diag_supp (maskedShift_small 64) (by decide) (by decide) (by decide) (by simp [leapInp]) (leap_len mac leapX)
      (leap_isVel leapV) (by simp) (by decide) (leap_data mac leapX) (leap_velData leapV) leap_mass leap_real h0 (fun t _ => hst t)
  exact ⟨st, x, v, h0, fun t _ => hst t, (b2 N le_rfl).2, b3 N le_rfl⟩

/-! ### The total force is not zero -/

/-- Exact arithmetic with a square root that is exact for squares of rational numbers. -/
def squareQ : Arith ℚ := ⟨.fin, fun q => .fin (Nat.sqrt q.num.toNat / Nat.sqrt q.den), true⟩

theorem squareQ_exact : squareQ.Exact := fun _ => rfl

theorem squareQ_sqrt {r : ℚ} (h : 0 ≤ r) : squareQ.sqrt (r * r) = .fin r := by
  show Fl.fin (((Nat.sqrt (r * r).num.toNat : ℕ) : ℚ) / ((Nat.sqrt (r * r).den : ℕ) : ℚ)) = _
  rw [Rat.mul_self_num, Rat.mul_self_den, Nat.sqrt_eq]
  have h1 : (r.num * r.num).toNat = r.num.toNat * r.num.toNat := Int.toNat_mul (Rat.num_nonneg.2 h) (Rat.num_nonneg.2 h)
  have h2 : ((r.num.toNat : ℕ) : ℚ) = r.num := by exact_mod_cast Int.toNat_of_nonneg (Rat.num_nonneg.2 h)
  rw [h1, Nat.sqrt_eq, h2, Rat.num_div_den]

/-- Three particles on a line in the plane. -/
def lineX (j i : Nat) : ℚ := ([[-7, 5, 7], [1, 1, 1], [1, 1, 1]].getD j []).getD i 0
def lineInp (mac : Mac) : Input (rakauEnv squareQ none mac 64 2) := ⟨some (.fin 16), 1, 1, (List.range 3).map (fun j => (List.range 3).map (fun i => .fin (lineX j i)))⟩
def lineS (mac : Mac) : TS (rakauEnv squareQ none mac 64 2) := okOr (lineInp mac).exec (TS.default _)

theorem line_reach (mac : Mac) : Reach _ (lineS mac) := by
  have h : Construct (lineInp mac) (lineInp mac).exec := construct_exec (by cases mac <;> decide +kernel)
  rw [eq_okOr (d := TS.default _) (show isOk (lineInp mac).exec = true by cases mac <;> decide +kernel)] at h
  exact .construct (lineInp mac) (lineS mac) rfl h

/-- The accelerations for opening angle 1/2. -/
def lineAcc : List (Res ℚ) := [⟨[.fin (2 / 169), .fin 0], []⟩, ⟨[.fin (35 / 144), .fin 0], []⟩, ⟨[.fin (-50 / 196), .fin 0], []⟩]

/-- C82: the total force is not exactly zero: three particles of mass 1 at -7, 5, 7 on a line, opening angle 1/2, without softening, exact arithmetic. The first particle sees the other two as one body, they see it directly. -/
theorem C82_fails (mac : Mac) : Reach _ (lineS mac) ∧ (lineS mac).n = 3 ∧ (∀ j ≤ 2, ∀ i < 3, ordered (lineS mac) j i = some (.fin (lineX j i))) ∧ (∀ r ≥ 0, squareQ.sqrt (r * r) = .fin r) ∧
    (∀ order out, order.Perm (List.range (lineS mac).crit.length) → out.length = 3 →
      (lineS mac).accPot none (maskedShift 64) .acc true (.fin (1 / 2)) (.fin 1) (.fin 0) [] order out = .ok lineAcc) ∧
    (lineAcc.map (fun r => (r.acc.headD .nan).val)).sum ≠ 0 := by
  have R := line_reach mac
  have hn : (lineS mac).n = 3 := by cases mac <;> decide +kernel
  refine ⟨R, hn, by cases mac <;> decide +kernel, fun r hr => squareQ_sqrt hr, ?_, by decide +kernel⟩
  intro order out ho hl
  obtain ⟨val, _, hv⟩ := C27_outputs (rsqrt := none) (over := maskedShift 64) (fun _ h => by cases h) diag_supp R (by rw [hn]; decide) (maskedShift_small 64) (by rw [hn]; decide) .acc
    (checkParams_exact (mac := mac) (t := 1 / 2) (g := 1) (u := 0) squareQ_exact (by norm_num) le_rfl) (split := []) rfl (by cases mac <;> decide +kernel)
  obtain ⟨o1, p1, p2, p3⟩ := hv true order out ho (hl.trans hn.symm)
  obtain ⟨o2, q1, q2, q3⟩ := hv true (List.range (lineS mac).crit.length) (List.replicate 3 ⟨[], []⟩) (.refl _) (by rw [hn]; rfl)
  have hc : (lineS mac).accPot none (maskedShift 64) .acc true (.fin (1 / 2)) (.fin 1) (.fin 0) [] (List.range (lineS mac).crit.length) (List.replicate 3 ⟨[], []⟩) = .ok lineAcc := by
    cases mac <;> decide +kernel
  rw [q1, Except.ok.injEq] at hc
  rw [p1, ← hc, Except.ok.injEq]
  apply List.ext_getElem?
  intro i
  by_cases hi : i < (lineS mac).n
  · obtain ⟨k, k1, k2⟩ := perm_inv R hi
    obtain ⟨i1, e1, e2⟩ := p3 k k1
    obtain ⟨i2, e3, e4⟩ := q3 k k1
    simp only [if_true] at e1 e3
    rw [k2, Option.some.injEq] at e1 e3
    subst e1
    rw [e2, ← e4, e3]
  · rw [List.getElem?_eq_none (by omega), List.getElem?_eq_none (by omega)]

end Rakau
