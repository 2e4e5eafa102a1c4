import Verif.Proof.Leapfrog
import Verif.Props.User
import Verif.Props.Updates

/-!
# C78: the leapfrog integration of the benchmark

Velocities are kept by the program, positions by the tree, which reorders the particles at every step. In the order of the user, each particle is moved by
"kick, drift, kick" with its own velocity and with the acceleration that the tree gives for it.
-/
set_option linter.unusedSectionVars false
namespace Rakau
open Spec

section
variable {K : Type} [Field K] [LinearOrder K] [IsStrictOrderedRing K] [FloorRing K] {A : Arith K} {simd : Option (Simd K)} {mac : Mac} {w d : Nat}
  {P : LeapPar K} {rsqrt : Option (Fl K → Fl K)} {over : Overshift} {n : Nat}

/-- `n` velocities for each component. -/
abbrev IsVel (d n : Nat) (vel : List (List (Fl K))) : Prop := vel.length = d ∧ ∀ v ∈ vel, v.length = n

section
variable (hS : SimdPos simd) (hs : Supported w d) (ho : over.Small) (hz : n * cbits w d < 2 ^ 64) (hr : n + (⟨A, simd, rsqrt⟩ : Hw K).pad < 2 ^ 64) (hQ : P.Q ≠ .pot)
  {inp : Input (rakauEnv A simd mac w d)} (hl : inp.parts.length = d + 1) (hn : (inp.parts.headD []).length = n) {vel : List (List (Fl K))} (hv : IsVel d n vel)
  {buf : List (Res K)} (hb : buf.length = n)
include hS hs ho hz hr hQ hl hn hv hb

/-- The start of the program. -/
theorem start_good {r : Except Err (Leap A simd mac w d)} (h : Leap.Start P rsqrt over inp vel buf r) : r ≠ .error .ub ∧
    ∀ σ, r = .ok σ → σ.Good P rsqrt over n ∧ (∀ j k, ordered σ.t j k = at2 inp.parts j k) ∧
      ∀ i < n, ∃ k < n, σ.t.perm[i]? = some k ∧ ∀ j < d, at2 σ.vel j i = at2 vel j k := by
  cases h with
  | ctor e h =>
    refine ⟨?_, fun σ h => by cases h⟩
    intro he
    obtain rfl : e = .ub := by simpa using he
    exact (C37_construct_total (rakauEnv_ok A simd mac hs) (rakauEnv_noUB A simd mac hs) hl (by rw [hn]; exact hz)).2 h
  | run t order h1 h2 =>
    obtain ⟨v1, _, v3, _⟩ := C02_views (env := rakauEnv A simd mac w d) hl h1
    have htn : t.n = n := v1.trans hn
    have hR : Reach _ t := .construct inp t hl h1
    have hI := reach_inv hR
    have hlp := C04_construct h1
    have hperm : t.lastPerm.Perm (List.range n) := by rw [← htn]; exact hI.lastPerm
    obtain ⟨vel', hvel⟩ := mapM_isort_exists hperm hv.2
    obtain ⟨q1, q2, q3⟩ := mapM_isort_spec hvel
    have hpl : t.lastPerm.length = n := perm_length hperm
    unfold Leap.init
    simp only [hvel, ofUB, bind, Except.bind]
    cases ha : t.accPot rsqrt over P.Q false P.theta (.fin 1) P.eps P.split order buf with
    | error e =>
      refine ⟨?_, fun σ h => by cases h⟩
      intro he
      obtain rfl : e = .ub := by simpa using he
      exact accPot_noUB hS hs hR (by rw [htn]; exact hz) ho (by rw [htn]; exact hr) P.Q false P.theta _ P.eps P.split h2 (by omega) ha
    | ok acc =>
      refine ⟨by simp [pure, Except.pure], ?_⟩
      intro σ hσ
      obtain rfl : (⟨t, vel', acc⟩ : Leap A simd mac w d) = σ := Except.ok.inj hσ
      refine ⟨⟨hR, htn, ⟨q1.symm.trans hv.1, fun v hv' => (q2 v hv').trans hpl⟩, ⟨order, buf, h2, hb, ha⟩⟩, v3, ?_⟩
      intro i hi
      obtain ⟨k, k1, k2, _⟩ := perm_at hR (k := i) (by rw [htn]; exact hi)
      refine ⟨k, by rw [← htn]; exact k2, k1, fun j hj => ?_⟩
      have hj1 : j < vel.length := by rw [hv.1]; exact hj
      have hj2 : j < vel'.length := by omega
      have hi' : i < t.lastPerm.length := by omega
      have e1 : t.lastPerm[i] = k := by
        have : t.lastPerm[i]? = some k := by rw [hlp]; exact k1
        rw [List.getElem?_eq_getElem hi', Option.some.injEq] at this
        exact this
      have := q3 j hj1 hj2 i hi'
      rw [e1] at this
      show (do (← vel'[j]?)[i]?) = (do (← vel[j]?)[k]?)
      rw [List.getElem?_eq_getElem hj1, List.getElem?_eq_getElem hj2]
      exact this

/-- All states of a run are good. -/
theorem run_good {st : Nat → Leap A simd mac w d} {N : Nat} (h0 : Leap.Start P rsqrt over inp vel buf (.ok (st 0)))
    (hstep : ∀ t < N, (st t).Step P rsqrt over (.ok (st (t + 1)))) : ∀ t ≤ N, (st t).Good P rsqrt over n := by
  intro t
  induction t with
  | zero => intro _; exact ((start_good hS hs ho hz hr hQ hl hn hv hb h0).2 _ rfl).1
  | succ t ih => intro ht; exact (((ih (by omega)).step hS hs ho hz hr hQ (hstep t (by omega))).2 _ rfl).1

/-- C78: no undefined behaviour, at the start and in any step of any run, whatever the arithmetic, positions, velocities, parameters, the schedule, and
the outcome of the sorts. -/
theorem C78_defined : ¬ Leap.Start P rsqrt over inp vel buf (.error .ub) ∧
    ∀ (st : Nat → Leap A simd mac w d) (N : Nat), Leap.Start P rsqrt over inp vel buf (.ok (st 0)) → (∀ t < N, (st t).Step P rsqrt over (.ok (st (t + 1)))) →
      (∃ r, (st N).Step P rsqrt over r) ∧ ¬ (st N).Step P rsqrt over (.error .ub) := by
  refine ⟨fun h => (start_good hS hs ho hz hr hQ hl hn hv hb h).1 rfl, fun st N h0 hst => ?_⟩
  have g := run_good hS hs ho hz hr hQ hl hn hv hb h0 hst N le_rfl
  refine ⟨?_, fun h => (g.step hS hs ho hz hr hQ h).1 rfl⟩
  cases hk : (st N).kicked P with
  | none => exact ⟨_, .kick hk⟩
  | some kv =>
    cases hms : driftArgs kv (allElems d (st N).t.n) with
    | none => exact ⟨_, .args kv _ hk (List.Perm.refl _) hms⟩
    | some ms =>
      obtain ⟨m1, -⟩ := driftArgs_spec hms
      have hin : (driftProg P.drift ms).InBounds (d + 1) (st N).t.n := by
        have mb : ∀ m ∈ ms, m.1 < d ∧ m.2.1 < (st N).t.n := by
          intro m hm
          have : (m.1, m.2.1) ∈ allElems d (st N).t.n := by rw [← m1]; exact List.mem_map.2 ⟨m, hm, rfl⟩
          exact mem_allElems.1 this
        clear hms m1
        induction ms with
        | nil => trivial
        | cons m l ih =>
          obtain ⟨b1, b2⟩ := mb m List.mem_cons_self
          refine ⟨by omega, b2, fun x => ⟨by omega, b2, ih (fun m hm => mb m (List.mem_cons_of_mem _ hm))⟩⟩
      obtain ⟨o, hu⟩ := (C37_total (rakauEnv_ok A simd mac hs) (rakauEnv_noUB A simd mac hs) g.reach hin (by rw [g.size]; exact hz) false).1
      cases o with
      | ok t => exact ⟨_, .run kv _ ms (.ok t) (List.range t.crit.length) hk (List.Perm.refl _) hms hu (fun t' h => by cases h; exact List.Perm.refl _)⟩
      | threw e t => exact ⟨_, .run kv _ ms (.threw e t) [] hk (List.Perm.refl _) hms hu (fun t' h => by cases h)⟩
      | ub => exact ⟨_, .run kv _ ms .ub [] hk (List.Perm.refl _) hms hu (fun t' h => by cases h)⟩

/-- C78: in the order of the user, a run is the leapfrog scheme with the positions that the tree shows, with the velocities given at the start, and with the
accelerations that the ordered functions of the tree give, in any order of the nodes. The buffers of the program hold the velocities and accelerations in the
order of the tree. Masses do not change. -/
theorem C78_motion {st : Nat → Leap A simd mac w d} {N : Nat} (h0 : Leap.Start P rsqrt over inp vel buf (.ok (st 0)))
    (hstep : ∀ t < N, (st t).Step P rsqrt over (.ok (st (t + 1)))) :
    ∃ (X V : Nat → Nat → Nat → Fl K) (a : Nat → Nat → Res K), (∀ j < d, ∀ k < n, at2 inp.parts j k = some (X 0 j k) ∧ at2 vel j k = some (V 0 j k)) ∧
      (∀ t ≤ N, (st t).t.n = n ∧ (∀ k < n, ordered (st t).t d k = at2 inp.parts d k ∧ ∀ j < d, ordered (st t).t j k = some (X t j k)) ∧
        (∀ order out, order.Perm (List.range (st t).t.crit.length) → out.length = n →
          ∃ out', (st t).t.accPot rsqrt over P.Q true P.theta (.fin 1) P.eps P.split order out = .ok out' ∧ ∀ k < n, out'[k]? = some (a t k)) ∧
        ∀ i < n, ∃ k < n, (st t).t.perm[i]? = some k ∧ (st t).acc[i]? = some (a t k) ∧ ∀ j < d, at2 (st t).vel j i = some (V t j k)) ∧
      ∀ t < N, ∀ k < n, ∀ j < d, ∃ a0 a1, (a t k).acc[j]? = some a0 ∧ (a (t + 1) k).acc[j]? = some a1 ∧
        X (t + 1) j k = P.drift (P.kick a0 (V t j k)) (X t j k) ∧ V (t + 1) j k = P.kick a1 (P.kick a0 (V t j k)) := by
  have G := run_good hS hs ho hz hr hQ hl hn hv hb h0 hstep
  obtain ⟨_, hstart⟩ := start_good hS hs ho hz hr hQ hl hn hv hb h0
  obtain ⟨_, s1, s2⟩ := hstart _ rfl
  -- positions of the particles in the tree
  have hinv : ∀ t ≤ N, ∀ k < n, ∃ i < n, (st t).t.invPerm[k]? = some i ∧ (st t).t.perm[i]? = some k := by
    intro t ht k hk
    have hI := reach_inv (G t ht).reach
    obtain ⟨i, i1, i2, i3⟩ := (inv_both hI.perm hI.invLen hI.inv).1 k (by rw [(G t ht).size]; exact hk)
    exact ⟨i, by rw [(G t ht).size] at i1; exact i1, i2, i3⟩
  have hinv' : ∀ t ≤ N, ∀ i k, (st t).t.perm[i]? = some k → (st t).t.invPerm[k]? = some i := fun t ht i k h => (reach_inv (G t ht).reach).inv i k h
  have hord : ∀ t ≤ N, ∀ j i k, (st t).t.perm[i]? = some k → ordered (st t).t j k = unordered (st t).t j i := by
    intro t ht j i k h
    have := hinv' t ht i k h
    show (do let v ← (st t).t.parts[j]?; let i ← (st t).t.invPerm[k]?; v[i]?) = (do (← (st t).t.parts[j]?)[i]?)
    rw [this]; rfl
  have hpermlt : ∀ t ≤ N, ∀ i < n, ∃ k < n, (st t).t.perm[i]? = some k := by
    intro t ht i hi
    obtain ⟨k, k1, k2, _⟩ := perm_at (G t ht).reach (k := i) (by rw [(G t ht).size]; exact hi)
    exact ⟨k, by rw [(G t ht).size] at k2; exact k2, k1⟩
  let X : Nat → Nat → Nat → Fl K := fun t j k => (ordered (st t).t j k).getD (.fin 0)
  let V : Nat → Nat → Nat → Fl K := fun t j k => (do at2 (st t).vel j (← (st t).t.invPerm[k]?)).getD (.fin 0)
  let a : Nat → Nat → Res K := fun t k => (do (st t).acc[(← (st t).t.invPerm[k]?)]?).getD ⟨[], []⟩
  have hX : ∀ t ≤ N, ∀ j < d, ∀ k < n, ordered (st t).t j k = some (X t j k) := by
    intro t ht j hj k hk
    obtain ⟨i, i1, i2, i3⟩ := hinv t ht k hk
    have hI := reach_inv (G t ht).reach
    have hT : Tbl (d + 1) n (st t).t.parts := ⟨hI.arr, fun v hv => by rw [← (G t ht).size]; exact hI.len v hv⟩
    obtain ⟨x, hx⟩ := hT.get (show j < d + 1 by omega) i1
    have : ordered (st t).t j k = some x := (hord t ht j i k i3).trans hx
    show _ = some ((ordered (st t).t j k).getD _)
    rw [this]; rfl
  have hVi : ∀ t ≤ N, ∀ i k, i < n → (st t).t.perm[i]? = some k → ∀ j < d, at2 (st t).vel j i = some (V t j k) := by
    intro t ht i k hi h j hj
    obtain ⟨v, hv'⟩ := (G t ht).vel.get hj hi
    show _ = some ((do at2 (st t).vel j (← (st t).t.invPerm[k]?) : Option (Fl K)).getD _)
    rw [hinv' t ht i k h]
    simp only [bind, Option.bind]
    rw [hv']; rfl
  have hai : ∀ t ≤ N, ∀ i k, i < n → (st t).t.perm[i]? = some k → (st t).acc[i]? = some (a t k) := by
    intro t ht i k hi h
    obtain ⟨val, _, v1, _⟩ := (G t ht).vals hS hs ho hz hr hQ
    show _ = some ((do (st t).acc[(← (st t).t.invPerm[k]?)]? : Option (Res K)).getD _)
    rw [hinv' t ht i k h]
    simp only [bind, Option.bind]
    rw [(v1 i hi).1]; rfl
  have hmass : ∀ t ≤ N, ∀ k < n, ordered (st t).t d k = at2 inp.parts d k := by
    intro t
    induction t with
    | zero => intro _ k _; exact s1 d k
    | succ t ih =>
      intro ht k hk
      obtain ⟨i, i1, _, i3⟩ := hinv (t + 1) ht k hk
      obtain ⟨l, l1, l2, l3, _⟩ := (((G t (by omega)).step hS hs ho hz hr hQ (hstep t (by omega))).2 _ rfl).2 i i1
      rw [i3] at l2
      rw [hord (t + 1) ht d i k i3, l3, ← hord t (by omega) d l k l2.symm]
      exact ih (by omega) k hk
  refine ⟨X, V, a, ?_, ?_, ?_⟩
  · intro j hj k hk
    refine ⟨(s1 j k).symm.trans (hX 0 (by omega) j hj k hk), ?_⟩
    obtain ⟨i, i1, _, i3⟩ := hinv 0 (by omega) k hk
    obtain ⟨k', _, k2, k3⟩ := s2 i i1
    rw [i3, Option.some.injEq] at k2
    subst k2
    rw [← k3 j hj]
    exact hVi 0 (by omega) i k i1 i3 j hj
  · intro t ht
    refine ⟨(G t ht).size, fun k hk => ⟨hmass t ht k hk, fun j hj => hX t ht j hj k hk⟩, ?_, ?_⟩
    · intro order out h1 h2
      obtain ⟨val, _, v1, v2⟩ := (G t ht).vals hS hs ho hz hr hQ
      obtain ⟨out', o1, o2, o3⟩ := v2 true order out h1 h2
      refine ⟨out', o1, fun k hk => ?_⟩
      obtain ⟨i, i1, _, i3⟩ := hinv t ht k hk
      obtain ⟨k', k1, k2⟩ := o3 i i1
      simp only [if_true] at k1
      rw [i3, Option.some.injEq] at k1
      subst k1
      rw [k2, ← (v1 i i1).1]
      exact hai t ht i k i1 i3
    · intro i hi
      obtain ⟨k, k1, k2⟩ := hpermlt t ht i hi
      exact ⟨k, k1, k2, hai t ht i k hi k2, hVi t ht i k hi k2⟩
  · intro t ht k hk j hj
    obtain ⟨i, i1, _, i3⟩ := hinv (t + 1) (by omega) k hk
    obtain ⟨l, l1, l2, _, l4⟩ := (((G t (by omega)).step hS hs ho hz hr hQ (hstep t ht)).2 _ rfl).2 i i1
    obtain ⟨a0, v, x, a1, q1, q2, q3, q4, q5, q6⟩ := l4 j hj
    rw [i3] at l2
    have hl2 := l2.symm
    refine ⟨a0, a1, ?_, ?_, ?_, ?_⟩
    · have := hai t (by omega) l k l1 hl2
      unfold accAt at q1
      rw [this] at q1
      exact q1
    · have := hai (t + 1) (by omega) i k i1 i3
      unfold accAt at q4
      rw [this] at q4
      exact q4
    · have e1 := hX (t + 1) (by omega) j hj k hk
      rw [hord (t + 1) (by omega) j i k i3, q5] at e1
      have e2 := hX t (by omega) j hj k hk
      rw [hord t (by omega) j l k hl2, q3] at e2
      have e3 := hVi t (by omega) l k l1 hl2 j hj
      rw [q2] at e3
      rw [← Option.some.inj e1, ← Option.some.inj e2, ← Option.some.inj e3]
    · have e1 := hVi (t + 1) (by omega) i k i1 i3 j hj
      rw [q6] at e1
      have e3 := hVi t (by omega) l k l1 hl2 j hj
      rw [q2] at e3
      rw [← Option.some.inj e1, ← Option.some.inj e3]

end
end

/-! ### Real numbers -/
namespace Spec

/-- The potential energy (`G = 1`) of `n` particles with coordinates `X 0`, …, `X (d - 1)`, masses `X d` and squared softening length `e`: every pair counts once. -/
noncomputable def binding (d : Nat) (e : ℝ) (X : Nat → Nat → ℝ) (n : Nat) : ℝ :=
  -∑ i ∈ Finset.range n, ∑ l ∈ Finset.range i, X d i * X d l / √(∑ j ∈ Finset.range d, (X j l - X j i) ^ 2 + e)

/-- The kinetic energy of particles of masses `m` with velocities `v 0`, …, `v (d - 1)`. -/
noncomputable def kinetic (d : Nat) (m : Nat → ℝ) (v : Nat → Nat → ℝ) (n : Nat) : ℝ := ∑ i ∈ Finset.range n, m i / 2 * ∑ j ∈ Finset.range d, v j i ^ 2

end Spec

/-- Exact parameters: kicks by `h` times the acceleration, drifts by `τ` times the velocity, opening angle `θ` so small that no node is accepted, softening
length `u`. -/
structure ExactLeap (w d : Nat) (P : LeapPar ℝ) (θ u h τ : ℝ) : Prop where
  kick : ∀ a v, P.kick (.fin a) (.fin v) = .fin (v + h * a)
  drift : ∀ v x, P.drift (.fin v) (.fin x) = .fin (x + τ * v)
  theta : P.theta = .fin θ
  pos : 0 < θ
  small : 9 * d * (θ * 2 ^ cbits w d) ^ 2 ≤ 4
  eps : P.eps = .fin u
  soft : 0 < u
  split : checkSplit P.split = .ok ()

theorem soft_pos {d : Nat} {u : ℝ} (hu : 0 < u) (X : Nat → Nat → ℝ) (i l : Nat) : 0 < ∑ j ∈ Finset.range d, (X j l - X j i) ^ 2 + u * u :=
  add_pos_of_nonneg_of_pos (Finset.sum_nonneg fun _ _ => sq_nonneg _) (mul_pos hu hu)

section
variable {simd : Option (Simd ℝ)} {mac : Mac} {w d : Nat}

/-- The accelerations and potentials of a tree, for a small opening angle. -/
theorem accPot_newton (hS : ∀ S, simd = some S → S.Ok) (hs : Supported w d) {s : TS (rakauEnv realA simd mac w d)} (h : Reach _ s) (hz : s.n * cbits w d < 2 ^ 64)
    {over : Overshift} (ho : over.Small) (hr : s.n + (⟨realA, simd, none⟩ : Hw ℝ).pad < 2 ^ 64) (hn : s.n ≠ 0) {X : Nat → Nat → ℝ}
    (hX : ∀ j ≤ d, ∀ i < s.n, ordered s j i = some (.fin (X j i))) (hm : ∀ i < s.n, 0 ≤ X d i) {θ u : ℝ} (hθ : 0 < θ) (hsm : 9 * d * (θ * 2 ^ cbits w d) ^ 2 ≤ 4)
    (hu : 0 < u) (Q : Quant) {split : List (Fl ℝ)} (hsp : checkSplit split = .ok ()) {order : List Nat} {out : List (Res ℝ)}
    (hord : order.Perm (List.range s.crit.length)) (hout : out.length = s.n) :
    ∃ out', s.accPot none over Q true (.fin θ) (.fin 1) (.fin u) split order out = .ok out' ∧
      ∀ i < s.n, out'[i]? = some (mkRes Q d (fun j => accel d (u * u) X s.n i j, energy d (u * u) X s.n i)) := by
  obtain ⟨b, H⟩ := sit_user hS hs h hz ho hr hn hX (invTheta_pos mac hθ) (mul_self_nonneg u)
  have hm' : ∀ k < s.n, 0 ≤ X d (s.perm.getD k 0) := by
    intro k hk
    obtain ⟨i, _, i2, i3⟩ := perm_at h hk
    rw [i3]; exact hm i i2
  obtain ⟨out', o1, _, o3⟩ := C22_small_theta hm' hθ hsm hu.le H (fun k l _ _ _ => realA_root (by unfold D2; exact soft_pos hu (fun j k => X j (s.perm.getD k 0)) k l)) Q 1 hsp true hord hout
  refine ⟨out', o1, fun i hi => ?_⟩
  obtain ⟨r, r1, r2⟩ := o3 i hi
  rw [C57_exact hS hs h hz hr hX hu.le (fun i l _ _ _ => soft_pos hu X i l) Q 1 hi, Except.ok.injEq] at r2
  rw [r1, ← r2]
  simp only [one_mul]

variable {P : LeapPar ℝ} {over : Overshift} {n : Nat} (hS : ∀ S, simd = some S → S.Ok) (hs : Supported w d) (ho : over.Small) (hz : n * cbits w d < 2 ^ 64)
  (hr : n + (⟨realA, simd, none⟩ : Hw ℝ).pad < 2 ^ 64) (hQ : P.Q ≠ .pot)
  {inp : Input (rakauEnv realA simd mac w d)} (hl : inp.parts.length = d + 1) (hn : (inp.parts.headD []).length = n) {vel : List (List (Fl ℝ))} (hv : IsVel d n vel)
  {buf : List (Res ℝ)} (hb : buf.length = n) (hn0 : n ≠ 0) {X0 V0 : Nat → Nat → ℝ} (hX0 : ∀ j ≤ d, ∀ k < n, at2 inp.parts j k = some (.fin (X0 j k)))
  (hV0 : ∀ j < d, ∀ k < n, at2 vel j k = some (.fin (V0 j k))) (hm : ∀ k < n, 0 ≤ X0 d k) {θ u h τ : ℝ} (hP : ExactLeap w d P θ u h τ)
  {st : Nat → Leap realA simd mac w d} {N : Nat} (h0 : Leap.Start P none over inp vel buf (.ok (st 0)))
  (hstep : ∀ t < N, (st t).Step P none over (.ok (st (t + 1))))
include hS hs ho hz hr hQ hl hn hv hb hn0 hX0 hV0 hm hP h0 hstep

/-- C78, in real numbers and for a small opening angle: a run is the leapfrog scheme for Newton's law of gravitation (with softening). -/
theorem C78_newton : ∃ x v : Nat → Nat → Nat → ℝ, (∀ k < n, (∀ j ≤ d, x 0 j k = X0 j k) ∧ ∀ j < d, v 0 j k = V0 j k) ∧
    (∀ t ≤ N, (st t).t.n = n ∧ (∀ j ≤ d, ∀ k < n, ordered (st t).t j k = some (.fin (x t j k))) ∧ (∀ k < n, x t d k = X0 d k) ∧
      ∀ i < n, ∃ k < n, (st t).t.perm[i]? = some k ∧ (st t).acc[i]? = some (mkRes P.Q d (fun j => accel d (u * u) (x t) n k j, energy d (u * u) (x t) n k)) ∧
        ∀ j < d, at2 (st t).vel j i = some (.fin (v t j k))) ∧
    ∀ t < N, ∀ k < n, ∀ j < d, x (t + 1) j k = x t j k + τ * (v t j k + h * accel d (u * u) (x t) n k j) ∧
      v (t + 1) j k = v t j k + h * accel d (u * u) (x t) n k j + h * accel d (u * u) (x (t + 1)) n k j := by
  have hS' : SimdPos simd := fun S h => (hS S h).pos
  have G := run_good hS' hs ho hz hr hQ hl hn hv hb h0 hstep
  obtain ⟨X, V, a, m1, m2, m3⟩ := C78_motion hS' hs ho hz hr hQ hl hn hv hb h0 hstep
  -- one instant
  have inst : ∀ t ≤ N, (∀ j < d, ∀ k < n, ∃ q, X t j k = .fin q) →
      (∀ j ≤ d, ∀ k < n, ordered (st t).t j k = some (.fin (if j = d then X0 d k else (X t j k).val))) ∧
      ∀ k < n, a t k = mkRes P.Q d (fun j => accel d (u * u) (fun j k => if j = d then X0 d k else (X t j k).val) n k j,
        energy d (u * u) (fun j k => if j = d then X0 d k else (X t j k).val) n k) := by
    intro t ht hfin
    obtain ⟨tn, t1, t2, t3⟩ := m2 t ht
    have hX : ∀ j ≤ d, ∀ k < n, ordered (st t).t j k = some (.fin (if j = d then X0 d k else (X t j k).val)) := by
      intro j hj k hk
      by_cases hjd : j = d
      · subst hjd; rw [if_pos rfl, (t1 k hk).1]; exact hX0 j le_rfl k hk
      · rw [if_neg hjd, (t1 k hk).2 j (by omega)]
        obtain ⟨q, hq⟩ := hfin j (by omega) k hk
        rw [hq]; rfl
    refine ⟨hX, fun k hk => ?_⟩
    obtain ⟨out', o1, o2⟩ := t2 (List.range (st t).t.crit.length) (List.replicate n ⟨[], []⟩) (List.Perm.refl _) (by simp)
    obtain ⟨out2, p1, p2⟩ := accPot_newton hS hs (G t ht).reach (by rw [tn]; exact hz) ho (by rw [tn]; exact hr) (by rw [tn]; exact hn0)
      (X := fun j k => if j = d then X0 d k else (X t j k).val) (by rw [tn]; exact hX) (by rw [tn]; intro i hi; simp only [if_true]; exact hm i hi)
      hP.pos hP.small hP.soft P.Q hP.split (order := List.range (st t).t.crit.length) (out := List.replicate n ⟨[], []⟩) (List.Perm.refl _) (by simp [tn])
    rw [hP.theta, hP.eps, p1, Except.ok.injEq] at o1
    subst o1
    have := p2 k (by rw [tn]; exact hk)
    rw [o2 k hk, tn] at this
    exact Option.some.inj this
  have accj : ∀ t k (f : Nat → ℝ) (p : ℝ) (j : Nat), j < d → a t k = mkRes P.Q d (f, p) → (a t k).acc[j]? = some (.fin (f j)) := by
    intro t k f p j hj hk
    rw [hk]
    unfold mkRes
    rw [if_neg hQ]
    simp [Arr, hj]
  have fin : ∀ t ≤ N, ∀ j < d, ∀ k < n, (∃ q, X t j k = .fin q) ∧ ∃ q, V t j k = .fin q := by
    intro t
    induction t with
    | zero =>
      intro _ j hj k hk
      obtain ⟨e1, e2⟩ := m1 j hj k hk
      rw [hX0 j hj.le k hk, Option.some.injEq] at e1
      rw [hV0 j hj k hk, Option.some.injEq] at e2
      exact ⟨⟨_, e1.symm⟩, ⟨_, e2.symm⟩⟩
    | succ t ih =>
      intro ht
      have i0 := (inst t (by omega) (fun j hj k hk => (ih (by omega) j hj k hk).1)).2
      have hXf : ∀ j < d, ∀ k < n, ∃ q, X (t + 1) j k = .fin q := by
        intro j hj k hk
        obtain ⟨a0, a1, q1, _, q3, _⟩ := m3 t (by omega) k hk j hj
        rw [accj t k _ _ j hj (i0 k hk), Option.some.injEq] at q1
        obtain ⟨⟨x, hx⟩, ⟨v, hv⟩⟩ := ih (by omega) j hj k hk
        rw [q3, ← q1, hx, hv, hP.kick, hP.drift]
        exact ⟨_, rfl⟩
      have i1 := (inst (t + 1) ht hXf).2
      intro j hj k hk
      refine ⟨hXf j hj k hk, ?_⟩
      obtain ⟨a0, a1, q1, q2, _, q4⟩ := m3 t (by omega) k hk j hj
      rw [accj t k _ _ j hj (i0 k hk), Option.some.injEq] at q1
      rw [accj (t + 1) k _ _ j hj (i1 k hk), Option.some.injEq] at q2
      obtain ⟨_, ⟨v, hv⟩⟩ := ih (by omega) j hj k hk
      rw [q4, ← q1, ← q2, hv, hP.kick, hP.kick]
      exact ⟨_, rfl⟩
  refine ⟨fun t j k => if j = d then X0 d k else (X t j k).val, fun t j k => (V t j k).val, ?_, ?_, ?_⟩
  · intro k hk
    refine ⟨fun j hj => ?_, fun j hj => ?_⟩
    · by_cases hjd : j = d
      · subst hjd; simp
      · simp only [if_neg hjd]
        have := (m1 j (by omega) k hk).1
        rw [hX0 j hj k hk, Option.some.injEq] at this
        rw [← this]; rfl
    · have := (m1 j hj k hk).2
      rw [hV0 j hj k hk, Option.some.injEq] at this
      simp only
      rw [← this]; rfl
  · intro t ht
    obtain ⟨tn, _, _, t3⟩ := m2 t ht
    obtain ⟨i1, i2⟩ := inst t ht (fun j hj k hk => (fin t ht j hj k hk).1)
    refine ⟨tn, i1, fun k _ => by simp, fun i hi => ?_⟩
    obtain ⟨k, k1, k2, k3, k4⟩ := t3 i hi
    refine ⟨k, k1, k2, by rw [k3, i2 k k1], fun j hj => ?_⟩
    obtain ⟨_, ⟨q, hq⟩⟩ := fin t ht j hj k k1
    rw [k4 j hj]
    show some (V t j k) = some (.fin (V t j k).val)
    rw [hq]; rfl
  · intro t ht k hk j hj
    have i0 := (inst t (by omega) (fun j hj k hk => (fin t (by omega) j hj k hk).1)).2
    have i1 := (inst (t + 1) (by omega) (fun j hj k hk => (fin (t + 1) (by omega) j hj k hk).1)).2
    obtain ⟨a0, a1, q1, q2, q3, q4⟩ := m3 t ht k hk j hj
    rw [accj t k _ _ j hj (i0 k hk), Option.some.injEq] at q1
    rw [accj (t + 1) k _ _ j hj (i1 k hk), Option.some.injEq] at q2
    obtain ⟨⟨x, hx⟩, ⟨v, hv⟩⟩ := fin t (by omega) j hj k hk
    have hjd : j ≠ d := by omega
    rw [← q1, hx, hv, hP.kick, hP.drift] at q3
    rw [← q1, ← q2, hv, hP.kick, hP.kick] at q4
    simp only [if_neg hjd, hx, hv, q3, q4, Fl.val]
    exact ⟨trivial, trivial⟩


omit hS hs ho hz hr hQ hl hn hv hb hn0 hX0 hV0 hm hP h0 hstep

/-- Sums over positions in the tree are sums over particles. -/
theorem sum_perm {n : Nat} {perm : List Nat} (hp : perm.Perm (List.range n)) (F : Nat → ℝ) {f : Nat → ℝ}
    (hf : ∀ i < n, ∀ k, perm[i]? = some k → f i = F k) : ∑ i ∈ Finset.range n, f i = ∑ k ∈ Finset.range n, F k := by
  have hl : perm.length = n := by rw [hp.length_eq]; simp
  have e2 : (List.range n).map f = perm.map F := by
    apply List.ext_getElem
    · simp [hl]
    · intro i h1 h2
      simp only [List.getElem_map, List.getElem_range]
      exact hf i (by simpa using h1) _ (List.getElem?_eq_getElem (by simpa using h2))
  have e3 : ∀ g : Nat → ℝ, ∑ i ∈ Finset.range n, g i = ((List.range n).map g).sum := by
    intro g
    rw [← List.sum_toFinset _ List.nodup_range, List.toFinset_range]
  rw [e3, e3, e2, (hp.map F).sum_eq]

/-- Newton's third law. -/
theorem accel_total (d : Nat) (e : ℝ) (X : Nat → Nat → ℝ) (n j : Nat) : ∑ k ∈ Finset.range n, X d k * accel d e X n k j = 0 := by
  let f : Nat → Nat → ℝ := fun k l => X d k * (X d l * (X j l - X j k) / √(∑ j ∈ Finset.range d, (X j l - X j k) ^ 2 + e) ^ 3)
  have h1 : ∀ k, X d k * accel d e X n k j = ∑ l ∈ Finset.range n, f k l := by
    intro k
    unfold accel
    rw [Finset.mul_sum, Finset.sum_filter_of_ne]
    intro l _ hne hlk
    apply hne
    subst hlk
    simp
  have h2 : ∀ k l, f k l = - f l k := by
    intro k l
    have : ∑ j ∈ Finset.range d, (X j l - X j k) ^ 2 = ∑ j ∈ Finset.range d, (X j k - X j l) ^ 2 := Finset.sum_congr rfl (fun j _ => by ring)
    simp only [f]
    rw [this]
    ring
  have h3 : ∑ k ∈ Finset.range n, ∑ l ∈ Finset.range n, f k l = -∑ k ∈ Finset.range n, ∑ l ∈ Finset.range n, f k l := by
    conv_lhs => rw [Finset.sum_comm]
    rw [← Finset.sum_neg_distrib]
    refine Finset.sum_congr rfl (fun k _ => ?_)
    rw [← Finset.sum_neg_distrib]
    exact Finset.sum_congr rfl (fun l _ => h2 l k)
  rw [Finset.sum_congr rfl (fun k _ => h1 k)]
  linarith

/-- Forces between particles have no torque. -/
theorem torque_total (d : Nat) (e : ℝ) (X : Nat → Nat → ℝ) (n a b : Nat) :
    ∑ k ∈ Finset.range n, X d k * (X a k * accel d e X n k b - X b k * accel d e X n k a) = 0 := by
  let f : Nat → Nat → ℝ := fun k l => X d k * (X a k * (X d l * (X b l - X b k) / √(∑ j ∈ Finset.range d, (X j l - X j k) ^ 2 + e) ^ 3) -
    X b k * (X d l * (X a l - X a k) / √(∑ j ∈ Finset.range d, (X j l - X j k) ^ 2 + e) ^ 3))
  have h0 : ∀ k j, accel d e X n k j = ∑ l ∈ Finset.range n, X d l * (X j l - X j k) / √(∑ j ∈ Finset.range d, (X j l - X j k) ^ 2 + e) ^ 3 := by
    intro k j
    unfold accel
    rw [Finset.sum_filter_of_ne]
    intro l _ hne hlk
    apply hne
    subst hlk
    simp
  have h1 : ∀ k, X d k * (X a k * accel d e X n k b - X b k * accel d e X n k a) = ∑ l ∈ Finset.range n, f k l := by
    intro k
    rw [h0, h0, Finset.mul_sum, Finset.mul_sum, ← Finset.sum_sub_distrib, Finset.mul_sum]
  have h2 : ∀ k l, f k l = - f l k := by
    intro k l
    have : ∑ j ∈ Finset.range d, (X j l - X j k) ^ 2 = ∑ j ∈ Finset.range d, (X j k - X j l) ^ 2 := Finset.sum_congr rfl (fun j _ => by ring)
    simp only [f]
    rw [this]
    ring
  have h3 : ∑ k ∈ Finset.range n, ∑ l ∈ Finset.range n, f k l = -∑ k ∈ Finset.range n, ∑ l ∈ Finset.range n, f k l := by
    conv_lhs => rw [Finset.sum_comm]
    rw [← Finset.sum_neg_distrib]
    refine Finset.sum_congr rfl (fun k _ => ?_)
    rw [← Finset.sum_neg_distrib]
    exact Finset.sum_congr rfl (fun l _ => h2 l k)
  rw [Finset.sum_congr rfl (fun k _ => h1 k)]
  linarith

/-- The potentials of all particles count every pair twice. -/
theorem energy_total (d : Nat) (e : ℝ) (X : Nat → Nat → ℝ) (n : Nat) : ∑ k ∈ Finset.range n, energy d e X n k = 2 * binding d e X n := by
  let f : Nat → Nat → ℝ := fun k l => X d k * X d l / √(∑ j ∈ Finset.range d, (X j l - X j k) ^ 2 + e)
  have hsym : ∀ k l, f k l = f l k := by
    intro k l
    have : ∑ j ∈ Finset.range d, (X j l - X j k) ^ 2 = ∑ j ∈ Finset.range d, (X j k - X j l) ^ 2 := Finset.sum_congr rfl (fun j _ => by ring)
    simp only [f]
    rw [this, mul_comm (X d k)]
  have key : ∀ n, ∑ k ∈ Finset.range n, ∑ l ∈ (Finset.range n).filter (· ≠ k), f k l = 2 * ∑ k ∈ Finset.range n, ∑ l ∈ Finset.range k, f k l := by
    intro n
    induction n with
    | zero => simp
    | succ n ih =>
      rw [Finset.sum_range_succ, Finset.sum_range_succ _ n, mul_add, ← ih]
      have e1 : ∑ l ∈ (Finset.range (n + 1)).filter (· ≠ n), f n l = ∑ l ∈ Finset.range n, f n l := by
        refine Finset.sum_congr ?_ (fun _ _ => rfl)
        ext l; simp only [Finset.mem_filter, Finset.mem_range]; omega
      have e2 : ∑ k ∈ Finset.range n, ∑ l ∈ (Finset.range (n + 1)).filter (· ≠ k), f k l =
          ∑ k ∈ Finset.range n, (∑ l ∈ (Finset.range n).filter (· ≠ k), f k l + f n k) := by
        refine Finset.sum_congr rfl (fun k hk => ?_)
        rw [Finset.mem_range] at hk
        rw [Finset.range_add_one, Finset.filter_insert, if_pos (by omega), Finset.sum_insert (by simp), hsym n k, add_comm]
      rw [e1, e2, Finset.sum_add_distrib]
      ring
  unfold energy binding
  rw [Finset.sum_neg_distrib, key]
  ring

/-- The leapfrog scheme for Newton's law keeps the momentum. -/
theorem leap_momentum {d n N : Nat} {e h τ : ℝ} {x v : Nat → Nat → Nat → ℝ} {M : Nat → ℝ} {j : Nat} (hm : ∀ t ≤ N, ∀ k < n, x t d k = M k)
    (hst : ∀ t < N, ∀ k < n, x (t + 1) j k = x t j k + τ * (v t j k + h * accel d e (x t) n k j) ∧
      v (t + 1) j k = v t j k + h * accel d e (x t) n k j + h * accel d e (x (t + 1)) n k j) : ∀ t ≤ N,
    ∑ k ∈ Finset.range n, M k * v t j k = ∑ k ∈ Finset.range n, M k * v 0 j k ∧
    ∑ k ∈ Finset.range n, M k * x t j k = ∑ k ∈ Finset.range n, M k * x 0 j k + t * τ * ∑ k ∈ Finset.range n, M k * v 0 j k := by
  have tot : ∀ t ≤ N, ∑ k ∈ Finset.range n, M k * accel d e (x t) n k j = 0 := by
    intro t ht
    rw [← accel_total d e (x t) n j]
    exact Finset.sum_congr rfl (fun k hk => by rw [hm t ht k (Finset.mem_range.1 hk)])
  intro t
  induction t with
  | zero => intro _; simp
  | succ t ih =>
    intro ht
    obtain ⟨i1, i2⟩ := ih (by omega)
    have e1 : ∑ k ∈ Finset.range n, M k * v (t + 1) j k = ∑ k ∈ Finset.range n, (M k * v t j k + h * (M k * accel d e (x t) n k j) +
        h * (M k * accel d e (x (t + 1)) n k j)) := by
      refine Finset.sum_congr rfl (fun k hk => ?_)
      rw [(hst t (by omega) k (Finset.mem_range.1 hk)).2]
      ring
    have e2 : ∑ k ∈ Finset.range n, M k * x (t + 1) j k = ∑ k ∈ Finset.range n, (M k * x t j k + τ * (M k * v t j k) +
        τ * h * (M k * accel d e (x t) n k j)) := by
      refine Finset.sum_congr rfl (fun k hk => ?_)
      rw [(hst t (by omega) k (Finset.mem_range.1 hk)).1]
      ring
    rw [e1, e2]
    simp only [Finset.sum_add_distrib, ← Finset.mul_sum, tot t (by omega), tot (t + 1) ht, i1, i2]
    push_cast
    exact ⟨by ring, by ring⟩

/-- The leapfrog scheme for Newton's law keeps the angular momentum. -/
theorem leap_angular {d n N : Nat} {e h τ : ℝ} {x v : Nat → Nat → Nat → ℝ} {M : Nat → ℝ} {a b : Nat} (ha : a < d) (hb : b < d) (hm : ∀ t ≤ N, ∀ k < n, x t d k = M k)
    (hst : ∀ t < N, ∀ k < n, ∀ j < d, x (t + 1) j k = x t j k + τ * (v t j k + h * accel d e (x t) n k j) ∧
      v (t + 1) j k = v t j k + h * accel d e (x t) n k j + h * accel d e (x (t + 1)) n k j) : ∀ t ≤ N,
    ∑ k ∈ Finset.range n, M k * (x t a k * v t b k - x t b k * v t a k) = ∑ k ∈ Finset.range n, M k * (x 0 a k * v 0 b k - x 0 b k * v 0 a k) := by
  have tot : ∀ t ≤ N, ∑ k ∈ Finset.range n, M k * (x t a k * accel d e (x t) n k b - x t b k * accel d e (x t) n k a) = 0 := by
    intro t ht
    rw [← torque_total d e (x t) n a b]
    exact Finset.sum_congr rfl (fun k hk => by rw [hm t ht k (Finset.mem_range.1 hk)])
  intro t
  induction t with
  | zero => intro _; rfl
  | succ t ih =>
    intro ht
    rw [← ih (by omega)]
    have e1 : ∑ k ∈ Finset.range n, M k * (x (t + 1) a k * v (t + 1) b k - x (t + 1) b k * v (t + 1) a k) =
        ∑ k ∈ Finset.range n, (M k * (x t a k * v t b k - x t b k * v t a k) + h * (M k * (x t a k * accel d e (x t) n k b - x t b k * accel d e (x t) n k a)) +
          h * (M k * (x (t + 1) a k * accel d e (x (t + 1)) n k b - x (t + 1) b k * accel d e (x (t + 1)) n k a))) := by
      refine Finset.sum_congr rfl (fun k hk => ?_)
      obtain ⟨p1, p2⟩ := hst t (by omega) k (Finset.mem_range.1 hk) a ha
      obtain ⟨q1, q2⟩ := hst t (by omega) k (Finset.mem_range.1 hk) b hb
      rw [p2, q2, p1, q1]
      ring
    rw [e1]
    simp only [Finset.sum_add_distrib, ← Finset.mul_sum, tot t (by omega), tot (t + 1) ht]
    ring

include hS hs ho hz hr hQ hl hn hv hb hn0 hX0 hV0 hm hP h0 hstep

/-- C78: the momentum and the motion of the centre of mass, from the masses, positions and velocities as the program has them (in the order of the tree): the
momentum is constant, and the centre of mass moves uniformly. -/
theorem C78_momentum {t : Nat} (ht : t ≤ N) {j : Nat} (hj : j < d) {m y z : Nat → ℝ} (h1 : ∀ i < n, unordered (st t).t d i = some (.fin (m i)))
    (h2 : ∀ i < n, unordered (st t).t j i = some (.fin (y i))) (h3 : ∀ i < n, at2 (st t).vel j i = some (.fin (z i))) :
    ∑ i ∈ Finset.range n, m i * z i = ∑ k ∈ Finset.range n, X0 d k * V0 j k ∧
    ∑ i ∈ Finset.range n, m i * y i = ∑ k ∈ Finset.range n, X0 d k * X0 j k + t * τ * ∑ k ∈ Finset.range n, X0 d k * V0 j k := by
  have hS' : SimdPos simd := fun S h => (hS S h).pos
  have G := run_good hS' hs ho hz hr hQ hl hn hv hb h0 hstep
  obtain ⟨x, v, a1, a2, a3⟩ := C78_newton hS hs ho hz hr hQ hl hn hv hb hn0 hX0 hV0 hm hP h0 hstep
  obtain ⟨hP1, hP2⟩ := leap_momentum (M := X0 d) (fun t ht k hk => (a2 t ht).2.2.1 k hk) (fun t ht k hk => a3 t ht k hk j hj) t ht
  have f1 : ∑ k ∈ Finset.range n, X0 d k * v 0 j k = ∑ k ∈ Finset.range n, X0 d k * V0 j k :=
    Finset.sum_congr rfl (fun k hk => by rw [(a1 k (Finset.mem_range.1 hk)).2 j hj])
  have f2 : ∑ k ∈ Finset.range n, X0 d k * x 0 j k = ∑ k ∈ Finset.range n, X0 d k * X0 j k :=
    Finset.sum_congr rfl (fun k hk => by rw [(a1 k (Finset.mem_range.1 hk)).1 j hj.le])
  rw [f1] at hP1 hP2
  rw [f2] at hP2
  obtain ⟨tn, b1, b2, b3⟩ := a2 t ht
  have hI := reach_inv (G t ht).reach
  have hperm : (st t).t.perm.Perm (List.range n) := by rw [← tn]; exact hI.perm
  have hun : ∀ j i k, (st t).t.perm[i]? = some k → unordered (st t).t j i = ordered (st t).t j k := by
    intro j i k h
    have := hI.inv i k h
    show (do (← (st t).t.parts[j]?)[i]?) = (do let v ← (st t).t.parts[j]?; let i ← (st t).t.invPerm[k]?; v[i]?)
    rw [this]; rfl
  have at_ : ∀ i < n, ∀ k, (st t).t.perm[i]? = some k → m i = X0 d k ∧ y i = x t j k ∧ z i = v t j k := by
    intro i hi k hk
    obtain ⟨k', c1, c2, _, c4⟩ := b3 i hi
    rw [hk, Option.some.injEq] at c2
    subst c2
    have q1 := h1 i hi
    rw [hun d i k hk, b1 d le_rfl k c1, b2 k c1, Option.some.injEq, Fl.fin.injEq] at q1
    have q2 := h2 i hi
    rw [hun j i k hk, b1 j hj.le k c1, Option.some.injEq, Fl.fin.injEq] at q2
    have q3 := h3 i hi
    rw [c4 j hj, Option.some.injEq, Fl.fin.injEq] at q3
    exact ⟨q1.symm, q2.symm, q3.symm⟩
  refine ⟨?_, ?_⟩
  · rw [← hP1]
    refine sum_perm hperm (fun k => X0 d k * v t j k) (fun i hi k hk => ?_)
    obtain ⟨e1, _, e3⟩ := at_ i hi k hk
    rw [e1, e3]
  · rw [← hP2]
    refine sum_perm hperm (fun k => X0 d k * x t j k) (fun i hi k hk => ?_)
    obtain ⟨e1, e2, _⟩ := at_ i hi k hk
    rw [e1, e2]

/-- C78: the angular momentum is constant. -/
theorem C78_angular {t : Nat} (ht : t ≤ N) {a b : Nat} (ha : a < d) (hb' : b < d) {m : Nat → ℝ} {y z : Nat → Nat → ℝ} (h1 : ∀ i < n, unordered (st t).t d i = some (.fin (m i)))
    (h2 : ∀ j < d, ∀ i < n, unordered (st t).t j i = some (.fin (y j i))) (h3 : ∀ j < d, ∀ i < n, at2 (st t).vel j i = some (.fin (z j i))) :
    ∑ i ∈ Finset.range n, m i * (y a i * z b i - y b i * z a i) = ∑ k ∈ Finset.range n, X0 d k * (X0 a k * V0 b k - X0 b k * V0 a k) := by
  have hS' : SimdPos simd := fun S h => (hS S h).pos
  have G := run_good hS' hs ho hz hr hQ hl hn hv hb h0 hstep
  obtain ⟨x, v, a1, a2, a3⟩ := C78_newton hS hs ho hz hr hQ hl hn hv hb hn0 hX0 hV0 hm hP h0 hstep
  have hL := leap_angular (M := X0 d) ha hb' (fun t ht k hk => (a2 t ht).2.2.1 k hk) a3 t ht
  have f1 : ∑ k ∈ Finset.range n, X0 d k * (x 0 a k * v 0 b k - x 0 b k * v 0 a k) = ∑ k ∈ Finset.range n, X0 d k * (X0 a k * V0 b k - X0 b k * V0 a k) :=
    Finset.sum_congr rfl (fun k hk => by
      obtain ⟨p1, p2⟩ := a1 k (Finset.mem_range.1 hk)
      rw [p1 a ha.le, p1 b hb'.le, p2 a ha, p2 b hb'])
  obtain ⟨tn, b1, b2, b3⟩ := a2 t ht
  have hI := reach_inv (G t ht).reach
  have hperm : (st t).t.perm.Perm (List.range n) := by rw [← tn]; exact hI.perm
  have hun : ∀ j i k, (st t).t.perm[i]? = some k → unordered (st t).t j i = ordered (st t).t j k := by
    intro j i k h
    have := hI.inv i k h
    show (do (← (st t).t.parts[j]?)[i]?) = (do let v ← (st t).t.parts[j]?; let i ← (st t).t.invPerm[k]?; v[i]?)
    rw [this]; rfl
  rw [← f1, ← hL]
  refine sum_perm hperm (fun k => X0 d k * (x t a k * v t b k - x t b k * v t a k)) (fun i hi k hk => ?_)
  obtain ⟨k', c1, c2, _, c4⟩ := b3 i hi
  rw [hk, Option.some.injEq] at c2
  subst c2
  have q1 := h1 i hi
  rw [hun d i k hk, b1 d le_rfl k c1, b2 k c1, Option.some.injEq, Fl.fin.injEq] at q1
  have q2 : ∀ j < d, x t j k = y j i ∧ v t j k = z j i := by
    intro j hj
    have q2 := h2 j hj i hi
    rw [hun j i k hk, b1 j hj.le k c1, Option.some.injEq, Fl.fin.injEq] at q2
    have q3 := h3 j hj i hi
    rw [c4 j hj, Option.some.injEq, Fl.fin.injEq] at q3
    exact ⟨q2, q3⟩
  rw [q1, (q2 a ha).1, (q2 b hb').1, (q2 a ha).2, (q2 b hb').2]

/-- C78, what the program prints as total energy, for particles of equal mass `m`: the kinetic energy and *twice* the potential energy of the particles. -/
theorem C78_energy_partial {m : ℝ} (hmm : ∀ k < n, X0 d k = m) {t : Nat} (ht : t ≤ N) {x : Nat → Nat → ℝ} (hx : ∀ j ≤ d, ∀ k < n, ordered (st t).t j k = some (.fin (x j k)))
    {v : Nat → Nat → ℝ} (hvx : ∀ i < n, ∀ k, (st t).t.perm[i]? = some k → ∀ j < d, at2 (st t).vel j i = some (.fin (v j k)))
    {z : Nat → Nat → ℝ} (hz' : ∀ j < d, ∀ i < n, at2 (st t).vel j i = some (.fin (z j i))) {p : Nat → ℝ} (hp : ∀ i < n, ∃ a, (st t).acc[i]? = some ⟨a, [.fin (p i)]⟩) :
    leapEnergy m n z p d = kinetic d (x d) v n + 2 * binding d (u * u) x n := by
  have hS' : SimdPos simd := fun S h => (hS S h).pos
  have G := run_good hS' hs ho hz hr hQ hl hn hv hb h0 hstep
  obtain ⟨x', _, a1, a2, _⟩ := C78_newton hS hs ho hz hr hQ hl hn hv hb hn0 hX0 hV0 hm hP h0 hstep
  obtain ⟨tn, b1, b2, b3⟩ := a2 t ht
  have hI := reach_inv (G t ht).reach
  have hperm : (st t).t.perm.Perm (List.range n) := by rw [← tn]; exact hI.perm
  have hxx : ∀ j ≤ d, ∀ k < n, x' t j k = x j k := by
    intro j hj k hk
    have := b1 j hj k hk
    rw [hx j hj k hk, Option.some.injEq, Fl.fin.injEq] at this
    exact this.symm
  have hen : ∀ k < n, energy d (u * u) (x' t) n k = energy d (u * u) x n k := by
    intro k hk
    unfold energy
    congr 1
    refine Finset.sum_congr rfl (fun l hl => ?_)
    have hl' : l < n := by simpa using (Finset.mem_filter.1 hl).1
    rw [hxx d le_rfl k hk, hxx d le_rfl l hl', Finset.sum_congr rfl (fun j hj => by
      rw [hxx j (Finset.mem_range.1 hj).le l hl', hxx j (Finset.mem_range.1 hj).le k hk])]
  have hpk : ∀ i < n, ∀ k, (st t).t.perm[i]? = some k → p i = energy d (u * u) x n k := by
    intro i hi k hk
    obtain ⟨k', c1, c2, c3, _⟩ := b3 i hi
    rw [hk, Option.some.injEq] at c2
    subst c2
    obtain ⟨a, ha⟩ := hp i hi
    rw [ha, Option.some.injEq] at c3
    have := congrArg Res.pot c3
    unfold mkRes at this
    simp only at this
    split at this
    · simp at this
    · simp only [List.cons.injEq, Fl.fin.injEq, and_true] at this
      rw [this, hen k c1]
  have e3 : ∀ (n : Nat) (g : Nat → ℝ), ((List.range n).map g).sum = ∑ i ∈ Finset.range n, g i := by
    intro n g
    rw [← List.sum_toFinset _ List.nodup_range, List.toFinset_range]
  unfold leapEnergy kinetic
  rw [e3, Finset.sum_add_distrib, sum_perm hperm (fun k => energy d (u * u) x n k) hpk, energy_total]
  congr 1
  refine sum_perm hperm (fun k => x d k / 2 * ∑ j ∈ Finset.range d, v j k ^ 2) (fun i hi k hk => ?_)
  have hkn : k < n := by simpa using hperm.mem_iff.1 (List.mem_of_getElem? hk)
  have hq : ∑ j ∈ Finset.range d, z j i * z j i = ∑ j ∈ Finset.range d, v j k ^ 2 := by
    refine Finset.sum_congr rfl (fun j hj => ?_)
    have := hvx i hi k hk j (Finset.mem_range.1 hj)
    rw [hz' j (Finset.mem_range.1 hj) i hi, Option.some.injEq, Fl.fin.injEq] at this
    rw [this, ← pow_two]
  rw [← hxx d le_rfl k hkn, b2 k hkn, hmm k hkn, e3, hq]
  ring

/-- C78: what the program prints as total energy is not the total energy of the particles, for two or more particles of positive mass. -/
theorem C78_energy_fails (h2 : 2 ≤ n) {m : ℝ} (hm0 : 0 < m) (hmm : ∀ k < n, X0 d k = m) {t : Nat} (ht : t ≤ N) {x : Nat → Nat → ℝ}
    (hx : ∀ j ≤ d, ∀ k < n, ordered (st t).t j k = some (.fin (x j k))) {v : Nat → Nat → ℝ}
    (hvx : ∀ i < n, ∀ k, (st t).t.perm[i]? = some k → ∀ j < d, at2 (st t).vel j i = some (.fin (v j k)))
    {z : Nat → Nat → ℝ} (hz' : ∀ j < d, ∀ i < n, at2 (st t).vel j i = some (.fin (z j i)))
    {p : Nat → ℝ} (hp : ∀ i < n, ∃ a, (st t).acc[i]? = some ⟨a, [.fin (p i)]⟩) : leapEnergy m n z p d < kinetic d (x d) v n + binding d (u * u) x n := by
  rw [C78_energy_partial hS hs ho hz hr hQ hl hn hv hb hn0 hX0 hV0 hm hP h0 hstep hmm ht hx hvx hz' hp]
  have hxd : ∀ k < n, x d k = m := by
    obtain ⟨x', v, a1, a2, _⟩ := C78_newton hS hs ho hz hr hQ hl hn hv hb hn0 hX0 hV0 hm hP h0 hstep
    obtain ⟨tn, b1, b2, b3⟩ := a2 t ht
    intro k hk
    have := b1 d le_rfl k hk
    rw [hx d le_rfl k hk, b2 k hk, hmm k hk, Option.some.injEq, Fl.fin.injEq] at this
    exact this
  have pos : ∀ i < n, ∀ l < n, 0 < x d i * x d l / √(∑ j ∈ Finset.range d, (x j l - x j i) ^ 2 + u * u) := by
    intro i hi l hl
    rw [hxd i hi, hxd l hl]
    exact div_pos (mul_pos hm0 hm0) (Real.sqrt_pos.2 (soft_pos hP.soft x i l))
  have : 0 < ∑ i ∈ Finset.range n, ∑ l ∈ Finset.range i, x d i * x d l / √(∑ j ∈ Finset.range d, (x j l - x j i) ^ 2 + u * u) := by
    refine Finset.sum_pos' (fun i hi => Finset.sum_nonneg (fun l hl => ?_)) ⟨1, Finset.mem_range.2 (by omega), ?_⟩
    · rw [Finset.mem_range] at hi hl
      exact (pos i hi l (by omega)).le
    · rw [Finset.sum_range_one]
      exact pos 1 (by omega) 0 (by omega)
  unfold binding
  linarith

/-- C78, in real numbers and for a small opening angle: the integration can be reversed. A second run that starts from the positions and masses of the first run at its
end, in any order of the tree, with opposite velocities, comes back to the initial positions, with the opposite of the initial velocities. -/
theorem C78_reversible {inp2 : Input (rakauEnv realA simd mac w d)} (hl2 : inp2.parts.length = d + 1) (hn2 : (inp2.parts.headD []).length = n) {vel2 : List (List (Fl ℝ))}
    (hv2 : IsVel d n vel2) {buf2 : List (Res ℝ)} (hb2 : buf2.length = n) {V1 : Nat → Nat → ℝ}
    (hV1 : ∀ i < n, ∀ k, (st N).t.perm[i]? = some k → ∀ j < d, at2 (st N).vel j i = some (.fin (V1 j k)))
    (hX2 : ∀ j ≤ d, ∀ k < n, at2 inp2.parts j k = ordered (st N).t j k) (hV2 : ∀ j < d, ∀ k < n, at2 vel2 j k = some (.fin (-V1 j k)))
    {st2 : Nat → Leap realA simd mac w d} (h02 : Leap.Start P none over inp2 vel2 buf2 (.ok (st2 0))) (hstep2 : ∀ t < N, (st2 t).Step P none over (.ok (st2 (t + 1)))) :
    (∀ j ≤ d, ∀ k < n, ordered (st2 N).t j k = some (.fin (X0 j k))) ∧
    ∀ i < n, ∀ k, (st2 N).t.perm[i]? = some k → ∀ j < d, at2 (st2 N).vel j i = some (.fin (-V0 j k)) := by
  have hS' : SimdPos simd := fun S h => (hS S h).pos
  have G := run_good hS' hs ho hz hr hQ hl hn hv hb h0 hstep
  obtain ⟨x, v, a1, a2, a3⟩ := C78_newton hS hs ho hz hr hQ hl hn hv hb hn0 hX0 hV0 hm hP h0 hstep
  obtain ⟨tn, b1, b2, b3⟩ := a2 N le_rfl
  have hVv : ∀ j < d, ∀ k < n, V1 j k = v N j k := by
    intro j hj k hk
    have hI := reach_inv (G N le_rfl).reach
    obtain ⟨i, i1, _, i3⟩ := (inv_both hI.perm hI.invLen hI.inv).1 k (by rw [tn]; exact hk)
    rw [tn] at i1
    obtain ⟨k', _, c2, _, c4⟩ := b3 i i1
    rw [i3, Option.some.injEq] at c2
    subst c2
    have := hV1 i i1 k i3 j hj
    rw [c4 j hj, Option.some.injEq, Fl.fin.injEq] at this
    exact this.symm
  obtain ⟨y, z, d1, d2, d3⟩ := C78_newton hS hs ho hz hr hQ hl2 hn2 hv2 hb2 hn0 (X0 := x N) (V0 := fun j k => -V1 j k)
    (fun j hj k hk => (hX2 j hj k hk).trans (b1 j hj k hk)) hV2 (fun k hk => by rw [b2 k hk]; exact hm k hk) hP h02 hstep2
  have congrA : ∀ (p q : Nat → Nat → ℝ), (∀ j ≤ d, ∀ k < n, p j k = q j k) → ∀ k < n, ∀ j < d, accel d (u * u) p n k j = accel d (u * u) q n k j := by
    intro p q hpq k hk j hj
    unfold accel
    refine Finset.sum_congr rfl (fun l hl => ?_)
    have hl' : l < n := by simpa using (Finset.mem_filter.1 hl).1
    rw [hpq d le_rfl l hl', hpq j hj.le l hl', hpq j hj.le k hk, Finset.sum_congr rfl (fun j hj => by
      rw [hpq j (Finset.mem_range.1 hj).le l hl', hpq j (Finset.mem_range.1 hj).le k hk])]
  have key : ∀ s ≤ N, (∀ j ≤ d, ∀ k < n, y s j k = x (N - s) j k) ∧ ∀ j < d, ∀ k < n, z s j k = -v (N - s) j k := by
    intro s
    induction s with
    | zero =>
      intro _
      exact ⟨fun j hj k hk => (d1 k hk).1 j hj, fun j hj k hk => by rw [(d1 k hk).2 j hj, hVv j hj k hk]; rfl⟩
    | succ s ih =>
      intro hsN
      obtain ⟨i1, i2⟩ := ih (by omega)
      obtain ⟨t, ht⟩ : ∃ t, N - s = t + 1 := ⟨N - s - 1, by omega⟩
      have ht' : N - (s + 1) = t := by omega
      rw [ht] at i1 i2
      rw [ht']
      have y1 : ∀ j ≤ d, ∀ k < n, y (s + 1) j k = x t j k := by
        intro j hj k hk
        rcases Nat.lt_or_eq_of_le hj with hj | rfl
        · rw [(d3 s (by omega) k hk j hj).1, i1 j hj.le k hk, i2 j hj k hk, congrA _ _ i1 k hk j hj, (a3 t (by omega) k hk j hj).1, (a3 t (by omega) k hk j hj).2]
          ring
        · rw [(d2 (s + 1) hsN).2.2.1 k hk, b2 k hk, (a2 t (by omega)).2.2.1 k hk]
      refine ⟨y1, fun j hj k hk => ?_⟩
      rw [(d3 s (by omega) k hk j hj).2, i2 j hj k hk, congrA _ _ i1 k hk j hj, congrA _ _ y1 k hk j hj, (a3 t (by omega) k hk j hj).2]
      ring
  obtain ⟨e1, e2⟩ := key N le_rfl
  rw [Nat.sub_self] at e1 e2
  obtain ⟨_, f1, _, f3⟩ := d2 N le_rfl
  refine ⟨fun j hj k hk => by rw [f1 j hj k hk, e1 j hj k hk, (a1 k hk).1 j hj], fun i hi k hk j hj => ?_⟩
  obtain ⟨k', c1, c2, _, c4⟩ := f3 i hi
  rw [hk, Option.some.injEq] at c2
  subst c2
  rw [c4 j hj, e2 j hj k c1, (a1 k c1).2 j hj]

omit hS hs ho hz hr hQ hl hn hv hb hn0 hX0 hV0 hm hP h0 hstep

/-- A tree with finite data gives accelerations, in any order. -/
theorem accPot_real_ok (hS : ∀ S, simd = some S → S.Ok) (hs : Supported w d) (ho : over.Small) (hz : n * cbits w d < 2 ^ 64) (hr : n + (⟨realA, simd, none⟩ : Hw ℝ).pad < 2 ^ 64)
    (hn0 : n ≠ 0) {s : TS (rakauEnv realA simd mac w d)} (hR : Reach _ s) (hn : s.n = n) {X : Nat → Nat → ℝ}
    (hX : ∀ j ≤ d, ∀ i < n, ordered s j i = some (.fin (X j i))) (hm : ∀ i < n, 0 ≤ X d i) {θ u h τ : ℝ} (hP : ExactLeap w d P θ u h τ) {order : List Nat} {out : List (Res ℝ)}
    (hord : order.Perm (List.range s.crit.length)) (hout : out.length = n) :
    ∃ out', s.accPot none over P.Q false P.theta (.fin 1) P.eps P.split order out = .ok out' ∧ out'.length = n := by
  obtain ⟨out', o1, _⟩ := accPot_newton hS hs hR (by rw [hn]; exact hz) ho (by rw [hn]; exact hr) (by rw [hn]; exact hn0) (by rw [hn]; exact hX) (by rw [hn]; exact hm)
    hP.pos hP.small hP.soft P.Q hP.split hord (hout.trans hn.symm)
  rw [← hP.theta, ← hP.eps] at o1
  obtain ⟨mv, eps2, hp, hsp, hpad⟩ := accPot_ok o1
  obtain ⟨val, _, hall⟩ := C27_outputs (fun S h => (hS S h).pos) hs hR (by rw [hn]; exact hz) ho (by rw [hn]; exact hr) P.Q hp hsp hpad
  obtain ⟨out2, p1, p2, _⟩ := hall false order out hord (hout.trans hn.symm)
  exact ⟨out2, p1, p2.trans hn⟩

/-- A step cannot fail if the new positions are not all at the origin. -/
theorem Leap.Good.progress (hS : ∀ S, simd = some S → S.Ok) (hH : HaddNonfin simd) (hs : Supported w d) (ho : over.Small) (hz : n * cbits w d < 2 ^ 64)
    (hr : n + (⟨realA, simd, none⟩ : Hw ℝ).pad < 2 ^ 64) (hQ : P.Q ≠ .pot) (hn0 : n ≠ 0) {θ u h τ : ℝ} (hP : ExactLeap w d P θ u h τ) {σ : Leap realA simd mac w d}
    (g : σ.Good P none over n) (hded : σ.t.deduced = true) {m : Nat → ℝ} {a v x : Nat → Nat → ℝ} (hm : ∀ i < n, unordered σ.t d i = some (.fin (m i)) ∧ 0 ≤ m i)
    (ha : ∀ j < d, ∀ i < n, Rakau.accAt σ.acc j i = some (.fin (a j i))) (hv : ∀ j < d, ∀ i < n, at2 σ.vel j i = some (.fin (v j i)))
    (hx : ∀ j < d, ∀ i < n, unordered σ.t j i = some (.fin (x j i))) (hne : ∃ j < d, ∃ i < n, x j i + τ * (v j i + h * a j i) ≠ 0)
    {r : Except Err (Leap realA simd mac w d)} (hstep : σ.Step P none over r) : ∃ σ', r = .ok σ' ∧ σ'.t.deduced = true := by
  have hS' : SimdPos simd := fun S h => (hS S h).pos
  have hn := g.size
  have hI := reach_inv g.reach
  have hnub := (g.step hS' hs ho hz hr hQ hstep).1
  cases hstep with
  | kick h => exact absurd rfl hnub
  | args kv ord h1 h2 h3 => exact absurd rfl hnub
  | run kv ord ms o order h1 h2 h3 h4 h5 =>
    obtain ⟨kt, kg⟩ := table_spec h1
    rw [hn] at kt kg h2
    obtain ⟨m1, m2⟩ := driftArgs_spec h3
    have mb : ∀ m ∈ ms, m.1 < d ∧ m.2.1 < n := by
      intro m hm
      have : (m.1, m.2.1) ∈ ord := by rw [← m1]; exact List.mem_map.2 ⟨m, hm, rfl⟩
      exact mem_allElems.1 (h2.mem_iff.1 this)
    have hparts : Tbl (d + 1) n σ.t.parts := ⟨hI.arr, fun v hv => by rw [← hn]; exact hI.len v hv⟩
    obtain ⟨b, b1, b2, b3⟩ := drift_run P.drift ms σ.t.parts (by rw [m1]; exact h2.nodup_iff.2 (nodup_allElems _ _)) (by
      intro m hm
      obtain ⟨q1, q2⟩ := mb m hm
      exact hparts.get (by omega) q2)
    have hrun : (driftProg P.drift ms).run (σ.t.tr false) σ.t.parts = .ok b := b1
    have hsh := lengths_of_shape (run_shape _ _ hrun)
    have hbl : b.length = d + 1 := hsh.1.trans hI.arr
    have hbn : ∀ v ∈ b, v.length = n := hsh.2 _ hparts.2
    have bm : ∀ i < n, at2 b d i = some (.fin (m i)) := by
      intro i hi
      rw [b3 d i]
      · exact (hm i hi).1
      · intro hmem
        rw [m1] at hmem
        have := (mem_allElems.1 (h2.mem_iff.1 hmem)).1
        simp at this
    have bx : ∀ j < d, ∀ i < n, at2 b j i = some (.fin (x j i + τ * (v j i + h * a j i))) := by
      intro j hj i hi
      have : (j, i) ∈ ms.map (fun m => (m.1, m.2.1)) := by
        rw [m1]; exact h2.mem_iff.2 (mem_allElems.2 ⟨hj, hi⟩)
      obtain ⟨q, hq, e⟩ := List.mem_map.1 this
      simp only [Prod.mk.injEq] at e
      obtain ⟨rfl, rfl⟩ := e
      rw [b2 q hq]
      have e1 := m2 q hq
      rw [kg _ hj _ hi, ha _ hj _ hi, hv _ hj _ hi] at e1
      simp only [bind, Option.bind, Option.some.injEq] at e1
      have e2 : at2 σ.t.parts q.1 q.2.1 = some (.fin (x q.1 q.2.1)) := hx _ hj _ hi
      rw [← e1, hP.kick, e2]
      simp only [Option.map_some]
      rw [hP.drift]
    have bat : ∀ (j : Nat) (hj : j < b.length) (i : Nat) (hi : i < b[j].length), at2 b j i = some b[j][i] := by
      intro j hj i hi
      unfold at2
      rw [List.getElem?_eq_getElem hj]
      exact List.getElem?_eq_getElem hi
    have bfin : ∀ j ≤ d, ∀ i < n, ∃ q, at2 b j i = some (.fin q) ∧ (j = d → 0 ≤ q) := by
      intro j hj i hi
      rcases Nat.lt_or_eq_of_le hj with hj | rfl
      · exact ⟨_, bx j hj i hi, fun h => by omega⟩
      · exact ⟨_, bm i hi, fun _ => (hm i hi).2⟩
    have hvalid : ValidInput d (if σ.t.deduced then none else some σ.t.box) σ.t.maxLeaf σ.t.ncrit b := by
      obtain ⟨p1, p2, _⟩ := reach_params zero_ok g.reach
      refine ⟨p1, p2, fun v hv u hu => (hbn v hv).trans (hbn u hu).symm, ?_, ?_⟩
      · intro v hv y hy
        obtain ⟨j, hj, rfl⟩ := List.getElem_of_mem hv
        obtain ⟨i, hi, rfl⟩ := List.getElem_of_mem hy
        obtain ⟨q, q1, _⟩ := bfin j (by omega) i (by rw [← hbn _ hv]; exact hi)
        rw [bat j hj i hi, Option.some.injEq] at q1
        rw [q1]; rfl
      · rw [if_pos hded]
        obtain ⟨j, hj, i, hi, hne⟩ := hne
        have hj' : j < b.length := by omega
        have hi' : i < b[j].length := by rw [hbn _ (List.getElem_mem hj')]; exact hi
        refine .inr ⟨b[j], ?_, b[j][i], List.getElem_mem hi', ?_⟩
        · rw [List.mem_take_iff_getElem]
          exact ⟨j, by omega, rfl⟩
        · have := bx j hj i hi
          rw [bat j hj' i hi', Option.some.injEq] at this
          rw [this, Ne, Fl.fin.injEq]
          exact hne
    obtain ⟨t, rfl⟩ := (C77_exact realA_exact (fun q _ => rfl) hS hH hs g.reach (by rw [hn]; exact hz) hrun h4).1 hvalid
    obtain ⟨c1, c2, ⟨parts, c3, c4⟩, c5⟩ := C04_update g.reach h4
    have c1' : t.n = n := c1.trans hn
    have hR : Reach _ t := .particles _ _ _ _ g.reach h4
    have hIt := reach_inv hR
    obtain rfl : b = parts := by rw [hrun] at c3; exact Except.ok.inj c3
    have hdt : t.deduced = true := by
      obtain ⟨parts, h1, h2⟩ := update_ok h4
      obtain ⟨raw, ord, split, _, _, _, _, _, _, _, _, _, _, e1, _⟩ := sync_ok h2
      rw [e1]; exact hded
    have hlp : t.lastPerm.length = n := by rw [c2.length_eq]; simpa using hn
    have tdata : ∀ j ≤ d, ∀ k < n, ∃ q, ordered t j k = some (.fin q) ∧ (j = d → 0 ≤ q) := by
      intro j hj k hk
      obtain ⟨i, i1, i2, i3⟩ := (inv_both hIt.perm hIt.invLen hIt.inv).1 k (by rw [c1']; exact hk)
      have hi' : i < t.lastPerm.length := by rw [hlp, ← c1']; exact i1
      have hl : t.lastPerm[i] < n := by
        have := c2.mem_iff.1 (List.getElem_mem hi')
        rw [List.mem_range, hn] at this
        exact this
      obtain ⟨q, q1, q2⟩ := bfin j hj _ hl
      refine ⟨q, ?_, q2⟩
      have e : unordered t j i = some (.fin q) := by
        rw [c4, List.getElem?_eq_getElem hi', ← q1]; rfl
      rw [← e]
      show (do let v ← t.parts[j]?; let i ← t.invPerm[k]?; v[i]?) = (do (← t.parts[j]?)[i]?)
      rw [i2]; rfl
    have hacl := (g.vals hS' hs ho hz hr hQ).choose_spec.1
    obtain ⟨acc, ac1, _⟩ := accPot_real_ok (P := P) (out := σ.acc) hS hs ho hz hr hn0 hR c1' (X := fun j k => ((ordered t j k).getD (.fin 0)).val) (by
        intro j hj k hk
        obtain ⟨q, q1, _⟩ := tdata j hj k hk
        rw [q1]; rfl) (by
        intro k hk
        obtain ⟨q, q1, q2⟩ := tdata d le_rfl k hk
        rw [q1]; exact q2 rfl) hP (h5 t rfl) hacl
    unfold Leap.after at hnub ⊢
    simp only [ac1, bind, Except.bind] at hnub ⊢
    cases hnv : newVel P d t.n t.lastPerm kv acc with
    | none => rw [hnv] at hnub; exact absurd rfl hnub
    | some vel => exact ⟨_, rfl, hdt⟩

theorem start_deduced {A : Arith ℝ} {rsqrt : Option (Fl ℝ → Fl ℝ)} {inp : Input (rakauEnv A simd mac w d)} {vel : List (List (Fl ℝ))} {buf : List (Res ℝ)}
    {σ : Leap A simd mac w d} (h : Leap.Start P rsqrt over inp vel buf (.ok σ)) : σ.t.deduced = inp.box.isNone := by
  generalize hr : (Except.ok σ : Except Err (Leap A simd mac w d)) = r at h
  cases h with
  | ctor e h => cases hr
  | run t order h1 h2 =>
    obtain ⟨_, _, _, _, _, _, _, _, _, _, _, _, _, _, e, _⟩ := construct_ok h1
    unfold Leap.init at hr
    cases hv : vel.mapM (fun v => applyIsort v t.lastPerm) with
    | none => rw [hv] at hr; cases hr
    | some v =>
      simp only [hv, ofUB, bind, Except.bind] at hr
      split at hr
      · cases hr
      · cases hr; exact e

theorem step_deduced {A : Arith ℝ} {rsqrt : Option (Fl ℝ → Fl ℝ)} {σ σ' : Leap A simd mac w d} (h : σ.Step P rsqrt over (.ok σ')) : σ'.t.deduced = σ.t.deduced := by
  generalize hr : (Except.ok σ' : Except Err (Leap A simd mac w d)) = r at h
  cases h with
  | kick h => cases hr
  | args kv ord h1 h2 h3 => cases hr
  | run kv ord ms o order h1 h2 h3 h4 h5 =>
    cases o with
    | ub => cases hr
    | threw e s => cases hr
    | ok t =>
      have hdt : t.deduced = σ.t.deduced := by
        obtain ⟨parts, h1, h2⟩ := update_ok h4
        obtain ⟨raw, ord, split, _, _, _, _, _, _, _, _, _, _, e1, _⟩ := sync_ok h2
        exact e1
      unfold Leap.after at hr
      simp only [bind, Except.bind] at hr
      split at hr
      · cases hr
      · cases hv : newVel P d t.n t.lastPerm kv (by assumption) with
        | none => rw [hv] at hr; cases hr
        | some vel => rw [hv] at hr; cases hr; exact hdt

include hS hs ho hz hr hQ hl hn hv hb hn0 hX0 hV0 hm hP

/-- C78, in real numbers, for a small opening angle and with the box deduced from the particles, as in the program: as long as the centre of mass does not come to the
origin in one of its components, the program starts, and no step ever fails. -/
theorem C78_forever (hH : HaddNonfin simd) (hbox : inp.box = none) (hvi : ValidInput d inp.box inp.maxLeaf inp.ncrit inp.parts) {j : Nat} (hj : j < d)
    (hcom : ∀ t : Nat, ∑ k ∈ Finset.range n, X0 d k * X0 j k + t * τ * ∑ k ∈ Finset.range n, X0 d k * V0 j k ≠ 0) :
    ((∃ r, Leap.Start P none over inp vel buf r) ∧ ∀ r, Leap.Start P none over inp vel buf r → ∃ σ, r = .ok σ) ∧
    ∀ (st : Nat → Leap realA simd mac w d) (N : Nat), Leap.Start P none over inp vel buf (.ok (st 0)) → (∀ t < N, (st t).Step P none over (.ok (st (t + 1)))) →
      (∃ r, (st N).Step P none over r) ∧ ∀ r, (st N).Step P none over r → ∃ σ, r = .ok σ := by
  have hS' : SimdPos simd := fun S h => (hS S h).pos
  have hzn : (inp.parts.headD []).length * cbits w d < 2 ^ 64 := by rw [hn]; exact hz
  refine ⟨⟨?_, ?_⟩, ?_⟩
  · obtain ⟨r, h⟩ := (C41_outcome realA simd mac hs hl hzn).1
    cases r with
    | error e => exact ⟨_, .ctor e h⟩
    | ok t => exact ⟨_, .run t _ h (List.Perm.refl _)⟩
  · intro r h
    have hnub := (start_good hS' hs ho hz hr hQ hl hn hv hb h).1
    cases h with
    | ctor e h =>
      obtain ⟨s, hs⟩ := (C41_exact realA_exact (fun q _ => rfl) hS hH mac hs hl hzn h).1 hvi
      cases hs
    | run t order h1 h2 =>
      obtain ⟨v1, _, v3, _⟩ := C02_views (env := rakauEnv realA simd mac w d) hl h1
      have hR : Reach _ t := .construct inp t hl h1
      obtain ⟨acc, ac1, _⟩ := accPot_real_ok (P := P) (out := buf) hS hs ho hz hr hn0 hR (v1.trans hn) (X := X0) (fun j hj k hk => (v3 j k).trans (hX0 j hj k hk)) hm hP h2 hb
      unfold Leap.init at hnub ⊢
      cases hvel : vel.mapM (fun v => applyIsort v t.lastPerm) with
      | none => rw [hvel] at hnub; exact absurd rfl hnub
      | some v => simp only [ofUB, bind, Except.bind, ac1]; exact ⟨_, rfl⟩
  · intro st N h0 hstep
    refine ⟨((C78_defined hS' hs ho hz hr hQ hl hn hv hb).2 st N h0 hstep).1, fun r hstep' => ?_⟩
    have g := run_good hS' hs ho hz hr hQ hl hn hv hb h0 hstep N le_rfl
    have hI := reach_inv g.reach
    obtain ⟨x, v, a1, a2, a3⟩ := C78_newton hS hs ho hz hr hQ hl hn hv hb hn0 hX0 hV0 hm hP h0 hstep
    obtain ⟨hP1, hP2⟩ := leap_momentum (M := X0 d) (fun t ht k hk => (a2 t ht).2.2.1 k hk) (fun t ht k hk => a3 t ht k hk j hj) N le_rfl
    have f1 : ∑ k ∈ Finset.range n, X0 d k * v 0 j k = ∑ k ∈ Finset.range n, X0 d k * V0 j k :=
      Finset.sum_congr rfl (fun k hk => by rw [(a1 k (Finset.mem_range.1 hk)).2 j hj])
    have f2 : ∑ k ∈ Finset.range n, X0 d k * x 0 j k = ∑ k ∈ Finset.range n, X0 d k * X0 j k :=
      Finset.sum_congr rfl (fun k hk => by rw [(a1 k (Finset.mem_range.1 hk)).1 j hj.le])
    obtain ⟨tn, b1, b2, b3⟩ := a2 N le_rfl
    have hded : ∀ t ≤ N, (st t).t.deduced = true := by
      intro t
      induction t with
      | zero => intro _; rw [start_deduced h0, hbox]; rfl
      | succ t ih => intro ht; rw [step_deduced (hstep t (by omega))]; exact ih (by omega)
    have hun : ∀ j i k, (st N).t.perm[i]? = some k → unordered (st N).t j i = ordered (st N).t j k := by
      intro j i k h
      have := hI.inv i k h
      show (do (← (st N).t.parts[j]?)[i]?) = (do let v ← (st N).t.parts[j]?; let i ← (st N).t.invPerm[k]?; v[i]?)
      rw [this]; rfl
    have at_ : ∀ i < n, ∃ k < n, (st N).t.perm[i]? = some k ∧ (st N).t.perm.getD i 0 = k ∧ unordered (st N).t d i = some (.fin (X0 d k)) ∧ ∀ j < d,
        Rakau.accAt (st N).acc j i = some (.fin (accel d (u * u) (x N) n k j)) ∧ at2 (st N).vel j i = some (.fin (v N j k)) ∧
        unordered (st N).t j i = some (.fin (x N j k)) := by
      intro i hi
      obtain ⟨k, c1, c2, c3, c4⟩ := b3 i hi
      refine ⟨k, c1, c2, by simp [List.getD, c2], by rw [hun d i k c2, b1 d le_rfl k c1, b2 k c1], fun j hj => ⟨?_, c4 j hj, by rw [hun j i k c2, b1 j hj.le k c1]⟩⟩
      unfold Rakau.accAt
      rw [c3]
      unfold mkRes
      rw [if_neg hQ]
      simp [Arr, hj]
    obtain ⟨σ', h1, _⟩ := g.progress hS hH hs ho hz hr hQ hn0 hP (hded N le_rfl) (m := fun i => X0 d ((st N).t.perm.getD i 0))
      (a := fun j i => accel d (u * u) (x N) n ((st N).t.perm.getD i 0) j) (v := fun j i => v N j ((st N).t.perm.getD i 0)) (x := fun j i => x N j ((st N).t.perm.getD i 0))
      (fun i hi => by obtain ⟨k, c1, _, c3, c4, _⟩ := at_ i hi; rw [c3]; exact ⟨c4, hm k c1⟩)
      (fun j hj i hi => by obtain ⟨k, c1, _, c3, _, c5⟩ := at_ i hi; rw [c3]; exact (c5 j hj).1)
      (fun j hj i hi => by obtain ⟨k, c1, _, c3, _, c5⟩ := at_ i hi; rw [c3]; exact (c5 j hj).2.1)
      (fun j hj i hi => by obtain ⟨k, c1, _, c3, _, c5⟩ := at_ i hi; rw [c3]; exact (c5 j hj).2.2)
      (by
        by_contra hall
        push Not at hall
        apply hcom (N + 1)
        have hz0 : ∀ k < n, x N j k + τ * (v N j k + h * accel d (u * u) (x N) n k j) = 0 := by
          intro k hk
          obtain ⟨i, i1, _, i3⟩ := (inv_both hI.perm hI.invLen hI.inv).1 k (by rw [tn]; exact hk)
          rw [tn] at i1
          have := hall j hj i i1
          rw [show (st N).t.perm.getD i 0 = k by simp [List.getD, i3]] at this
          exact this
        have tot : ∑ k ∈ Finset.range n, X0 d k * accel d (u * u) (x N) n k j = 0 := by
          rw [← accel_total d (u * u) (x N) n j]
          exact Finset.sum_congr rfl (fun k hk => by rw [b2 k (Finset.mem_range.1 hk)])
        have e : ∑ k ∈ Finset.range n, (X0 d k * x N j k + τ * (X0 d k * v N j k) + τ * h * (X0 d k * accel d (u * u) (x N) n k j)) = 0 := by
          refine Finset.sum_eq_zero (fun k hk => ?_)
          rw [show X0 d k * x N j k + τ * (X0 d k * v N j k) + τ * h * (X0 d k * accel d (u * u) (x N) n k j) =
            X0 d k * (x N j k + τ * (v N j k + h * accel d (u * u) (x N) n k j)) by ring, hz0 k (Finset.mem_range.1 hk), mul_zero]
        simp only [Finset.sum_add_distrib, ← Finset.mul_sum, tot, hP1, hP2] at e
        rw [f1, f2] at e
        push_cast
        linarith) hstep'
    exact ⟨σ', h1⟩

/-- C78: under the same conditions the program has a run without end. -/
theorem C78_run (hH : HaddNonfin simd) (hbox : inp.box = none) (hvi : ValidInput d inp.box inp.maxLeaf inp.ncrit inp.parts) {j : Nat} (hj : j < d)
    (hcom : ∀ t : Nat, ∑ k ∈ Finset.range n, X0 d k * X0 j k + t * τ * ∑ k ∈ Finset.range n, X0 d k * V0 j k ≠ 0) :
    ∃ st : Nat → Leap realA simd mac w d, Leap.Start P none over inp vel buf (.ok (st 0)) ∧ ∀ t, (st t).Step P none over (.ok (st (t + 1))) := by
  obtain ⟨⟨⟨r, h1⟩, h2⟩, h3⟩ := C78_forever hS hs ho hz hr hQ hl hn hv hb hn0 hX0 hV0 hm hP hH hbox hvi hj hcom
  obtain ⟨σ0, rfl⟩ := h2 r h1
  let R : Leap realA simd mac w d → Prop := fun σ => ∃ (st : Nat → Leap realA simd mac w d) (N : Nat), Leap.Start P none over inp vel buf (.ok (st 0)) ∧
    (∀ t < N, (st t).Step P none over (.ok (st (t + 1)))) ∧ st N = σ
  have next : ∀ σ : {σ // R σ}, ∃ σ' : {σ // R σ}, σ.1.Step P none over (.ok σ'.1) := by
    rintro ⟨σ, st, N, s1, s2, rfl⟩
    obtain ⟨⟨r, r1⟩, r2⟩ := h3 st N s1 s2
    obtain ⟨σ', rfl⟩ := r2 r r1
    refine ⟨⟨σ', fun t => if t ≤ N then st t else σ', N + 1, by simpa using s1, fun t ht => ?_, by simp⟩, r1⟩
    rcases Nat.lt_or_eq_of_le (Nat.le_of_lt_succ ht) with h | rfl
    · beta_reduce; rw [if_pos h.le, if_pos (by omega)]; exact s2 t h
    · beta_reduce; rw [if_pos le_rfl, if_neg (by omega)]; exact r1
  choose f hf using next
  let q : Nat → {σ // R σ} := fun t => f^[t] ⟨σ0, fun _ => σ0, 0, h1, fun t ht => by omega, rfl⟩
  refine ⟨fun t => (q t).1, h1, fun t => ?_⟩
  show (q t).1.Step P none over (.ok (q (t + 1)).1)
  rw [show q (t + 1) = f (q t) from Function.iterate_succ_apply' f t _]
  exact hf (q t)

end

/-! ### A sample: three particles of mass 2 on the diagonal of the plane -/

/-- Positions and masses. -/
noncomputable def leapX (j k : Nat) : ℝ := if j = 2 then 2 else k

/-- Velocities; the total momentum is zero in the first component and not in the second. -/
noncomputable def leapV (j k : Nat) : ℝ := k - 1 + j

/-- The data given to the constructor, without the size of the box. -/
noncomputable def leapInp (mac : Mac) (X : Nat → Nat → ℝ) : Input (rakauEnv realA none mac 64 2) where
  box := none
  maxLeaf := 1
  ncrit := 1
  parts := (List.range 3).map (fun j => (List.range 3).map (fun k => Fl.fin (X j k)))

noncomputable def leapVel (V : Nat → Nat → ℝ) : List (List (Fl ℝ)) := (List.range 2).map (fun j => (List.range 3).map (fun k => Fl.fin (V j k)))

/-- Softening length 1, time step 1/10. -/
noncomputable def leapPar : LeapPar ℝ where
  kick a v := match a, v with
    | .fin a, .fin v => .fin (v + 1 / 20 * a)
    | _, _ => .nan
  drift v x := match v, x with
    | .fin v, .fin x => .fin (x + 1 / 10 * v)
    | _, _ => .nan
  Q := .both
  theta := .fin (1 / (4 * 2 ^ cbits 64 2))
  eps := .fin 1
  split := []

theorem leap_exact : ExactLeap 64 2 leapPar (1 / (4 * 2 ^ cbits 64 2)) 1 (1 / 20) (1 / 10) where
  kick _ _ := rfl
  drift _ _ := rfl
  theta := rfl
  pos := by positivity
  small := by
    have : (1 : ℝ) / (4 * 2 ^ cbits 64 2) * 2 ^ cbits 64 2 = 1 / 4 := by field_simp
    rw [this]; norm_num
  eps := rfl
  soft := one_pos
  split := by decide

theorem leap_len (mac : Mac) (X : Nat → Nat → ℝ) : ((leapInp mac X).parts.headD []).length = 3 := by simp [leapInp, List.range_succ_eq_map]

theorem leap_data (mac : Mac) (X : Nat → Nat → ℝ) : ∀ j ≤ 2, ∀ k < 3, at2 (leapInp mac X).parts j k = some (.fin (X j k)) := by
  intro j hj k hk
  show ((List.range 3).map (fun j => (List.range 3).map (fun k => Fl.fin (X j k))))[j]?.bind (fun v => v[k]?) = _
  simp [show j < 3 by omega, hk]

theorem leap_velData (V : Nat → Nat → ℝ) : ∀ j < 2, ∀ k < 3, at2 (leapVel V) j k = some (.fin (V j k)) := by
  intro j hj k hk
  show ((List.range 2).map (fun j => (List.range 3).map (fun k => Fl.fin (V j k))))[j]?.bind (fun v => v[k]?) = _
  simp [hj, hk]

theorem leap_isVel (V : Nat → Nat → ℝ) : IsVel 2 3 (leapVel V) := by
  refine ⟨by simp [leapVel], fun v hv => ?_⟩
  obtain ⟨j, _, rfl⟩ := List.mem_map.1 hv
  simp

theorem leap_valid (mac : Mac) {X : Nat → Nat → ℝ} {k : Nat} (hk : k < 3) (hX : X 0 k ≠ 0) :
    ValidInput 2 (leapInp mac X).box (leapInp mac X).maxLeaf (leapInp mac X).ncrit (leapInp mac X).parts := by
  refine ⟨by show 1 ≠ 0; decide, by show 1 ≠ 0; decide, ?_, ?_, .inr ⟨(List.range 3).map (fun k => Fl.fin (X 0 k)), ?_, Fl.fin (X 0 k), ?_, ?_⟩⟩
  · intro v hv u hu
    obtain ⟨j, _, rfl⟩ := List.mem_map.1 hv
    obtain ⟨j', _, rfl⟩ := List.mem_map.1 hu
    simp
  · intro v hv x hx
    obtain ⟨j, _, rfl⟩ := List.mem_map.1 hv
    obtain ⟨i, _, rfl⟩ := List.mem_map.1 hx
    rfl
  · simp [leapInp, List.range_succ_eq_map]
  · exact List.mem_map.2 ⟨k, by simpa using hk, rfl⟩
  · simpa using hX

/-- The start with positions and masses `X` and velocities `V`. -/
abbrev leapStart (mac : Mac) (X V : Nat → Nat → ℝ) (r : Except Err (Leap realA none mac 64 2)) : Prop :=
  Leap.Start leapPar none (maskedShift 64) (leapInp mac X) (leapVel V) (List.replicate 3 ⟨[], []⟩) r

abbrev leapStep (mac : Mac) (σ : Leap realA none mac 64 2) (r : Except Err (Leap realA none mac 64 2)) : Prop := σ.Step leapPar none (maskedShift 64) r

/-- Runs without end, for positions with centre of mass away from the origin and no momentum in the first component. -/
theorem leap_run (mac : Mac) {X V : Nat → Nat → ℝ} (hm : ∀ k < 3, 0 ≤ X 2 k) (hX : ∑ k ∈ Finset.range 3, X 2 k * X 0 k ≠ 0) (hV : ∑ k ∈ Finset.range 3, X 2 k * V 0 k = 0) :
    ∃ st : Nat → Leap realA none mac 64 2, leapStart mac X V (.ok (st 0)) ∧ ∀ t, leapStep mac (st t) (.ok (st (t + 1))) := by
  obtain ⟨k, hk, hne⟩ := Finset.exists_ne_zero_of_sum_ne_zero hX
  exact C78_run (by simp) diag_supp (maskedShift_small 64) (by decide) (by decide) (by decide) (by simp [leapInp]) (leap_len mac X) (leap_isVel V) (by simp) (by decide)
    (leap_data mac X) (leap_velData V) hm leap_exact (by intro S h; cases h) rfl (leap_valid mac (Finset.mem_range.1 hk) (right_ne_zero_of_mul hne)) (j := 0) (by decide)
    (by intro t; rw [hV, mul_zero, add_zero]; exact hX)

theorem leap_mass : ∀ k < 3, 0 ≤ leapX 2 k := fun k _ => by simp [leapX]

theorem leap_com : ∑ k ∈ Finset.range 3, leapX 2 k * leapX 0 k = 6 ∧ ∑ k ∈ Finset.range 3, leapX 2 k * leapV 0 k = 0 := by
  simp only [Finset.sum_range_succ, Finset.sum_range_zero, leapX, leapV]
  norm_num

/-- The sample: the hypotheses of `C78_defined`, `C78_motion`, `C78_newton`, `C78_momentum` and `C78_energy_partial` hold for it, for any number of steps; here are
the data of every instant. -/
theorem leap_sample (mac : Mac) : ∃ (st : Nat → Leap realA none mac 64 2) (x v z : Nat → Nat → Nat → ℝ) (p : Nat → Nat → ℝ), leapStart mac leapX leapV (.ok (st 0)) ∧
    (∀ t, leapStep mac (st t) (.ok (st (t + 1)))) ∧ ∀ t, (∀ j ≤ 2, ∀ k < 3, ordered (st t).t j k = some (.fin (x t j k))) ∧ (∀ k < 3, x t 2 k = 2) ∧
      (∀ i < 3, ∀ k, (st t).t.perm[i]? = some k → ∀ j < 2, at2 (st t).vel j i = some (.fin (v t j k))) ∧
      (∀ j < 2, ∀ i < 3, at2 (st t).vel j i = some (.fin (z t j i))) ∧ (∀ i < 3, ∃ a, (st t).acc[i]? = some ⟨a, [.fin (p t i)]⟩) ∧
      ∑ k ∈ Finset.range 3, x t 2 k * x t 0 k = 6 ∧ ∑ k ∈ Finset.range 3, x t 2 k * v t 0 k = 0 := by
  obtain ⟨st, h0, hst⟩ := leap_run mac leap_mass (by rw [leap_com.1]; norm_num) leap_com.2
  have H : ∀ t : Nat, ∃ (x v z : Nat → Nat → ℝ) (p : Nat → ℝ), (∀ j ≤ 2, ∀ k < 3, ordered (st t).t j k = some (.fin (x j k))) ∧ (∀ k < 3, x 2 k = 2) ∧
      (∀ i < 3, ∀ k, (st t).t.perm[i]? = some k → ∀ j < 2, at2 (st t).vel j i = some (.fin (v j k))) ∧
      (∀ j < 2, ∀ i < 3, at2 (st t).vel j i = some (.fin (z j i))) ∧ (∀ i < 3, ∃ a, (st t).acc[i]? = some ⟨a, [.fin (p i)]⟩) ∧
      ∑ k ∈ Finset.range 3, x 2 k * x 0 k = 6 ∧ ∑ k ∈ Finset.range 3, x 2 k * v 0 k = 0 := by
    intro t
    obtain ⟨x, v, a1, a2, a3⟩ := C78_newton (N := t) (by simp) diag_supp (maskedShift_small 64) (by decide) (by decide) (by decide) (by simp [leapInp]) (leap_len mac leapX)
      (leap_isVel leapV) (by simp) (by decide) (leap_data mac leapX) (leap_velData leapV) leap_mass leap_exact h0 (fun t _ => hst t)
    obtain ⟨_, b1, b2, b3⟩ := a2 t le_rfl
    obtain ⟨m1, m2⟩ := leap_momentum (M := leapX 2) (fun t ht k hk => (a2 t ht).2.2.1 k hk) (fun t ht k hk => a3 t ht k hk 0 (by decide)) t le_rfl
    have f1 : ∑ k ∈ Finset.range 3, leapX 2 k * v 0 0 k = 0 := by
      rw [← leap_com.2]
      exact Finset.sum_congr rfl (fun k hk => by rw [(a1 k (Finset.mem_range.1 hk)).2 0 (by decide)])
    have f2 : ∑ k ∈ Finset.range 3, leapX 2 k * x 0 0 k = 6 := by
      rw [← leap_com.1]
      exact Finset.sum_congr rfl (fun k hk => by rw [(a1 k (Finset.mem_range.1 hk)).1 0 (by decide)])
    refine ⟨x t, v t, fun j i => v t j ((st t).t.perm.getD i 0), fun i => energy 2 (1 * 1) (x t) 3 ((st t).t.perm.getD i 0), b1, fun k hk => by rw [b2 k hk]; rfl, ?_, ?_, ?_, ?_, ?_⟩
    · intro i hi k hk j hj
      obtain ⟨k', _, c2, _, c4⟩ := b3 i hi
      rw [hk, Option.some.injEq] at c2
      subst c2
      exact c4 j hj
    · intro j hj i hi
      obtain ⟨k', _, c2, _, c4⟩ := b3 i hi
      beta_reduce
      rw [show (st t).t.perm.getD i 0 = k' by simp [List.getD, c2]]
      exact c4 j hj
    · intro i hi
      obtain ⟨k', _, c2, c3, _⟩ := b3 i hi
      beta_reduce
      rw [show (st t).t.perm.getD i 0 = k' by simp [List.getD, c2]]
      exact ⟨_, c3⟩
    · rw [Finset.sum_congr rfl (fun k hk => by rw [b2 k (Finset.mem_range.1 hk)]), m2, f1, f2, mul_zero, add_zero]
    · rw [Finset.sum_congr rfl (fun k hk => by rw [b2 k (Finset.mem_range.1 hk)]), m1, f1]
  choose x v z p hH using H
  exact ⟨st, x, v, z, p, h0, hst, hH⟩

/-- The sample: the momentum of the second component. -/
example (mac : Mac) (t : Nat) : ∃ (st : Nat → Leap realA none mac 64 2) (z : Nat → ℝ), leapStart mac leapX leapV (.ok (st 0)) ∧
    (∀ s < t, leapStep mac (st s) (.ok (st (s + 1)))) ∧ (∀ i < 3, at2 (st t).vel 1 i = some (.fin (z i))) ∧ ∑ i ∈ Finset.range 3, 2 * z i = 6 ∧
    ∃ y z : Nat → Nat → ℝ, (∀ j < 2, ∀ i < 3, unordered (st t).t j i = some (.fin (y j i)) ∧ at2 (st t).vel j i = some (.fin (z j i))) ∧
      ∑ i ∈ Finset.range 3, 2 * (y 0 i * z 1 i - y 1 i * z 0 i) = 6 := by
  obtain ⟨st, x, v, z, p, h0, hst, h⟩ := leap_sample mac
  obtain ⟨h1, h2, h3, h4, h5, _⟩ := h t
  have hR : ∀ j ≤ 2, ∀ i < 3, ∃ k < 3, unordered (st t).t j i = some (.fin (x t j k)) := by
    intro j hj i hi
    have g := run_good (N := t) (by intro S h; cases h) diag_supp (maskedShift_small 64) (by decide) (by decide) (by decide) (by simp [leapInp]) (leap_len mac leapX)
      (leap_isVel leapV) (by simp) h0 (fun t _ => hst t) t le_rfl
    obtain ⟨k, k1, k2, k3⟩ := perm_at g.reach (k := i) (by rw [g.size]; exact hi)
    rw [g.size] at k2
    refine ⟨k, k2, ?_⟩
    rw [← h1 j hj k k2]
    have := (reach_inv g.reach).inv i k k1
    show (do (← (st t).t.parts[j]?)[i]?) = (do let v ← (st t).t.parts[j]?; let i ← (st t).t.invPerm[k]?; v[i]?)
    rw [this]; rfl
  choose k hk1 hk2 using hR
  obtain ⟨Y, hY⟩ : ∃ Y : Nat → Nat → ℝ, ∀ j < 2, ∀ i < 3, unordered (st t).t j i = some (.fin (Y j i)) :=
    ⟨fun j i => if h : j ≤ 2 ∧ i < 3 then x t j (k j h.1 i h.2) else 0, fun j hj i hi => by
      beta_reduce
      rw [hk2 j hj.le i hi, dif_pos ⟨hj.le, hi⟩]⟩
  refine ⟨st, z t 1, h0, fun s _ => hst s, h4 1 (by decide), ?_, Y, z t, fun j hj i hi => ⟨hY j hj i hi, h4 j hj i hi⟩, ?_⟩
  swap
  · rw [C78_angular (N := t) (by simp) diag_supp (maskedShift_small 64) (by decide) (by decide) (by decide) (by simp [leapInp]) (leap_len mac leapX) (leap_isVel leapV) (by simp)
      (by decide) (leap_data mac leapX) (leap_velData leapV) leap_mass leap_exact h0 (fun t _ => hst t) le_rfl (a := 0) (b := 1) (by decide) (by decide) (m := fun _ => 2)
      (fun i hi => by rw [hk2 2 le_rfl i hi, h2 _ (hk1 2 le_rfl i hi)]) hY h4]
    simp only [Finset.sum_range_succ, Finset.sum_range_zero, leapX, leapV]
    norm_num
  have := (C78_momentum (N := t) (by simp) diag_supp (maskedShift_small 64) (by decide) (by decide) (by decide) (by simp [leapInp]) (leap_len mac leapX) (leap_isVel leapV) (by simp)
      (by decide) (leap_data mac leapX) (leap_velData leapV) leap_mass leap_exact h0 (fun t _ => hst t) le_rfl (j := 1) (by decide) (m := fun _ => 2)
      (y := fun i => if hi : i < 3 then x t 1 (k 1 (by decide) i hi) else 0)
      (fun i hi => by rw [hk2 2 le_rfl i hi, h2 _ (hk1 2 le_rfl i hi)]) (fun i hi => by rw [hk2 1 (by decide) i hi, dif_pos hi]) (h4 1 (by decide))).1
  rw [this]
  simp only [Finset.sum_range_succ, Finset.sum_range_zero, leapX, leapV]
  norm_num

/-- The sample: no undefined behaviour, and the motion (real arithmetic). -/
example (mac : Mac) := C78_defined (A := realA) (mac := mac) (rsqrt := none) (over := maskedShift 64) (P := leapPar) (buf := List.replicate 3 ⟨[], []⟩) (n := 3)
  (by intro S h; cases h) diag_supp (maskedShift_small 64) (by decide) (by decide) (by decide) (by simp [leapInp]) (leap_len mac leapX) (leap_isVel leapV) (by simp)

example (mac : Mac) (N : Nat) : ∃ st : Nat → Leap realA none mac 64 2, leapStart mac leapX leapV (.ok (st 0)) ∧ ∃ (X V : Nat → Nat → Nat → Fl ℝ) (a : Nat → Nat → Res ℝ),
    ∀ t < N, ∀ k < 3, ∀ j < 2, ∃ a0 a1, (a t k).acc[j]? = some a0 ∧ (a (t + 1) k).acc[j]? = some a1 ∧
        X (t + 1) j k = leapPar.drift (leapPar.kick a0 (V t j k)) (X t j k) ∧ V (t + 1) j k = leapPar.kick a1 (leapPar.kick a0 (V t j k)) := by
  obtain ⟨st, _, _, _, _, h0, hst, _⟩ := leap_sample mac
  obtain ⟨X, V, a, _, _, h⟩ := C78_motion (N := N) (by intro S h; cases h) diag_supp (maskedShift_small 64) (by decide) (by decide) (by decide) (by simp [leapInp])
    (leap_len mac leapX) (leap_isVel leapV) (by simp) h0 (fun t _ => hst t)
  exact ⟨st, h0, X, V, a, h⟩

/-- The sample at any time: the printed energy is too small. -/
example (mac : Mac) (t : Nat) : ∃ (σ : Leap realA none mac 64 2) (x v z : Nat → Nat → ℝ) (p : Nat → ℝ), (∀ j ≤ 2, ∀ k < 3, ordered σ.t j k = some (.fin (x j k))) ∧
    leapEnergy 2 3 z p 2 = kinetic 2 (x 2) v 3 + 2 * binding 2 (1 * 1) x 3 ∧ leapEnergy 2 3 z p 2 < kinetic 2 (x 2) v 3 + binding 2 (1 * 1) x 3 := by
  obtain ⟨st, x, v, z, p, h0, hst, h⟩ := leap_sample mac
  obtain ⟨h1, _, h3, h4, h5, _⟩ := h t
  exact ⟨st t, x t, v t, z t, p t, h1,
    C78_energy_partial (N := t) (by simp) diag_supp (maskedShift_small 64) (by decide) (by decide) (by decide) (by simp [leapInp]) (leap_len mac leapX) (leap_isVel leapV) (by simp)
      (by decide) (leap_data mac leapX) (leap_velData leapV) leap_mass leap_exact h0 (fun t _ => hst t) (m := 2) (fun _ _ => rfl) le_rfl h1 h3 h4 h5,
    C78_energy_fails (N := t) (by simp) diag_supp (maskedShift_small 64) (by decide) (by decide) (by decide) (by simp [leapInp]) (leap_len mac leapX) (leap_isVel leapV) (by simp)
      (by decide) (leap_data mac leapX) (leap_velData leapV) leap_mass leap_exact h0 (fun t _ => hst t) (by decide) (m := 2) (by norm_num) (fun _ _ => rfl) le_rfl h1 h3 h4 h5⟩

/-- The sample and back. -/
example (mac : Mac) (N : Nat) : ∃ st2 : Nat → Leap realA none mac 64 2, (∀ t < N, leapStep mac (st2 t) (.ok (st2 (t + 1)))) ∧
    ∀ j ≤ 2, ∀ k < 3, ordered (st2 N).t j k = some (.fin (leapX j k)) := by
  obtain ⟨st, x, v, z, p, h0, hst, h⟩ := leap_sample mac
  obtain ⟨h1, h2, h3, _, _, h6, h7⟩ := h N
  obtain ⟨st2, s0, s1⟩ := leap_run mac (X := x N) (V := fun j k => -v N j k) (fun k hk => by rw [h2 k hk]; norm_num) (by rw [h6]; norm_num) (by
    simp only [mul_neg, Finset.sum_neg_distrib, h7, neg_zero])
  exact ⟨st2, fun t _ => s1 t, (C78_reversible (N := N) (by simp) diag_supp (maskedShift_small 64) (by decide) (by decide) (by decide) (by simp [leapInp]) (leap_len mac leapX)
    (leap_isVel leapV) (by simp) (by decide) (leap_data mac leapX) (leap_velData leapV) leap_mass leap_exact h0 (fun t _ => hst t) (by simp [leapInp]) (leap_len mac (x N))
    (leap_isVel _) (by simp) h3 (fun j hj k hk => (leap_data mac (x N) j hj k hk).trans (h1 j hj k hk).symm) (leap_velData _) s0 (fun t _ => s1 t)).1⟩

end Rakau
