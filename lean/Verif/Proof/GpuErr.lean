import Verif.Proof.GpuVal
import Verif.Proof.GeomErr
import Verif.Props.Gpu

/-! Rounding errors of the accelerator kernels. -/
namespace Rakau
open Spec

/-- The square root of an IEEE format is not below 1 from 1 on. -/
theorem ieee_sqrt_ge {f : Format} (hf : f.Std) (fused : Bool) : SqrtGe (f.ieee fused) := by
  intro q hq
  have q0 : 0 < q := by linarith
  obtain ⟨m, e1, _, e2⟩ := sqrt_nearest f q0
  refine ⟨_, e1, ?_⟩
  have hi : 0 ≤ ilog q := by
    have := ilog_mono (a := 1) (b := q) (by norm_num) (by rw [abs_one, abs_of_pos q0]; exact hq)
    rwa [show (1 : ℚ) = 2 ^ (0 : ℤ) by norm_num, ilog_pow] at this
  have hlow := (ilog_spec q0.ne').1
  rw [abs_of_pos q0] at hlow
  have hemin := hf.emin2
  have hprec := hf.prec10
  generalize he : Max.max (ilog q / 2 - ((f.prec : ℤ) - 1)) f.emin = e at *
  have hp : (0 : ℚ) < 2 ^ e := by positivity
  have m0 : (0 : ℚ) ≤ m := Nat.cast_nonneg m
  by_cases h0 : e ≤ 0
  · -- 1 is on the grid
    obtain ⟨n, hn⟩ : ∃ n : ℕ, (n : ℚ) * 2 ^ e = 1 := by
      obtain ⟨k, hk⟩ := Int.eq_ofNat_of_zero_le (show 0 ≤ -e by omega)
      refine ⟨2 ^ k, ?_⟩
      push_cast
      rw [← zpow_natCast, show ((k : ℕ) : ℤ) = -e from hk.symm, ← zpow_add₀ (by norm_num)]
      simp
    have h1 : 1 ≤ (m + 1 / 2) * (2 : ℚ) ^ e := by
      by_contra hc
      have : ((m + 1 / 2) * (2 : ℚ) ^ e) ^ 2 < 1 := pow_lt_one₀ (by positivity) (not_le.1 hc) (by norm_num)
      linarith
    have h2 : (n : ℚ) ≤ m + 1 / 2 := le_of_mul_le_mul_right (hn.le.trans h1) hp
    have h3 : n ≤ m := by
      by_contra hc
      have : ((m + 1 : ℕ) : ℚ) ≤ n := by exact_mod_cast (by omega : m + 1 ≤ n)
      push_cast at this
      linarith
    rw [← hn]
    exact mul_le_mul_of_nonneg_right (by exact_mod_cast h3) hp.le
  · have h1 : 1 ≤ (2 : ℚ) ^ e := one_le_zpow₀ (by norm_num) (by omega)
    have hm : 1 ≤ m := by
      rcases Nat.eq_zero_or_pos m with rfl | h
      · exfalso
        have h2 : (2 : ℚ) ^ (e + e) ≤ 2 ^ ilog q := zpow_le_zpow_right₀ (by norm_num) (by omega)
        rw [zpow_add₀ (by norm_num)] at h2
        push_cast at e2
        nlinarith
      · exact h
    have : (1 : ℚ) ≤ m := by exact_mod_cast hm
    nlinarith

section
variable {A : Arith ℚ} {u η lo hi b : ℝ} {d κ k C : Nat} (F : FlModel A u η lo hi) (R : Span u η lo hi b d κ k C)
include F R

/-- A number is subtracted from a sum. -/
theorem Sm.sub {c : Nat} {S T x : ℝ} {a p : ℚ} (h : Sm u η (b ^ 4) k c S T a) (hc : c + 1 ≤ C) {l : Nat} (hl : l + 1 ≤ k) (hx : Near u l x (p : ℝ))
    (hb : |x| ≤ b ^ 4) : ∃ r : ℚ, A.sub (.fin a) (.fin p) = .fin r ∧ Sm u η (b ^ 4) k (c + 1) (S + -x) (T + |-x|) r := by
  have h0 := F.u0
  have h1 := F.lt1
  have hx := hx.mono h0 h1 (show l ≤ k - 1 by omega)
  have hk : 2 * (((k - 1 : ℕ) : ℝ) * u) ≤ 1 := by
    have := R.errs
    have h1 : ((k - 1 : ℕ) : ℝ) ≤ ((C + k : ℕ) : ℝ) := by exact_mod_cast (by omega : k - 1 ≤ C + k)
    have := mul_le_mul_of_nonneg_right h1 h0
    linarith
  obtain ⟨_, _, w3⟩ := hx.within h0 h1 hk
  have hsz := h.size F R (by omega)
  have hb4 : (1 : ℝ) ≤ b ^ 4 := one_le_pow₀ R.b1
  have hhigh := R.high
  have hcC : (c : ℝ) + 1 ≤ C := by exact_mod_cast hc
  have hcb : ((c : ℝ) + 1) * b ^ 4 ≤ C * b ^ 4 := mul_le_mul_of_nonneg_right hcC (by positivity)
  have hc0 : 0 ≤ (c : ℝ) * b ^ 4 := by positivity
  obtain ⟨r, e', hr⟩ := F.rnd (a + -p) (by
    push_cast
    have := abs_add_le (a : ℝ) (-p)
    rw [abs_neg] at this
    nlinarith)
  refine ⟨r, e', ⟨?_, ?_⟩⟩
  · have hp : |(p : ℝ) - p| ≤ u * |(p : ℝ)| + η := by
      rw [sub_self, abs_zero]
      have := F.η0
      positivity
    have hterm := term_err h0 h1 hx hp
    rw [show k - 1 + 1 = k by omega] at hterm
    have hterm' : |-(p : ℝ) - -x| ≤ relErr u k * |-x| + η := by
      rw [abs_neg, show -(p : ℝ) - -x = -(p - x) by ring, abs_neg]; exact hterm
    push_cast at hr
    exact h.sum.step h0 F.η0 (relErr_nonneg h0 h1 k) hterm' hr
  · have := h.bound
    push_cast
    rw [abs_neg]
    linarith

variable {e : ℝ} {e2 : ℚ} (he : SoftOk u η e e2) {y z : Nat → ℚ} {m m' : ℚ} (P : PairIn A b d e y m z m') (Q : Quant)
variable {c : Nat} (hc : c + 1 ≤ C) {S T : Val ℝ} {v : Val ℚ} (hv : SmV u η b k c d S T v)
include he P hc hv

/-- What both kernels do with the squared distance `q` and a product `mm` of the masses. -/
theorem dev_err {t : Nat → ℚ} (ht : Diffs u d y z t) {q mm : ℚ} (hq : Near u (2 * d + 4) (D2 d e (fun j => (y j : ℝ)) (fun j => (z j : ℝ))) q)
    (hmm : Near u 2 ((m : ℝ) * m') (mm : ℝ)) :
    ∃ w : Val ℚ, (⟨List.zipWith (fun t a => A.fma t (A.div (.fin m') (A.mul (A.fsqrt (.fin q)) (.fin q))) a) (Arr d (fun j => .fin (t j))) (mkRes Q d v).acc,
        (mkRes Q d v).pot.map (fun a => A.sub a (A.div (.fin mm) (A.fsqrt (.fin q))))⟩ : Res ℚ) = mkRes Q d w ∧
      SmV u η b k (c + 1) d (S + newt d e y m z m') (T + absV (newt d e y m z m')) w := by
  have hk := R.kd
  have u0 := F.u0
  have u1 := F.lt1
  have hb1 := R.b1
  obtain ⟨_, g, eg, hg⟩ := over_near (M := ⟨false, A, none⟩) F R (by simp) hq P.near P.far P.rm'
  have eg : A.div (.fin m') (A.mul (A.fsqrt (.fin q)) (.fin q)) = .fin g := eg
  obtain ⟨w, ew, hw⟩ := accs_step (M := ⟨false, A, none⟩) F R Q hc (by omega) hv.acc ht hg (G := (newt d e y m z m').1) (fun _ _ => rfl) (fun j hj => pull_acc_le R.b1 he.nn P.near P.far P.rm' hj)
  obtain ⟨hD, hs, hss, hr⟩ := rng_dist R.b1 P.near P.far
  have hpr := pot_rng (M := ⟨false, A, none⟩) R P
  generalize hDD : D2 d e (fun j => (y j : ℝ)) (fun j => (z j : ℝ)) = D at *
  have hDr : Rng b 4 D := by rw [← hss]; exact (hr.mul hr).mono hb1 (by omega)
  obtain ⟨s, es, hs'⟩ := Span.sqrt F R (n := d + 2) (X := D) (by rw [show 2 * (d + 2) = 2 * d + 4 by ring]; exact hq) (by omega) hD hDr
  obtain ⟨p, ep, hp⟩ := Span.div F R hmm hs' hs.ne' (by omega) (by rw [div_eq_mul_inv]; exact hpr)
  obtain ⟨r, er, hr'⟩ := hv.pot.sub F R hc (l := 2 + (d + 2 + 1) + 1) (by omega) hp (by rw [div_eq_mul_inv]; exact hpr.high)
  have epot : (newt d e y m z m').2 = -((m : ℝ) * m' / √D) := by
    show -((m : ℝ) * m' * (√(D2 d e (fun j => (y j : ℝ)) (fun j => (z j : ℝ))))⁻¹) = _
    rw [hDD, div_eq_mul_inv]
  refine ⟨(w, r), ?_, ⟨hw, ?_⟩⟩
  · rw [eg, es, ep]
    unfold mkRes
    simp only
    congr 1
    by_cases hQ : Q = .acc
    · simp [hQ]
    · simp only [if_neg hQ, List.map_cons, List.map_nil]
      rw [er]
  · show Sm u η (b ^ 4) k (c + 1) (S.2 + (newt d e y m z m').2) (T.2 + |(newt d e y m z m').2|) r
    rw [epot]
    exact hr'

/-- The contribution of a node. -/
theorem devCom_err : ∃ w : Val ℚ,
    devCom A (.fin e2) (diffs A (mkPt d y m).pos (Arr d (fun j => .fin (z j)))) (devD2 A (.fin 0) (diffs A (mkPt d y m).pos (Arr d (fun j => .fin (z j)))))
      (.fin m') (mkPt d y m) (mkRes Q d v) = mkRes Q d w ∧
    SmV u η b k (c + 1) d (S + newt d e y m z m') (T + absV (newt d e y m z m')) w := by
  have hk := R.kd
  obtain ⟨t, et, ht⟩ := pair_diffs (M := ⟨false, A, none⟩) F R he P
  obtain ⟨q, eq, hq⟩ := plain_near (M := ⟨false, A, none⟩) F R (by simp) ht he P.near P.far
  obtain ⟨mm, em, hmm⟩ := Span.mul F R (Near.refl F.u0 F.lt1 0 (m : ℝ)) (Near.refl F.u0 F.lt1 0 (m' : ℝ)) (by omega) ((P.rm.mul P.rm').mono R.b1 (by omega))
  obtain ⟨w, ew, hw⟩ := dev_err F R he P Q hc hv ht hq (hmm.mono F.u0 F.lt1 (by omega))
  refine ⟨w, ?_, hw⟩
  have et' : diffs A (Arr d (fun j => .fin (y j))) (Arr d (fun j => .fin (z j))) = Arr d (fun j => .fin (t j)) := et
  have eq' : A.add (devD2 A (.fin 0) (Arr d (fun j => .fin (t j)))) (.fin e2) = .fin q := eq
  rw [← ew]
  unfold devCom mkPt
  simp only
  rw [et', eq', em]

/-- The contribution of another particle. -/
theorem devPair_err (hr : A.Repr e2) : ∃ w : Val ℚ, devPair A (.fin e2) false (mkPt d y m) (mkPt d z m') (mkRes Q d v) = mkRes Q d w ∧
    SmV u η b k (c + 1) d (S + newt d e y m z m') (T + absV (newt d e y m z m')) w := by
  have hk := R.kd
  obtain ⟨t, et, ht⟩ := pair_diffs (M := ⟨false, A, none⟩) F R he P
  obtain ⟨q, eq, hq⟩ := soft_near (M := ⟨false, A, none⟩) F R (by simp) ht he P.near P.far
  have h1 : Near u 0 1 ((1 : ℚ) : ℝ) := by push_cast; exact Near.refl F.u0 F.lt1 0 1
  obtain ⟨m1, em1, hm1⟩ := Span.mul F R h1 (Near.refl F.u0 F.lt1 0 (m : ℝ)) (by omega) (by rw [one_mul]; exact P.rm.mono R.b1 (by omega))
  rw [one_mul] at hm1
  obtain ⟨mm, em, hmm⟩ := Span.mul F R hm1 (Near.refl F.u0 F.lt1 0 (m' : ℝ)) (by omega) ((P.rm.mul P.rm').mono R.b1 (by omega))
  obtain ⟨w, ew, hw⟩ := dev_err F R he P Q hc hv ht hq (hmm.mono F.u0 F.lt1 (by omega))
  refine ⟨w, ?_, hw⟩
  have et' : diffs A (Arr d (fun j => .fin (y j))) (Arr d (fun j => .fin (z j))) = Arr d (fun j => .fin (t j)) := et
  have eq' : devD2 A (.fin e2) (Arr d (fun j => .fin (t j))) = .fin q := eq
  have ee : A.add (.fin e2) (.fin 0) = .fin e2 := by
    show A.rnd (e2 + 0) = _
    rw [add_zero]; exact hr
  rw [← ew]
  unfold devPair mkPt
  simp only [Bool.false_eq_true, if_false]
  rw [et', ee, eq', em1, em]

omit he P hc hv in
/-- The multiplication by `G`. -/
theorem scale_err {g : ℚ} (hg : 3 * C * b ^ 4 * |(g : ℝ)| ≤ hi) {c : Nat} (hc : c + 1 ≤ C) {N : Nat} (hN : c + 1 + k ≤ N) {S T : Val ℝ} {r : Val ℚ} (hr : SmV u η b k c d S T r) :
    ∃ v, resScale A (.fin g) (mkRes Q d r) = mkRes Q d v ∧ (∀ j < d, Within u η N g (S.1 j) (T.1 j) (v.1 j)) ∧ Within u η N g S.2 T.2 v.2 := by
  have u0 := F.u0
  have η0 := F.η0
  have hN' : ((c + 1 + k : ℕ) : ℝ) ≤ N := by exact_mod_cast hN
  have hcN : (c : ℝ) ≤ N := by exact_mod_cast (by omega : c ≤ N)
  have key : ∀ {S T : ℝ} {a : ℚ}, Sm u η (b ^ 4) k c S T a → ∃ r : ℚ, A.mul (.fin a) (.fin g) = .fin r ∧ Within u η N g S T r := by
    intro S T a h
    have hT : 0 ≤ T := (abs_nonneg S).trans h.sum.abs
    obtain ⟨r, e, hr⟩ := h.scale F R hc hg
    refine ⟨r, e, hr.trans ?_⟩
    gcongr
  have hj : ∀ j, ∃ q : ℚ, j < d → A.mul (.fin (r.1 j)) (.fin g) = .fin q ∧ Within u η N g (S.1 j) (T.1 j) q := by
    intro j
    by_cases hj : j < d
    · obtain ⟨q, e, hq⟩ := key (hr.acc j hj)
      exact ⟨q, fun _ => ⟨e, hq⟩⟩
    · exact ⟨0, fun h => absurd h hj⟩
  choose w hw using hj
  obtain ⟨q, e, hq⟩ := key hr.pot
  refine ⟨(w, q), ?_, fun j hj => (hw j hj).2, hq⟩
  unfold resScale mkRes
  congr 1
  · by_cases hQ : Q = .pot
    · simp [hQ]
    · simp only [if_neg hQ]
      rw [map_arr]
      apply arr_ext
      intro j hj
      exact (hw j hj).1
  · by_cases hQ : Q = .acc
    · simp [hQ]
    · simp only [if_neg hQ]
      simp [e]

end

/-! ### The visits of a thread -/

section
variable {A : Arith ℚ} {simd : Option (Simd ℚ)} {mac : Mac} {w d : Nat}

/-- The bodies that a visit stands for, seen by the thread of particle `k`: an accepted node, or the other particles of a leaf. -/
def TS.devBodies (s : TS (rakauEnv A simd mac w d)) (x : Nat → Nat → ℚ) (k : Nat) (v : Visit) : List Body :=
  match v.ev with
  | none => []
  | some (.com i) => [(s.cx i, s.cm i)]
  | some (.leaf i) => (((Ev.leaf i).particles s.tree).filter (· ≠ k)).map (fun l => (fun j => x j l, x d l))

variable {s : TS (rakauEnv A simd mac w d)} {x : Nat → Nat → ℚ} {u η lo hi b e : ℝ} {e2 : ℚ} {κ K C : Nat} {Dv : Arith ℚ}

/-- One visit. -/
theorem dev_vis (F : FlModel Dv u η lo hi) (R : Span u η lo hi b d κ K C) (he : SoftOk u η e e2) (hr2 : Dv.Repr e2) (hs : Supported w d) (h : Reach _ s)
    (hz : s.n * cbits w d < 2 ^ 64) (hx : IsData d s.n s.parts x) {k : Nat} (hk : k < s.n)
    (hpair : ∀ l < s.n, l ≠ k → PairIn Dv b d e (fun j => x j k) (x d k) (fun j => x j l) (x d l)) (Q : Quant) (mv g : Fl ℚ) {acc : Nat → Bool} {v : Visit}
    (hv : v.DevOk s.tree acc)
    (hcom : acc v.idx = true → (∃ pr, s.props[v.idx]? = some pr ∧ pr.com = Arr d (fun j => .fin (s.cx v.idx j)) ∧ pr.mass = .fin (s.cm v.idx)) ∧
      PairIn Dv b d e (fun j => x j k) (x d k) (s.cx v.idx) (s.cm v.idx))
    {c : Nat} {S T : Val ℝ} {r : Val ℚ} (hc : c + (s.devBodies x k v).length ≤ C) (hr : SmV u η b K c d S T r) :
    ∃ r', (s.gpu Dv Q mv g (.fin e2)).visOthers k (mkRes Q d r) v = mkRes Q d r' ∧
      SmV u η b K (c + (s.devBodies x k v).length) d (S + ((s.devBodies x k v).map (fun B => newt d e (fun j => x j k) (x d k) B.1 B.2)).sum)
        (T + ((s.devBodies x k v).map (fun B => absV (newt d e (fun j => x j k) (x d k) B.1 B.2))).sum) r' := by
  have hpt : ∀ l < s.n, (s.gpu Dv Q mv g (.fin e2)).pt l = mkPt d (fun j => x j l) (x d l) := fun l hl =>
    Option.some.inj ((Gpu.pt_eq (gpu_ok hs h hz Dv Q mv g (.fin e2)) hl).symm.trans (ptAt_data hx hl))
  unfold Gpu.visOthers TS.devBodies at *
  cases hev : v.ev with
  | none => exact ⟨r, rfl, by simpa [hev] using hr⟩
  | some ev =>
    rw [hev] at hc
    cases ev with
    | com i =>
      obtain ⟨rfl, h2⟩ := hv.com i hev
      obtain ⟨⟨pr, p0, p1, p2⟩, hP⟩ := hcom h2
      have hpr : (s.gpu Dv Q mv g (.fin e2)).pr v.idx = pr := by
        show s.props.getD v.idx _ = _
        rw [List.getD_eq_getElem?_getD, p0, Option.getD_some]
      simp only at hc ⊢
      rw [hpr, p1, p2, hpt k hk]
      obtain ⟨r', e', hr'⟩ := devCom_err F R he hP Q (c := c) (by simpa using hc) hr
      exact ⟨r', e', by simpa using hr'⟩
    | leaf i =>
      obtain ⟨rfl, _⟩ := hv.leaf i hev
      simp only at hc ⊢
      have e1 : (s.gpu Dv Q mv g (.fin e2)).srcs v.idx = (Ev.leaf v.idx).particles s.tree := by
        rw [Ev.particles_leaf hv.idx]
        exact Gpu.srcs_eq (c := s.gpu Dv Q mv g (.fin e2)) hv.idx
      rw [e1]
      rw [List.length_map] at hc ⊢
      rw [List.map_map, List.map_map]
      apply fold_err _ _ _ hc hr
      intro l hl c S T v' hc hv'
      obtain ⟨l1, l2⟩ := List.mem_filter.1 hl
      rw [Ev.particles_leaf hv.idx, List.mem_range'_1] at l1
      have hrg := reach_range hs h hz (List.getElem_mem hv.idx)
      have hln : l < s.n := by omega
      rw [hpt k hk, hpt l hln]
      exact devPair_err F R he (hpair l hln (by simpa using l2)) Q hc hv' hr2

/-- The visits of a thread. -/
theorem dev_visits (F : FlModel Dv u η lo hi) (R : Span u η lo hi b d κ K C) (he : SoftOk u η e e2) (hr2 : Dv.Repr e2) (hs : Supported w d) (h : Reach _ s)
    (hz : s.n * cbits w d < 2 ^ 64) (hx : IsData d s.n s.parts x) {k : Nat} (hk : k < s.n)
    (hpair : ∀ l < s.n, l ≠ k → PairIn Dv b d e (fun j => x j k) (x d k) (fun j => x j l) (x d l)) (Q : Quant) (mv g : Fl ℚ) {acc : Nat → Bool} :
    ∀ (vs : List Visit), (∀ v ∈ vs, v.DevOk s.tree acc) →
      (∀ v ∈ vs, acc v.idx = true → (∃ pr, s.props[v.idx]? = some pr ∧ pr.com = Arr d (fun j => .fin (s.cx v.idx j)) ∧ pr.mass = .fin (s.cm v.idx)) ∧
        PairIn Dv b d e (fun j => x j k) (x d k) (s.cx v.idx) (s.cm v.idx)) → ∀ {c : Nat} {S T : Val ℝ} {r : Val ℚ},
      c + (vs.flatMap (s.devBodies x k)).length ≤ C → SmV u η b K c d S T r →
      ∃ r', vs.foldl ((s.gpu Dv Q mv g (.fin e2)).visOthers k) (mkRes Q d r) = mkRes Q d r' ∧
        SmV u η b K (c + (vs.flatMap (s.devBodies x k)).length) d
          (S + ((vs.flatMap (s.devBodies x k)).map (fun B => newt d e (fun j => x j k) (x d k) B.1 B.2)).sum)
          (T + ((vs.flatMap (s.devBodies x k)).map (fun B => absV (newt d e (fun j => x j k) (x d k) B.1 B.2))).sum) r' := by
  intro vs
  induction vs with
  | nil => intro _ _ c S T r _ hr; exact ⟨r, rfl, by simpa using hr⟩
  | cons v vs ih =>
    intro hv hcom c S T r hc hr
    rw [List.flatMap_cons, List.length_append] at hc
    obtain ⟨r1, e1, h1⟩ := dev_vis F R he hr2 hs h hz hx hk hpair Q mv g (hv v List.mem_cons_self) (hcom v List.mem_cons_self) (by omega) hr
    obtain ⟨r2, e2', h2⟩ := ih (fun v' h' => hv v' (List.mem_cons_of_mem _ h')) (fun v' h' => hcom v' (List.mem_cons_of_mem _ h')) (by omega) h1
    refine ⟨r2, by rw [List.foldl_cons, e1, e2'], ?_⟩
    rw [List.flatMap_cons, List.length_append, List.map_append, List.map_append, List.sum_append, List.sum_append, ← add_assoc, ← add_assoc S, ← add_assoc T]
    exact h2

/-- There are at most as many bodies as particles. -/
theorem devBodies_le (hs : Supported w d) (h : Reach _ s) (hz : s.n * cbits w d < 2 ^ 64) {k : Nat} {acc : Nat → Bool} :
    ∀ (vs : List Visit), (∀ v ∈ vs, v.DevOk s.tree acc) → (vs.flatMap (s.devBodies x k)).length ≤ (sources s.tree vs).length := by
  intro vs
  induction vs with
  | nil => intro _; simp
  | cons v vs ih =>
    intro hv
    have h1 := ih (fun v' h' => hv v' (List.mem_cons_of_mem _ h'))
    have h2 : (s.devBodies x k v).length ≤ (sources s.tree [v]).length := by
      have hi := (hv v List.mem_cons_self).idx
      unfold TS.devBodies sources
      rw [List.flatMap_cons, List.flatMap_nil, List.append_nil]
      cases hev : v.ev with
      | none => simp
      | some ev =>
        cases ev with
        | com i =>
          obtain ⟨rfl, _⟩ := (hv v List.mem_cons_self).com i hev
          simp only
          have := reach_range hs h hz (List.getElem_mem hi)
          rw [Ev.particles_com hi]
          simp; omega
        | leaf i =>
          simp only [List.length_map]
          exact List.length_filter_le _ _
    rw [List.flatMap_cons, List.length_append]
    have h3 : (sources s.tree (v :: vs)).length = (sources s.tree [v]).length + (sources s.tree vs).length := by
      unfold sources
      rw [List.flatMap_cons, List.length_append, List.flatMap_cons, List.flatMap_nil, List.append_nil]
    omega

end

end Rakau
