import Verif.Proof.ErrKernel
import Verif.Proof.ForceState

/-! Rounding errors of the force kernels: sums over many bodies, and the exact functions. -/
namespace Rakau
open Spec

variable {u η lo hi : ℝ}

/-- A sequence of updates. -/
theorem fold_err {b : ℝ} {d k C : Nat} {Q : Quant} {ι : Type} (f : Res ℚ → ι → Res ℚ) (U : ι → Val ℝ) :
    ∀ (l : List ι) {c : Nat} {S T : Val ℝ} {v : Val ℚ}, c + l.length ≤ C → SmV u η b k c d S T v →
      (∀ i ∈ l, ∀ {c : Nat} {S T : Val ℝ} {v : Val ℚ}, c + 1 ≤ C → SmV u η b k c d S T v →
        ∃ w, f (mkRes Q d v) i = mkRes Q d w ∧ SmV u η b k (c + 1) d (S + U i) (T + absV (U i)) w) →
      ∃ w, l.foldl f (mkRes Q d v) = mkRes Q d w ∧ SmV u η b k (c + l.length) d (S + (l.map U).sum) (T + (l.map (fun i => absV (U i))).sum) w := by
  intro l
  induction l with
  | nil => intro c S T v _ h _; exact ⟨v, rfl, by simpa using h⟩
  | cons i l ih =>
    intro c S T v hc h hs
    rw [List.length_cons] at hc
    obtain ⟨w, e, hw⟩ := hs i List.mem_cons_self (by omega) h
    obtain ⟨w', e', hw'⟩ := ih (by omega) hw (fun j hj => hs j (List.mem_cons_of_mem _ hj))
    refine ⟨w', by rw [List.foldl_cons, e, e'], ?_⟩
    rw [List.map_cons, List.sum_cons, List.map_cons, List.sum_cons, List.length_cons, show c + (l.length + 1) = c + 1 + l.length by omega, ← add_assoc S, ← add_assoc T]
    exact hw'

theorem SmV.zero {b : ℝ} {k d : Nat} : SmV u η b k 0 d 0 0 0 :=
  ⟨fun j _ => by simpa using (Sm.zero (u := u) (η := η) (k := k) (B := b ^ 4)), by simpa using (Sm.zero (u := u) (η := η) (k := k) (B := b ^ 4))⟩

section
variable {A : Arith ℚ} {b : ℝ} {d κ k C : Nat} (F : FlModel A u η lo hi) (R : Span u η lo hi b d κ k C)
include F R

/-- The square of the softening length. -/
theorem soft_ok {eps : ℚ} (h1 : (eps : ℝ) ^ 2 ≤ b ^ 2) : ∃ e2 : ℚ, A.mul (.fin eps) (.fin eps) = .fin e2 ∧ 0 ≤ e2 ∧ SoftOk u η ((eps : ℝ) ^ 2) e2 := by
  obtain ⟨r, e, h⟩ := mul_sq F R (Near.refl F.u0 F.lt1 1 (eps : ℝ)) h1
  exact ⟨r, e, by exact_mod_cast h.an, h⟩

/-- The sum of two results. -/
theorem resAdd_err (Q : Quant) {c c' : Nat} {S T S' T' : Val ℝ} {v v' : Val ℚ} (h : SmV u η b k c d S T v) (h' : SmV u η b k c' d S' T' v') (hc : c + c' + 1 ≤ C) :
    ∃ w, resAdd A (mkRes Q d v) (mkRes Q d v') = mkRes Q d w ∧ SmV u η b k (c + c' + 1) d (S + S') (T + T') w := by
  have hj : ∀ j, ∃ r : ℚ, j < d → A.add (.fin (v.1 j)) (.fin (v'.1 j)) = .fin r ∧ Sm u η (b ^ 4) k (c + c' + 1) (S.1 j + S'.1 j) (T.1 j + T'.1 j) r := by
    intro j
    by_cases hj : j < d
    · obtain ⟨r, e, hr⟩ := (h.acc j hj).add F R (h'.acc j hj) hc
      exact ⟨r, fun _ => ⟨e, hr⟩⟩
    · exact ⟨0, fun h => absurd h hj⟩
  choose w hw using hj
  obtain ⟨r, e, hr⟩ := h.pot.add F R h'.pot hc
  refine ⟨(w, r), ?_, ⟨fun j hj => (hw j hj).2, hr⟩⟩
  unfold resAdd mkRes
  congr 1
  · by_cases hQ : Q = .pot
    · simp [hQ]
    · simp only [if_neg hQ]
      rw [zipWith_arr]
      apply arr_ext
      intro j hj
      exact (hw j hj).1
  · by_cases hQ : Q = .acc
    · simp [hQ]
    · simp only [if_neg hQ]
      simp [e]

/-- One iteration of the exact functions. `M = G * m'`. -/
theorem exactUpd_err {e : ℝ} {e2 : ℚ} (he : SoftOk u η e e2) {y z : Nat → ℚ} {m m' g : ℚ} (P : PairIn A b d e y m z (g * m')) (Q : Quant) {c : Nat} (hc : c + 1 ≤ C)
    {S T : Val ℝ} {v : Val ℚ} (hv : SmV u η b k c d S T v) :
    ∃ w : Val ℚ, exactUpd A (.fin g) (.fin e2) (mkPt d y m) (mkPt d z m') (mkRes Q d v) = mkRes Q d w ∧
      SmV u η b k (c + 1) d (S + newt d e y m z (g * m')) (T + absV (newt d e y m z (g * m'))) w := by
  have hk := R.kd
  have u0 := F.u0
  have u1 := F.lt1
  have hb1 := R.b1
  obtain ⟨hD, hs, hss, hr⟩ := rng_dist R.b1 P.near P.far
  obtain ⟨t, et, ht⟩ := pair_diffs (M := ⟨false, A, none⟩) F R he P
  obtain ⟨q, eq, hq⟩ := soft_near (M := ⟨false, A, none⟩) F R (by simp) ht he P.near P.far
  generalize hDD : D2 d e (fun j => (y j : ℝ)) (fun j => (z j : ℝ)) = D at *
  have hDr : Rng b 4 D := by rw [← hss]; exact (hr.mul hr).mono hb1 (by omega)
  obtain ⟨s, es, hs'⟩ := Span.sqrt F R (n := d + 2) (X := D) (by rw [show 2 * (d + 2) = 2 * d + 4 by ring]; exact hq) (by omega) hD hDr
  have h1 : Near u 0 1 ((1 : ℚ) : ℝ) := by push_cast; exact Near.refl u0 u1 0 1
  obtain ⟨i, ei, hi⟩ := Span.div F R h1 hs' hs.ne' (by omega) (by rw [one_div]; exact hr.inv.mono hb1 (by omega))
  rw [one_div] at hi
  have hgm : Rng b 1 ((g : ℝ) * m') := by have := P.rm'; push_cast at this; exact this
  obtain ⟨a, ea, ha⟩ := Span.mul F R (Near.refl u0 u1 0 (g : ℝ)) (Near.refl u0 u1 0 (m' : ℝ)) (by omega) (hgm.mono hb1 (by omega))
  obtain ⟨h, eh, hh⟩ := Span.mul F R ha hi (by omega) ((hgm.mul hr.inv).mono hb1 (by omega))
  obtain ⟨i2, e2', hi2⟩ := Span.mul F R hi hi (by omega) ((hr.inv.mul hr.inv).mono hb1 (by omega))
  obtain ⟨p, ep, hp⟩ := Span.mul F R hi2 hh (by omega) (((hr.inv.mul hr.inv).mul (hgm.mul hr.inv)).mono hb1 (by omega))
  rw [show (√D)⁻¹ * (√D)⁻¹ * ((g : ℝ) * m' * (√D)⁻¹) = ((g * m' : ℚ) : ℝ) * (√D)⁻¹ ^ 3 by push_cast; ring] at hp
  obtain ⟨w, ew, hw⟩ := accs_step (M := ⟨false, A, none⟩) F R Q hc (l := 3 * d + 16) (by omega) hv.acc ht (hp.mono u0 u1 (by omega)) (G := (newt d e y m z (g * m')).1)
    (fun j _ => by
      show ((g * m' : ℚ) : ℝ) * (√(D2 d e (fun j => (y j : ℝ)) (fun j => (z j : ℝ))))⁻¹ ^ 3 * ((z j : ℝ) - y j) = _
      rw [hDD]) (fun j hj => pull_acc_le R.b1 he.nn P.near P.far P.rm' hj)
  have hpn : Near u (d + 6) (newt d e y m z (g * m')).2 (((-h : ℚ) : ℝ) * m) := by
    have := (hh.neg.mul u1 (Near.refl u0 u1 0 (m : ℝ))).mono u0 u1 (show 0 + 0 + 1 + (0 + (d + 2 + 1) + 1) + 1 + 0 ≤ d + 6 by omega)
    have e1 : (newt d e y m z (g * m')).2 = -((g : ℝ) * m' * (√D)⁻¹) * m := by
      show -((m : ℝ) * ((g * m' : ℚ) : ℝ) * (√(D2 d e (fun j => (y j : ℝ)) (fun j => (z j : ℝ))))⁻¹) = _
      rw [hDD]; push_cast; ring
    rw [e1]
    push_cast
    exact this
  obtain ⟨r, er, hr'⟩ := hv.pot.fma F R hc (by omega) hpn (by
    have := (pot_rng (M := ⟨false, A, none⟩) R P).neg.high
    exact this)
  refine ⟨(w, r), ?_, ⟨hw, hr'⟩⟩
  have eq' : (Arr d (fun j => Fl.fin (t j))).foldl (fun acc t => A.fma t t acc) (.fin e2) = .fin q := eq
  have et' : diffs A (Arr d (fun j => .fin (y j))) (Arr d (fun j => .fin (z j))) = Arr d (fun j => .fin (t j)) := et
  unfold exactUpd mkPt mkRes
  simp only
  rw [et', eq', es, ei, ea, eh, e2', ep]
  congr 1
  by_cases hQ : Q = .acc
  · simp [hQ]
  · simp only [if_neg hQ, List.map_cons, List.map_nil]
    show [A.fma (.fin (-h)) _ _] = _
    rw [er]

/-- The error of a sum. -/
theorem Sm.error {c : Nat} {S T a : ℝ} (h : Sm u η (b ^ 4) k c S T a) (hc : c ≤ C) : |a - S| ≤ 2 * ((c + k : ℕ) * u) * T + 4 * c * η := by
  have h0 := F.u0
  have h1 := F.lt1
  have hk := Span.cnt F R (show c + k ≤ C + k by omega)
  have hbern := Near.bern h0 h1 (c + k)
  have hh := Near.half_le h0 h1 hk
  have hp : 0 < (1 - u) ^ (c + k) := pow_pos (by linarith) _
  have hg := grow_le h0 h1 c k
  have hT : 0 ≤ T := (abs_nonneg S).trans h.sum.abs
  have g1 : 1 / (1 - u) ^ (c + k) ≤ 1 + 2 * ((c + k : ℕ) * u) := by
    rw [div_le_iff₀ hp]
    have hx : 0 ≤ ((c + k : ℕ) : ℝ) * u := by positivity
    nlinarith
  have hup : (1 + u) ^ c ≤ 2 := by
    have hτ := relErr_nonneg h0 h1 k
    have : (1 + u) ^ c * 1 ≤ (1 + u) ^ c * (1 + relErr u k) := mul_le_mul_of_nonneg_left (by linarith) (by positivity)
    linarith
  have e1 := mul_le_mul_of_nonneg_right (show (1 + u) ^ c * (1 + relErr u k) - 1 ≤ 2 * ((c + k : ℕ) * u) by linarith) hT
  have e2 : ((2 * c : ℕ) : ℝ) * (1 + u) ^ c * η ≤ 4 * c * η := by
    push_cast
    apply mul_le_mul_of_nonneg_right _ F.η0
    have : (0 : ℝ) ≤ c := by positivity
    nlinarith
  have := h.sum.err
  linarith

/-- The multiplication of a sum by `g`. -/
theorem Sm.scale {c : Nat} {S T : ℝ} {a g : ℚ} (h : Sm u η (b ^ 4) k c S T a) (hc : c + 1 ≤ C) (hg : 3 * C * b ^ 4 * |(g : ℝ)| ≤ hi) :
    ∃ r : ℚ, A.mul (.fin a) (.fin g) = .fin r ∧ |(r : ℝ) - g * S| ≤ 2 * ((c + 1 + k : ℕ) * u) * (|(g : ℝ)| * T) + (4 * c * |(g : ℝ)| + 1) * η := by
  have h0 := F.u0
  have h1 := F.lt1
  have hT : 0 ≤ T := (abs_nonneg S).trans h.sum.abs
  have hsz := h.size F R (by omega)
  have hcC : (c : ℝ) ≤ C := by exact_mod_cast (by omega : c ≤ C)
  have hb4 : (0 : ℝ) ≤ b ^ 4 := by have := R.b1; positivity
  obtain ⟨r, e, hr⟩ := F.rnd (a * g) (by
    push_cast
    rw [abs_mul]
    refine le_trans (mul_le_mul_of_nonneg_right (hsz.trans ?_) (abs_nonneg _)) hg
    exact mul_le_mul_of_nonneg_right (by linarith) hb4)
  refine ⟨r, e, ?_⟩
  push_cast at hr
  have hk := Span.cnt F R (show c + 1 + k ≤ C + k by omega)
  have hbern := Near.bern h0 h1 (c + 1 + k)
  have hh := Near.half_le h0 h1 hk
  have hp : 0 < (1 - u) ^ (c + 1 + k) := pow_pos (by linarith) _
  have hgr := grow_le h0 h1 (c + 1) k
  have hτ := relErr_nonneg h0 h1 k
  have g1 : (1 + u) ^ (c + 1) * (1 + relErr u k) - 1 ≤ 2 * ((c + 1 + k : ℕ) * u) := by
    have : 1 / (1 - u) ^ (c + 1 + k) ≤ 1 + 2 * ((c + 1 + k : ℕ) * u) := by
      rw [div_le_iff₀ hp]
      have hx : 0 ≤ ((c + 1 + k : ℕ) : ℝ) * u := by positivity
      nlinarith
    linarith
  have hup : (1 + u) ^ (c + 1) ≤ 2 := by
    have : (1 + u) ^ (c + 1) * 1 ≤ (1 + u) ^ (c + 1) * (1 + relErr u k) := mul_le_mul_of_nonneg_left (by linarith) (by positivity)
    linarith
  have e1 := h.sum.err
  have e2 := h.sum.size
  push_cast at e1 e2
  generalize hX : (1 + u) ^ c = X at *
  rw [pow_succ, hX] at g1 hup
  have e3 : |(r : ℝ) - g * S| ≤ |(r : ℝ) - a * g| + |(g : ℝ)| * |(a : ℝ) - S| := by
    have := abs_add_le ((r : ℝ) - a * g) (g * (a - S))
    rw [abs_mul] at this
    rwa [show (r : ℝ) - a * g + g * (a - S) = r - g * S by ring] at this
  rw [abs_mul] at hr
  have hga := abs_nonneg (g : ℝ)
  have e4 : |(a : ℝ) - S| + u * |(a : ℝ)| ≤ 2 * ((c + 1 + k : ℕ) * u) * T + 4 * c * η := by
    have f1 := mul_le_mul_of_nonneg_left e2 h0
    have f2 := mul_le_mul_of_nonneg_right g1 hT
    have f3 : 2 * (c : ℝ) * (X * (1 + u)) * η ≤ 2 * c * 2 * η := by
      have := F.η0
      gcongr
    nlinarith
  have e5 := mul_le_mul_of_nonneg_left e4 hga
  nlinarith

end

/-- The data of one particle. -/
theorem ptAt_data {K : Type} [Field K] [LinearOrder K] {d n : Nat} {parts : List (List (Fl K))} {x : Nat → Nat → K} (hx : IsData d n parts x) {k : Nat} (hk : k < n) :
    ptAt d parts k = some (mkPt d (fun j => x j k) (x d k)) := by
  unfold ptAt
  have hco : (parts.take d).mapM (fun v => v[k]?) = some (Arr d (fun j => .fin (x j k))) := by
    rw [mapM_some_iff]
    apply forall₂_of_getElem
    · rw [List.length_take, hx.1]; simp [Arr]
    · intro j hj hj'
      have hjd : j < d := by simpa using hj'
      obtain ⟨v, hv, hvv⟩ := hx.2 j (by omega)
      have e : (parts.take d)[j] = v := by
        rw [List.getElem_take]
        exact Option.some.inj ((List.getElem?_eq_getElem _).symm.trans hv)
      rw [e, hvv.get hk]; simp [Arr]
  rw [hco]
  obtain ⟨v, hv, hvv⟩ := hx.2 d (by omega)
  simp only [Option.bind_eq_bind, Option.bind_some]
  rw [hv, Option.bind_some, hvv.get hk]
  rfl

/-! ### The results of the tree -/

/-- A body: position and mass. -/
abbrev Body := (Nat → ℚ) × ℚ

section
variable {A : Arith ℚ} {simd : Option (Simd ℚ)} {mac : Mac} {w d : Nat}

/-- The bodies that a visit stands for: an accepted node, or the particles of a leaf. -/
def TS.visBodies (s : TS (rakauEnv A simd mac w d)) (x : Nat → Nat → ℚ) (v : Visit) : List Body :=
  match v.ev with
  | none => []
  | some (.com i) => [(s.cx i, s.cm i)]
  | some (.leaf i) => ((Ev.leaf i).particles s.tree).map (fun l => (fun j => x j l, x d l))

/-- The conditions for the error bounds: the data are in range. -/
structure ErrSit (s : TS (rakauEnv A simd mac w d)) (rsqrt : Option (Fl ℚ → Fl ℚ)) (x : Nat → Nat → ℚ) (u η lo hi b e : ℝ) (e2 : ℚ) (κ k C : Nat) : Prop where
  supp : Supported w d
  pos : ∀ S, simd = some S → 0 < S.batch
  reach : Reach _ s
  size : s.n * cbits w d < 2 ^ 64
  data : IsData d s.n s.parts x
  model : FlModel ((⟨A, simd, rsqrt⟩ : Hw ℚ).mode d).A u η lo hi
  span : Span u η lo hi b d κ k C
  room : s.n + (⟨A, simd, rsqrt⟩ : Hw ℚ).pad + 2 ≤ C
  fast : ∀ f, ((⟨A, simd, rsqrt⟩ : Hw ℚ).mode d).fast = some f → FastOk ((⟨A, simd, rsqrt⟩ : Hw ℚ).mode d).A u b κ f
  soft : SoftOk u η e e2
  pair : ∀ k l, k < s.n → l < s.n → k ≠ l →
    PairIn ((⟨A, simd, rsqrt⟩ : Hw ℚ).mode d).A b d e (fun j => x j k) (x d k) (fun j => x j l) (x d l)

variable {s : TS (rakauEnv A simd mac w d)} {rsqrt : Option (Fl ℚ → Fl ℚ)} {x : Nat → Nat → ℚ} {b e : ℝ} {e2 : ℚ} {κ k C : Nat}
  (H : ErrSit s rsqrt x u η lo hi b e e2 κ k C) {over : Overshift} (Q : Quant) (mv g : Fl ℚ)
include H

theorem ErrSit.fok : (s.force rsqrt over Q mv g (.fin e2)).Ok s.n := force_ok H.pos H.supp H.reach H.size _ _ _ _ _ _

theorem ErrSit.pt_eq {a : Nat} (ha : a < s.n) : (s.force rsqrt over Q mv g (.fin e2)).pt a = mkPt d (fun j => x j a) (x d a) :=
  Option.some.inj ((Force.pt_eq (H.fok (over := over) Q mv g) ha).symm.trans (ptAt_data H.data ha))

/-- The data of an accepted node are in range for target `a`. -/
def NodeIn (s : TS (rakauEnv A simd mac w d)) (rsqrt : Option (Fl ℚ → Fl ℚ)) (x : Nat → Nat → ℚ) (b e : ℝ) (i a : Nat) : Prop :=
  (∃ pr, s.props[i]? = some pr ∧ pr.com = Arr d (fun j => .fin (s.cx i j)) ∧ pr.mass = .fin (s.cm i)) ∧
    PairIn ((⟨A, simd, rsqrt⟩ : Hw ℚ).mode d).A b d e (fun j => x j a) (x d a) (s.cx i) (s.cm i)

/-- One visit. -/
theorem ErrSit.vis {acc : Nat → Bool} {t a : Nat} (ha : a < s.n) (hacc : ∀ i, i < s.tree.length → acc i = true → NodeIn s rsqrt x b e i a) {v : Visit}
    (hv : v.Ok s.tree acc t) (hout : ∀ l ∈ sources s.tree [v], l < s.n ∧ l ≠ a) {c : Nat} {S T : Val ℝ} {r : Val ℚ} (hc : c + (s.visBodies x v).length ≤ C)
    (hr : SmV u η b k c d S T r) :
    ∃ r', (s.force rsqrt over Q mv g (.fin e2)).visUpd (mkPt d (fun j => x j a) (x d a)) (mkRes Q d r) v = mkRes Q d r' ∧
      SmV u η b k (c + (s.visBodies x v).length) d (S + ((s.visBodies x v).map (fun B => newt d e (fun j => x j a) (x d a) B.1 B.2)).sum)
        (T + ((s.visBodies x v).map (fun B => absV (newt d e (fun j => x j a) (x d a) B.1 B.2))).sum) r' := by
  have hvec : ((s.force rsqrt over Q mv g (.fin e2)).M).vec = true → d = 3 := mode_vec
  unfold Force.visUpd TS.visBodies at *
  cases hev : v.ev with
  | none => exact ⟨r, rfl, by simpa [hev] using hr⟩
  | some ev =>
    rw [hev] at hc
    cases ev with
    | com i =>
      obtain ⟨rfl, h2⟩ := hv.com i hev
      obtain ⟨⟨pr, p0, p1, p2⟩, hP⟩ := hacc _ hv.idx h2
      have hpr : (s.force rsqrt over Q mv g (.fin e2)).pr v.idx = pr := by
        show s.props.getD v.idx _ = _
        rw [List.getD_eq_getElem?_getD, p0, Option.getD_some]
      simp only at hc ⊢
      rw [hpr, p1, p2]
      obtain ⟨r', e', hr'⟩ := comUpd_err H.model H.span hvec H.fast H.soft hP Q (c := c) (by simpa using hc) hr
      exact ⟨r', e', by simpa using hr'⟩
    | leaf i =>
      obtain ⟨rfl, _⟩ := hv.leaf i hev
      simp only at hc ⊢
      have e1 : (s.force rsqrt over Q mv g (.fin e2)).srcs v.idx = (Ev.leaf v.idx).particles s.tree := by
        rw [Ev.particles_leaf hv.idx]
        unfold Force.srcs
        show (match s.tree[v.idx]? with | some nd => _ | none => _) = _
        rw [List.getElem?_eq_getElem hv.idx]
      rw [e1]
      rw [List.length_map] at hc ⊢
      rw [List.map_map, List.map_map]
      apply fold_err _ _ _ hc hr
      intro l hl c S T v' hc hv'
      obtain ⟨l1, l2⟩ := hout l (by unfold sources; simp only [List.flatMap_cons, List.flatMap_nil, List.append_nil]; rw [hev]; exact hl)
      rw [H.pt_eq Q mv g l1]
      exact leafUpd_err H.model H.span hvec H.fast H.soft (H.pair a l ha l1 (Ne.symm l2)) Q hc hv'

/-- The visits of one target. -/
theorem ErrSit.visits {acc : Nat → Bool} {t a : Nat} (ha : a < s.n) (hacc : ∀ i, i < s.tree.length → acc i = true → NodeIn s rsqrt x b e i a) :
    ∀ (vs : List Visit), (∀ v ∈ vs, v.Ok s.tree acc t) → (∀ l ∈ sources s.tree vs, l < s.n ∧ l ≠ a) → ∀ {c : Nat} {S T : Val ℝ} {r : Val ℚ},
      c + (vs.flatMap (s.visBodies x)).length ≤ C → SmV u η b k c d S T r →
      ∃ r', vs.foldl ((s.force rsqrt over Q mv g (.fin e2)).visUpd (mkPt d (fun j => x j a) (x d a))) (mkRes Q d r) = mkRes Q d r' ∧
        SmV u η b k (c + (vs.flatMap (s.visBodies x)).length) d
          (S + ((vs.flatMap (s.visBodies x)).map (fun B => newt d e (fun j => x j a) (x d a) B.1 B.2)).sum)
          (T + ((vs.flatMap (s.visBodies x)).map (fun B => absV (newt d e (fun j => x j a) (x d a) B.1 B.2))).sum) r' := by
  intro vs
  induction vs with
  | nil => intro _ _ c S T r _ hr; exact ⟨r, rfl, by simpa using hr⟩
  | cons v vs ih =>
    intro hv hout c S T r hc hr
    rw [List.flatMap_cons, List.length_append] at hc
    obtain ⟨r1, e1, h1⟩ := H.vis (over := over) Q mv g ha hacc (hv v List.mem_cons_self) (fun l hl => hout l (by
      unfold sources at hl ⊢
      rw [List.flatMap_cons] at hl ⊢
      rw [List.flatMap_nil, List.append_nil] at hl
      exact List.mem_append_left _ hl)) (by omega) hr
    obtain ⟨r2, e2', h2⟩ := ih (fun v' h' => hv v' (List.mem_cons_of_mem _ h')) (fun l hl => hout l (by
      unfold sources at hl ⊢
      rw [List.flatMap_cons]
      exact List.mem_append_right _ hl)) (by omega) h1
    refine ⟨r2, by rw [List.foldl_cons, e1, e2'], ?_⟩
    rw [List.flatMap_cons, List.length_append, List.map_append, List.map_append, List.sum_append, List.sum_append, ← add_assoc, ← add_assoc S, ← add_assoc T]
    exact h2

/-- There are at most as many bodies as particles. -/
theorem ErrSit.bodies_le {acc : Nat → Bool} {t : Nat} :
    ∀ (vs : List Visit), (∀ v ∈ vs, v.Ok s.tree acc t) → (vs.flatMap (s.visBodies x)).length ≤ (sources s.tree vs).length := by
  intro vs
  induction vs with
  | nil => intro _; simp
  | cons v vs ih =>
    intro hv
    have h1 := ih (fun v' h' => hv v' (List.mem_cons_of_mem _ h'))
    have h2 : (s.visBodies x v).length ≤ (sources s.tree [v]).length := by
      have hi := (hv v List.mem_cons_self).idx
      unfold TS.visBodies sources
      rw [List.flatMap_cons, List.flatMap_nil, List.append_nil]
      cases hev : v.ev with
      | none => simp
      | some ev =>
        cases ev with
        | com i =>
          obtain ⟨rfl, _⟩ := (hv v List.mem_cons_self).com i hev
          simp only
          have := reach_range H.supp H.reach H.size (List.getElem_mem hi)
          rw [Ev.particles_com hi]
          simp; omega
        | leaf i => simp
    rw [List.flatMap_cons, List.length_append]
    have h3 : (sources s.tree (v :: vs)).length = (sources s.tree [v]).length + (sources s.tree vs).length := by
      unfold sources
      rw [List.flatMap_cons, List.length_append, List.flatMap_cons, List.flatMap_nil, List.append_nil]
    omega

/-- The particles of the node other than `a`. -/
def selfBodies (d : Nat) (x : Nat → Nat → ℚ) (cn : CNode) (a : Nat) : List Body :=
  ((List.range' cn.beg (cn.fin - cn.beg)).filter (· ≠ a)).map (fun l => (fun j => x j l, x d l))

omit H in
theorem newt_massless {y z : Nat → ℚ} {m : ℚ} : newt d e y m z 0 = 0 := by
  unfold newt grav
  ext <;> simp

omit H in
theorem absV_zero : absV 0 = 0 := by
  unfold absV
  ext <;> simp

/-- The result of a particle before the multiplication by `G`. -/
theorem ErrSit.total {acc : Nat → Bool} {t : Nat} (ht : t < s.tree.length) {cn : CNode} (h1 : s.tree[t].beg = cn.beg) (h2 : s.tree[t].fin = cn.fin) {vs : List Visit}
    (hv : ∀ v ∈ vs, v.Ok s.tree acc t) (hsrc : sources s.tree vs = List.range cn.beg ++ List.range' cn.fin (s.n - cn.fin))
    {a : Nat} (ha1 : cn.beg ≤ a) (ha2 : a < cn.fin) (hacc : ∀ i, i < s.tree.length → acc i = true → NodeIn s rsqrt x b e i a)
    (hpad : 1 < (⟨A, simd, rsqrt⟩ : Hw ℚ).batch d → ∃ P, (s.force rsqrt over Q mv g (.fin e2)).padCoord = .fin P ∧
      PairIn ((⟨A, simd, rsqrt⟩ : Hw ℚ).mode d).A b d e (fun j => x j a) (x d a) (fun _ => P) 0) :
    ∃ c r, c + 1 ≤ C ∧ c + 1 ≤ s.n + (⟨A, simd, rsqrt⟩ : Hw ℚ).pad + 1 ∧ (s.force rsqrt over Q mv g (.fin e2)).total cn vs (a - cn.beg) = mkRes Q d r ∧
      SmV u η b k c d (((vs.flatMap (s.visBodies x) ++ selfBodies d x cn a).map (fun B => newt d e (fun j => x j a) (x d a) B.1 B.2)).sum)
        (((vs.flatMap (s.visBodies x) ++ selfBodies d x cn a).map (fun B => absV (newt d e (fun j => x j a) (x d a) B.1 B.2))).sum) r := by
  have hvec : ((s.force rsqrt over Q mv g (.fin e2)).M).vec = true → d = 3 := mode_vec
  have hr := reach_range H.supp H.reach H.size (List.getElem_mem ht)
  have hfn : cn.fin ≤ s.n := by omega
  have han : a < s.n := by omega
  have hbl := H.bodies_le vs hv
  rw [hsrc] at hbl
  simp only [List.length_append, List.length_range, List.length_range'] at hbl
  have hroom := H.room
  have hbp := (⟨A, simd, rsqrt⟩ : Hw ℚ).batch_pad d
  have hb0 : 0 < (⟨A, simd, rsqrt⟩ : Hw ℚ).batch d := (H.fok (over := over) Q mv g).hw.batch_pos d
  obtain ⟨q, rfl⟩ : ∃ q, a = cn.beg + q := ⟨a - cn.beg, by omega⟩
  have hq : q < cn.fin - cn.beg := by omega
  rw [Nat.add_sub_cancel_left]
  have hmod := Nat.mod_lt q hb0
  have hsl : ∀ l < cn.fin - cn.beg, (s.force rsqrt over Q mv g (.fin e2)).slot cn l = mkPt d (fun j => x j (cn.beg + l)) (x d (cn.beg + l)) := by
    intro l hl
    unfold Force.slot
    rw [if_pos hl, H.pt_eq Q mv g (by omega)]
  unfold Force.total
  have hz0 : (resZero Q d : Res ℚ) = mkRes Q d 0 := resZero_eq Q d
  show ∃ c r, _ ∧ _ ∧ resAdd _ (List.foldl _ (List.foldl _ (resZero Q d) vs) _) (List.foldl _ (resZero Q d) _) = _ ∧ _
  rw [hz0, hsl q hq]
  have hout : ∀ l ∈ sources s.tree vs, l < s.n ∧ l ≠ cn.beg + q := by
    intro l hl
    rw [hsrc, List.mem_append, List.mem_range, List.mem_range'_1] at hl
    omega
  obtain ⟨r1, e1, w1⟩ := H.visits (over := over) Q mv g han hacc vs hv hout (c := 0) (by omega) (SmV.zero (u := u) (η := η) (b := b) (k := k) (d := d))
  rw [e1]
  have hbf := before'_perm ((s.force rsqrt over Q mv g (.fin e2)).hw.batch d) q
  have hbfl := hbf.length_eq
  rw [List.length_range] at hbfl
  obtain ⟨r2, e2', w2⟩ := fold_err (Q := Q) (C := C) (fun r l => selfUpd2 (s.force rsqrt over Q mv g (.fin e2)).M (.fin e2)
      ((s.force rsqrt over Q mv g (.fin e2)).slot cn l) (mkPt d (fun j => x j (cn.beg + q)) (x d (cn.beg + q))) r)
    (fun l => newt d e (fun j => x j (cn.beg + q)) (x d (cn.beg + q)) (fun j => x j (cn.beg + l)) (x d (cn.beg + l)))
    (before' ((s.force rsqrt over Q mv g (.fin e2)).hw.batch d) q) (by rw [hbfl]; omega) w1 (by
      intro l hl c S T v hc hv
      have hla : l < q := List.mem_range.1 (hbf.mem_iff.1 hl)
      rw [hsl l (by omega)]
      exact selfUpd2_err H.model H.span hvec H.fast H.soft (H.pair (cn.beg + l) (cn.beg + q) (by omega) han (by omega)) Q hc hv)
  obtain ⟨r3, e3, w3⟩ := fold_err (Q := Q) (C := C) (fun r l => selfUpd1 (s.force rsqrt over Q mv g (.fin e2)).M (.fin e2)
      (mkPt d (fun j => x j (cn.beg + q)) (x d (cn.beg + q))) ((s.force rsqrt over Q mv g (.fin e2)).slot cn l) r)
    (fun l => if l < cn.fin - cn.beg then newt d e (fun j => x j (cn.beg + q)) (x d (cn.beg + q)) (fun j => x j (cn.beg + l)) (x d (cn.beg + l)) else 0)
    (List.range' (q + 1) (cn.fin - cn.beg - (q + 1) + q % (⟨A, simd, rsqrt⟩ : Hw ℚ).batch d)) (by rw [List.length_range']; omega)
    (SmV.zero (u := u) (η := η) (b := b) (k := k) (d := d)) (by
      intro l hl c S T v hc hv
      rw [List.mem_range'_1] at hl
      by_cases hl2 : l < cn.fin - cn.beg
      · rw [hsl l hl2, if_pos hl2]
        exact selfUpd1_err H.model H.span hvec H.fast H.soft (H.pair (cn.beg + q) (cn.beg + l) han (by omega) (by omega)) Q hc hv
      · rw [if_neg hl2]
        obtain ⟨P, hP, hPi⟩ := hpad (by
          by_contra h
          have : (⟨A, simd, rsqrt⟩ : Hw ℚ).batch d = 1 := by omega
          rw [this, Nat.mod_one] at hl
          omega)
        have : (s.force rsqrt over Q mv g (.fin e2)).slot cn l = mkPt d (fun _ => P) 0 := by
          unfold Force.slot
          rw [if_neg hl2, hP, replicate_arr]
          rfl
        rw [this]
        have := selfUpd1_err H.model H.span hvec H.fast H.soft hPi Q hc hv
        rw [newt_massless] at this
        exact this)
  have hlen2 : (0 + (vs.flatMap (s.visBodies x)).length + (before' ((s.force rsqrt over Q mv g (.fin e2)).hw.batch d) q).length +
      (0 + (List.range' (q + 1) (cn.fin - cn.beg - (q + 1) + q % (⟨A, simd, rsqrt⟩ : Hw ℚ).batch d)).length) + 1) + 1 ≤ s.n + (⟨A, simd, rsqrt⟩ : Hw ℚ).pad + 1 := by
    rw [hbfl, List.length_range']; omega
  obtain ⟨r4, e4, w4⟩ := resAdd_err H.model H.span Q w2 w3 (by omega)
  refine ⟨_, r4, by omega, hlen2, (congrArg₂ (resAdd _) e2' e3).trans e4, ?_⟩
  have key : ∀ f : Nat → Val ℝ, ((before' ((s.force rsqrt over Q mv g (.fin e2)).hw.batch d) q).map (fun l => f (cn.beg + l))).sum +
      ((List.range' (q + 1) (cn.fin - cn.beg - (q + 1) + q % (⟨A, simd, rsqrt⟩ : Hw ℚ).batch d)).map (fun l => if l < cn.fin - cn.beg then f (cn.beg + l) else 0)).sum =
      (((List.range' cn.beg (cn.fin - cn.beg)).filter (· ≠ cn.beg + q)).map f).sum := by
    intro f
    rw [(hbf.map _).sum_eq]
    exact sum_self f cn.beg (cn.fin - cn.beg) q _ hq
  have k1 := key (fun l => newt d e (fun j => x j (cn.beg + q)) (x d (cn.beg + q)) (fun j => x j l) (x d l))
  have k2 := key (fun l => absV (newt d e (fun j => x j (cn.beg + q)) (x d (cn.beg + q)) (fun j => x j l) (x d l)))
  have ez : ∀ l, absV (if l < cn.fin - cn.beg then newt d e (fun j => x j (cn.beg + q)) (x d (cn.beg + q)) (fun j => x j (cn.beg + l)) (x d (cn.beg + l)) else 0) =
      if l < cn.fin - cn.beg then absV (newt d e (fun j => x j (cn.beg + q)) (x d (cn.beg + q)) (fun j => x j (cn.beg + l)) (x d (cn.beg + l))) else 0 := by
    intro l
    split
    · rfl
    · exact absV_zero
  simp only [ez] at w4
  unfold selfBodies
  rw [List.map_append, List.map_append, List.sum_append, List.sum_append, List.map_map, List.map_map]
  have j1 : (((List.range' cn.beg (cn.fin - cn.beg)).filter (· ≠ cn.beg + q)).map ((fun B : Body => newt d e (fun j => x j (cn.beg + q)) (x d (cn.beg + q)) B.1 B.2) ∘
    (fun l => (fun j => x j l, x d l)))).sum = _ := k1.symm
  have j2 : (((List.range' cn.beg (cn.fin - cn.beg)).filter (· ≠ cn.beg + q)).map ((fun B : Body => absV (newt d e (fun j => x j (cn.beg + q)) (x d (cn.beg + q)) B.1 B.2)) ∘
    (fun l => (fun j => x j l, x d l)))).sum = _ := k2.symm
  rw [j1, j2]
  simpa only [zero_add, add_assoc] using w4

/-- The bound for a result. -/
def Within (u η : ℝ) (N : Nat) (g : ℝ) (S T r : ℝ) : Prop := |r - g * S| ≤ 2 * (N * u) * (|g| * T) + (4 * N * |g| + 1) * η

/-- The multiplication by `G`. -/
theorem ErrSit.scaled {g : ℚ} (F : FlModel A u η lo hi) (hg : 3 * C * b ^ 4 * |(g : ℝ)| ≤ hi) {c : Nat} (hc : c + 1 ≤ C) {N : Nat} (hN : c + 1 + k ≤ N)
    {S T : Val ℝ} {r : Val ℚ} (hr : SmV u η b k c d S T r) :
    ∃ v, (s.force rsqrt over Q mv (.fin g) (.fin e2)).scaled (mkRes Q d r) = mkRes Q d v ∧
      (∀ j < d, Within u η N g (S.1 j) (T.1 j) (v.1 j)) ∧ Within u η N g S.2 T.2 v.2 := by
  have u0 := F.u0
  have η0 := F.η0
  have hN' : ((c + 1 + k : ℕ) : ℝ) ≤ N := by exact_mod_cast hN
  have hcN : (c : ℝ) ≤ N := by exact_mod_cast (by omega : c ≤ N)
  unfold Force.scaled
  show ∃ v, (if (Fl.fin g).eq (.fin 1) = true then mkRes Q d r else resScale A (.fin g) (mkRes Q d r)) = _ ∧ _
  by_cases h1 : (Fl.fin g).eq (.fin 1) = true
  · rw [if_pos h1]
    obtain rfl : g = 1 := by simpa [Fl.eq] using h1
    have key : ∀ {S T a : ℝ}, Sm u η (b ^ 4) k c S T a → Within u η N ((1 : ℚ) : ℝ) S T a := by
      intro S T a h
      have hT : 0 ≤ T := (abs_nonneg S).trans h.sum.abs
      have := h.error F H.span (by omega)
      unfold Within
      push_cast
      rw [abs_one, one_mul, one_mul, mul_one]
      refine this.trans ?_
      have hck : ((c + k : ℕ) : ℝ) ≤ N := by exact_mod_cast (by omega : c + k ≤ N)
      have : 2 * (((c + k : ℕ) : ℝ) * u) * T ≤ 2 * (N * u) * T := by gcongr
      have : 4 * (c : ℝ) * η ≤ (4 * N + 1) * η := by gcongr; linarith
      linarith
    exact ⟨r, rfl, fun j hj => key (hr.acc j hj), key hr.pot⟩
  · rw [if_neg h1]
    have key : ∀ {S T : ℝ} {a : ℚ}, Sm u η (b ^ 4) k c S T a → ∃ r : ℚ, A.mul (.fin a) (.fin g) = .fin r ∧ Within u η N g S T r := by
      intro S T a h
      have hT : 0 ≤ T := (abs_nonneg S).trans h.sum.abs
      obtain ⟨r, e, hr⟩ := h.scale F H.span hc hg
      refine ⟨r, e, hr.trans ?_⟩
      gcongr
    have hj : ∀ j, ∃ q : ℚ, j < d → A.mul (.fin (r.1 j)) (.fin g) = .fin q ∧ Within u η N g (S.1 j) (T.1 j) q := by
      intro j
      by_cases hj : j < d
      · obtain ⟨q, e, hq⟩ := key (hr.acc j hj)
        exact ⟨q, fun _ => ⟨e, hq⟩⟩
      · exact ⟨0, fun h => absurd h hj⟩
    choose w hw using hj
    obtain ⟨q, e, hq⟩ := key hr.pot
    refine ⟨(w, q), ?_, fun j hj => (hw j hj).2, hq⟩
    unfold resScale mkRes
    congr 1
    · by_cases hQ : Q = .pot
      · simp [hQ]
      · simp only [if_neg hQ]
        rw [map_arr]
        apply arr_ext
        intro j hj
        exact (hw j hj).1
    · by_cases hQ : Q = .acc
      · simp [hQ]
      · simp only [if_neg hQ]
        simp [e]

end

end Rakau
