import Verif.Proof.TreeSum
import Verif.Props.Rounding

/-!
Property theorems on the error of the tree code in IEEE arithmetic, compared with Newton's law in real numbers: C65.
-/
namespace Rakau
open Spec

/-- Bodies `bs` that stand for the particles `L`: the error is at most `E` times, and the size of the contributions at most `W` times a bound `q` of the contributions of the particles. -/
structure Stand (φ : Body → ℝ) (ψ q : Nat → ℝ) (E W : ℝ) (bs : List Body) (L : List Nat) : Prop where
  diff : |(bs.map φ).sum - (L.map ψ).sum| ≤ E * (L.map q).sum
  size : (bs.map (fun B => |φ B|)).sum ≤ W * (L.map q).sum

section
variable {φ : Body → ℝ} {ψ q : Nat → ℝ} {E W : ℝ} {bs bs' : List Body} {L L' : List Nat}

theorem Stand.nil : Stand φ ψ q E W [] [] := ⟨by simp, by simp⟩

theorem Stand.append (h : Stand φ ψ q E W bs L) (h' : Stand φ ψ q E W bs' L') : Stand φ ψ q E W (bs ++ bs') (L ++ L') where
  diff := by
    simp only [List.map_append, List.sum_append]
    rw [add_sub_add_comm, mul_add]
    exact (abs_add_le _ _).trans (add_le_add h.diff h'.diff)
  size := by
    simp only [List.map_append, List.sum_append]
    rw [mul_add]
    exact add_le_add h.size h'.size

/-- Particles stand for themselves. -/
theorem Stand.direct {body : Nat → Body} (hφ : ∀ l, φ (body l) = ψ l) (hE : 0 ≤ E) (hW : 1 ≤ W) (hq : ∀ l ∈ L, |ψ l| ≤ q l) : Stand φ ψ q E W (L.map body) L := by
  induction L with
  | nil => exact Stand.nil
  | cons l L ih =>
    refine Stand.append (bs := [body l]) (L := [l]) ⟨?_, ?_⟩ (ih fun l' hl' => hq l' (List.mem_cons_of_mem _ hl'))
    · have := (abs_nonneg _).trans (hq l List.mem_cons_self)
      simp only [List.map_cons, List.map_nil, List.sum_cons, List.sum_nil, add_zero, hφ, sub_self, abs_zero]
      positivity
    · have h1 := hq l List.mem_cons_self
      have h2 := (abs_nonneg _).trans h1
      simp only [List.map_cons, List.map_nil, List.sum_cons, List.sum_nil, add_zero, hφ]
      exact h1.trans (le_mul_of_one_le_left h2 hW)

end

section
variable {f : Format} {fused : Bool} {simd : Option (Simd ℚ)} {mac : Mac} {w d : Nat} {s : TS (rakauEnv (f.ieee fused) simd mac w d)} {x : Nat → Nat → ℚ}

/-- The bodies of a traversal. -/
theorem Stand.visits {φ : Body → ℝ} {ψ q : Nat → ℝ} {E W : ℝ} (hφ : ∀ l, φ (fun j => x j l, x d l) = ψ l) (hE : 0 ≤ E) (hW : 1 ≤ W) {vs : List Visit}
    (hq : ∀ l ∈ sources s.tree vs, |ψ l| ≤ q l)
    (hcom : ∀ v ∈ vs, ∀ i, v.ev = some (.com i) → ∃ hi : i < s.tree.length,
      |φ (s.cx i, s.cm i) - ∑ l ∈ Finset.Ico s.tree[i].beg s.tree[i].fin, ψ l| ≤ E * ∑ l ∈ Finset.Ico s.tree[i].beg s.tree[i].fin, q l ∧
        |φ (s.cx i, s.cm i)| ≤ W * ∑ l ∈ Finset.Ico s.tree[i].beg s.tree[i].fin, q l) :
    Stand φ ψ q E W (vs.flatMap (s.visBodies x)) (sources s.tree vs) := by
  induction vs with
  | nil => exact Stand.nil
  | cons v vs ih =>
    have e1 : sources s.tree (v :: vs) = sources s.tree [v] ++ sources s.tree vs := by unfold sources; simp
    rw [e1] at hq ⊢
    rw [List.flatMap_cons]
    refine Stand.append ?_ (ih (fun l hl => hq l (List.mem_append_right _ hl)) fun v' hv' => hcom v' (List.mem_cons_of_mem _ hv'))
    have hq1 : ∀ l ∈ sources s.tree [v], |ψ l| ≤ q l := fun l hl => hq l (List.mem_append_left _ hl)
    have hc1 := hcom v List.mem_cons_self
    cases hev : v.ev with
    | none =>
      have e2 : sources s.tree [v] = [] := by unfold sources; simp [hev]
      have e3 : s.visBodies x v = [] := by unfold TS.visBodies; rw [hev]
      rw [e2, e3]
      exact Stand.nil
    | some ev =>
      have e2 : sources s.tree [v] = ev.particles s.tree := by unfold sources; simp [hev]
      rw [e2] at hq1 ⊢
      cases ev with
      | com i =>
        obtain ⟨hi, a1, a2⟩ := hc1 i hev
        have e3 : s.visBodies x v = [(s.cx i, s.cm i)] := by unfold TS.visBodies; rw [hev]
        rw [e3, Ev.particles_com hi]
        refine ⟨?_, ?_⟩
        · rw [range'_sum, range'_sum]
          simpa using a1
        · rw [range'_sum]
          simpa using a2
      | leaf i =>
        have e3 : s.visBodies x v = ((Ev.leaf i).particles s.tree).map (fun l => (fun j => x j l, x d l)) := by unfold TS.visBodies; rw [hev]
        rw [e3]
        exact Stand.direct hφ hE hW hq1

end

theorem others_sum {n k : Nat} (g : Nat → ℝ) : (((List.range n).filter (· ≠ k)).map g).sum = ∑ l ∈ (Finset.range n).erase k, g l := by
  rw [← List.sum_toFinset _ (List.nodup_range.filter _)]
  apply Finset.sum_congr _ fun _ _ => rfl
  ext l
  simp [and_comm]

section
variable {f : Format} {fused : Bool} {simd : Option (Simd ℚ)} {mac : Mac} {w d : Nat} {s : TS (rakauEnv (f.ieee fused) simd mac w d)}
  {x : Nat → Nat → ℚ} {b : ℝ} {B t eps : ℚ} (T : BoxIn s x b B t eps)
include T

/-- The parameters pass the checks. -/
theorem BoxIn.params (hf : f.Std) (hd : 0 < d) {κ' K C : Nat} (R : Span f.unit f.tiny f.minNormal ((2 ^ (f.emax - 1) : ℚ) : ℝ) b d κ' K C) (he : 0 ≤ eps) (g : ℚ) :
    ∃ mv e2 : ℚ, macValue (f.ieee fused) mac (.fin t) = .fin mv ∧ (f.ieee fused).mul (.fin eps) (.fin eps) = .fin e2 ∧
      checkParams (f.ieee fused) mac (.fin t) (.fin g) (.fin eps) = .ok (.fin mv, .fin e2) := by
  have F := Format.ieee_model hf fused
  have b1 := R.b1
  have hlo := Span.lo_le F R
  have hhi := Span.hi_ge R
  have ht := T.theta
  have t0 := ht.pos b1
  have htt := ht.mul b1 ht
  have n1 : Near (f.unit : ℝ) 0 (1 : ℝ) ((1 : ℚ) : ℝ) := by rw [Rat.cast_one]; exact Near.refl F.u0 F.lt1 0 1
  have nt : Near (f.unit : ℝ) 0 (t : ℝ) t := Near.refl F.u0 F.lt1 0 _
  obtain ⟨mv, h1, h2⟩ : ∃ mv : ℚ, macValue (f.ieee fused) mac (.fin t) = .fin mv ∧ (0 : ℝ) < mv := by
    unfold macValue
    have i1 := htt.mono b1 (show 1 + 1 ≤ 4 by omega)
    cases mac with
    | bh =>
      obtain ⟨t2, q1, q2⟩ := mulR F hlo hhi b1 (by omega) nt nt i1.low i1.high
      have i2 := (htt.inv b1).mono b1 (show 1 + 1 ≤ 4 by omega)
      obtain ⟨m, q3, q4⟩ := divR F hlo hhi b1 (by omega) n1 q2 (htt.pos b1).ne' i2.low i2.high
      exact ⟨m, by simp only; rw [q1, q3], (near_rng F hlo hhi b1 (by omega) q4 i2.low i2.high).2.2⟩
    | bhGeom =>
      have i2 := (ht.inv b1).mono b1 (show 1 ≤ 4 by omega)
      obtain ⟨m, q3, q4⟩ := divR F hlo hhi b1 (by omega) n1 nt t0.ne' i2.low i2.high
      exact ⟨m, q3, (near_rng F hlo hhi b1 (by omega) q4 i2.low i2.high).2.2⟩
  have hsq : (eps : ℝ) ^ 2 ≤ b ^ 2 := by rw [← sq_abs]; have := T.eps_le hd; gcongr
  obtain ⟨e2, e1, e0, _⟩ := soft_ok F R hsq
  have h2 : 0 < mv := by exact_mod_cast h2
  have t0 : 0 < t := by exact_mod_cast t0
  refine ⟨mv, e2, h1, e1, ?_⟩
  unfold checkParams computeEps2 checkG
  rw [h1, e1]
  simp [Fl.isFinite, Fl.le, Fl.lt, not_le.2 t0, not_le.2 h2, not_lt.2 he, not_lt.2 e0, bind, Except.bind]

/-- The padding: its coordinate is a number, in range. -/
theorem BoxIn.padding (hf : f.Std) (hs : Supported w d) (h : Reach _ s) (hx : IsData d s.n s.parts x) {κ' K C : Nat}
    (R : Span f.unit f.tiny f.minNormal ((2 ^ (f.emax - 1) : ℚ) : ℝ) b d κ' K C) {mv : ℚ} (hmv : macValue (f.ieee fused) mac (.fin t) = .fin mv)
    {rsqrt : Option (Fl ℚ → Fl ℚ)} {over : Overshift} {Q : Quant} {g e2 : Fl ℚ} :
    ∃ P : ℚ, (s.force rsqrt over Q (.fin mv) g e2).padCoord = .fin P ∧ (f.ieee fused).Repr P ∧ ∀ k < s.n,
      1 ≤ b ^ 2 * (∑ j ∈ Finset.range d, ((P : ℝ) - x j k) ^ 2 + (eps : ℝ) ^ 2) ∧ ∑ j ∈ Finset.range d, ((P : ℝ) - x j k) ^ 2 + (eps : ℝ) ^ 2 ≤ b ^ 2 := by
  have F := Format.ieee_model hf fused
  have hd := hs.dim
  have B0 := T.box0
  have t0 := T.theta.pos R.b1
  obtain ⟨P, p1, p2, p3⟩ := T.pad_val hf hs R hmv (rsqrt := rsqrt) (over := over) (Q := Q) (g := g) (e2 := e2)
  refine ⟨P, p1, p2, ?_⟩
  have d1 : (1 : ℝ) ≤ d := by exact_mod_cast hd.1
  have sd : 0 < √(d : ℝ) := Real.sqrt_pos.2 (by linarith)
  set q := (B : ℝ) / (t * √(d : ℝ)) with hq
  have q0 : 0 < q := by positivity
  have hH : q + B / 2 ≤ padHalf mac B t d ∧ padHalf mac B t d ≤ q + B := by
    unfold padHalf
    cases mac <;> constructor <;> simp only <;> linarith
  obtain ⟨w1, _, _⟩ := p3.within F.u0 F.lt1 (by have := F.u1; norm_num; linarith)
  rw [abs_of_pos (show 0 < 2 * padHalf mac B t d by linarith [hH.1])] at w1
  have u1 := F.u1
  have w2 : 2 * (((10 : ℕ) : ℝ) * f.unit) * (2 * padHalf mac B t d) ≤ 20 / 1024 * (2 * padHalf mac B t d) := by
    apply mul_le_mul_of_nonneg_right _ (by linarith [hH.1])
    push_cast
    linarith
  have w3 := abs_le.1 (w1.trans w2)
  intro k hk
  have hlow : ∀ j < d, B / 4 ≤ (P : ℝ) - x j k := by
    intro j hj
    have := (abs_le.1 (T.coord hf hs h hx hk hj)).2
    linarith [hH.1]
  have hhigh : ∀ j < d, (P : ℝ) - x j k ≤ 41 / 20 * q + 64 / 25 * B := by
    intro j hj
    have := (abs_le.1 (T.coord hf hs h hx hk hj)).1
    linarith [hH.2]
  constructor
  · have h1 : ((B : ℝ) / 4) ^ 2 ≤ ∑ j ∈ Finset.range d, ((P : ℝ) - x j k) ^ 2 := by
      refine le_trans ?_ (Finset.single_le_sum (f := fun j => ((P : ℝ) - x j k) ^ 2) (fun j _ => sq_nonneg _) (Finset.mem_range.2 hd.1))
      exact pow_le_pow_left₀ (by positivity) (hlow 0 hd.1) 2
    have h2 : 1 ≤ (b * (B / 4)) ^ 2 := one_le_pow₀ (by have := T.box_ge; linarith)
    rw [mul_pow] at h2
    refine h2.trans (mul_le_mul_of_nonneg_left ?_ (sq_nonneg b))
    linarith [sq_nonneg (eps : ℝ)]
  · have h1 : ∑ j ∈ Finset.range d, ((P : ℝ) - x j k) ^ 2 ≤ d * (41 / 20 * q + 64 / 25 * B) ^ 2 := by
      apply sum_sq_le (v := fun j => (P : ℝ) - x j k)
      intro j hj
      rw [abs_of_nonneg (by linarith [hlow j hj])]
      exact hhigh j hj
    have h2 : (41 / 20 * q + 64 / 25 * (B : ℝ)) ^ 2 ≤ 9 * q ^ 2 + 17 * (B : ℝ) ^ 2 := by nlinarith [sq_nonneg (41 / 20 * q - 64 / 25 * (B : ℝ))]
    have h3 : (d : ℝ) * q ^ 2 = (B / t) ^ 2 := by
      rw [hq, div_pow, mul_pow, Real.sq_sqrt (by linarith)]
      field_simp
    have h4 := mul_le_mul_of_nonneg_left h2 (show (0 : ℝ) ≤ d by linarith)
    have h5 := T.far
    linarith

omit T in
/-- From bodies to particles: a result close to the contributions of bodies `bs` that stand for the other particles `L` is close to that of Newton's law. -/
theorem TreeIn.newton {κ ρ : ℝ} (T : TreeIn s x b B t eps κ ρ) (hf : f.Std) (hS : ∀ S, simd = some S → S.Adds (f.ieee fused)) (hs : Supported w d) (h : Reach _ s) (hz : s.n * cbits w d < 2 ^ 64)
    (hx : IsData d s.n s.parts x) (hlo : 16 * (f.minNormal : ℝ) * b ^ 4 ≤ 1) {k : Nat} (hk : k < s.n) {bs : List Body} {L : List Nat} (hL : L.Perm ((List.range s.n).filter (· ≠ k)))
    (hst : ∀ {φ : Body → ℝ} {ψ q : Nat → ℝ} {E W : ℝ}, (∀ l, φ (fun j => x j l, x d l) = ψ l) → 0 ≤ E → 1 ≤ W → (∀ l ∈ L, |ψ l| ≤ q l) →
      (∀ i (hi : i < s.tree.length), (∀ l, s.tree[i].beg ≤ l → l < s.tree[i].fin → l ≠ k) →
        1 ≤ b ^ 2 * D2 d ((eps : ℝ) ^ 2) (fun j => (x j k : ℝ)) (fun j => (s.cx i j : ℝ)) →
        (B : ℝ) / 2 ^ s.tree[i].level ≤ t * (1 + (d + 14 : ℕ) * f.unit) * √(D2 d ((eps : ℝ) ^ 2) (fun j => (x j k : ℝ)) (fun j => (s.cx i j : ℝ))) →
        |φ (s.cx i, s.cm i) - ∑ l ∈ Finset.Ico s.tree[i].beg s.tree[i].fin, ψ l| ≤ E * ∑ l ∈ Finset.Ico s.tree[i].beg s.tree[i].fin, q l ∧
          |φ (s.cx i, s.cm i)| ≤ W * ∑ l ∈ Finset.Ico s.tree[i].beg s.tree[i].fin, q l) → Stand φ ψ q E W bs L)
    {g : ℚ} {v : Val ℚ} {N : Nat}
    (hacc : ∀ j < d, Within f.unit f.tiny N g ((bs.map (fun B => accelBy d ((eps : ℝ) ^ 2) (fun j => (x j k : ℝ)) (fun j => (B.1 j : ℝ)) B.2 j)).sum)
      ((bs.map (fun B => |accelBy d ((eps : ℝ) ^ 2) (fun j => (x j k : ℝ)) (fun j => (B.1 j : ℝ)) B.2 j|)).sum) (v.1 j))
    (hpot : Within f.unit f.tiny N g ((bs.map (fun B => energyBy d ((eps : ℝ) ^ 2) (fun j => (x j k : ℝ)) (x d k) (fun j => (B.1 j : ℝ)) B.2)).sum)
      ((bs.map (fun B => |energyBy d ((eps : ℝ) ^ 2) (fun j => (x j k : ℝ)) (x d k) (fun j => (B.1 j : ℝ)) B.2|)).sum) v.2) :
    (∀ j < d, |(v.1 j : ℝ) - g * ∑ l ∈ (Finset.range s.n).erase k, accelBy d ((eps : ℝ) ^ 2) (fun j => (x j k : ℝ)) (fun j => (x j l : ℝ)) (x d l) j| ≤
      ((accErr κ + (3 * d + 1) * ρ + 2 * ((s.n + lanes simd d : ℕ) * f.unit)) * (1 + κ) ^ 2 + 4 * (1 + κ) ^ 2 * (N * f.unit)) *
        (|(g : ℝ)| * ∑ l ∈ (Finset.range s.n).erase k, (x d l : ℝ) / (∑ j ∈ Finset.range d, ((x j l : ℝ) - x j k) ^ 2 + (eps : ℝ) ^ 2)) +
      (4 * N * |(g : ℝ)| + 1) * f.tiny) ∧
    |(v.2 : ℝ) - g * ∑ l ∈ (Finset.range s.n).erase k, energyBy d ((eps : ℝ) ^ 2) (fun j => (x j k : ℝ)) (x d k) (fun j => (x j l : ℝ)) (x d l)| ≤
      ((κ ^ 2 / (1 - κ) + d * ρ + 2 * ((s.n + lanes simd d : ℕ) * f.unit)) * (1 + κ) + 4 * (1 + κ) * (N * f.unit)) *
        (|(g : ℝ)| * ∑ l ∈ (Finset.range s.n).erase k, (x d k : ℝ) * (x d l / √(∑ j ∈ Finset.range d, ((x j l : ℝ) - x j k) ^ 2 + (eps : ℝ) ^ 2))) +
      (4 * N * |(g : ℝ)| + 1) * f.tiny := by
  have u0 := (Format.ieee_model hf fused).u0
  have hmem : ∀ l ∈ L, l < s.n ∧ l ≠ k := by
    intro l hl
    rw [hL.mem_iff, List.mem_filter, List.mem_range, decide_eq_true_eq] at hl
    exact hl
  have hD0 : ∀ l, l < s.n → l ≠ k → 0 < D2 d ((eps : ℝ) ^ 2) (fun j => (x j k : ℝ)) (fun j => (x j l : ℝ)) := by
    intro l hl hlk
    have h1 : 1 ≤ b ^ 2 * D2 d ((eps : ℝ) ^ 2) (fun j => (x j k : ℝ)) (fun j => (x j l : ℝ)) := T.near k l hk hl (Ne.symm hlk)
    by_contra hc
    have := mul_nonpos_of_nonneg_of_nonpos (sq_nonneg b) (not_lt.1 hc)
    linarith
  have hκ0 := T.kappa0
  have hκ1 := T.kappa1
  have ρ0 := T.rho
  have hN0 : 0 ≤ (N : ℝ) * (f.unit : ℝ) := by positivity
  have hν0 : 0 ≤ ((s.n + lanes simd d : ℕ) : ℝ) * (f.unit : ℝ) := by positivity
  have hsum : ∀ ψ : Nat → ℝ, (L.map ψ).sum = ∑ l ∈ (Finset.range s.n).erase k, ψ l := by
    intro ψ
    rw [(hL.map ψ).sum_eq, others_sum]
  -- from the bodies to the particles
  have comb : ∀ {φ : Body → ℝ} {ψ q : Nat → ℝ} {E W N r : ℝ} {n : Nat}, Stand φ ψ q E W bs L → N = n * f.unit → 0 ≤ N → 
      Within f.unit f.tiny n g ((bs.map φ).sum) ((bs.map (fun B => |φ B|)).sum) r →
      |r - g * ∑ l ∈ (Finset.range s.n).erase k, ψ l| ≤ (E + 2 * W * N) * (|(g : ℝ)| * ∑ l ∈ (Finset.range s.n).erase k, q l) + (4 * n * |(g : ℝ)| + 1) * f.tiny := by
    intro φ ψ q E W N r n hst hN hN0 hw
    have h1 := hst.diff
    have h2 := hst.size
    rw [hsum ψ, hsum q] at h1
    rw [hsum q] at h2
    unfold Within at hw
    rw [← hN] at hw
    set S := (bs.map φ).sum
    set T' := (bs.map (fun B => |φ B|)).sum
    have g0 := abs_nonneg (g : ℝ)
    have e1 : r - g * ∑ l ∈ (Finset.range s.n).erase k, ψ l = (r - g * S) + g * (S - ∑ l ∈ (Finset.range s.n).erase k, ψ l) := by ring
    rw [e1]
    refine (abs_add_le _ _).trans ?_
    rw [abs_mul]
    have h3 := mul_le_mul_of_nonneg_left h1 g0
    have h4 := mul_le_mul_of_nonneg_left h2 (mul_nonneg (mul_nonneg zero_le_two hN0) g0)
    linarith
  refine ⟨?_, ?_⟩
  · intro j hj
    have hEa : 0 ≤ (accErr κ + (3 * d + 1) * ρ + 2 * ((s.n + lanes simd d : ℕ) * (f.unit : ℝ))) * (1 + κ) ^ 2 := by
      have := accErr_nonneg hκ1
      positivity
    have hWa : 1 ≤ 2 * (1 + κ) ^ 2 := by nlinarith
    have hq : ∀ l ∈ L,
        |accelBy d ((eps : ℝ) ^ 2) (fun j => (x j k : ℝ)) (fun j => (x j l : ℝ)) (x d l) j| ≤ (x d l : ℝ) / D2 d ((eps : ℝ) ^ 2) (fun j => (x j k : ℝ)) (fun j => (x j l : ℝ)) := by
      intro l hl
      obtain ⟨l1, l2⟩ := hmem l hl
      have h0 := hD0 l l1 l2
      have hs0 := Real.sqrt_pos.2 h0
      have hdl : |(x j l : ℝ) - x j k| ≤ √(D2 d ((eps : ℝ) ^ 2) (fun j => (x j k : ℝ)) (fun j => (x j l : ℝ))) := diff_le (y := fun j => (x j k : ℝ)) (z := fun j => (x j l : ℝ)) (sq_nonneg _) hj
      show |(x d l : ℝ) * (x j l - x j k) / √(D2 d ((eps : ℝ) ^ 2) (fun j => (x j k : ℝ)) (fun j => (x j l : ℝ))) ^ 3| ≤ _
      have e1 := Real.sq_sqrt h0.le
      set r := √(D2 d ((eps : ℝ) ^ 2) (fun j => (x j k : ℝ)) (fun j => (x j l : ℝ)))
      have m0 := T.mass_pos l1
      rw [← e1, abs_div, abs_mul, abs_of_pos m0, abs_of_pos (pow_pos hs0 3), div_le_div_iff₀ (by positivity) (by positivity)]
      have := mul_le_mul_of_nonneg_left hdl (show 0 ≤ (x d l : ℝ) * r ^ 2 by positivity)
      have e2 : (x d l : ℝ) * r ^ 3 = x d l * r ^ 2 * r := by ring
      rw [e2]
      linarith
    have hst := hst (φ := fun B => accelBy d ((eps : ℝ) ^ 2) (fun j => (x j k : ℝ)) (fun j => (B.1 j : ℝ)) B.2 j)
      (ψ := fun l => accelBy d ((eps : ℝ) ^ 2) (fun j => (x j k : ℝ)) (fun j => (x j l : ℝ)) (x d l) j)
      (q := fun l => (x d l : ℝ) / D2 d ((eps : ℝ) ^ 2) (fun j => (x j k : ℝ)) (fun j => (x j l : ℝ))) (fun l => rfl) hEa hWa hq
      (fun i hi d1 d2 d3 => (T.com_err hf hS hs h hz hx hlo hk hi d1 d2 d3).1 j hj)
    have := comb hst rfl hN0 (hacc j hj)
    refine this.trans (le_of_eq ?_)
    unfold D2
    ring
  · have hEp : 0 ≤ (κ ^ 2 / (1 - κ) + d * ρ + 2 * ((s.n + lanes simd d : ℕ) * (f.unit : ℝ))) * (1 + κ) := by
      have : 0 < 1 - κ := by linarith
      positivity
    have hWp : 1 ≤ 2 * (1 + κ) := by linarith
    have hq : ∀ l ∈ L,
        |energyBy d ((eps : ℝ) ^ 2) (fun j => (x j k : ℝ)) (x d k) (fun j => (x j l : ℝ)) (x d l)| ≤
          (x d k : ℝ) * (x d l / √(D2 d ((eps : ℝ) ^ 2) (fun j => (x j k : ℝ)) (fun j => (x j l : ℝ)))) := by
      intro l hl
      obtain ⟨l1, l2⟩ := hmem l hl
      have m0 := T.mass_pos l1
      have m1 := T.mass_pos hk
      show |-((x d k : ℝ) * x d l / √(D2 d ((eps : ℝ) ^ 2) (fun j => (x j k : ℝ)) (fun j => (x j l : ℝ))))| ≤ _
      rw [abs_neg, abs_of_nonneg (by positivity), mul_div_assoc]
    have hst := hst (φ := fun B => energyBy d ((eps : ℝ) ^ 2) (fun j => (x j k : ℝ)) (x d k) (fun j => (B.1 j : ℝ)) B.2)
      (ψ := fun l => energyBy d ((eps : ℝ) ^ 2) (fun j => (x j k : ℝ)) (x d k) (fun j => (x j l : ℝ)) (x d l))
      (q := fun l => (x d k : ℝ) * (x d l / √(D2 d ((eps : ℝ) ^ 2) (fun j => (x j k : ℝ)) (fun j => (x j l : ℝ))))) (fun l => rfl) hEp hWp hq
      (fun i hi d1 d2 d3 => (T.com_err hf hS hs h hz hx hlo hk hi d1 d2 d3).2)
    have := comb hst rfl hN0 hpot
    refine this.trans (le_of_eq ?_)
    unfold D2
    ring

omit T in
/-- C65: the results of the tree code in IEEE arithmetic (any format, either acceptance criterion, with or without vector kernels and estimates of inverse square roots), for positive masses and data in range.
Every component of the acceleration differs from that of Newton's law in real numbers (summed over all the other particles) by at most a constant times the sum `∑ m / r²`, and the potential energy by at most a
constant times the sum `m ∑ m' / r`. The constants have a part of second order in `κ ≈ √d · θ` (the approximation), and a part proportional to rounding errors. -/
theorem C65_tree {κ ρ : ℝ} (T : TreeIn s x b B t eps κ ρ) (hf : f.Std) (hS : ∀ S, simd = some S → S.Adds (f.ieee fused)) (hs : Supported w d) (h : Reach _ s) (hz : s.n * cbits w d < 2 ^ 64)
    {rsqrt : Option (Fl ℚ → Fl ℚ)} {over : Overshift} (ho : over.Small) (hr : s.n + (⟨f.ieee fused, simd, rsqrt⟩ : Hw ℚ).pad < 2 ^ 64)
    (hx : IsData d s.n s.parts x) (hrep : ∀ j < d, ∀ k < s.n, (f.ieee fused).Repr (x j k))
    {κ' K : Nat} (R : Span f.unit f.tiny f.minNormal ((2 ^ (f.emax - 1) : ℚ) : ℝ) b d κ' K (s.n + (⟨f.ieee fused, simd, rsqrt⟩ : Hw ℚ).pad + 2))
    (he : 0 ≤ eps) {g : ℚ} (hg : 3 * (s.n + (⟨f.ieee fused, simd, rsqrt⟩ : Hw ℚ).pad + 2 : ℕ) * b ^ 4 * |(g : ℝ)| ≤ ((2 ^ (f.emax - 1) : ℚ) : ℝ))
    (hest : ∀ r, ((⟨f.ieee fused, simd, rsqrt⟩ : Hw ℚ).mode d).fast = some r → EstimateOk f.unit b κ' r)
    (Q : Quant) {split : List (Fl ℚ)} (hsp : checkSplit split = .ok ()) (ordered : Bool) {order : List Nat} (hord : order.Perm (List.range s.crit.length))
    {out : List (Res ℚ)} (hout : out.length = s.n) :
    ∃ out', s.accPot rsqrt over Q ordered (.fin t) (.fin g) (.fin eps) split order out = .ok out' ∧
      ∀ k < s.n, ∃ i v, (if ordered then s.perm[k]? else some k) = some i ∧ out'[i]? = some (mkRes Q d v) ∧
        (∀ j < d, |(v.1 j : ℝ) - g * ∑ l ∈ (Finset.range s.n).erase k, accelBy d ((eps : ℝ) ^ 2) (fun j => (x j k : ℝ)) (fun j => (x j l : ℝ)) (x d l) j| ≤
          ((accErr κ + (3 * d + 1) * ρ + 2 * ((s.n + lanes simd d : ℕ) * f.unit)) * (1 + κ) ^ 2 +
              4 * (1 + κ) ^ 2 * ((s.n + (⟨f.ieee fused, simd, rsqrt⟩ : Hw ℚ).pad + 1 + K : ℕ) * f.unit)) *
            (|(g : ℝ)| * ∑ l ∈ (Finset.range s.n).erase k, (x d l : ℝ) / (∑ j ∈ Finset.range d, ((x j l : ℝ) - x j k) ^ 2 + (eps : ℝ) ^ 2)) +
          (4 * (s.n + (⟨f.ieee fused, simd, rsqrt⟩ : Hw ℚ).pad + 1 + K : ℕ) * |(g : ℝ)| + 1) * f.tiny) ∧
        |(v.2 : ℝ) - g * ∑ l ∈ (Finset.range s.n).erase k, energyBy d ((eps : ℝ) ^ 2) (fun j => (x j k : ℝ)) (x d k) (fun j => (x j l : ℝ)) (x d l)| ≤
          ((κ ^ 2 / (1 - κ) + d * ρ + 2 * ((s.n + lanes simd d : ℕ) * f.unit)) * (1 + κ) +
              4 * (1 + κ) * ((s.n + (⟨f.ieee fused, simd, rsqrt⟩ : Hw ℚ).pad + 1 + K : ℕ) * f.unit)) *
            (|(g : ℝ)| * ∑ l ∈ (Finset.range s.n).erase k, (x d k : ℝ) * (x d l / √(∑ j ∈ Finset.range d, ((x j l : ℝ) - x j k) ^ 2 + (eps : ℝ) ^ 2))) +
          (4 * (s.n + (⟨f.ieee fused, simd, rsqrt⟩ : Hw ℚ).pad + 1 + K : ℕ) * |(g : ℝ)| + 1) * f.tiny := by
  have F := Format.ieee_model hf fused
  have u0 := F.u0
  have b1 := R.b1
  have hd := hs.dim.1
  have hlo := Span.lo_le F R
  have hSp : SimdPos simd := fun S e => (hS S e).pos
  obtain ⟨mv, e2, hmv, _, hp⟩ := T.params hf hd R he g
  obtain ⟨P, hP, hPr, hPd⟩ := T.padding hf hs h hx R hmv (rsqrt := rsqrt) (over := over) (Q := Q) (g := .fin g) (e2 := .fin e2)
  obtain ⟨ht1, ht2⟩ := crit_tiling (rakauEnv_ok (f.ieee fused) simd mac hs) h hz
  have hseen := fun cn (hcn : cn ∈ s.crit) k (k1 : cn.beg ≤ k) (k2 : k < cn.fin) i (hi : i < s.tree.length) =>
    T.seen hf hS hs h hz hx hrep R hmv (rsqrt := rsqrt) (over := over) (Q := Q) (g := .fin g) (e2 := .fin e2) (ht1 cn hcn).2 k1 k2 hi
  obtain ⟨out', o1, o2⟩ := C61_tree hf hSp hs h hz ho hr hx hrep R hp (T.eps_le hd) hg
    (fun k l hk hl hkl => ⟨T.near k l hk hl hkl, T.far_node hf hs h hx (c := fun j => (x j l : ℝ)) (fun j hj => by
      have := T.coord hf hs h hx hl hj
      have := T.box0
      linarith) hk⟩)
    (fun k hk => ⟨.inr (by have := T.mass k hk; rw [pow_one, abs_of_pos (T.mass_pos hk)]; linarith), by rw [pow_one, abs_of_pos (T.mass_pos hk)]; exact T.mass_le hk⟩)
    hest Q (fun cn hcn k k1 k2 i hi ha => (hseen cn hcn k k1 k2 i hi ha).1) hP (fun _ => ⟨hPr, hPd⟩) hsp ordered hord hout
  refine ⟨out', o1, ?_⟩
  intro k hk
  obtain ⟨c, ⟨hc, k1, k2⟩, _⟩ := ht2 k hk
  have hcm := List.getElem_mem hc
  generalize s.crit[c] = cn at k1 k2 hcm
  obtain ⟨vs, v1, v2, v3⟩ := o2 cn hcm
  obtain ⟨i, v, i1, i2, hacc, hpot⟩ := v3 k k1 k2
  obtain ⟨t', vs', _, _, _, _, hv, _, htr, _, _⟩ := node_val hSp hs h hz ho hr Q (.fin mv) (.fin g) (.fin e2) hcm
  obtain rfl : vs = vs' := by
    rw [v1] at htr
    simpa using htr
  have hperm := others_perm k1 k2 (ht1 cn hcm).2
  have hmem : ∀ l ∈ sources s.tree vs ++ (List.range' cn.beg (cn.fin - cn.beg)).filter (· ≠ k), l < s.n ∧ l ≠ k := by
    intro l hl
    rw [v2, hperm.mem_iff, List.mem_filter, List.mem_range, decide_eq_true_eq] at hl
    exact hl
  have hcomm : ∀ v ∈ vs, ∀ i, v.ev = some (.com i) → ∃ hi : i < s.tree.length, (∀ l, s.tree[i].beg ≤ l → l < s.tree[i].fin → l ≠ k) ∧
      1 ≤ b ^ 2 * D2 d ((eps : ℝ) ^ 2) (fun j => (x j k : ℝ)) (fun j => (s.cx i j : ℝ)) ∧
      (B : ℝ) / 2 ^ s.tree[i].level ≤ t * (1 + (d + 14 : ℕ) * f.unit) * √(D2 d ((eps : ℝ) ^ 2) (fun j => (x j k : ℝ)) (fun j => (s.cx i j : ℝ))) := by
    intro v' hv' i hev
    obtain ⟨rfl, ha⟩ := (hv v' hv').com i hev
    have hi := (hv v' hv').idx
    obtain ⟨hn, hdim⟩ := hseen cn hcm k k1 k2 _ hi ha
    have hsub : ∀ l, s.tree[v'.idx].beg ≤ l → l < s.tree[v'.idx].fin → l ≠ k := by
      intro l l1 l2
      refine (hmem l (List.mem_append_left _ ?_)).2
      unfold sources
      rw [List.mem_flatMap]
      refine ⟨v', hv', ?_⟩
      rw [hev]
      simp only
      rw [Ev.particles_com hi, List.mem_range'_1]
      omega
    exact ⟨hi, hsub, hn.2.near, hdim⟩
  exact ⟨i, v, i1, i2, T.newton hf hS hs h hz hx hlo hk (L := sources s.tree vs ++ (List.range' cn.beg (cn.fin - cn.beg)).filter (· ≠ k)) (by rw [v2]; exact hperm)
    (fun h1 h2 h3 h4 h5 => (Stand.visits (s := s) (x := x) h1 h2 h3 (fun l hl => h4 l (List.mem_append_left _ hl)) (fun v' hv' i hev => by
      obtain ⟨hi, d1, d2, d3⟩ := hcomm v' hv' i hev
      exact ⟨hi, h5 i hi d1 d2 d3⟩)).append (Stand.direct (L := (List.range' cn.beg (cn.fin - cn.beg)).filter (· ≠ k))
        (body := fun l => ((fun j => x j l, x d l) : Body)) h1 h2 h3 (fun l hl => h4 l (List.mem_append_right _ hl)))) hacc hpot⟩

end


/-! ### An example -/

@[reducible] def farEnv : Env := rakauEnv (binary64.ieee true) (some avx64) .bh 32 3

/-- Particles at (-30, -30, -30), (22, 22, 22), (20, 20, 20) with masses 1, 65, 3, in a box of size 64. -/
def farInp : Input farEnv := ⟨some (.fin 64), 1, 1, [[-30, 22, 20], [-30, 22, 20], [-30, 22, 20], [1, 65, 3]].map (·.map .fin)⟩

def farS : TS farEnv := okOr farInp.exec (TS.default _)

theorem farS_reach : Reach _ farS := reach_exec _ rfl (by decide +kernel) (by decide +kernel)

def farX (j k : Nat) : ℚ := if j = 3 then [1, 3, 65].getD k 0 else [-30, 20, 22].getD k 0

theorem far_data : IsData 3 3 farS.parts farX := isData_of_eq (by decide +kernel)

theorem far_n : farS.n = 3 := by decide +kernel

theorem avx64_adds : Simd.Adds (binary64.ieee true) avx64 := ⟨by decide, fun l h => ⟨_, h.le, addsUp_foldl _ l⟩⟩

set_option exponentiation.threshold 2000 in
theorem far_hi : (((2 ^ (binary64.emax - 1) : ℚ)) : ℝ) = 2 ^ 1023 := by
  unfold binary64
  push_cast
  norm_num

theorem unit64 : ((binary64.unit : ℚ) : ℝ) = (1 / 2) ^ 53 := by
  unfold Format.unit binary64
  push_cast
  norm_num

set_option exponentiation.threshold 2000 in
theorem far_in : TreeIn farS farX (2 ^ 200) 64 (1 / 16) 0 (1 / 9) ((1 / 2) ^ 30) where
  box := by decide +kernel
  cell := by rw [show cbits 32 3 = 10 by decide]; norm_num
  step := by rw [show cbits 32 3 = 10 by decide]; norm_num
  theta := by constructor <;> norm_num
  nodes := by
    rw [far_n, far_hi, unit64]
    have : ((binary64.minNormal : ℚ) : ℝ) = 2⁻¹ ^ 1022 := by
      unfold Format.minNormal binary64
      push_cast
      norm_num
    rw [this]
    constructor <;> norm_num [lanes, avx64]
  errs := by rw [far_n, unit64]; norm_num [lanes, avx64]
  mass := by rw [far_n]; intro k hk; interval_cases k <;> norm_num [farX]
  total := by rw [far_n]; norm_num [Finset.sum_range_succ, farX]
  far := by norm_num
  near := by
    rw [far_n]
    intro k l hk hl hkl
    interval_cases k <;> interval_cases l <;> first | exact absurd rfl hkl | norm_num [Finset.sum_range_succ, farX]
  sep := by
    rw [far_n, unit64]
    intro k l hk hl hkl
    interval_cases k <;> interval_cases l <;> first | exact absurd rfl hkl | norm_num [Finset.sum_range_succ, farX, lanes, avx64]
  rho := by norm_num
  kappa0 := by norm_num
  kappa1 := by norm_num
  kappa := by rw [unit64]; norm_num

set_option exponentiation.threshold 2000 in
/-- C65 in double precision with AVX, `θ = 1/16` and `G = 3`: the node of the second and third particle is used as a whole for the first one, and its acceleration is within 20% of the contributions of Newton's law. -/
example : (farS.force none (maskedShift 32) .acc (.fin 256) (.fin 3) (.fin 0)).accepts 1 ((farS.force none (maskedShift 32) .acc (.fin 256) (.fin 3) (.fin 0)).slot ⟨8, 0, 1⟩) 5 = true ∧
    farS.tree[5]? = some ⟨1, 3, 2, 8135, 4⟩ ∧
    ∃ (out' : List (Res ℚ)) (v : Val ℚ), farS.accPot none (maskedShift 32) .acc false (.fin (1 / 16)) (.fin 3) (.fin 0) [] [2, 0, 1] (List.replicate 3 ⟨[], []⟩) = .ok out' ∧ out'[0]? = some (mkRes .acc 3 v) ∧
      ∀ j < 3, |(v.1 j : ℝ) - 3 * (3 * 50 / √7500 ^ 3 + 65 * 52 / √8112 ^ 3)| ≤ 1 / 5 * (3 * (3 / 7500 + 65 / 8112)) := by
  have hc : farS.crit.length = 3 := by decide +kernel
  have hpad : (⟨binary64.ieee true, some avx64, none⟩ : Hw ℚ).pad = 3 := by decide +kernel
  have hrep : ∀ k < 3, ∀ j < 3, (binary64.ieee true).rnd (farX j k) = .fin (farX j k) := by decide +kernel
  refine ⟨by decide +kernel, by decide +kernel, ?_⟩
  obtain ⟨out', o1, o2⟩ := C65_tree far_in (κ' := 0) (K := 29) (rsqrt := none) (over := maskedShift 32) (g := 3) (split := []) (order := [2, 0, 1]) (out := List.replicate 3 ⟨[], []⟩) binary64_std
    (by rintro S ⟨⟩; exact avx64_adds) ⟨.inl rfl, by decide⟩ farS_reach (by decide +kernel) (maskedShift_small _) (by decide +kernel)
    (by rw [far_n]; exact far_data) (by rw [far_n]; exact fun j hj k hk => hrep k hk j hj)
    (span64 (by norm_num) le_rfl (by norm_num) (by norm_num) (by rw [far_n, hpad]; norm_num)) le_rfl (by rw [far_n, hpad, far_hi]; norm_num)
    (by intro r hr; cases hr) .acc rfl false (by rw [hc]; decide) (by rw [far_n]; rfl)
  obtain ⟨i, v, i1, i2, w1, _⟩ := o2 0 (by rw [far_n]; decide)
  obtain rfl : 0 = i := by simpa using i1
  refine ⟨out', v, o1, i2, fun j hj => ?_⟩
  have := w1 j hj
  have he : (Finset.range 3).erase 0 = {1, 2} := by decide
  have hj3 : j ≠ 3 := by omega
  have ht : binary64.tiny ≤ (1 / 2 : ℚ) ^ 60 := by norm_num [Format.tiny, binary64]
  have ht' : ((binary64.tiny : ℚ) : ℝ) ≤ (1 / 2) ^ 60 := ((Rat.cast_le (K := ℝ)).2 ht).trans (by push_cast; norm_num)
  rw [far_n, hpad, unit64, he] at this
  norm_num [Finset.sum_pair, accelBy, D2, farX, hj3, Finset.sum_range_succ, lanes, avx64, accErr] at this ⊢
  norm_num at ht'
  linarith

end Rakau
