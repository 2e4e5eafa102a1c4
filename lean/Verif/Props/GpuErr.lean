import Verif.Proof.GpuErr
import Verif.Props.TreeErr

/-!
Property theorems on the error of the accelerator kernels and of the computation distributed over CPU and accelerators, in IEEE arithmetic: C68.
-/
namespace Rakau
open Spec

/-- The acceleration and the potential energy of particle `k` of `n` particles (coordinates `x 0 … x (d - 1)`, masses `x d`) according to Newton's law in real numbers, as far as the
computed result `v` is concerned: each component of the acceleration is within `Ea` times `g ∑ m / r²`, plus `τ`, and the potential energy within `Ep` times `g m ∑ m' / r`, plus `τ`. -/
structure Spec.NewtonOk (d n : Nat) (x : Nat → Nat → ℚ) (g eps : ℚ) (Ea Ep τ : ℝ) (k : Nat) (v : Val ℚ) : Prop where
  acc : ∀ j < d, |(v.1 j : ℝ) - g * ∑ l ∈ (Finset.range n).erase k, accelBy d ((eps : ℝ) ^ 2) (fun j => (x j k : ℝ)) (fun j => (x j l : ℝ)) (x d l) j| ≤
    Ea * (|(g : ℝ)| * ∑ l ∈ (Finset.range n).erase k, (x d l : ℝ) / (∑ j ∈ Finset.range d, ((x j l : ℝ) - x j k) ^ 2 + (eps : ℝ) ^ 2)) + τ
  pot : |(v.2 : ℝ) - g * ∑ l ∈ (Finset.range n).erase k, energyBy d ((eps : ℝ) ^ 2) (fun j => (x j k : ℝ)) (x d k) (fun j => (x j l : ℝ)) (x d l)| ≤
    Ep * (|(g : ℝ)| * ∑ l ∈ (Finset.range n).erase k, (x d k : ℝ) * (x d l / √(∑ j ∈ Finset.range d, ((x j l : ℝ) - x j k) ^ 2 + (eps : ℝ) ^ 2))) + τ

theorem Fl.ge_of_lt {a b : Fl ℚ} (h : a.lt b = true) : a.ge b = false := by
  unfold Fl.ge
  split
  · rfl
  · rfl
  · rw [h]; rfl

section
variable {f : Format} {fused : Bool} {simd : Option (Simd ℚ)} {mac : Mac} {w d : Nat} {s : TS (rakauEnv (f.ieee fused) simd mac w d)} {x : Nat → Nat → ℚ}

/-- The bodies of a thread of an accelerator. -/
theorem Stand.devVisits {φ : Body → ℝ} {ψ q : Nat → ℝ} {E W : ℝ} (hφ : ∀ l, φ (fun j => x j l, x d l) = ψ l) (hE : 0 ≤ E) (hW : 1 ≤ W) {k : Nat} {vs : List Visit}
    (hq : ∀ l ∈ (sources s.tree vs).filter (· ≠ k), |ψ l| ≤ q l)
    (hcom : ∀ v ∈ vs, ∀ i, v.ev = some (.com i) → ∃ hi : i < s.tree.length, (∀ l, s.tree[i].beg ≤ l → l < s.tree[i].fin → l ≠ k) ∧
      |φ (s.cx i, s.cm i) - ∑ l ∈ Finset.Ico s.tree[i].beg s.tree[i].fin, ψ l| ≤ E * ∑ l ∈ Finset.Ico s.tree[i].beg s.tree[i].fin, q l ∧
        |φ (s.cx i, s.cm i)| ≤ W * ∑ l ∈ Finset.Ico s.tree[i].beg s.tree[i].fin, q l) :
    Stand φ ψ q E W (vs.flatMap (s.devBodies x k)) ((sources s.tree vs).filter (· ≠ k)) := by
  induction vs with
  | nil => exact Stand.nil
  | cons v vs ih =>
    have e1 : sources s.tree (v :: vs) = sources s.tree [v] ++ sources s.tree vs := by unfold sources; simp
    rw [e1, List.filter_append] at hq ⊢
    rw [List.flatMap_cons]
    refine Stand.append ?_ (ih (fun l hl => hq l (List.mem_append_right _ hl)) fun v' hv' => hcom v' (List.mem_cons_of_mem _ hv'))
    have hq1 : ∀ l ∈ (sources s.tree [v]).filter (· ≠ k), |ψ l| ≤ q l := fun l hl => hq l (List.mem_append_left _ hl)
    have hc1 := hcom v List.mem_cons_self
    cases hev : v.ev with
    | none =>
      have e2 : sources s.tree [v] = [] := by unfold sources; simp [hev]
      have e3 : s.devBodies x k v = [] := by unfold TS.devBodies; rw [hev]
      rw [e2, e3]
      exact Stand.nil
    | some ev =>
      have e2 : sources s.tree [v] = ev.particles s.tree := by unfold sources; simp [hev]
      rw [e2] at hq1 ⊢
      cases ev with
      | com i =>
        obtain ⟨hi, a0, a1, a2⟩ := hc1 i hev
        have e3 : s.devBodies x k v = [(s.cx i, s.cm i)] := by unfold TS.devBodies; rw [hev]
        have e4 : ((Ev.com i).particles s.tree).filter (· ≠ k) = (Ev.com i).particles s.tree := by
          rw [List.filter_eq_self]
          intro l hl
          rw [Ev.particles_com hi, List.mem_range'_1] at hl
          simpa using a0 l (by omega) (by omega)
        rw [e3, e4, Ev.particles_com hi]
        refine ⟨?_, ?_⟩
        · rw [range'_sum, range'_sum]
          simpa using a1
        · rw [range'_sum]
          simpa using a2
      | leaf i =>
        have e3 : s.devBodies x k v = (((Ev.leaf i).particles s.tree).filter (· ≠ k)).map (fun l => (fun j => x j l, x d l)) := by unfold TS.devBodies; rw [hev]
        rw [e3]
        exact Stand.direct hφ hE hW hq1

/-- The result of a thread. -/
theorem dev_total (hf : f.Std) (hs : Supported w d) (h : Reach _ s) (hz : s.n * cbits w d < 2 ^ 64) (hx : IsData d s.n s.parts x)
    (hrep : ∀ j ≤ d, ∀ k < s.n, (f.ieee fused).Repr (x j k)) {b : ℝ} {κ K C : Nat} (R : Span f.unit f.tiny f.minNormal ((2 ^ (f.emax - 1) : ℚ) : ℝ) b d κ K C)
    (hC : s.n + 2 ≤ C) {g eps e2 : ℚ} (he2 : (f.ieee fused).mul (.fin eps) (.fin eps) = .fin e2) (hepb : |(eps : ℝ)| ≤ b)
    (hg : 3 * C * b ^ 4 * |(g : ℝ)| ≤ ((2 ^ (f.emax - 1) : ℚ) : ℝ))
    (hD : ∀ k l, k < s.n → l < s.n → k ≠ l → 1 ≤ b ^ 2 * (∑ j ∈ Finset.range d, ((x j l : ℝ) - x j k) ^ 2 + (eps : ℝ) ^ 2) ∧
      ∑ j ∈ Finset.range d, ((x j l : ℝ) - x j k) ^ 2 + (eps : ℝ) ^ 2 ≤ b ^ 2)
    (hm : ∀ k < s.n, Rng b 1 (x d k : ℝ)) (fd : Bool) (Q : Quant) (mv : Fl ℚ) {k : Nat} (hk : k < s.n) {acc : Nat → Bool} {vs : List Visit}
    (hv : ∀ v ∈ vs, v.DevOk s.tree acc) (hsrc : sources s.tree vs = List.range s.n)
    (hcom : ∀ v ∈ vs, acc v.idx = true → (∃ pr, s.props[v.idx]? = some pr ∧ pr.com = Arr d (fun j => .fin (s.cx v.idx j)) ∧ pr.mass = .fin (s.cm v.idx)) ∧
      PairIn (f.ieee fd) b d ((eps : ℝ) ^ 2) (fun j => x j k) (x d k) (s.cx v.idx) (s.cm v.idx)) {N : Nat} (hN : s.n + 1 + K ≤ N) :
    ∃ v, (s.gpu (f.ieee fd) Q mv (.fin g) (.fin e2)).total vs k = mkRes Q d v ∧
      (∀ j < d, Within f.unit f.tiny N g
        (((vs.flatMap (s.devBodies x k)).map (fun B => accelBy d ((eps : ℝ) ^ 2) (fun j => (x j k : ℝ)) (fun j => (B.1 j : ℝ)) B.2 j)).sum)
        (((vs.flatMap (s.devBodies x k)).map (fun B => |accelBy d ((eps : ℝ) ^ 2) (fun j => (x j k : ℝ)) (fun j => (B.1 j : ℝ)) B.2 j|)).sum) (v.1 j)) ∧
      Within f.unit f.tiny N g
        (((vs.flatMap (s.devBodies x k)).map (fun B => energyBy d ((eps : ℝ) ^ 2) (fun j => (x j k : ℝ)) (x d k) (fun j => (B.1 j : ℝ)) B.2)).sum)
        (((vs.flatMap (s.devBodies x k)).map (fun B => |energyBy d ((eps : ℝ) ^ 2) (fun j => (x j k : ℝ)) (x d k) (fun j => (B.1 j : ℝ)) B.2|)).sum) v.2 := by
  have F := Format.ieee_model hf fd
  have L : (f.ieee fd).Laws := Format.arith_laws hf.toOk _ _
  have hsq : (eps : ℝ) ^ 2 ≤ b ^ 2 := by rw [← sq_abs]; gcongr
  obtain ⟨e2', ee, ep, he⟩ := soft_ok (Format.ieee_model hf fused) R hsq
  obtain rfl : e2' = e2 := by rw [ee] at he2; exact Fl.fin.inj he2
  have hr2 : (f.ieee fd).Repr e2' := L.idem _ _ ee
  have hlen := (devBodies_le hs h hz (x := x) (k := k) vs hv)
  rw [hsrc, List.length_range] at hlen
  obtain ⟨r, er, hr⟩ := dev_visits F R he hr2 hs h hz hx hk
    (fun l hl hne => ⟨fun j hj => hrep j hj.le k hk, fun j hj => hrep j hj.le l hl, (hD k l hk hl (Ne.symm hne)).1, (hD k l hk hl (Ne.symm hne)).2, hm k hk, hm l hl⟩)
    Q mv (.fin g) vs hv hcom (c := 0) (S := 0) (T := 0) (r := 0) (by omega) SmV.zero
  rw [zero_add, zero_add, zero_add] at hr
  obtain ⟨v, ev, hv1, hv2⟩ := scale_err F R Q hg (by omega) (N := N) (by omega) hr
  refine ⟨v, ?_, ?_, ?_⟩
  · rw [C30_self hs h hz L (ieee_sqrt_ge hf fd) Q mv (.fin g) ep hk (ptAt_data hx hk) rfl (hrep d le_rfl k hk) vs]
    rw [resZero_eq, er, ev]
  · intro j hj
    have := hv1 j hj
    rw [(val_sum _ _).1 j, (val_sum _ _).1 j] at this
    simp only [absV, newt_by.1] at this
    exact this
  · have := hv2
    rw [(val_sum _ _).2, (val_sum _ _).2] at this
    simp only [absV, newt_by.2] at this
    exact this

/-- C68: a group of threads of an accelerator (`lanes`: the indices of their particles) in IEEE arithmetic, with or without fused multiply-add. Take a bound `b ≥ 1` such that `b⁴` and `b⁻⁴` are well
inside the range of the format. Assume that the softened distances between particles and from a thread's particle to the centre of mass of the nodes accepted by the group are between `1 / b` and `b`, and
that the masses of particles and accepted nodes are zero or between `1 / b` and `b` in size. Then each result differs from the sum of Newton's contributions of the bodies used, which are the
accepted nodes, with centre of mass and mass as stored, and the other particles of the visited leaves, by at most `2 (n + 1 + K) u` times the sum of the sizes of the contributions, plus a multiple of the smallest
rounding unit. -/
theorem C68_kernel (hf : f.Std) (hs : Supported w d) (h : Reach _ s) (hz : s.n * cbits w d < 2 ^ 64) (hx : IsData d s.n s.parts x)
    (hrep : ∀ j ≤ d, ∀ k < s.n, (f.ieee fused).Repr (x j k)) {b : ℝ} {κ K : Nat} (R : Span f.unit f.tiny f.minNormal ((2 ^ (f.emax - 1) : ℚ) : ℝ) b d κ K (s.n + 2))
    {g eps e2 : ℚ} (he2 : (f.ieee fused).mul (.fin eps) (.fin eps) = .fin e2) (hepb : |(eps : ℝ)| ≤ b)
    (hg : 3 * (s.n + 2 : ℕ) * b ^ 4 * |(g : ℝ)| ≤ ((2 ^ (f.emax - 1) : ℚ) : ℝ))
    (hD : ∀ k l, k < s.n → l < s.n → k ≠ l → 1 ≤ b ^ 2 * (∑ j ∈ Finset.range d, ((x j l : ℝ) - x j k) ^ 2 + (eps : ℝ) ^ 2) ∧
      ∑ j ∈ Finset.range d, ((x j l : ℝ) - x j k) ^ 2 + (eps : ℝ) ^ 2 ≤ b ^ 2)
    (hm : ∀ k < s.n, Rng b 1 (x d k : ℝ)) (fd : Bool) (Q : Quant) (mv : Fl ℚ) {lanes : List Nat} (hl : ∀ k ∈ lanes, k < s.n)
    (hnode : ∀ i < s.tree.length, (s.gpu (f.ieee fd) Q mv (.fin g) (.fin e2)).accepts lanes i = true →
      (∃ pr, s.props[i]? = some pr ∧ pr.com = Arr d (fun j => .fin (s.cx i j)) ∧ pr.mass = .fin (s.cm i)) ∧
      ∀ k ∈ lanes, PairIn (f.ieee fd) b d ((eps : ℝ) ^ 2) (fun j => x j k) (x d k) (s.cx i) (s.cm i)) :
    ∃ (vs : List Visit) (V : Nat → Val ℚ), sources s.tree vs = List.range s.n ∧
      (∀ v ∈ vs, ∀ i, v.ev = some (.com i) → (s.gpu (f.ieee fd) Q mv (.fin g) (.fin e2)).accepts lanes i = true) ∧
      (s.gpu (f.ieee fd) Q mv (.fin g) (.fin e2)).warp lanes = some (lanes.map (fun k => mkRes Q d (V k))) ∧
      ∀ k ∈ lanes, (∀ j < d, Within f.unit f.tiny (s.n + 1 + K) g
          (((vs.flatMap (s.devBodies x k)).map (fun B => accelBy d ((eps : ℝ) ^ 2) (fun j => (x j k : ℝ)) (fun j => (B.1 j : ℝ)) B.2 j)).sum)
          (((vs.flatMap (s.devBodies x k)).map (fun B => |accelBy d ((eps : ℝ) ^ 2) (fun j => (x j k : ℝ)) (fun j => (B.1 j : ℝ)) B.2 j|)).sum) ((V k).1 j)) ∧
        Within f.unit f.tiny (s.n + 1 + K) g
          (((vs.flatMap (s.devBodies x k)).map (fun B => energyBy d ((eps : ℝ) ^ 2) (fun j => (x j k : ℝ)) (x d k) (fun j => (B.1 j : ℝ)) B.2)).sum)
          (((vs.flatMap (s.devBodies x k)).map (fun B => |energyBy d ((eps : ℝ) ^ 2) (fun j => (x j k : ℝ)) (x d k) (fun j => (B.1 j : ℝ)) B.2|)).sum) (V k).2 := by
  have hok := gpu_ok hs h hz (f.ieee fd) Q mv (.fin g) (.fin e2)
  have D := reach_dfs (rakauEnv_ok (f.ieee fused) simd mac hs) h hz
  obtain ⟨vs, v0, v1, v2, v3⟩ := devGo_spec D ((s.gpu (f.ieee fd) Q mv (.fin g) (.fin e2)).accepts lanes) s.tree.length 0 (by omega)
  rw [D.first, Nat.sub_zero, ← List.range_eq_range'] at v3
  have key : ∀ k, ∃ v : Val ℚ, k ∈ lanes → (s.gpu (f.ieee fd) Q mv (.fin g) (.fin e2)).total vs k = mkRes Q d v ∧
      (∀ j < d, Within f.unit f.tiny (s.n + 1 + K) g
        (((vs.flatMap (s.devBodies x k)).map (fun B => accelBy d ((eps : ℝ) ^ 2) (fun j => (x j k : ℝ)) (fun j => (B.1 j : ℝ)) B.2 j)).sum)
        (((vs.flatMap (s.devBodies x k)).map (fun B => |accelBy d ((eps : ℝ) ^ 2) (fun j => (x j k : ℝ)) (fun j => (B.1 j : ℝ)) B.2 j|)).sum) (v.1 j)) ∧
      Within f.unit f.tiny (s.n + 1 + K) g
        (((vs.flatMap (s.devBodies x k)).map (fun B => energyBy d ((eps : ℝ) ^ 2) (fun j => (x j k : ℝ)) (x d k) (fun j => (B.1 j : ℝ)) B.2)).sum)
        (((vs.flatMap (s.devBodies x k)).map (fun B => |energyBy d ((eps : ℝ) ^ 2) (fun j => (x j k : ℝ)) (x d k) (fun j => (B.1 j : ℝ)) B.2|)).sum) v.2 := by
    intro k
    by_cases hk : k ∈ lanes
    · obtain ⟨v, e⟩ := dev_total hf hs h hz hx hrep R le_rfl he2 hepb hg hD hm fd Q mv (hl k hk) (fun v hv => (v1 v hv).2) v3
        (fun v hv ha => ⟨(hnode _ (v1 v hv).2.idx ha).1, (hnode _ (v1 v hv).2.idx ha).2 k hk⟩) le_rfl
      exact ⟨v, fun _ => e⟩
    · exact ⟨0, fun h => absurd h hk⟩
  choose V hV using key
  refine ⟨vs, V, v3, fun v hv i hev => ?_, ?_, fun k hk => (hV k hk).2⟩
  · obtain ⟨rfl, ha⟩ := (v1 v hv).2.com i hev
    exact ha
  · rw [Gpu.warp_eq hok hl v0, Option.some.injEq]
    exact List.map_congr_left fun k hk => (hV k hk).1

variable {b : ℝ} {B t eps : ℚ} {κ ρ : ℝ}

/-- The result of a thread whose group visits `vs`, compared with Newton's law. -/
theorem TreeIn.dev (T : TreeIn s x b B t eps κ ρ) (hf : f.Std) (hS : ∀ S, simd = some S → S.Adds (f.ieee fused)) (hs : Supported w d) (h : Reach _ s) (hz : s.n * cbits w d < 2 ^ 64)
    (hx : IsData d s.n s.parts x) (hrep : ∀ j ≤ d, ∀ k < s.n, (f.ieee fused).Repr (x j k))
    {κ' K C : Nat} (R : Span f.unit f.tiny f.minNormal ((2 ^ (f.emax - 1) : ℚ) : ℝ) b d κ' K C) (hC : s.n + 2 ≤ C)
    {g e2 mv : ℚ} (hg : 3 * C * b ^ 4 * |(g : ℝ)| ≤ ((2 ^ (f.emax - 1) : ℚ) : ℝ)) (hmv : macValue (f.ieee fused) mac (.fin t) = .fin mv)
    (he2 : (f.ieee fused).mul (.fin eps) (.fin eps) = .fin e2) (fd : Bool) (Q : Quant) {lanes : List Nat} (hl : ∀ k ∈ lanes, k < s.n) {vs : List Visit}
    (hv : ∀ v ∈ vs, v.DevOk s.tree ((s.gpu (f.ieee fd) Q (.fin mv) (.fin g) (.fin e2)).accepts lanes)) (hsrc : sources s.tree vs = List.range s.n)
    {N : Nat} (hN : s.n + 1 + K ≤ N) {k : Nat} (hk : k ∈ lanes) :
    ∃ v, (s.gpu (f.ieee fd) Q (.fin mv) (.fin g) (.fin e2)).total vs k = mkRes Q d v ∧
      NewtonOk d s.n x g eps ((accErr κ + (3 * d + 1) * ρ + 2 * ((s.n + Rakau.lanes simd d : ℕ) * f.unit)) * (1 + κ) ^ 2 + 4 * (1 + κ) ^ 2 * (N * f.unit))
        ((κ ^ 2 / (1 - κ) + d * ρ + 2 * ((s.n + Rakau.lanes simd d : ℕ) * f.unit)) * (1 + κ) + 4 * (1 + κ) * (N * f.unit)) ((4 * N * |(g : ℝ)| + 1) * f.tiny) k v := by
  have hd := hs.dim.1
  have hok := gpu_ok hs h hz (f.ieee fd) Q (.fin mv) (.fin g) (.fin e2)
  have hkn := hl k hk
  have hpass : ∀ v ∈ vs, (s.gpu (f.ieee fd) Q (.fin mv) (.fin g) (.fin e2)).accepts lanes v.idx = true →
      (∀ (hi : v.idx < s.tree.length) l, s.tree[v.idx].beg ≤ l → l < s.tree[v.idx].fin → l ≠ k) ∧
      (∃ pr, s.props[v.idx]? = some pr ∧ pr.com = Arr d (fun j => .fin (s.cx v.idx j)) ∧ pr.mass = .fin (s.cm v.idx)) ∧
      PairIn (f.ieee fd) b d ((eps : ℝ) ^ 2) (fun j => x j k) (x d k) (s.cx v.idx) (s.cm v.idx) ∧
      ∀ hi : v.idx < s.tree.length, (B : ℝ) / 2 ^ s.tree[v.idx].level ≤ t * (1 + (d + 14 : ℕ) * f.unit) * √(D2 d ((eps : ℝ) ^ 2) (fun j => (x j k : ℝ)) (fun j => (s.cx v.idx j : ℝ))) := by
    intro v hv' ha
    have hi := (hv v hv').idx
    have hp : v.idx < s.props.length := by rw [reach_props_length h]; exact hi
    have hvt := List.all_eq_true.1 ha k hk
    unfold Gpu.votes at hvt
    rw [Bool.and_eq_true, decide_eq_true_eq, Gpu.srcs_eq (c := s.gpu (f.ieee fd) Q (.fin mv) (.fin g) (.fin e2)) hi, List.mem_range'_1] at hvt
    obtain ⟨h1, h2⟩ := hvt
    have e1 : (s.gpu (f.ieee fd) Q (.fin mv) (.fin g) (.fin e2)).pr v.idx = s.props[v.idx] := by
      show s.props.getD v.idx _ = _
      rw [List.getD_eq_getElem?_getD, List.getElem?_eq_getElem hp, Option.getD_some]
    have e2' : (s.gpu (f.ieee fd) Q (.fin mv) (.fin g) (.fin e2)).pt k = mkPt d (fun j => x j k) (x d k) :=
      Option.some.inj ((Gpu.pt_eq hok hkn).symm.trans (ptAt_data hx hkn))
    rw [e1, e2'] at h2
    obtain ⟨p1, p2, p3⟩ := T.passed hf hS hs h hz hx (fun j hj => hrep j hj.le) R hmv hkn hi hp (M := ⟨false, f.ieee fd, none⟩) (fu := fd) (fl := fd) rfl (by simp) (Fl.ge_of_lt h2)
    refine ⟨fun _ l l1 l2 e => h1 ?_, p1, p2, fun _ => p3⟩
    subst e
    have e0 : (s.gpu (f.ieee fd) Q (.fin mv) (.fin g) (.fin e2)).tree[v.idx] = s.tree[v.idx] := rfl
    rw [e0]
    omega
  obtain ⟨v, ev, w1, w2⟩ := dev_total hf hs h hz hx hrep R hC he2 (T.eps_le hd) hg
    (fun k l hk hl hkl => ⟨T.near k l hk hl hkl, T.far_node hf hs h hx (c := fun j => (x j l : ℝ)) (fun j hj => by
      have := T.coord hf hs h hx hl hj
      have := T.box0
      linarith) hk⟩)
    (fun k hk => ⟨.inr (by have := T.mass k hk; rw [pow_one, abs_of_pos (T.mass_pos hk)]; linarith), by rw [pow_one, abs_of_pos (T.mass_pos hk)]; exact T.mass_le hk⟩)
    fd Q (.fin mv) hkn hv hsrc (fun v hv' ha => ⟨(hpass v hv' ha).2.1, (hpass v hv' ha).2.2.1⟩) hN
  obtain ⟨n1, n2⟩ := T.newton hf hS hs h hz hx (Span.lo_le (Format.ieee_model hf fused) R) hkn (L := (sources s.tree vs).filter (· ≠ k)) (by rw [hsrc])
    (bs := vs.flatMap (s.devBodies x k)) (fun h1 h2 h3 h4 h5 => Stand.devVisits h1 h2 h3 h4 (fun v' hv' i hev => by
      obtain ⟨rfl, ha⟩ := (hv v' hv').com i hev
      have hi := (hv v' hv').idx
      obtain ⟨q1, _, q3, q4⟩ := hpass v' hv' ha
      exact ⟨hi, q1 hi, h5 _ hi (q1 hi) q3.near (q4 hi)⟩)) w1 w2
  exact ⟨v, ev, n1, n2⟩

/-- C68: the results of a group of threads of an accelerator in IEEE arithmetic (any format, either acceptance criterion, with or without fused multiply-add), for positive masses and data in range. They differ from
Newton's law by no more than those of the CPU (`C65_tree`). -/
theorem C68_newton (T : TreeIn s x b B t eps κ ρ) (hf : f.Std) (hS : ∀ S, simd = some S → S.Adds (f.ieee fused)) (hs : Supported w d) (h : Reach _ s) (hz : s.n * cbits w d < 2 ^ 64)
    (hx : IsData d s.n s.parts x) (hrep : ∀ j ≤ d, ∀ k < s.n, (f.ieee fused).Repr (x j k))
    {κ' K : Nat} (R : Span f.unit f.tiny f.minNormal ((2 ^ (f.emax - 1) : ℚ) : ℝ) b d κ' K (s.n + 2))
    {g e2 mv : ℚ} (hg : 3 * (s.n + 2 : ℕ) * b ^ 4 * |(g : ℝ)| ≤ ((2 ^ (f.emax - 1) : ℚ) : ℝ)) (hmv : macValue (f.ieee fused) mac (.fin t) = .fin mv)
    (he2 : (f.ieee fused).mul (.fin eps) (.fin eps) = .fin e2) (fd : Bool) (Q : Quant) {lanes : List Nat} (hl : ∀ k ∈ lanes, k < s.n) :
    ∃ V : Nat → Val ℚ, (s.gpu (f.ieee fd) Q (.fin mv) (.fin g) (.fin e2)).warp lanes = some (lanes.map (fun k => mkRes Q d (V k))) ∧
      ∀ k ∈ lanes, NewtonOk d s.n x g eps
        ((accErr κ + (3 * d + 1) * ρ + 2 * ((s.n + Rakau.lanes simd d : ℕ) * f.unit)) * (1 + κ) ^ 2 + 4 * (1 + κ) ^ 2 * ((s.n + 1 + K : ℕ) * f.unit))
        ((κ ^ 2 / (1 - κ) + d * ρ + 2 * ((s.n + Rakau.lanes simd d : ℕ) * f.unit)) * (1 + κ) + 4 * (1 + κ) * ((s.n + 1 + K : ℕ) * f.unit))
        ((4 * (s.n + 1 + K : ℕ) * |(g : ℝ)| + 1) * f.tiny) k (V k) := by
  have hok := gpu_ok hs h hz (f.ieee fd) Q (.fin mv) (.fin g) (.fin e2)
  have D := reach_dfs (rakauEnv_ok (f.ieee fused) simd mac hs) h hz
  obtain ⟨vs, v0, v1, v2, v3⟩ := devGo_spec D ((s.gpu (f.ieee fd) Q (.fin mv) (.fin g) (.fin e2)).accepts lanes) s.tree.length 0 (by omega)
  rw [D.first, Nat.sub_zero, ← List.range_eq_range'] at v3
  have key := fun k (hk : k ∈ lanes) => T.dev hf hS hs h hz hx hrep R le_rfl hg hmv he2 fd Q hl (fun v hv => (v1 v hv).2) v3 le_rfl hk
  have key' : ∀ k, ∃ v : Val ℚ, k ∈ lanes → _ := fun k => by
    by_cases hk : k ∈ lanes
    · exact (key k hk).imp fun v hv _ => hv
    · exact ⟨0, fun h => absurd h hk⟩
  choose V hV using key'
  refine ⟨V, ?_, fun k hk => (hV k hk).2⟩
  rw [Gpu.warp_eq hok hl v0, Option.some.injEq]
  exact List.map_congr_left fun k hk => (hV k hk).1

/-- C68: the computation distributed over CPU and accelerators in IEEE arithmetic. With positive masses and data in range, for every valid plan, however work and results are interleaved, the computation succeeds and every
result, whether computed by the CPU or by an accelerator, is as close to Newton's law as those of the CPU (`C65_tree`). -/
theorem C68_split (T : TreeIn s x b B t eps κ ρ) (hf : f.Std) (hS : ∀ S, simd = some S → S.Adds (f.ieee fused)) (hs : Supported w d) (h : Reach _ s) (hz : s.n * cbits w d < 2 ^ 64)
    {rsqrt : Option (Fl ℚ → Fl ℚ)} {over : Overshift} (ho : over.Small) (hr : s.n + (⟨f.ieee fused, simd, rsqrt⟩ : Hw ℚ).pad < 2 ^ 64)
    (hn : s.n < 2 ^ 31) (ht : s.tree.length < 2 ^ 31)
    (hx : IsData d s.n s.parts x) (hrep : ∀ j ≤ d, ∀ k < s.n, (f.ieee fused).Repr (x j k))
    {κ' K : Nat} (R : Span f.unit f.tiny f.minNormal ((2 ^ (f.emax - 1) : ℚ) : ℝ) b d κ' K (s.n + (⟨f.ieee fused, simd, rsqrt⟩ : Hw ℚ).pad + 2))
    (he : 0 ≤ eps) {g : ℚ} (hg : 3 * (s.n + (⟨f.ieee fused, simd, rsqrt⟩ : Hw ℚ).pad + 2 : ℕ) * b ^ 4 * |(g : ℝ)| ≤ ((2 ^ (f.emax - 1) : ℚ) : ℝ))
    (hest : ∀ r, ((⟨f.ieee fused, simd, rsqrt⟩ : Hw ℚ).mode d).fast = some r → EstimateOk f.unit b κ' r) (Q : Quant)
    {Bk : Backend} (hB : ∀ p m, Bk = .rocm p m → 0 < m) (D : Arith ℚ) (fd types : Bool) {split : List (Fl ℚ)}
    {plan : Plan} (hplan : splitPlan Bk D (f.ieee fused) types s.crit s.n split = .ok plan) {least len : Nat} (hgood : plan.Good s.crit s.n least len)
    (ordered ptr : Bool) (junk : Res ℚ) {o : Plan → Sched} (ho1 : ((o plan).before ++ (o plan).after).Perm (List.range plan.cpu))
    (ho2 : (o plan).dev.Perm (List.range (plan.dev.length - 1))) {out : List (Res ℚ)} (hout : out.length = s.n) :
    ∃ out', s.accPotDev Bk D (f.ieee fd) types rsqrt over Q ordered ptr (.fin t) (.fin g) (.fin eps) split junk o out = .ok out' ∧
      ∀ k < s.n, ∃ i v, (if ordered then s.perm[k]? else some k) = some i ∧ out'[i]? = some (mkRes Q d v) ∧ NewtonOk d s.n x g eps
        ((accErr κ + (3 * d + 1) * ρ + 2 * ((s.n + Rakau.lanes simd d : ℕ) * f.unit)) * (1 + κ) ^ 2 +
          4 * (1 + κ) ^ 2 * ((s.n + (⟨f.ieee fused, simd, rsqrt⟩ : Hw ℚ).pad + 1 + K : ℕ) * f.unit))
        ((κ ^ 2 / (1 - κ) + d * ρ + 2 * ((s.n + Rakau.lanes simd d : ℕ) * f.unit)) * (1 + κ) +
          4 * (1 + κ) * ((s.n + (⟨f.ieee fused, simd, rsqrt⟩ : Hw ℚ).pad + 1 + K : ℕ) * f.unit))
        ((4 * (s.n + (⟨f.ieee fused, simd, rsqrt⟩ : Hw ℚ).pad + 1 + K : ℕ) * |(g : ℝ)| + 1) * f.tiny) k v := by
  have hd := hs.dim.1
  have hSp : SimdPos simd := fun S e => (hS S e).pos
  have hrep' : ∀ j < d, ∀ k < s.n, (f.ieee fused).Repr (x j k) := fun j hj => hrep j hj.le
  obtain ⟨mv, e2, hmv, he2, hp⟩ := T.params hf hd R he g
  obtain ⟨P, hP, _, _⟩ := T.padding hf hs h hx R hmv (rsqrt := rsqrt) (over := over) (Q := Q) (g := .fin g) (e2 := .fin e2)
  have hpad : (s.force rsqrt over Q (.fin mv) (.fin g) (.fin e2)).padCoord.isFinite = true := by rw [hP]; rfl
  obtain ⟨val, V, hval, hV, hrun⟩ := C29_results hs h hz hSp ho hr hn ht hB D (f.ieee fd) types Q hp hpad hplan hgood
  obtain ⟨out', o1, _, o3⟩ := hrun ordered ptr junk o out ho1 ho2 hout
  refine ⟨out', o1, ?_⟩
  intro k hk
  obtain ⟨i, i1, i2⟩ := o3 k hk
  by_cases hc : k < plan.dev.headD s.n
  · -- computed by the CPU
    rw [if_pos hc] at i2
    obtain ⟨val', hval', hall⟩ := C27_outputs hSp hs h hz ho hr Q (split := []) hp rfl hpad
    obtain ⟨out1, a1, a2, a3⟩ := hall false (List.range s.crit.length) out (List.Perm.refl _) hout
    obtain ⟨out2, b1, b2⟩ := C65_tree T hf hS hs h hz ho hr hx hrep' R he hg hest Q (split := []) rfl false (List.Perm.refl (List.range s.crit.length)) hout
    obtain rfl : out1 = out2 := by rw [a1] at b1; exact Except.ok.inj b1
    obtain ⟨i', c1, c2⟩ := a3 k hk
    obtain ⟨i'', v, d1, d2, d3⟩ := b2 k hk
    obtain rfl : i' = i'' := by rw [c1] at d1; exact Option.some.inj d1
    have hvv : val k = val' k := by
      obtain ⟨c, ⟨hc, k1, k2⟩, _⟩ := (crit_tiling (rakauEnv_ok (f.ieee fused) simd mac hs) h hz).2 k hk
      have h1 := (hval _ (List.getElem_mem hc)).symm.trans (hval' _ (List.getElem_mem hc))
      rw [Except.ok.injEq] at h1
      have h2 := congrArg (fun l => l[k - s.crit[c].beg]?) h1
      rw [arr_get (by omega), arr_get (by omega), Option.some.injEq, show s.crit[c].beg + (k - s.crit[c].beg) = k by omega] at h2
      exact h2
    refine ⟨i, v, i1, ?_, d3.1, d3.2⟩
    rw [i2, hvv, ← c2, d2]
  · -- computed by an accelerator
    rw [if_neg hc] at i2
    have hne : plan.dev ≠ [] := by
      intro e
      rw [e] at hc
      exact hc hk
    have hlast : plan.dev.getLast? = some s.n := by
      cases hl : plan.dev.getLast? with
      | none => rw [List.getLast?_eq_none_iff] at hl; exact absurd hl hne
      | some n => rw [hgood.shares.last n (by rw [hl]; rfl)]
    have h0 : plan.dev[0]? = some (plan.dev.headD s.n) := by
      obtain ⟨a, l, e⟩ := List.exists_cons_of_ne_nil hne
      rw [e]; rfl
    obtain ⟨j, bg, en, j1, j2, j3, j4, j5⟩ := Gpu.cuts_cover h0 hgood.shares.sorted hlast (not_lt.1 hc) hk
    have hen := Gpu.cuts_le hgood.shares.sorted hlast _ (List.mem_of_getElem? j3)
    have hok := gpu_ok hs h hz (f.ieee fd) Q (.fin mv) (.fin g) (.fin e2)
    have Df := reach_dfs (rakauEnv_ok (f.ieee fused) simd mac hs) h hz
    have hbs := Backend.blockSize_pos hB
    have hbuf := hV (bg, en) (Gpu.mem_between.2 ⟨j, j2, j3⟩) (Arr (en - bg) fun _ => ⟨[], []⟩) (by simp)
    simp only at hbuf
    rw [Gpu.launch_eq hok Df hbs hen, Option.some.injEq] at hbuf
    have hVk : (s.gpu (f.ieee fd) Q (.fin mv) (.fin g) (.fin e2)).val Bk.blockSize bg en (k - bg) = V k := by
      have h2 := congrArg (fun l => l[k - bg]?) hbuf
      rw [arr_get (by omega), arr_get (by omega), Option.some.injEq, show bg + (k - bg) = k by omega] at h2
      exact h2
    unfold Gpu.val at hVk
    rw [show k - bg + bg = k by omega] at hVk
    generalize hlan : (Gpu.block Bk.blockSize bg en ((k - bg) / Bk.blockSize)).map (· + bg) = lns at hVk
    have hl : ∀ l ∈ lns, l < s.n := by
      intro l hl
      rw [← hlan, List.mem_map] at hl
      obtain ⟨a, ha, rfl⟩ := hl
      have := (Gpu.mem_block.1 ha).2
      omega
    have hkl : k ∈ lns := by
      rw [← hlan, List.mem_map]
      refine ⟨k - bg, Gpu.mem_block.2 ⟨?_, by omega⟩, by omega⟩
      have := Nat.div_add_mod (k - bg) Bk.blockSize
      have := Nat.mod_lt (k - bg) hbs
      have := Nat.mul_comm ((k - bg) / Bk.blockSize) Bk.blockSize
      omega
    obtain ⟨vs, v0, v1, v2, v3⟩ := devGo_spec Df ((s.gpu (f.ieee fd) Q (.fin mv) (.fin g) (.fin e2)).accepts lns) s.tree.length 0 (by omega)
    rw [Df.first, Nat.sub_zero, ← List.range_eq_range'] at v3
    have hvis : (s.gpu (f.ieee fd) Q (.fin mv) (.fin g) (.fin e2)).visits lns = vs := by
      show (devGo s.tree _ s.tree.length 0).getD [] = vs
      rw [v0]; rfl
    rw [hvis] at hVk
    obtain ⟨v, ev, hvn⟩ := T.dev hf hS hs h hz hx hrep R (by omega) hg hmv he2 fd Q hl (fun v hv => (v1 v hv).2) v3
      (N := s.n + (⟨f.ieee fused, simd, rsqrt⟩ : Hw ℚ).pad + 1 + K) (by omega) hkl
    exact ⟨i, v, i1, by rw [i2, ← hVk, ev], hvn⟩

end

/-! ### Examples -/

set_option exponentiation.threshold 2000 in
/-- The thread of the first particle of the sample of `C65_tree`, on a device without fused multiply-add: the only bodies are the empty surroundings and node 5, of two particles. -/
example : (farS.gpu (binary64.ieee false) .acc (.fin 256) (.fin 3) (.fin 0)).visits [0] =
      [⟨0, none⟩, ⟨1, some (.leaf 1)⟩, ⟨2, none⟩, ⟨3, none⟩, ⟨4, none⟩, ⟨5, some (.com 5)⟩] ∧
    ∃ (vs : List Visit) (V : Nat → Val ℚ), sources farS.tree vs = List.range farS.n ∧
      (farS.gpu (binary64.ieee false) .acc (.fin 256) (.fin 3) (.fin 0)).warp [0] = some ([0].map (fun k => mkRes .acc 3 (V k))) ∧
      ∀ j < 3, Within binary64.unit binary64.tiny (farS.n + 1 + 29) (3 : ℚ)
        (((vs.flatMap (farS.devBodies farX 0)).map (fun B => accelBy 3 (((0 : ℚ) : ℝ) ^ 2) (fun j => (farX j 0 : ℝ)) (fun j => (B.1 j : ℝ)) B.2 j)).sum)
        (((vs.flatMap (farS.devBodies farX 0)).map (fun B => |accelBy 3 (((0 : ℚ) : ℝ) ^ 2) (fun j => (farX j 0 : ℝ)) (fun j => (B.1 j : ℝ)) B.2 j|)).sum) ((V 0).1 j) := by
  refine ⟨by decide +kernel, ?_⟩
  have hl : farS.tree.length = 8 := by decide +kernel
  have hrep : ∀ k < 3, ∀ j ≤ 3, (binary64.ieee true).rnd (farX j k) = .fin (farX j k) := by decide +kernel
  have hD : ∀ k < 3, ∀ l < 3, k ≠ l → 1 ≤ ∑ j ∈ Finset.range 3, (farX j l - farX j k) ^ 2 + (0 : ℚ) ^ 2 ∧
      ∑ j ∈ Finset.range 3, (farX j l - farX j k) ^ 2 + (0 : ℚ) ^ 2 ≤ 10000 := by decide +kernel
  have hm : ∀ k < 3, 1 ≤ |farX 3 k| ∧ |farX 3 k| ≤ 100 := by decide +kernel
  have hA : ∀ i < 8, (farS.gpu (binary64.ieee false) .acc (.fin 256) (.fin 3) (.fin 0)).accepts [0] i = true →
      1 ≤ ∑ j ∈ Finset.range 3, (farS.cx i j - farX j 0) ^ 2 + (0 : ℚ) ^ 2 ∧ ∑ j ∈ Finset.range 3, (farS.cx i j - farX j 0) ^ 2 + (0 : ℚ) ^ 2 ≤ 10000 := by decide +kernel
  have hN : ∀ i < 8, farS.props[i]?.map (fun p => (p.com, p.mass)) = some (Arr 3 (fun j => .fin (farS.cx i j)), .fin (farS.cm i)) ∧
      (∀ j < 3, (binary64.ieee true).rnd (farS.cx i j) = .fin (farS.cx i j)) ∧ 1 ≤ |farS.cm i| ∧ |farS.cm i| ≤ 100 := by decide +kernel
  have h100 : (100 : ℝ) ≤ 2 ^ 200 := by norm_num
  have cast : ∀ {q : ℚ}, 1 ≤ |q| ∧ |q| ≤ 100 → Rng (2 ^ 200) 1 (q : ℝ) := fun h =>
    rng_cast (by norm_num) (.inr h.1) (((Rat.cast_le (K := ℝ)).2 h.2).trans (by push_cast; exact h100))
  obtain ⟨vs, V, v1, _, v3, v4⟩ := C68_kernel (s := farS) (x := farX) (κ := 0) (K := 29) (g := 3) (eps := 0) (e2 := 0) binary64_std ⟨.inl rfl, by decide⟩ farS_reach (by decide +kernel)
    (by rw [far_n]; exact far_data) (by rw [far_n]; exact fun j hj k hk => hrep k hk j hj)
    (span64 (by norm_num) le_rfl (by norm_num) (by norm_num) (by rw [far_n]; norm_num)) (by decide +kernel) (by norm_num) (by rw [far_n, far_hi]; norm_num)
    (by rw [far_n]; exact fun k l hk hl hkl => mix_dist h100 (hD k hk l hl hkl)) (by rw [far_n]; exact fun k hk => cast (hm k hk)) false .acc (.fin 256) (lanes := [0])
    (by rw [far_n]; decide) (by
      rw [hl]
      intro i hi ha
      have a4 := hA i hi ha
      obtain ⟨a1, a2, a3⟩ := hN i hi
      obtain ⟨p, p1, p2⟩ := Option.map_eq_some_iff.1 a1
      rw [Prod.mk.injEq] at p2
      refine ⟨⟨p, p1, p2.1, p2.2⟩, ?_⟩
      intro k hk
      obtain rfl : k = 0 := by simpa using hk
      exact ⟨fun j hj => hrep 0 (by decide) j hj.le, a2, (mix_dist h100 a4).1, (mix_dist h100 a4).2, cast (hm 0 (by decide)), cast a3⟩)
  exact ⟨vs, V, v1, v3, (v4 0 (by simp)).1⟩

set_option exponentiation.threshold 2000 in
/-- A group of two threads of the same sample, on a device without fused multiply-add. -/
example : ∃ V : Nat → Val ℚ, (farS.gpu (binary64.ieee false) .acc (.fin 256) (.fin 3) (.fin 0)).warp [0, 2] = some ([0, 2].map (fun k => mkRes .acc 3 (V k))) ∧
    ∀ j < 3, |((V 0).1 j : ℝ) - 3 * (3 * 50 / √7500 ^ 3 + 65 * 52 / √8112 ^ 3)| ≤ 1 / 5 * (3 * (3 / 7500 + 65 / 8112)) := by
  have hrep : ∀ k < 3, ∀ j ≤ 3, (binary64.ieee true).rnd (farX j k) = .fin (farX j k) := by decide +kernel
  obtain ⟨V, v1, v2⟩ := C68_newton far_in (κ' := 0) (K := 29) (g := 3) (e2 := 0) (mv := 256) binary64_std (by rintro S ⟨⟩; exact avx64_adds) ⟨.inl rfl, by decide⟩ farS_reach (by decide +kernel)
    (by rw [far_n]; exact far_data) (by rw [far_n]; exact fun j hj k hk => hrep k hk j hj)
    (span64 (by norm_num) le_rfl (by norm_num) (by norm_num) (by rw [far_n]; norm_num)) (by rw [far_n, far_hi]; norm_num) (by decide +kernel) (by decide +kernel) false .acc (lanes := [0, 2])
    (by rw [far_n]; decide)
  refine ⟨V, v1, fun j hj => ?_⟩
  have := (v2 0 (by simp)).acc j hj
  have he : (Finset.range 3).erase 0 = {1, 2} := by decide
  have hj3 : j ≠ 3 := by omega
  have ht : binary64.tiny ≤ (1 / 2 : ℚ) ^ 60 := by norm_num [Format.tiny, binary64]
  have ht' : ((binary64.tiny : ℚ) : ℝ) ≤ (1 / 2) ^ 60 := ((Rat.cast_le (K := ℝ)).2 ht).trans (by push_cast; norm_num)
  rw [far_n, unit64, he] at this
  norm_num [Finset.sum_pair, accelBy, D2, farX, hj3, Finset.sum_range_succ, lanes, avx64, accErr] at this ⊢
  norm_num at ht'
  linarith

set_option exponentiation.threshold 2000 in
/-- The same sample, shared between the CPU (the first particle, with vector kernels) and one accelerator, which has the other two. -/
example : splitPlan (.rocm true 1) (binary64.ieee true) (binary64.ieee true) true farS.crit farS.n [.fin 1, .fin 1] = .ok ⟨1, [1, 3]⟩ ∧
    ∃ (out' : List (Res ℚ)) (v : Val ℚ), farS.accPotDev (.rocm true 1) (binary64.ieee true) (binary64.ieee false) true none (maskedShift 32) .acc false true (.fin (1 / 16)) (.fin 3) (.fin 0)
        [.fin 1, .fin 1] ⟨[], []⟩ (fun _ => ⟨[], [0], [0]⟩) (List.replicate 3 ⟨[], []⟩) = .ok out' ∧ out'[2]? = some (mkRes .acc 3 v) ∧
      ∀ j < 3, |(v.1 j : ℝ) - 3 * (-52 / √8112 ^ 3 + -6 / √12 ^ 3)| ≤ 1 / 5 * (3 * (1 / 8112 + 3 / 12)) := by
  have hplan : splitPlan (.rocm true 1) (binary64.ieee true) (binary64.ieee true) true farS.crit farS.n [.fin 1, .fin 1] = .ok ⟨1, [1, 3]⟩ := by decide +kernel
  refine ⟨hplan, ?_⟩
  have hrep : ∀ k < 3, ∀ j ≤ 3, (binary64.ieee true).rnd (farX j k) = .fin (farX j k) := by decide +kernel
  have hpad : (⟨binary64.ieee true, some avx64, none⟩ : Hw ℚ).pad = 3 := by decide +kernel
  have hlen : farS.tree.length = 8 := by decide +kernel
  obtain ⟨p, h1, h2⟩ := C29_rocm (s := farS) (D := binary64.ieee true) (Format.arith_laws binary64_std.toOk _ _) ⟨.inl rfl, by decide⟩ farS_reach (by decide +kernel) true true 1
    (split := [.fin 1, .fin 1]) ⟨by simp, fun _ => ⟨1, by simp, by norm_num⟩, by decide⟩ (fun q hq => by
      obtain rfl : q = 1 := by simpa using hq
      decide +kernel)
  rw [hplan, Except.ok.injEq] at h1
  subst h1
  obtain ⟨out', o1, o2⟩ := C68_split far_in (κ' := 0) (K := 29) (rsqrt := none) (over := maskedShift 32) (g := 3) (split := [.fin 1, .fin 1]) (out := List.replicate 3 ⟨[], []⟩) binary64_std
    (by rintro S ⟨⟩; exact avx64_adds) ⟨.inl rfl, by decide⟩ farS_reach (by decide +kernel) (maskedShift_small _) (by decide +kernel) (by rw [far_n]; decide) (by rw [hlen]; decide)
    (by rw [far_n]; exact far_data) (by rw [far_n]; exact fun j hj k hk => hrep k hk j hj)
    (span64 (by norm_num) le_rfl (by norm_num) (by norm_num) (by rw [far_n, hpad]; norm_num)) le_rfl (by rw [far_n, hpad, far_hi]; norm_num)
    (by intro r hr; cases hr) .acc (Bk := .rocm true 1) (by rintro p m h; cases h; decide) (binary64.ieee true) false true hplan h2 false true ⟨[], []⟩
    (o := fun _ => ⟨[], [0], [0]⟩) (by decide) (by decide) (by rw [far_n]; rfl)
  obtain ⟨i, v, i1, i2, w⟩ := o2 2 (by rw [far_n]; decide)
  obtain rfl : 2 = i := by simpa using i1
  refine ⟨out', v, o1, i2, fun j hj => ?_⟩
  have := w.acc j hj
  have he : (Finset.range 3).erase 2 = {0, 1} := by decide
  have hj3 : j ≠ 3 := by omega
  have ht : binary64.tiny ≤ (1 / 2 : ℚ) ^ 60 := by norm_num [Format.tiny, binary64]
  have ht' : ((binary64.tiny : ℚ) : ℝ) ≤ (1 / 2) ^ 60 := ((Rat.cast_le (K := ℝ)).2 ht).trans (by push_cast; norm_num)
  rw [far_n, hpad, unit64, he] at this
  norm_num [Finset.sum_pair, accelBy, D2, farX, hj3, Finset.sum_range_succ, lanes, avx64, accErr] at this ⊢
  norm_num at ht'
  linarith

end Rakau
