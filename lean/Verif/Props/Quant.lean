import Verif.Proof.Quant
import Verif.Props.PadVal

/-!
C66: accelerations and potentials computed together (`accs_pots_u`, `accs_pots_o`, `exact_acc_pot_u`, ...) are those computed separately (`accs_u`, `pots_u`, ...).
-/
namespace Rakau

variable {K : Type} [Field K] [LinearOrder K]

section Exact
variable [IsStrictOrderedRing K]

omit [IsStrictOrderedRing K] in
/-- In exact arithmetic a fused operation is a product and a sum. -/
theorem fma_exact {A : Arith K} (hA : A.Exact) (a b c : Fl K) : A.fma a b c = A.add (A.mul a b) c := by
  unfold Arith.fma
  split
  · unfold Arith.mul
    rcases Arith.mulPre a b with _ | s | q <;> rcases c with _ | t | c <;> simp [Arith.add, hA _]
  · rfl

theorem over_mul {A : Arith K} (hA : A.Exact) (D : Dist K) (m1 m2 : Fl K) : (A.mul (D.over A m1) m2).neg = A.mul m1.neg (D.over A m2) := by
  have key : ∀ q : Fl K, q = .nan ∨ q = .inf true ∨ q = .inf false ∨ q = .fin 0 ∨ (∃ x, q = .fin x ∧ x < 0 ∧ x ≠ 0 ∧ ¬ 0 < x) ∨ ∃ x, q = .fin x ∧ 0 < x ∧ x ≠ 0 ∧ ¬ x < 0 := by
    intro q
    rcases q with _ | (_ | _) | q
    · simp
    · simp
    · simp
    · rcases lt_trichotomy q 0 with h | h | h
      · right; right; right; right; left; exact ⟨q, rfl, h, h.ne, h.not_gt⟩
      · subst h; simp
      · right; right; right; right; right; exact ⟨q, rfl, h, h.ne', h.not_gt⟩
  unfold Dist.over
  rcases key D.dist with h | h | h | h | ⟨x, h, hx⟩ | ⟨x, h, hx⟩ <;> rw [h] <;>
  rcases key m1 with h | h | h | h | ⟨y, h, hy⟩ | ⟨y, h, hy⟩ <;> rw [h] <;>
  rcases key m2 with h | h | h | h | ⟨z, h, hz⟩ | ⟨z, h, hz⟩ <;> rw [h] <;>
  split <;>
  simp [Arith.mul, Arith.mulPre, Arith.div, Fl.neg, hA _, div_neg_iff, mul_neg_iff, *]
  all_goals try ring

theorem leafSame_exact {M : Mode K} (hA : M.A.Exact) (Q : Quant) : LeafSame M Q := by
  intro _ _ D m1 m2 a
  unfold mutPot Arith.sub
  rw [over_mul hA, fma_exact hA]
  generalize M.A.mul m1.neg (D.over M.A m2) = x
  rcases a with _ | s | a <;> rcases x with _ | t | x <;> simp [Arith.add, hA _, add_comm]
  all_goals aesop

end Exact

section
variable [FloorRing K] {A : Arith K} {simd : Option (Simd K)} {mac : Mac} {w d : Nat}

omit [FloorRing K] in
theorem leafSame_scalar {hw : Hw K} {Q : Quant} (h : Q = .pot → hw.simd = none ∨ d ≠ 3) : LeafSame (hw.mode d) Q := by
  intro hQ hv
  exfalso
  revert hv
  unfold Hw.mode Hw.vec
  rcases h hQ with h | h
  · simp [h]
  · rcases hw.simd with _ | S <;> simp [h]

theorem accPot_keep (s : TS (rakauEnv A simd mac w d)) (rsqrt : Option (Fl K → Fl K)) (over : Overshift) {Q : Quant}
    (h : LeafSame ((⟨A, simd, rsqrt⟩ : Hw K).mode d) Q) (ordered : Bool) (theta G eps : Fl K) (split : List (Fl K)) (order : List Nat) (out : List (Res K)) :
    s.accPot rsqrt over Q ordered theta G eps split order (out.map (Res.keep Q)) =
      (s.accPot rsqrt over .both ordered theta G eps split order out).map (List.map (Res.keep Q)) := by
  unfold TS.accPot
  rcases checkParams A mac theta G eps with e | ⟨mv, eps2⟩
  · rfl
  rcases checkSplit split with e | u
  · rfl
  exact Force.cpuRun_keep (c := s.force rsqrt over .both mv G eps2) rfl h _ order out

theorem accPotDev_keep (s : TS (rakauEnv A simd mac w d)) (B : Backend) (D Dv : Arith K) (types : Bool) (rsqrt : Option (Fl K → Fl K)) (over : Overshift)
    {Q : Quant} (h : LeafSame ((⟨A, simd, rsqrt⟩ : Hw K).mode d) Q) (ordered ptr : Bool) (theta G eps : Fl K) (split : List (Fl K)) (junk : Res K)
    (o : Plan → Sched) (out : List (Res K)) :
    s.accPotDev B D Dv types rsqrt over Q ordered ptr theta G eps split (junk.keep Q) o (out.map (Res.keep Q)) =
      (s.accPotDev B D Dv types rsqrt over .both ordered ptr theta G eps split junk o out).map (List.map (Res.keep Q)) := by
  unfold TS.accPotDev
  rcases checkParams A mac theta G eps with e | ⟨mv, eps2⟩
  · rfl
  rcases splitPlan B D A types s.crit s.n split with e | plan
  · rfl
  simp only [Gpu.ok_bind]
  have hc : ∀ (ix : Nat → Option Nat) (order : List Nat) (out : List (Res K)), (s.force rsqrt over Q mv G eps2).cpuRun ix order (out.map (Res.keep Q)) =
      ((s.force rsqrt over .both mv G eps2).cpuRun ix order out).map (List.map (Res.keep Q)) :=
    fun ix order out => Force.cpuRun_keep (c := s.force rsqrt over .both mv G eps2) rfl h ix order out
  rw [hc]
  cases (s.force rsqrt over .both mv G eps2).cpuRun (fun i => if ordered = true then s.perm[i]? else some i) (o plan).before out with
  | error e => rfl
  | ok out1 =>
    rw [show Except.map (List.map (Res.keep Q)) (.ok out1 : Except Err (List (Res K))) = .ok (out1.map (Res.keep Q)) from rfl]
    simp only [Gpu.ok_bind]
    by_cases hp : plan.dev.isEmpty = true
    · rw [if_pos hp, if_pos hp]
      exact hc _ _ _
    · rw [if_neg hp, if_neg hp]
      rw [show (s.gpu Dv Q mv G eps2).task B.blockSize s.n plan.dev (ptr && !ordered) (junk.keep Q) (o plan).dev (fun i => if ordered = true then s.perm[i]? else some i)
          (out1.map (Res.keep Q)) = _ from Gpu.task_keep (c := s.gpu Dv .both mv G eps2) rfl Q _ _ _ _ junk _ _ out1]
      cases (s.gpu Dv .both mv G eps2).task B.blockSize s.n plan.dev (ptr && !ordered) junk (o plan).dev (fun i => if ordered = true then s.perm[i]? else some i) out1 with
      | error e => rfl
      | ok out2 => exact hc _ _ _

/-- C66: the accelerations computed together with the potentials are those computed alone, bit by bit: in any arithmetic, for any state of the tree, any parameters (also
those that are refused, with the same error), any output, and with all kernels. `out` is the output of the combined function before the call, of which the other function
has the part for accelerations. -/
theorem C66_accs (s : TS (rakauEnv A simd mac w d)) (rsqrt : Option (Fl K → Fl K)) (over : Overshift) (ordered : Bool) (theta G eps : Fl K)
    (split : List (Fl K)) (order : List Nat) (out : List (Res K)) :
    s.accPot rsqrt over .acc ordered theta G eps split order (out.map (fun r => ⟨r.acc, []⟩)) =
      (s.accPot rsqrt over .both ordered theta G eps split order out).map (List.map (fun r => ⟨r.acc, []⟩)) :=
  accPot_keep s rsqrt over (Q := .acc) (fun h => by cases h) ordered theta G eps split order out

/-- C66: the potentials computed together with the accelerations are those computed alone, bit by bit, by the scalar kernels (in two dimensions, or without SIMD). -/
theorem C66_pots (s : TS (rakauEnv A simd mac w d)) (hv : simd = none ∨ d ≠ 3) (rsqrt : Option (Fl K → Fl K)) (over : Overshift) (ordered : Bool) (theta G eps : Fl K)
    (split : List (Fl K)) (order : List Nat) (out : List (Res K)) :
    s.accPot rsqrt over .pot ordered theta G eps split order (out.map (fun r => ⟨[], r.pot⟩)) =
      (s.accPot rsqrt over .both ordered theta G eps split order out).map (List.map (fun r => ⟨[], r.pot⟩)) :=
  accPot_keep s rsqrt over (Q := .pot) (leafSame_scalar (hw := ⟨A, simd, rsqrt⟩) fun _ => hv) ordered theta G eps split order out

/-- C66: in exact arithmetic the same holds for the vector kernels, which compute the potential due to a particle of a leaf in two different ways. -/
theorem C66_pots_exact [IsStrictOrderedRing K] (hA : A.Exact) (s : TS (rakauEnv A simd mac w d)) (rsqrt : Option (Fl K → Fl K)) (over : Overshift) (ordered : Bool)
    (theta G eps : Fl K) (split : List (Fl K)) (order : List Nat) (out : List (Res K)) :
    s.accPot rsqrt over .pot ordered theta G eps split order (out.map (fun r => ⟨[], r.pot⟩)) =
      (s.accPot rsqrt over .both ordered theta G eps split order out).map (List.map (fun r => ⟨[], r.pot⟩)) := by
  refine accPot_keep s rsqrt over (Q := .pot) (leafSame_exact ?_ _) ordered theta G eps split order out
  unfold Hw.mode
  split
  · exact hA
  · exact hA

/-- C66 with accelerators: accelerations always, potentials if the CPU does its part with scalar kernels. `junk` is what the buffers of the accelerators hold before. -/
theorem C66_devices (s : TS (rakauEnv A simd mac w d)) (B : Backend) (D Dv : Arith K) (types : Bool) (rsqrt : Option (Fl K → Fl K)) (over : Overshift)
    (ordered ptr : Bool) (theta G eps : Fl K) (split : List (Fl K)) (junk : Res K) (o : Plan → Sched) (out : List (Res K)) :
    s.accPotDev B D Dv types rsqrt over .acc ordered ptr theta G eps split ⟨junk.acc, []⟩ o (out.map (fun r => ⟨r.acc, []⟩)) =
        (s.accPotDev B D Dv types rsqrt over .both ordered ptr theta G eps split junk o out).map (List.map (fun r => ⟨r.acc, []⟩)) ∧
      (simd = none ∨ d ≠ 3 → s.accPotDev B D Dv types rsqrt over .pot ordered ptr theta G eps split ⟨[], junk.pot⟩ o (out.map (fun r => ⟨[], r.pot⟩)) =
        (s.accPotDev B D Dv types rsqrt over .both ordered ptr theta G eps split junk o out).map (List.map (fun r => ⟨[], r.pot⟩))) :=
  ⟨accPotDev_keep s B D Dv types rsqrt over (Q := .acc) (fun h => by cases h) ordered ptr theta G eps split junk o out,
    fun hv => accPotDev_keep s B D Dv types rsqrt over (Q := .pot) (leafSame_scalar (hw := ⟨A, simd, rsqrt⟩) fun _ => hv) ordered ptr theta G eps split junk o out⟩

/-- C66 for the exact functions of one particle. -/
theorem C66_exact (s : TS (rakauEnv A simd mac w d)) (ordered : Bool) (G eps : Fl K) (i : Nat) :
    s.exact .acc ordered G eps i = (s.exact .both ordered G eps i).map (fun r => ⟨r.acc, []⟩) ∧
      s.exact .pot ordered G eps i = (s.exact .both ordered G eps i).map (fun r => ⟨[], r.pot⟩) := by
  have key : ∀ Q, s.exact Q ordered G eps i = (s.exact .both ordered G eps i).map (Res.keep Q) := by
    intro Q
    unfold TS.exact
    rcases computeEps2 A eps with e | eps2
    · rfl
    rcases checkG G with e | u
    · rfl
    rcases (if ordered = true then s.invPerm[i]? else some i) with _ | idx
    · rfl
    show List.foldlM (m := Except Err) _ (resZero Q d) _ = _
    rw [keep_zero Q]
    refine foldlM_nat (m := Except Err) (φ := Res.keep Q) (fun r k => ?_) _ _
    split
    · rfl
    rcases ptAt d s.parts idx with _ | p
    · rfl
    rcases ptAt d s.parts k with _ | q
    · rfl
    show Except.ok _ = _
    rw [keep_exact]; rfl
  exact ⟨key .acc, key .pot⟩

end

/-- Particles at (-3, -3, -3) and (2, 5, 7) with masses 3 and 7, in a box of size 64. -/
def twoInp : Input geoEnv := ⟨some (.fin 64), 1, 1, [[-3, 2], [-3, 5], [-3, 7], [3, 7]].map (·.map .fin)⟩

def twoS : TS geoEnv := okOr twoInp.exec (TS.default _)

theorem twoS_reach : Reach _ twoS := reach_exec _ rfl (by decide +kernel) (by decide +kernel)

/-- C66 fails in the last bit for potentials with vector kernels, in double precision: `batch_batch_3d_pots` computes `(m1 / dist) * m2`, `batch_batch_3d_accs_pots` has a fused
`m1 * (m2 / dist)`. Here the two potentials of the same pair of particles are even exchanged. -/
theorem C66_vector_fails :
    ∃ a b : ℚ, a ≠ b ∧
      (twoS.accPot none (maskedShift 32) .pot false (.fin (1 / 8)) (.fin 1) (.fin 0) [] [0, 1] (List.replicate 2 ⟨[], []⟩)).map (List.map Res.pot) = .ok [[.fin a], [.fin b]] ∧
      (twoS.accPot none (maskedShift 32) .both false (.fin (1 / 8)) (.fin 1) (.fin 0) [] [0, 1] (List.replicate 2 ⟨[], []⟩)).map (List.map Res.pot) = .ok [[.fin b], [.fin a]] := by
  refine ⟨-6879362064066737/4503599627370496, -3439681032033369/2251799813685248, by norm_num, ?_, ?_⟩
  · exact (eq_okOr (d := []) (by decide +kernel)).trans (congrArg Except.ok (by decide +kernel))
  · exact (eq_okOr (d := []) (by decide +kernel)).trans (congrArg Except.ok (by decide +kernel))

/-- On the sample tree the accelerations are computed together with the potentials and alone, from different values in the output before. -/
example : ∃ a b : List (Fl ℚ), a ≠ b ∧
    twoS.accPot none (maskedShift 32) .both false (.fin (1 / 8)) (.fin 1) (.fin 0) [] [0, 1] (List.replicate 2 ⟨[], []⟩) = .ok [⟨a, [.fin (-3439681032033369/2251799813685248)]⟩, ⟨b, [.fin (-6879362064066737/4503599627370496)]⟩] ∧
    twoS.accPot none (maskedShift 32) .acc false (.fin (1 / 8)) (.fin 1) (.fin 0) [] [0, 1] (List.replicate 2 ⟨[], []⟩) = .ok [⟨a, []⟩, ⟨b, []⟩] := by
  have h : ∃ a b : List (Fl ℚ), a ≠ b ∧
    twoS.accPot none (maskedShift 32) .both false (.fin (1 / 8)) (.fin 1) (.fin 0) [] [0, 1] (List.replicate 2 ⟨[], []⟩) = .ok [⟨a, [.fin (-3439681032033369/2251799813685248)]⟩, ⟨b, [.fin (-6879362064066737/4503599627370496)]⟩] := by
    refine ⟨((okOr (twoS.accPot none (maskedShift 32) .both false (.fin (1 / 8)) (.fin 1) (.fin 0) [] [0, 1] (List.replicate 2 ⟨[], []⟩)) [])[0]?.map Res.acc).getD [],
      ((okOr (twoS.accPot none (maskedShift 32) .both false (.fin (1 / 8)) (.fin 1) (.fin 0) [] [0, 1] (List.replicate 2 ⟨[], []⟩)) [])[1]?.map Res.acc).getD [], by decide +kernel,
      (eq_okOr (d := []) (by decide +kernel)).trans (congrArg Except.ok (by decide +kernel))⟩
  obtain ⟨a, b, hab, h⟩ := h
  refine ⟨a, b, hab, h, ?_⟩
  rw [show (List.replicate 2 ⟨[], []⟩ : List (Res ℚ)) = (List.replicate 2 ⟨[], []⟩ : List (Res ℚ)).map (fun r => ⟨r.acc, []⟩) from rfl,
    C66_accs twoS none (maskedShift 32) false (.fin (1 / 8)) (.fin 1) (.fin 0) [] [0, 1] (List.replicate 2 ⟨[], []⟩), h]
  rfl

/-- Potentials without SIMD, with masses of both signs: the results are not an error and not zero. -/
example : ∃ a b c : ℚ, a ≠ 0 ∧ b ≠ 0 ∧ c ≠ 0 ∧
    (mixS none).accPot none (maskedShift 32) .pot true (.fin (1 / 8)) (.fin 1) (.fin 0) [] [0, 1] (List.replicate 3 ⟨[], []⟩) = .ok [⟨[], [.fin a]⟩, ⟨[], [.fin b]⟩, ⟨[], [.fin c]⟩] ∧
    ((mixS none).accPot none (maskedShift 32) .both true (.fin (1 / 8)) (.fin 1) (.fin 0) [] [0, 1] (List.replicate 3 ⟨[], []⟩)).map (List.map (fun r => (⟨[], r.pot⟩ : Res ℚ))) =
      .ok [⟨[], [.fin a]⟩, ⟨[], [.fin b]⟩, ⟨[], [.fin c]⟩] := by
  have h := C66_pots (mixS none) (.inl rfl) none (maskedShift 32) true (.fin (1 / 8)) (.fin 1) (.fin 0) [] [0, 1] (List.replicate 3 ⟨[], []⟩)
  rw [List.map_replicate] at h
  have g : ∃ a b c : ℚ, a ≠ 0 ∧ b ≠ 0 ∧ c ≠ 0 ∧
      (mixS none).accPot none (maskedShift 32) .pot true (.fin (1 / 8)) (.fin 1) (.fin 0) [] [0, 1] (List.replicate 3 ⟨[], []⟩) = .ok [⟨[], [.fin a]⟩, ⟨[], [.fin b]⟩, ⟨[], [.fin c]⟩] :=
    ⟨-4322334682073191/72057594037927936, 2506679666212867/2199023255552, 5059805776383419/4398046511104, by norm_num, by norm_num, by norm_num, (eq_okOr (d := []) (by decide +kernel)).trans (congrArg Except.ok (by decide +kernel))⟩
  obtain ⟨a, b, c, ha, hb, hc, g⟩ := g
  exact ⟨a, b, c, ha, hb, hc, g, h.symm.trans g⟩

/-- The sample of `Props/Gpu.lean`, shared between the CPU (particles 0 and 1) and one accelerator (particles 2 to 4). -/
example :
    let run (Q : Quant) := (gS .bh).accPotDev (.rocm true 2) sqQ sqQ true none (maskedShift 32) Q true false (.fin (3 / 4)) (.fin 2) (.fin 0) [.fin 1, .fin 1] ⟨[], []⟩
      (fun _ => ⟨[1], [0], [0]⟩) (List.replicate 5 ⟨[.nan, .nan, .nan], []⟩)
    ∃ l, l.length = 5 ∧ l.all (fun r => decide (r.acc.length = 3) && r.acc.all Fl.isFinite) = true ∧ run .acc = .ok l ∧ (run .both).map (List.map (fun r => ⟨r.acc, []⟩)) = .ok l := by
  refine ⟨okOr ((gS .bh).accPotDev (.rocm true 2) sqQ sqQ true none (maskedShift 32) .acc true false (.fin (3 / 4)) (.fin 2) (.fin 0) [.fin 1, .fin 1] ⟨[], []⟩
      (fun _ => ⟨[1], [0], [0]⟩) (List.replicate 5 ⟨[.nan, .nan, .nan], []⟩)) [], by decide +kernel, by decide +kernel, eq_okOr (by decide +kernel), ?_⟩
  rw [← (C66_devices (gS .bh) (.rocm true 2) sqQ sqQ true none (maskedShift 32) true false (.fin (3 / 4)) (.fin 2) (.fin 0) [.fin 1, .fin 1] ⟨[], []⟩
      (fun _ => ⟨[1], [0], [0]⟩) (List.replicate 5 ⟨[.nan, .nan, .nan], []⟩)).1]
  exact eq_okOr (by decide +kernel)

/-- The exact functions on the sample tree. -/
example : ∃ a : List (Fl ℚ), ∃ p : ℚ, a.length = 3 ∧ p < 0 ∧ twoS.exact .both true (.fin 1) (.fin 0) 1 = .ok ⟨a, [.fin p]⟩ ∧
    twoS.exact .acc true (.fin 1) (.fin 0) 1 = .ok ⟨a, []⟩ ∧ twoS.exact .pot true (.fin 1) (.fin 0) 1 = .ok ⟨[], [.fin p]⟩ := by
  have h := C66_exact twoS true (.fin 1) (.fin 0) 1
  have g : ∃ a : List (Fl ℚ), ∃ p : ℚ, a.length = 3 ∧ p < 0 ∧ twoS.exact .both true (.fin 1) (.fin 0) 1 = .ok ⟨a, [.fin p]⟩ :=
    ⟨(okOr (twoS.exact .both true (.fin 1) (.fin 0) 1) ⟨[], []⟩).acc, -6879362064066737/4503599627370496, by decide +kernel, by norm_num, (eq_okOr (d := ⟨[], []⟩) (by decide +kernel)).trans (congrArg Except.ok (by decide +kernel))⟩
  obtain ⟨a, p, ha, hp, g⟩ := g
  rw [g] at h
  exact ⟨a, p, ha, hp, g, h.1, h.2⟩

end Rakau
