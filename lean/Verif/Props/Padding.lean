import Verif.Props.Force

/-!
C24: where the padding does influence the results. The positive statements (`C24_acceptance`, `C24_values`) are for exact arithmetic, the first
one for non-negative masses; here are two concrete runs in IEEE arithmetic that show that both restrictions are needed.
-/
namespace Rakau

/-- A tree built by executing the constructor is reachable. -/
theorem reach_exec {env : Env} (inp : Input env) (h1 : inp.parts.length = env.d + 1) (h2 : inp.execCheck = true) (h3 : isOk inp.exec = true) :
    Reach env (okOr inp.exec (TS.default _)) := by
  have h : Construct inp inp.exec := construct_exec h2
  rw [eq_okOr (d := TS.default _) h3] at h
  exact .construct _ _ h1 h

/-! ### Masses of both signs -/

/-- AVX in double precision: batches of 4. -/
def avx64 : Simd ℚ := ⟨4, true, fun l => l.foldl (binary64.ieee true).add (.fin 0)⟩

@[reducible] def mixEnv (simd : Option (Simd ℚ)) : Env := rakauEnv (binary64.ieee true) simd .bh 32 3

/-- Particles at (-4, -4, -4), (4, 4, 4), (2, 2, 2) with masses 1, 65, -61, in a box of size 16. -/
def mixInp (simd : Option (Simd ℚ)) : Input (mixEnv simd) :=
  ⟨some (.fin 16), 2, 2, [[-4, 4, 2], [-4, 4, 2], [-4, 4, 2], [1, 65, -61]].map (·.map .fin)⟩

def mixS (simd : Option (Simd ℚ)) : TS (mixEnv simd) := okOr (mixInp simd).exec (TS.default _)

theorem mix_reach : Reach _ (mixS (some avx64)) ∧ Reach _ (mixS none) :=
  ⟨reach_exec _ rfl (by decide +kernel) (by decide +kernel), reach_exec _ rfl (by decide +kernel) (by decide +kernel)⟩

/-- C24 fails for masses of both signs, in double precision with `θ = 1`: the first critical node holds particle 0 and, with SIMD, three padding slots;
node 2 passes the acceptance check for particle 0, but its centre of mass (34.5, 34.5, 34.5) is so close to the padding that it fails there.
So node 2 is opened with SIMD and used as a whole without; the accelerations of particle 0 differ by more than 1/10 (and in sign). -/
theorem C24_mixed_fails :
    let S := (mixS (some avx64)).force none (maskedShift 32) .acc (.fin 1) (.fin 1) (.fin 0)
    S.failsAt 2 (S.slot ⟨8, 0, 1⟩ 0) = false ∧ S.accepts 1 (S.slot ⟨8, 0, 1⟩) 2 = false ∧
    checkParams (binary64.ieee true) .bh (.fin 1) (.fin 1) (.fin 0) = .ok (.fin 1, .fin 0) ∧
    (mixS (some avx64)).crit = [⟨8, 0, 1⟩, ⟨15, 1, 3⟩] ∧ (mixS none).parts = (mixS (some avx64)).parts ∧
    ∃ out out' : List (Res ℚ), ∃ a a' : ℚ,
      (mixS (some avx64)).accPot none (maskedShift 32) .acc false (.fin 1) (.fin 1) (.fin 0) [] [0, 1] (List.replicate 3 ⟨[], []⟩) = .ok out ∧
      (mixS none).accPot none (maskedShift 32) .acc false (.fin 1) (.fin 1) (.fin 0) [] [0, 1] (List.replicate 3 ⟨[], []⟩) = .ok out' ∧
      out[0]? = some ⟨[.fin a, .fin a, .fin a], []⟩ ∧ out'[0]? = some ⟨[.fin a', .fin a', .fin a'], []⟩ ∧ a < -1 / 10 ∧ 0 < a' := by
  refine ⟨by decide +kernel, by decide +kernel, by decide +kernel, by decide +kernel, by decide +kernel, ?_⟩
  refine ⟨okOr ((mixS (some avx64)).accPot none (maskedShift 32) .acc false (.fin 1) (.fin 1) (.fin 0) [] [0, 1] (List.replicate 3 ⟨[], []⟩)) [],
    okOr ((mixS none).accPot none (maskedShift 32) .acc false (.fin 1) (.fin 1) (.fin 0) [] [0, 1] (List.replicate 3 ⟨[], []⟩)) [],
    -588345134698611 / 4503599627370496, 4790119820825701 / 9223372036854775808, eq_okOr (by decide +kernel), eq_okOr (by decide +kernel),
    by decide +kernel, by decide +kernel, by norm_num, by norm_num⟩

/-! ### Overflow -/

/-- AVX in single precision: batches of 8. -/
def avx32 : Simd ℚ := ⟨8, true, fun l => l.foldl (binary32.ieee true).add (.fin 0)⟩

/-- An estimate of the inverse square root that is as good as the format allows; 0 at infinity, as for the x86 instructions. -/
def rsqrt32 : Fl ℚ → Fl ℚ
  | .fin q => (binary32.ieee true).div (.fin 1) ((binary32.ieee true).fsqrt (.fin q))
  | .inf false => .fin 0
  | _ => .nan

@[reducible] def ovEnv : Env := rakauEnv (binary32.ieee true) (some avx32) .bh 32 3

/-- Particles at (1, 1, 1) and (4, 4, 4) with masses 1 and 2, in a box of size 16. -/
def ovInp : Input ovEnv := ⟨some (.fin 16), 2, 2, [[1, 4], [1, 4], [1, 4], [1, 2]].map (·.map .fin)⟩

def ovS : TS ovEnv := okOr ovInp.exec (TS.default _)

theorem ov_reach : Reach _ ovS := reach_exec _ rfl (by decide +kernel) (by decide +kernel)

/-- C24 fails by overflow, in single precision with the fast inverse square root and `θ = 2^-63` (a valid parameter): the padding coordinate is finite, but the squared
distance from it is infinite; the Newton step makes a NaN of its inverse, which times the zero mass of the padding is a NaN in the acceleration
of particle 1. The result is finite without the fast inverse square root, and from the exact function. -/
theorem C24_nan_fails :
    (∃ p, (ovS.force (some rsqrt32) (maskedShift 32) .acc (.fin (2 ^ 126)) (.fin 1) (.fin 0)).padCoord = .fin p) ∧
    (∃ r0, ovS.accPot (some rsqrt32) (maskedShift 32) .acc false (.fin (1 / 2 ^ 63)) (.fin 1) (.fin 0) [] [0] (List.replicate 2 ⟨[], []⟩) =
      .ok [r0, ⟨[.nan, .nan, .nan], []⟩]) ∧
    (∃ r0, ∃ a : ℚ, ovS.accPot none (maskedShift 32) .acc false (.fin (1 / 2 ^ 63)) (.fin 1) (.fin 0) [] [0] (List.replicate 2 ⟨[], []⟩) =
      .ok [r0, ⟨[.fin a, .fin a, .fin a], []⟩] ∧ ovS.exact .acc false (.fin 1) (.fin 0) 1 = .ok ⟨[.fin a, .fin a, .fin a], []⟩) := by
  refine ⟨⟨170403719447608033280, by decide +kernel⟩,
    ⟨⟨[.fin (358753 / 8388608), .fin (358753 / 8388608), .fin (358753 / 8388608)], []⟩, by decide +kernel⟩,
    ⟨⟨[.fin (358753 / 8388608), .fin (358753 / 8388608), .fin (358753 / 8388608)], []⟩, -358753 / 16777216, by decide +kernel, by decide +kernel⟩⟩

end Rakau
