import Verif.Proof.ForceState

/-! A sample tree with rational distances, used in the examples beside the theorems on the force computation. -/
namespace Rakau
open Spec

/-- A square root on `ℚ`: the true one for squares (of moderate size); smaller than `√2` times the true one, and positive, for all others. -/
def sqrtQ (q : ℚ) : ℚ :=
  let r : ℚ := (isqrtAux q.num.toNat 40 0 : ℚ) / isqrtAux q.den 40 0
  if 0 ≤ r ∧ r * r = q then r else min q 1

/-- Exact arithmetic with square roots. -/
def sqQ : Arith ℚ := ⟨.fin, fun q => .fin (sqrtQ q), true⟩

theorem sqQ_exact : sqQ.Exact := fun _ => rfl

theorem sqQ_sqrt : SqrtOk sqQ := by
  intro q hq
  refine ⟨sqrtQ q, rfl, ?_⟩
  unfold sqrtQ
  simp only
  split
  · rename_i h
    refine ⟨h.1, by linarith [h.2], fun h0 => ⟨?_, by linarith [h.2]⟩⟩
    rcases h.1.lt_or_eq with h1 | h1
    · exact h1
    · exfalso; rw [← h1] at h; linarith [h.2]
  · have h1 : min q 1 ≤ q := min_le_left _ _
    have h2 : min q 1 ≤ 1 := min_le_right _ _
    have h3 : 0 ≤ min q 1 := le_min hq zero_le_one
    refine ⟨h3, by nlinarith, fun h0 => ?_⟩
    have h4 : 0 < min q 1 := lt_min h0 one_pos
    exact ⟨h4, by nlinarith⟩

@[reducible] def gEnv (mac : Mac) : Env := rakauEnv sqQ (some simd4) mac 32 3

/-- Five particles in the plane `z = 0`, with distances 5, 6, 8 and 10: coordinates, then masses. -/
def gData : List (List ℚ) := [[3, -3, 0, -3, 3], [4, -4, 0, 4, -4], [0, 0, 0, 0, 0], [1, 2, 3, 4, 5]]

def gInp (mac : Mac) : Input (gEnv mac) := ⟨some (.fin 16), 1, 2, gData.map (·.map .fin)⟩

def gS (mac : Mac) : TS (gEnv mac) := okOr (gInp mac).exec (TS.default _)

theorem g_reach (mac : Mac) : Reach (gEnv mac) (gS mac) := by
  have h : Construct (gInp mac) (gInp mac).exec := construct_exec (by cases mac <;> decide +kernel)
  rw [eq_okOr (d := TS.default _) (show isOk (gInp mac).exec = true by cases mac <;> decide +kernel)] at h
  exact .construct _ _ (by cases mac <;> rfl) h

/-- The data of `gS`, in the order of the tree. -/
def gX (j k : Nat) : ℚ := (gData.getD j []).getD ([1, 4, 3, 2, 0].getD k 0) 0

theorem g_data (mac : Mac) : IsData 3 (gS mac).n (gS mac).parts gX := isData_of_eq (by cases mac <;> decide +kernel)

theorem g_n (mac : Mac) : (gS mac).n = 5 := by cases mac <;> decide +kernel

theorem g_simd : SimdPos (some simd4) := fun S h => by cases h; decide

theorem g_size (mac : Mac) : (gS mac).n * cbits 32 3 < 2 ^ 64 := by rw [g_n]; decide

theorem g_room (mac : Mac) (rsqrt : Option (Fl ℚ → Fl ℚ)) : (gS mac).n + (⟨sqQ, some simd4, rsqrt⟩ : Hw ℚ).pad < 2 ^ 64 := by
  rw [g_n]; show 5 + 3 < _; decide

theorem g_supp : Supported 32 3 := ⟨.inl rfl, .inr rfl⟩

/-- An estimate of the inverse square root, exact for squares. -/
def estQ : Fl ℚ → Fl ℚ
  | .fin q => .fin (1 / sqrtQ q)
  | _ => .nan

theorem estQ_ok : EstOk (some estQ) := by
  intro r hr q hq
  cases hr
  exact ⟨_, rfl⟩

theorem g_sit (mac : Mac) {rsqrt : Option (Fl ℚ → Fl ℚ)} (hr : EstOk rsqrt) {mv e : ℚ} (h1 : 0 < mv) (h2 : 0 ≤ e) :
    Sit (gS mac) rsqrt (maskedShift 32) gX 16 mv e where
  exact := sqQ_exact
  batch := rat_ok
  supp := g_supp
  reach := g_reach mac
  size := g_size mac
  room := g_room mac _
  box := by cases mac <;> decide +kernel
  bpos := by norm_num
  data := g_data mac
  small := maskedShift_small _
  mpos := h1
  soft := h2
  sqrt := sqQ_sqrt
  est := hr

end Rakau
