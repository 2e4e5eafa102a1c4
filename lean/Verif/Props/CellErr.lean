import Verif.Proof.CellErr
import Verif.Props.NodeErr

/-! Property theorems about the positions of the particles of a node in IEEE arithmetic (C19). -/
namespace Rakau
open Spec

section
variable {f : Format} {fused : Bool} {simd : Option (Simd ℚ)} {mac : Mac} {w d : Nat} {s : TS (rakauEnv (f.ieee fused) simd mac w d)}

/-- C19 in IEEE arithmetic: the particles of a node of level `l` lie in one of the `2 ^ (d l)` cubes of size `b / 2 ^ l` the domain is divided into, up to `4 u b`. This needs only that the inverse of the size `b` of the
domain is a normal number. -/
theorem C19_ieee (hf : f.Std) (hs : Supported w d) (h : Reach _ s) (hz : s.n * cbits w d < 2 ^ 64) {x : Nat → Nat → ℚ} (hx : IsData d s.n s.parts x) {b : ℚ}
    (hb : s.box = .fin b) (hb0 : 0 < b) (h1 : f.minNormal ≤ 1 / b) (h2 : 1 / b ≤ 2 ^ (f.emax - 1)) {i : Nat} (hi : i < s.tree.length) :
    ∃ a : Nat → Nat, (∀ j < d, a j < 2 ^ s.tree[i].level) ∧ ∀ k, s.tree[i].beg ≤ k → k < s.tree[i].fin → ∀ j < d,
      -(b : ℝ) / 2 + a j * (b / 2 ^ s.tree[i].level) - 4 * f.unit * b ≤ x j k ∧ (x j k : ℝ) ≤ -(b : ℝ) / 2 + (a j + 1) * (b / 2 ^ s.tree[i].level) + 4 * f.unit * b := by
  obtain ⟨a, a1, a2⟩ := node_cell hf hs h hz hx hb hb0 h1 h2 hi
  refine ⟨a, a1, fun k k1 k2 j hj => ?_⟩
  obtain ⟨y1, y2⟩ := a2 k k1 k2 j hj
  have hb' : (0 : ℝ) < b := by exact_mod_cast hb0
  have e1 := mul_le_mul_of_nonneg_right y1 hb'.le
  have e2 := mul_le_mul_of_nonneg_right y2 hb'.le
  push_cast at e1 e2
  have e3 : ((x j k : ℝ) / b + 1 / 2) * b = x j k + b / 2 := by field_simp
  rw [e3] at e1 e2
  constructor
  · have : ((a j : ℝ) / 2 ^ s.tree[i].level - 4 * f.unit) * b = a j * (b / 2 ^ s.tree[i].level) - 4 * f.unit * b := by ring
    linarith
  · have : (((a j : ℝ) + 1) / 2 ^ s.tree[i].level + 4 * f.unit) * b = (a j + 1) * (b / 2 ^ s.tree[i].level) + 4 * f.unit * b := by ring
    linarith

/-- The particles of a node differ by at most the size of the cube and `8 u b`, in each coordinate. -/
theorem C19_ieee_spread (hf : f.Std) (hs : Supported w d) (h : Reach _ s) (hz : s.n * cbits w d < 2 ^ 64) {x : Nat → Nat → ℚ} (hx : IsData d s.n s.parts x) {b : ℚ}
    (hb : s.box = .fin b) (hb0 : 0 < b) (h1 : f.minNormal ≤ 1 / b) (h2 : 1 / b ≤ 2 ^ (f.emax - 1)) {i : Nat} (hi : i < s.tree.length) {k l : Nat}
    (hk : s.tree[i].beg ≤ k ∧ k < s.tree[i].fin) (hl : s.tree[i].beg ≤ l ∧ l < s.tree[i].fin) {j : Nat} (hj : j < d) :
    |(x j k : ℝ) - x j l| ≤ b / 2 ^ s.tree[i].level + 8 * f.unit * b := by
  obtain ⟨a, _, a2⟩ := C19_ieee hf hs h hz hx hb hb0 h1 h2 hi
  have e1 := a2 k hk.1 hk.2 j hj
  have e2 := a2 l hl.1 hl.2 j hj
  rw [abs_le]
  constructor <;> linarith [e1.1, e1.2, e2.1, e2.2]

end

/-- C19 in single precision, at the node of the second and third particle of the example of `C64_node`: level 1, cubes of size 8. -/
example : ∃ (hi : 2 < posS.tree.length) (a : Nat → Nat), posS.tree[2].level = 1 ∧ posS.tree[2].beg = 1 ∧ posS.tree[2].fin = 3 ∧ (∀ j < 3, a j < 2) ∧ ∀ k, 1 ≤ k → k < 3 → ∀ j < 3,
    -8 + a j * 8 - 64 * binary32.unit ≤ (posX j k : ℝ) ∧ (posX j k : ℝ) ≤ -8 + (a j + 1) * 8 + 64 * binary32.unit := by
  have hi : 2 < posS.tree.length := by decide +kernel
  have hb : posS.tree[2].beg = 1 := (by decide +kernel : ∃ h : 2 < posS.tree.length, posS.tree[2].beg = 1).2
  have hf : posS.tree[2].fin = 3 := (by decide +kernel : ∃ h : 2 < posS.tree.length, posS.tree[2].fin = 3).2
  have hl : posS.tree[2].level = 1 := (by decide +kernel : ∃ h : 2 < posS.tree.length, posS.tree[2].level = 1).2
  have hn : posS.n = 3 := by decide +kernel
  obtain ⟨a, a1, a2⟩ := C19_ieee (b := 16) binary32_std (simd := some sse32) ⟨.inl rfl, by decide⟩ posS_reach (by decide +kernel)
    (by rw [hn]; exact pos_data) (by decide +kernel) (by norm_num) (by norm_num [Format.minNormal, binary32]) (by norm_num [binary32]) hi
  rw [hl, hb, hf] at a2
  rw [hl] at a1
  refine ⟨hi, a, hl, hb, hf, a1, fun k k1 k2 j hj => ?_⟩
  have := a2 k k1 k2 j hj
  push_cast at this
  constructor <;> linarith [this.1, this.2]

end Rakau
