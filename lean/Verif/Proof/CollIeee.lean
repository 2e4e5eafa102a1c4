import Verif.Proof.CollAny
import Verif.Proof.CellErr
import Verif.Proof.RoundEdge

/-! The collision graph in IEEE arithmetic: the cells of the vertices of an AABB, with rounding errors. -/
namespace Rakau
open Spec

section Gen

variable {K : Type} [Field K] [LinearOrder K] [IsStrictOrderedRing K] [FloorRing K] {A : Arith K} {w d : Nat} {top : K}

omit [IsStrictOrderedRing K] in
/-- The codes of the vertices exist if the cells of the ends do. -/
theorem aabbCodes_ok {pos : List (Fl K)} {size inv : Fl K} (h : ∀ x ∈ pos, ∃ cl ch, EndCells A w d top size inv x cl ch) :
    aabbCodes A w d top pos size inv ≠ .error .invalidArg := by
  unfold aabbCodes
  cases hm : pos.mapM (aabbBounds A (A.mul size (.fin (1 / 2)))) with
  | error er =>
    obtain ⟨x, hx, he⟩ := mapM_error hm
    obtain ⟨cl, ch, lo, hi, e1, _⟩ := h x hx
    rw [e1] at he; simp at he
  | ok bs =>
    have hf := forall₂_getElem (mapM_ok_iff.1 hm)
    simp only [bind, Except.bind]
    intro hv
    obtain ⟨i, _, hi⟩ := mapM_error hv
    unfold vertexCode at hi
    simp only [bind, Except.bind] at hi
    split at hi
    · rename_i er hds
      obtain ⟨⟨b, k⟩, hb, he⟩ := mapM_error hds
      obtain ⟨_, hk, hbk⟩ := List.mem_zipIdx hb
      have hk' : k < bs.length := by omega
      have hkp : k < pos.length := by have := hf.1; omega
      obtain ⟨cl, ch, lo, hi', e1, e2, e3⟩ := h pos[k] (List.getElem_mem _)
      have e4 := hf.2 k hkp hk'
      rw [e1, Except.ok.injEq] at e4
      have hbb : b = (lo, hi') := by rw [e4]; simpa using hbk
      subst hbb
      simp only at he
      split at he
      · rw [e2] at he; simp at he
      · rw [e3] at he; simp at he
    · unfold ofUB at hi
      split at hi <;> simp at hi

/-- Numbers that differ by at most one cell of a coarser grid lie in the same cell of it or in neighbouring cells. -/
theorem group_near {p q : K} (h0 : 0 ≤ top) {s : Nat} (h : q ≤ p + 2 ^ s) :
    ⌊max 0 (min q top)⌋.toNat / 2 ^ s ≤ ⌊max 0 (min p top)⌋.toNat / 2 ^ s + 1 := by
  have hp2 : (0 : K) < 2 ^ s := by positivity
  have h1 : max 0 (min q top) ≤ max 0 (min p top) + ((2 ^ s : ℤ) : K) := by
    push_cast
    rcases le_total p top with a | a
    · rw [min_eq_left a]
      exact max_le (by linarith [le_max_left 0 p]) ((min_le_left _ _).trans (by linarith [le_max_right 0 p]))
    · rw [min_eq_right a, max_eq_right h0]
      exact max_le (by linarith) ((min_le_right _ _).trans (by linarith))
  have h2 := Int.floor_le_floor h1
  rw [Int.floor_add_intCast] at h2
  have h3 : 0 ≤ ⌊max 0 (min p top)⌋ := Int.floor_nonneg.2 (le_max_left _ _)
  have h4 : ⌊max 0 (min q top)⌋.toNat ≤ ⌊max 0 (min p top)⌋.toNat + 2 ^ s := by
    rw [Int.toNat_le]
    push_cast
    rw [Int.toNat_of_nonneg h3]
    exact h2
  calc _ ≤ (⌊max 0 (min p top)⌋.toNat + 2 ^ s) / 2 ^ s := Nat.div_le_div_right h4
    _ = _ := by rw [Nat.add_div_right _ (Nat.two_pow_pos s)]

omit [IsStrictOrderedRing K] [FloorRing K] in
/-- The level computed from the size, if the halvings of the box size are exact. -/
theorem sizeLoop_halves {σ : K} : ∀ (fuel : Nat) (cur : K), (∀ k < fuel, A.rnd (cur / 2 ^ (k + 1)) = .fin (cur / 2 ^ (k + 1))) →
    sizeLoop A (.fin σ) fuel (.fin cur) ≤ fuel ∧
    (sizeLoop A (.fin σ) fuel (.fin cur) = 0 ∨ σ < cur / 2 ^ sizeLoop A (.fin σ) fuel (.fin cur)) ∧
    (sizeLoop A (.fin σ) fuel (.fin cur) < fuel → cur / 2 ^ (sizeLoop A (.fin σ) fuel (.fin cur) + 1) ≤ σ) := by
  intro fuel
  induction fuel with
  | zero => intro cur _; simp [sizeLoop]
  | succ fuel ih =>
    intro cur h
    have e0 : A.mul (.fin cur) (.fin (1 / 2)) = .fin (cur / 2) := by
      have := h 0 (by omega)
      show A.rnd (cur * (1 / 2)) = _
      rw [mul_one_div]
      simpa using this
    simp only [sizeLoop, e0]
    by_cases hle : Fl.le (.fin (cur / 2)) (.fin σ) = true
    · rw [if_pos hle]
      simpa using hle
    · rw [if_neg hle]
      have hlt : σ < cur / 2 := by simpa using hle
      have hd : ∀ k : Nat, cur / 2 / 2 ^ k = cur / 2 ^ (k + 1) := by
        intro k; rw [pow_succ, div_div, mul_comm]
      obtain ⟨i1, i2, i3⟩ := ih (cur / 2) (fun k hk => by rw [hd]; exact h (k + 1) (by omega))
      refine ⟨by omega, .inr ?_, fun hl => ?_⟩
      · rw [← hd]
        rcases i2 with i2 | i2
        · rw [i2]; simpa using hlt
        · exact i2
      · rw [← hd]; exact i3 (by omega)

end Gen

section Ieee

variable {f : Format} {fused : Bool}

/-- As `scaled_err`, for coordinates somewhat outside the box. -/
theorem scaled_err6 {u η z i t r P q C y : ℝ} (u0 : 0 ≤ u) (u1 : u ≤ 1 / 1024) (hη0 : 0 ≤ η) (hη : 16 * η ≤ u) (hy : |y| ≤ 67 / 64) (hC : 1 ≤ C)
    (h1 : |z * i - y| ≤ u * |y|) (h2 : |t - z * i| ≤ u * |z * i| + η) (h3 : |r - (1 / 2 + t)| ≤ u * |1 / 2 + t| + η) (h4 : |P - r * C| ≤ u * |r * C| + η)
    (hq : P = q * C) : |q - (y + 1 / 2)| ≤ 6 * u := by
  subst hq
  rw [← sub_mul, abs_mul, abs_mul, abs_of_pos (by linarith : (0 : ℝ) < C)] at h4
  have h5 : |q - r| ≤ u * |r| + η := by
    have a1 : |q - r| * C ≤ (u * |r|) * C + η := by linarith
    by_contra hc
    rw [not_le] at hc
    have hη1 : 0 ≤ |q - r| - u * |r| - η := by linarith
    nlinarith
  have m1 : u * |y| ≤ u * (67 / 64) := mul_le_mul_of_nonneg_left hy u0
  have hzi : |z * i| ≤ 68 / 64 := by
    have := abs_add_le (z * i - y) y
    rw [sub_add_cancel] at this
    linarith
  have m2 : u * |z * i| ≤ u * (68 / 64) := mul_le_mul_of_nonneg_left hzi u0
  have ht : |t| ≤ 69 / 64 := by
    have := abs_add_le (t - z * i) (z * i)
    rw [sub_add_cancel] at this
    linarith
  have ht2 : |1 / 2 + t| ≤ 101 / 64 := by
    have := abs_add_le (1 / 2 : ℝ) t
    rw [abs_of_pos (by norm_num : (0 : ℝ) < 1 / 2)] at this
    linarith
  have m3 : u * |1 / 2 + t| ≤ u * (101 / 64) := mul_le_mul_of_nonneg_left ht2 u0
  have hr : |r| ≤ 102 / 64 := by
    have := abs_add_le (r - (1 / 2 + t)) (1 / 2 + t)
    rw [sub_add_cancel] at this
    linarith
  have m4 : u * |r| ≤ u * (102 / 64) := mul_le_mul_of_nonneg_left hr u0
  rw [abs_le] at h1 h2 h3 h5 ⊢
  constructor <;> linarith [h1.1, h1.2, h2.1, h2.2, h3.1, h3.2, h5.1, h5.2]

/-- The scaled coordinate of a point in the box or somewhat outside. -/
theorem scaled_at (hf : f.Std) {w d : Nat} (hs : Supported w d) {b x : ℚ} (hb : 0 < b) (h1 : f.minNormal ≤ 1 / b) (h2 : 1 / b ≤ 2 ^ (f.emax - 1))
    (hy : |(x : ℝ) / b| ≤ 67 / 64) :
    ∃ P : ℚ, discScaled (f.ieee fused) (cbits w d) (.fin x) (invBox (f.ieee fused) (.fin b)) = .fin P ∧ |(P : ℝ) / 2 ^ cbits w d - (x / b + 1 / 2)| ≤ 6 * f.unit := by
  obtain ⟨hi, hhi⟩ : ∃ hi : ℝ, hi = ((2 ^ (f.emax - 1) : ℚ) : ℝ) := ⟨_, rfl⟩
  have F := Format.ieee_model hf fused
  rw [← hhi] at F
  have hcb2 : cbits w d ≤ 32 := by
    have := hs.dim
    have := cbits_mul_lt (w := w) this.1 this.2.1
    rcases hs.1 with h | h <;> rcases hs.2 with h' | h' <;> subst h <;> subst h' <;> omega
  obtain ⟨i, e, i1, i2⟩ := Format.invBox_normal (fused := fused) (sqrt := (f.ieee fused).sqrt) hf.toOk hb h1 h2
  have e : invBox (f.ieee fused) (.fin b) = .fin i := e
  rw [e]
  have u0 : (0 : ℝ) ≤ f.unit := F.u0
  have u1 : (f.unit : ℝ) ≤ 1 / 1024 := F.u1
  have hb' : (0 : ℝ) < b := by exact_mod_cast hb
  have hzi : |(x : ℝ) * i - x / b| ≤ f.unit * |(x : ℝ) / b| := by
    have a1 := (Rat.cast_le (K := ℝ)).2 i1
    have a2 := (Rat.cast_le (K := ℝ)).2 i2
    push_cast at a1 a2
    have e1 : (x : ℝ) * i - x / b = x / b * (i * b - 1) := by field_simp
    rw [e1, abs_mul, mul_comm]
    apply mul_le_mul_of_nonneg_right _ (abs_nonneg _)
    rw [div_le_iff₀ hb'] at a1
    rw [le_div_iff₀ hb'] at a2
    rw [abs_le]
    constructor <;> linarith
  have hzi2 : |(x : ℝ) * i| ≤ 2 := by
    have := abs_add_le ((x : ℝ) * i - x / b) (x / b)
    rw [sub_add_cancel] at this
    nlinarith
  have hhi : (2 : ℝ) ^ 64 ≤ hi := by
    rw [hhi]
    push_cast
    exact pow_le_pow_right₀ (by norm_num) (by have := hf.emax; omega)
  have hη := tiny_le hf
  have hη0 := F.η0
  obtain ⟨r, t, e1, t1, t2⟩ := F.fma (t := x) (g := i) (a := 1 / 2) (hzi2.trans (le_trans (by norm_num) hhi)) (by
    push_cast
    rw [abs_of_pos (by norm_num : (0 : ℝ) < 1 / 2)]
    refine le_trans ?_ hhi
    nlinarith)
  have hr : |(r : ℝ)| ≤ 4 := by
    have := abs_add_le ((r : ℝ) - ((1 / 2 : ℚ) + t)) ((1 / 2 : ℚ) + t)
    rw [sub_add_cancel] at this
    have h3 := abs_add_le ((1 / 2 : ℚ) : ℝ) t
    have h4 := abs_add_le (t - x * i) (x * i)
    rw [sub_add_cancel] at h4
    push_cast at this h3 t2
    rw [abs_of_pos (by norm_num : (0 : ℝ) < 1 / 2)] at h3
    have m1 := mul_le_mul_of_nonneg_left hzi2 u0
    have hmid : |1 / 2 + t| ≤ 3 := by linarith
    have m2 := mul_le_mul_of_nonneg_left hmid u0
    linarith
  have hC1 : (1 : ℝ) ≤ 2 ^ cbits w d := one_le_pow₀ (by norm_num)
  have hC2 : (2 : ℝ) ^ cbits w d ≤ 2 ^ 32 := pow_le_pow_right₀ (by norm_num) hcb2
  obtain ⟨P, e2, p1⟩ := F.rnd (r * 2 ^ cbits w d) (by
    push_cast
    rw [abs_mul, abs_of_pos (by positivity : (0 : ℝ) < 2 ^ cbits w d)]
    refine le_trans (mul_le_mul hr hC2 (by positivity) (by norm_num)) (le_trans (by norm_num) hhi))
  refine ⟨P, ?_, ?_⟩
  · unfold discScaled
    rw [e1]
    exact e2
  · push_cast at p1 t2
    exact scaled_err6 (q := P / 2 ^ cbits w d) u0 u1 hη0 hη hy hC1 hzi t1 t2 p1 (by field_simp)

/-- A box size for which no rounding error is relative to something larger than the box. -/
structure BoxOk (f : Format) (cb : Nat) (b : ℚ) : Prop where
  pos : 0 < b
  repr : f.near b = b
  inv1 : f.minNormal ≤ 1 / b
  inv2 : 1 / b ≤ 2 ^ (f.emax - 1)
  small : 2 ^ (cb + 1) * f.minNormal ≤ b
  big : 2 * b ≤ 2 ^ (f.emax - 1)

theorem BoxOk.halves {cb : Nat} {b : ℚ} (h : BoxOk f cb b) : ∀ k ≤ cb + 1, f.near (b / 2 ^ k) = b / 2 ^ k := by
  intro k
  induction k with
  | zero => intro _; simpa using h.repr
  | succ k ih =>
    intro hk
    have e : b / 2 ^ (k + 1) = b / 2 ^ k / 2 := by rw [pow_succ, div_div]
    rw [e]
    refine Format.near_halve (ih (by omega)) (div_pos h.pos (by positivity)) ?_
    rw [le_div_iff₀ (by positivity)]
    have h1 := h.small
    have h0 : (0 : ℚ) < f.minNormal := by unfold Format.minNormal; positivity
    have h2 : (2 : ℚ) ^ (k + 1) ≤ 2 ^ (cb + 1) := pow_le_pow_right₀ (by norm_num) hk
    rw [pow_succ] at h2
    nlinarith

theorem BoxOk.rnd {cb : Nat} {b : ℚ} (hf : f.Std) (h : BoxOk f cb b) {k : Nat} (hk : k ≤ cb + 1) : (f.ieee fused).rnd (b / 2 ^ k) = .fin (b / 2 ^ k) := by
  have h1 : |b / 2 ^ k| ≤ 2 ^ (f.emax - 1) := by
    rw [abs_of_pos (div_pos h.pos (by positivity))]
    have := h.big
    have : b / 2 ^ k ≤ b := div_le_self h.pos.le (one_le_pow₀ (by norm_num))
    linarith [h.pos]
  have := Format.near_big hf.toOk h1
  rw [h.halves k hk] at this
  exact this

theorem BoxOk.half {cb : Nat} {b σ : ℚ} (hf : f.Std) (h : BoxOk f cb b) (hσ : f.near σ = σ) (h1 : b / 2 ^ cb ≤ σ) (h2 : σ ≤ b) : HalfOk (f.ieee fused) σ := by
  have h0 : (0 : ℚ) < f.minNormal := by unfold Format.minNormal; positivity
  have hm : 2 * f.minNormal ≤ σ := by
    refine le_trans ?_ h1
    rw [le_div_iff₀ (by positivity)]
    have := h.small
    rw [pow_succ] at this
    linarith
  have hn := Format.near_halve hσ (by linarith) hm
  have hb : |σ / 2| ≤ 2 ^ (f.emax - 1) := by
    rw [abs_of_pos (by linarith)]
    have := h.big
    linarith
  constructor
  · have := Format.near_big hf.toOk hb
    rw [hn] at this
    exact this
  · have := Format.near_big hf.toOk (q := -(σ / 2)) (by rwa [abs_neg])
    rw [Format.near_neg, hn] at this
    exact this

theorem half_neg (hf : f.Std) : (f.ieee fused).rnd (-1 / 2) = .fin (-1 / 2) := by
  have L := Format.arith_laws hf.toOk fused (f.ieee fused).sqrt
  have h1 : f.rnd (1 / 2) = .fin (1 / 2) := L.half
  obtain ⟨e, _⟩ := Format.rnd_eq_fin h1
  have hb : |(-1 / 2 : ℚ)| ≤ 2 ^ (f.emax - 1) := by
    rw [show |(-1 / 2 : ℚ)| = 1 / 2 by norm_num [abs_of_neg]]
    exact le_trans (by norm_num) (one_le_pow₀ (by norm_num))
  have := Format.near_big hf.toOk hb
  rw [show (-1 / 2 : ℚ) = -(1 / 2) by norm_num, Format.near_neg, ← e] at this
  rw [show (-1 / 2 : ℚ) = -(1 / 2) by norm_num]
  exact this

/-- The ends of the AABB of a particle in the box. -/
theorem ends (hf : f.Std) {cb : Nat} (hcb : 3 ≤ cb) {b x σ : ℚ} (h : BoxOk f cb b) (hx : |(x : ℝ) / b| ≤ 33 / 64) (h0 : 0 ≤ σ) (hσ : σ ≤ b) :
    ∃ lo hi : ℚ, (f.ieee fused).rnd (x - σ / 2) = .fin lo ∧ (f.ieee fused).rnd (x + σ / 2) = .fin hi ∧ lo ≤ hi ∧
      |(lo : ℝ) - (x - σ / 2)| ≤ 9 / 8 * f.unit * b ∧ |(hi : ℝ) - (x + σ / 2)| ≤ 9 / 8 * f.unit * b ∧ |(lo : ℝ) / b| ≤ 67 / 64 ∧ |(hi : ℝ) / b| ≤ 67 / 64 := by
  have F := Format.ieee_model hf fused
  have u0 : (0 : ℝ) ≤ f.unit := F.u0
  have u1 : (f.unit : ℝ) ≤ 1 / 1024 := F.u1
  have hb' : (0 : ℝ) < b := by exact_mod_cast h.pos
  have hbig : (2 : ℝ) * b ≤ ((2 ^ (f.emax - 1) : ℚ) : ℝ) := by exact_mod_cast h.big
  have h0' : (0 : ℝ) ≤ σ := by exact_mod_cast h0
  have hσ' : (σ : ℝ) ≤ b := by exact_mod_cast hσ
  have hη : (f.tiny : ℝ) ≤ f.unit * b / 16 := by
    have h1 : f.minNormal ≤ b / 16 := by
      have h2 := h.small
      have h3 : (2 : ℚ) ^ 4 ≤ 2 ^ (cb + 1) := pow_le_pow_right₀ (by norm_num) (by omega)
      have h4 : (0 : ℚ) < f.minNormal := by unfold Format.minNormal; positivity
      rw [le_div_iff₀ (by norm_num)]
      nlinarith
    have h2 : f.tiny ≤ f.unit * b / 16 := by
      rw [Format.tiny_eq, mul_div_assoc]
      exact mul_le_mul_of_nonneg_left h1 (Format.unit_pos (f := f)).le
    exact_mod_cast h2
  rw [abs_div, abs_of_pos hb', div_le_iff₀ hb'] at hx
  obtain ⟨x1, x2⟩ := abs_le.1 hx
  have key : ∀ q : ℚ, |(q : ℝ)| ≤ 65 / 64 * b → ∃ r : ℚ, (f.ieee fused).rnd q = .fin r ∧ |(r : ℝ) - q| ≤ 9 / 8 * f.unit * b ∧ |(r : ℝ) / b| ≤ 67 / 64 := by
    intro q hq
    obtain ⟨r, e, er⟩ := F.rnd q (by linarith)
    have m1 := mul_le_mul_of_nonneg_left hq u0
    have e1 : |(r : ℝ) - q| ≤ 9 / 8 * f.unit * b := by nlinarith [mul_nonneg u0 hb'.le]
    refine ⟨r, e, e1, ?_⟩
    rw [abs_div, abs_of_pos hb', div_le_iff₀ hb']
    have := abs_add_le ((r : ℝ) - q) q
    rw [sub_add_cancel] at this
    nlinarith
  obtain ⟨lo, l1, l2, l3⟩ := key (x - σ / 2) (by push_cast; rw [abs_le]; constructor <;> linarith)
  obtain ⟨hi, k1, k2, k3⟩ := key (x + σ / 2) (by push_cast; rw [abs_le]; constructor <;> linarith)
  push_cast at l2 k2
  refine ⟨lo, hi, l1, k1, ?_, l2, k2, l3, k3⟩
  have hm := (Format.arith_laws hf.toOk fused (f.ieee fused).sqrt).mono (x - σ / 2) (x + σ / 2) (by linarith)
  have l1' : (f.arith fused (f.ieee fused).sqrt).rnd (x - σ / 2) = .fin lo := l1
  have k1' : (f.arith fused (f.ieee fused).sqrt).rnd (x + σ / 2) = .fin hi := k1
  rw [l1', k1'] at hm
  simpa using hm

theorem cb_ge {w d : Nat} (hs : Supported w d) : 3 ≤ cbits w d := by
  rcases hs with ⟨rfl | rfl, rfl | rfl⟩ <;> decide

/-- The cells of the ends exist. -/
theorem endCells_ok (hf : f.Std) {w d : Nat} (hs : Supported w d) {b x σ top : ℚ} (ht0 : 0 ≤ top) (ht1 : top < 2 ^ cbits w d) (h : BoxOk f (cbits w d) b)
    (hx : |(x : ℝ) / b| ≤ 33 / 64) (hh : HalfOk (f.ieee fused) σ) (h0 : 0 ≤ σ) (hσ : σ ≤ b) :
    ∃ cl ch, EndCells (f.ieee fused) w d top (.fin σ) (invBox (f.ieee fused) (.fin b)) (.fin x) cl ch := by
  obtain ⟨lo, hi, l1, k1, hle, l2, k2, l3, k3⟩ := ends (fused := fused) hf (cb_ge hs) h hx h0 hσ
  obtain ⟨P, p1, _⟩ := scaled_at (fused := fused) hf hs h.pos h.inv1 h.inv2 l3
  obtain ⟨Q, q1, _⟩ := scaled_at (fused := fused) hf hs h.pos h.inv1 h.inv2 k3
  have D : ∀ {y P : ℚ}, discScaled (f.ieee fused) (cbits w d) (.fin y) (invBox (f.ieee fused) (.fin b)) = .fin P →
      ∃ c, discClamp (f.ieee fused) w (cbits w d) top (.fin y) (invBox (f.ieee fused) (.fin b)) = .ok c := by
    intro y P hP
    rcases discClamp_cases (f.ieee fused) (cbits_le w d) ht0 ht1 (.fin y) (invBox (f.ieee fused) (.fin b)) with ⟨q, _, c2, _⟩ | ⟨c1, _⟩
    · exact ⟨_, c2⟩
    · rw [hP] at c1; simp [Fl.isFinite] at c1
  obtain ⟨cl, e1⟩ := D p1
  obtain ⟨ch, e2⟩ := D q1
  refine ⟨cl, ch, .fin lo, .fin hi, ?_, e1, e2⟩
  rw [mul_half hh]
  have s1 : (f.ieee fused).sub (.fin x) (.fin (σ / 2)) = .fin lo := by rw [← l1, sub_eq_add_neg]; rfl
  have s2 : (f.ieee fused).add (.fin x) (.fin (σ / 2)) = .fin hi := k1
  unfold aabbBounds
  simp only [s1, s2]
  simp [Fl.isFinite, Fl.gt, Fl.lt, hle]

/-- The AABB of a particle in the box reaches over at most two cells per dimension at the level computed from its size, if the size stays below that of the cells by `16 u b`. -/
theorem twoCells_ieee (hf : f.Std) {w d : Nat} (hs : Supported w d) {b σ top : ℚ} (ht0 : 0 ≤ top) (ht1 : top < 2 ^ cbits w d) (h : BoxOk f (cbits w d) b)
    (hh : HalfOk (f.ieee fused) σ) (h0 : 0 ≤ σ) (hσ : σ ≤ b) (hroom : ∀ l, 1 ≤ l → l ≤ cbits w d → σ < b / 2 ^ l → (l < cbits w d → b / 2 ^ (l + 1) ≤ σ) → σ + 16 * f.unit * b ≤ b / 2 ^ l)
    {pos : List ℚ} (hx : ∀ x ∈ pos, |(x : ℝ) / b| ≤ 33 / 64) : TwoCells (f.ieee fused) w d top (.fin b) (.fin σ) (pos.map .fin) := by
  intro xf hxf cl ch he
  obtain ⟨x, hxm, rfl⟩ := List.mem_map.1 hxf
  obtain ⟨lo, hi, l1, k1, hle, l2, k2, l3, k3⟩ := ends (fused := fused) hf (cb_ge hs) h (hx x hxm) h0 hσ
  obtain ⟨lo', hi', e1, e2, _, e4, e5⟩ := endCells_eq hh he
  rw [l1, Fl.fin.injEq] at e1
  rw [k1, Fl.fin.injEq] at e2
  subst e1 e2
  obtain ⟨P, p1, p2⟩ := scaled_at (fused := fused) hf hs h.pos h.inv1 h.inv2 l3
  obtain ⟨Q, q1, q2⟩ := scaled_at (fused := fused) hf hs h.pos h.inv1 h.inv2 k3
  have D : ∀ {y P : ℚ} {c : Nat}, discScaled (f.ieee fused) (cbits w d) (.fin y) (invBox (f.ieee fused) (.fin b)) = .fin P →
      discClamp (f.ieee fused) w (cbits w d) top (.fin y) (invBox (f.ieee fused) (.fin b)) = .ok c → c = ⌊max 0 (min P top)⌋.toNat ∧ c < 2 ^ cbits w d := by
    intro y P c hP hc
    rcases discClamp_cases (f.ieee fused) (cbits_le w d) ht0 ht1 (.fin y) (invBox (f.ieee fused) (.fin b)) with ⟨q, c1, c2, c3⟩ | ⟨c1, _⟩
    · rw [hP, Fl.fin.injEq] at c1
      rw [hc, Except.ok.injEq] at c2
      subst c1
      exact ⟨c2, c2 ▸ c3⟩
    · rw [hP] at c1; simp [Fl.isFinite] at c1
  obtain ⟨rfl, _⟩ := D p1 e4
  obtain ⟨rfl, hch⟩ := D q1 e5
  obtain ⟨s1, s2, s3⟩ := sizeLoop_halves (A := f.ieee fused) (σ := σ) (cbits w d) b (fun k hk => h.rnd hf (by omega))
  unfold sizeToLevel
  generalize hlv : sizeLoop (f.ieee fused) (.fin σ) (cbits w d) (.fin b) = l at s1 s2 s3 ⊢
  rcases Nat.eq_zero_or_pos l with hl | hl
  · subst hl
    rw [Nat.sub_zero, Nat.div_eq_of_lt hch]
    exact Nat.zero_le _
  · have s2 : σ < b / 2 ^ l := by
      rcases s2 with s2 | s2
      · omega
      · exact s2
    apply group_near ht0
    have hr := hroom l hl s1 s2 s3
    have hr' : (σ : ℝ) + 16 * f.unit * b ≤ b / 2 ^ l := by exact_mod_cast hr
    have hb' : (0 : ℝ) < b := by exact_mod_cast h.pos
    have u0 : (0 : ℝ) ≤ f.unit := (Format.ieee_model hf fused).u0
    have hpw : (2 : ℝ) ^ cbits w d = 2 ^ (cbits w d - l) * 2 ^ l := by rw [← pow_add, Nat.sub_add_cancel s1]
    have hroom' : (σ : ℝ) / b + 16 * f.unit ≤ 1 / 2 ^ l := by
      have : (σ : ℝ) / b + 16 * f.unit = (σ + 16 * f.unit * b) / b := by field_simp
      rw [this, div_le_iff₀ hb']
      calc _ ≤ (b : ℝ) / 2 ^ l := hr'
        _ = _ := by ring
    have a1 : (lo : ℝ) / b ≥ x / b - σ / b / 2 - 9 / 8 * f.unit := by
      have : (x : ℝ) / b - σ / b / 2 - 9 / 8 * f.unit = (x - σ / 2 - 9 / 8 * f.unit * b) / b := by field_simp
      rw [this]
      exact div_le_div_of_nonneg_right (by linarith [(abs_le.1 l2).1]) hb'.le
    have a2 : (hi : ℝ) / b ≤ x / b + σ / b / 2 + 9 / 8 * f.unit := by
      have : (x : ℝ) / b + σ / b / 2 + 9 / 8 * f.unit = (x + σ / 2 + 9 / 8 * f.unit * b) / b := by field_simp
      rw [this]
      exact div_le_div_of_nonneg_right (by linarith [(abs_le.1 k2).2]) hb'.le
    have a3 : (Q : ℝ) / 2 ^ cbits w d ≤ P / 2 ^ cbits w d + 1 / 2 ^ l := by linarith [(abs_le.1 p2).1, (abs_le.1 q2).2]
    have hq : (0 : ℝ) < 2 ^ (cbits w d - l) := by positivity
    have hq' : (0 : ℝ) < 2 ^ l := by positivity
    have a4 : (Q : ℝ) ≤ P + 2 ^ (cbits w d - l) := by
      rw [div_le_iff₀ (by positivity), add_mul, div_mul_cancel₀ _ (by positivity)] at a3
      refine a3.trans (le_of_eq ?_)
      rw [hpw]; field_simp
    exact_mod_cast a4

end Ieee

end Rakau
