import Verif.Proof.Coll
import Mathlib.Tactic.Ring

/-! The search for the leaves overlapping an enclosing node. -/
namespace Rakau
open Spec

theorem range_value {cb l d code : Nat} (hl : l ≤ cb) (h1 : 2 ^ (l * d) ≤ code) :
    code * 2 ^ ((cb - l) * d) = 2 ^ (cb * d) + (code - 2 ^ (l * d)) * 2 ^ ((cb - l) * d) := by
  have e : 2 ^ (l * d) * 2 ^ ((cb - l) * d) = 2 ^ (cb * d) := by
    rw [← pow_add, ← Nat.add_mul, Nat.add_sub_cancel' hl]
  obtain ⟨a, rfl⟩ := Nat.exists_eq_add_of_le h1
  rw [Nat.add_sub_cancel_left, Nat.add_mul, e]

theorem range_top {cb l d code : Nat} (hl : l ≤ cb) (h2 : code < 2 ^ (l * d + 1)) :
    (code + 1) * 2 ^ ((cb - l) * d) ≤ 2 ^ (cb * d + 1) := by
  have e : 2 ^ (l * d + 1) * 2 ^ ((cb - l) * d) = 2 ^ (cb * d + 1) := by
    rw [← pow_add]; congr 1
    have : l * d + (cb - l) * d = cb * d := by rw [← Nat.add_mul, Nat.add_sub_cancel' hl]
    omega
  rw [← e]
  exact Nat.mul_le_mul_right _ h2

/-- At the deepest level the right shift is by the full width of the type. -/
theorem nodeRange_deep {over : Overshift} {w d code : Nat} (hd : 0 < d) (hw : d < w) (hw64 : w ≤ 64) (h2 : code < 2 ^ w) :
    nodeRange over w d code (cbits w d) = (over (2 ^ w - 1) w).map (fun o => (code, (code + o) % 2 ^ w)) := by
  obtain ⟨e1, e2⟩ := (shiftAmount hd hw hw64 (le_refl (cbits w d)) (le_refl _)).1 (le_refl _)
  unfold nodeRange
  rw [e1]
  simp only [Nat.sub_self, Nat.zero_mul, shl, shrO, Nat.sub_zero, lt_irrefl, if_false, bind, Option.bind]
  rw [if_pos (by omega)]
  simp only [Nat.shiftLeft_zero, Nat.mod_eq_of_lt h2]
  cases over (2 ^ w - 1) w <;> rfl

/-- The range of a node at this level is computed correctly: the level is above the deepest one, or shifting by the full width of the
type gives zero. -/
structure LevelOk (over : Overshift) (w d level : Nat) : Prop where
  le : level ≤ cbits w d
  deep : level = cbits w d → over (2 ^ w - 1) w = some 0

theorem LevelOk.of_lt {over : Overshift} {w d level : Nat} (h : level < cbits w d) : LevelOk over w d level := ⟨h.le, fun e => by omega⟩

theorem LevelOk.mono {over : Overshift} {w d level level' : Nat} (h : LevelOk over w d level) (hl : level' ≤ level) :
    LevelOk over w d level' := ⟨hl.trans h.le, fun e => h.deep (le_antisymm h.le (by omega))⟩

/-- The range of a node at such a level: all codes that start with the code of the node. -/
theorem nodeRange_ok {over : Overshift} {w d code level : Nat} (hd : 0 < d) (hw : d < w) (hw64 : w ≤ 64) (hl' : LevelOk over w d level)
    (h2 : code < 2 ^ (level * d + 1)) :
    nodeRange over w d code level =
      some (code * 2 ^ ((cbits w d - level) * d), code * 2 ^ ((cbits w d - level) * d) + (2 ^ ((cbits w d - level) * d) - 1)) := by
  rcases Nat.eq_or_lt_of_le hl'.le with heq | hl
  · have hlt : code < 2 ^ w := lt_of_lt_of_le h2 (Nat.pow_le_pow_right (by norm_num) (by
      have := cbits_mul_lt hd hw
      rw [heq]; omega))
    have := hl'.deep heq
    subst heq
    rw [nodeRange_deep hd hw hw64 hlt, this]
    simp [Nat.mod_eq_of_lt hlt]
  obtain ⟨e1, e2⟩ := (shiftAmount hd hw hw64 (le_refl (cbits w d)) hl.le).1 hl.le
  have hsh : 0 < (cbits w d - level) * d := Nat.mul_pos (by omega) hd
  have hct := range_top (cb := cbits w d) hl.le h2
  have hcw := cbits_mul_lt hd hw
  have hB : 2 ^ (cbits w d * d + 1) ≤ 2 ^ w := Nat.pow_le_pow_right (by norm_num) (by omega)
  have hp := Nat.two_pow_pos ((cbits w d - level) * d)
  have hct' : code * 2 ^ ((cbits w d - level) * d) + 2 ^ ((cbits w d - level) * d) ≤ 2 ^ w := by
    have : (code + 1) * 2 ^ ((cbits w d - level) * d) = code * 2 ^ ((cbits w d - level) * d) + 2 ^ ((cbits w d - level) * d) := by ring
    omega
  unfold nodeRange
  rw [e1]
  simp only [shl, if_pos e2, shrO, if_pos (show w - (cbits w d - level) * d < w by omega), bind, Option.bind]
  rw [Nat.shiftLeft_eq, Nat.mod_eq_of_lt (show code * 2 ^ ((cbits w d - level) * d) < 2 ^ w by omega)]
  have hones : (2 ^ w - 1) >>> (w - (cbits w d - level) * d) = 2 ^ ((cbits w d - level) * d) - 1 := by
    apply Nat.eq_of_testBit_eq
    intro k
    rw [Nat.testBit_shiftRight, Nat.testBit_two_pow_sub_one, Nat.testBit_two_pow_sub_one]
    congr 1
    rw [eq_iff_iff]
    omega
  rw [hones, Nat.mod_eq_of_lt (by omega)]

theorem partitionPoint_spec {p : Node → Option Bool} {f : Node → Bool} {l : List Node} (hp : ∀ n ∈ l, p n = some (f n))
    (hm : l.Pairwise (fun a b => f b = true → f a = true)) :
    ∃ k, partitionPoint p l = some k ∧ k ≤ l.length ∧ ∀ i (hi : i < l.length), f l[i] = true ↔ i < k := by
  have hmap : l.mapM p = some (l.map f) := by
    clear hm
    induction l with
    | nil => rfl
    | cons a l ih =>
      rw [List.mapM_cons, hp a List.mem_cons_self, ih (fun n hn => hp n (List.mem_cons_of_mem _ hn))]
      rfl
  unfold partitionPoint
  rw [hmap]
  simp only [bind, Option.bind]
  have key : ((l.map f).drop ((l.map f).takeWhile id).length).all (!·) = true ∧ ((l.map f).takeWhile id).length ≤ l.length ∧
      ∀ i (hi : i < l.length), f l[i] = true ↔ i < ((l.map f).takeWhile id).length := by
    clear hp hmap
    induction l with
    | nil => simp
    | cons a l ih =>
      rw [List.pairwise_cons] at hm
      obtain ⟨i1, i2, i3⟩ := ih hm.2
      cases ha : f a with
      | true =>
        simp only [List.map_cons, ha, List.takeWhile_cons, id, if_true, List.length_cons, List.drop_succ_cons]
        refine ⟨i1, by omega, fun i hi => ?_⟩
        cases i with
        | zero => simp [ha]
        | succ i => rw [List.getElem_cons_succ, i3 i (by simpa using hi)]; omega
      | false =>
        simp only [List.map_cons, ha, List.takeWhile_cons, id, Bool.false_eq_true, if_false, List.length_nil, List.drop_zero]
        refine ⟨?_, by omega, fun i hi => ?_⟩
        · simp only [List.all_cons, Bool.not_false, Bool.true_and, List.all_eq_true, List.mem_map]
          rintro x ⟨n, hn, rfl⟩
          cases hfn : f n with
          | true => rw [hm.1 n hn hfn] at ha; simp at ha
          | false => rfl
        · cases i with
          | zero => simp [ha]
          | succ i =>
            simp only [List.getElem_cons_succ, Nat.not_lt_zero, iff_false]
            intro hc
            have := hm.1 _ (List.getElem_mem (by simpa using hi)) hc
            rw [this] at ha; simp at ha
  rw [if_pos key.1]
  exact ⟨_, rfl, key.2⟩

/-- A leaf has a cell in common with the node of level `m` that contains the cell `v`. -/
def Meets (d cb : Nat) (nd : Node) (v m : Nat) : Prop :=
  ∃ c < 2 ^ (cb * d), c / 2 ^ ((cb - nd.level) * d) = nd.code - 2 ^ (nd.level * d) ∧ c / 2 ^ ((cb - m) * d) = v / 2 ^ ((cb - m) * d)

/-- Code intervals in order. -/
def Apart (d cb : Nat) (a b : Node) : Prop := (a.code + 1) * 2 ^ ((cb - a.level) * d) ≤ b.code * 2 ^ ((cb - b.level) * d)

/-- Two cells in intervals of sizes `2^s`, `2^t`, the first cell not in the second interval and vice versa. -/
theorem dyadic_apart {s t a b x y : Nat} (hx : x / 2 ^ s = a) (hy : y / 2 ^ t = b) (hxy : x ≤ y) (h1 : x / 2 ^ t ≠ b) (h2 : y / 2 ^ s ≠ a) :
    (a + 1) * 2 ^ s ≤ b * 2 ^ t := by
  have ps := Nat.two_pow_pos s
  have pt := Nat.two_pow_pos t
  rcases Nat.le_total s t with h | h
  · have h3 : x / 2 ^ t < b := lt_of_le_of_ne (by rw [← hy]; exact Nat.div_le_div_right hxy) h1
    obtain ⟨k, rfl⟩ := Nat.exists_eq_add_of_le h
    rw [pow_add, ← Nat.div_div_eq_div_mul, hx] at h3
    have : a < b * 2 ^ k := by rwa [Nat.div_lt_iff_lt_mul (Nat.two_pow_pos k)] at h3
    calc (a + 1) * 2 ^ s ≤ (b * 2 ^ k) * 2 ^ s := Nat.mul_le_mul_right _ this
      _ = b * 2 ^ (s + k) := by rw [pow_add]; ring
  · have h3 : a < y / 2 ^ s := lt_of_le_of_ne (by rw [← hx]; exact Nat.div_le_div_right hxy) (Ne.symm h2)
    obtain ⟨k, rfl⟩ := Nat.exists_eq_add_of_le h
    rw [pow_add, ← Nat.div_div_eq_div_mul, hy] at h3
    have : (a + 1) * 2 ^ k ≤ b := (Nat.le_div_iff_mul_le (Nat.two_pow_pos k)).1 h3
    calc (a + 1) * 2 ^ (t + k) = ((a + 1) * 2 ^ k) * 2 ^ t := by rw [pow_add]; ring
      _ ≤ b * 2 ^ t := Nat.mul_le_mul_right _ this

theorem leaves_apart {d cb : Nat} {codes : List Nat} (hs : codes.Pairwise (· ≤ ·)) {a b : Node} (ha : LeafOk d cb codes a)
    (hb : LeafOk d cb codes b) (h : a.fin ≤ b.beg) : Apart d cb a b := by
  have hka : a.beg < codes.length := lt_of_lt_of_le ha.ne ha.fin
  have hkb : b.beg < codes.length := lt_of_lt_of_le hb.ne hb.fin
  have hab : a.beg < b.beg := lt_of_lt_of_le ha.ne h
  have h1 := (ha.mem _ hka).1 ⟨le_refl _, ha.ne⟩
  have h2 := (hb.mem _ hkb).1 ⟨le_refl _, hb.ne⟩
  have h3 : ¬ codes[a.beg] / 2 ^ ((cb - b.level) * d) = b.code - 2 ^ (b.level * d) := by
    rw [← hb.mem _ hka]; omega
  have h4 : ¬ codes[b.beg] / 2 ^ ((cb - a.level) * d) = a.code - 2 ^ (a.level * d) := by
    rw [← ha.mem _ hkb]; omega
  have h5 := List.pairwise_iff_getElem.1 hs _ _ hka hkb hab
  have h6 := dyadic_apart h1 h2 h5 h3 h4
  unfold Apart
  rw [range_value hb.lev hb.lo, Nat.add_mul, range_value ha.lev ha.lo]
  have : (a.code - 2 ^ (a.level * d) + 1) * 2 ^ ((cb - a.level) * d) =
    (a.code - 2 ^ (a.level * d)) * 2 ^ ((cb - a.level) * d) + 2 ^ ((cb - a.level) * d) := by ring
  omega

/-- Two code intervals intersect exactly if the nodes have a cell in common. -/
theorem interval_meets {s t a b : Nat} (N : Nat) (ha : (a + 1) * 2 ^ s ≤ N) (_hb : (b + 1) * 2 ^ t ≤ N) :
    (∃ c < N, c / 2 ^ s = a ∧ c / 2 ^ t = b) ↔ a * 2 ^ s < (b + 1) * 2 ^ t ∧ b * 2 ^ t < (a + 1) * 2 ^ s := by
  have ps := Nat.two_pow_pos s
  have pt := Nat.two_pow_pos t
  have e1 : (a + 1) * 2 ^ s = a * 2 ^ s + 2 ^ s := by ring
  have e2 : (b + 1) * 2 ^ t = b * 2 ^ t + 2 ^ t := by ring
  have div : ∀ (c k q : Nat), c / 2 ^ k = q ↔ q * 2 ^ k ≤ c ∧ c < q * 2 ^ k + 2 ^ k := by
    intro c k q
    rw [Nat.div_eq_iff (Nat.two_pow_pos k)]
    have := Nat.two_pow_pos k
    constructor <;> (rintro ⟨h1, h2⟩; constructor <;> omega)
  constructor
  · rintro ⟨c, _, h1, h2⟩
    rw [div] at h1 h2
    omega
  · rintro ⟨h1, h2⟩
    refine ⟨max (a * 2 ^ s) (b * 2 ^ t), by omega, ?_, ?_⟩ <;> rw [div] <;> omega

/-- The leaves needed for the searches: suitable levels, code intervals in order. -/
structure LeavesOk (over : Overshift) (w d : Nat) (lvs : List Node) : Prop where
  lev : ∀ nd ∈ lvs, LevelOk over w d nd.level
  lo : ∀ nd ∈ lvs, 2 ^ (nd.level * d) ≤ nd.code
  hi : ∀ nd ∈ lvs, nd.code < 2 ^ (nd.level * d + 1)
  apart : lvs.Pairwise (Apart d (cbits w d))

theorem meets_iff {d cb al v : Nat} {nd : Node} (hl : nd.level ≤ cb) (h1 : 2 ^ (nd.level * d) ≤ nd.code)
    (h2 : nd.code < 2 ^ (nd.level * d + 1)) (hal : al ≤ cb) (hv : v < 2 ^ (cb * d)) :
    Meets d cb nd v al ↔
      nd.code * 2 ^ ((cb - nd.level) * d) ≤ (v / 2 ^ ((cb - al) * d) + 2 ^ (al * d)) * 2 ^ ((cb - al) * d) + (2 ^ ((cb - al) * d) - 1) ∧
      (v / 2 ^ ((cb - al) * d) + 2 ^ (al * d)) * 2 ^ ((cb - al) * d) ≤
        nd.code * 2 ^ ((cb - nd.level) * d) + (2 ^ ((cb - nd.level) * d) - 1) := by
  have hq : v / 2 ^ ((cb - al) * d) < 2 ^ (al * d) := by
    rw [Nat.div_lt_iff_lt_mul (Nat.two_pow_pos _), ← pow_add, ← Nat.add_mul, Nat.add_sub_cancel' hal]; exact hv
  have t1 := range_top (cb := cb) hl h2
  have t2 := range_top (cb := cb) (d := d) (code := v / 2 ^ ((cb - al) * d) + 2 ^ (al * d)) hal (by rw [pow_succ]; omega)
  have v1 := range_value (cb := cb) hl h1
  have v2 := range_value (cb := cb) (d := d) (code := v / 2 ^ ((cb - al) * d) + 2 ^ (al * d)) hal (Nat.le_add_left _ _)
  rw [Nat.add_sub_cancel] at v2
  have p1 := Nat.two_pow_pos ((cb - nd.level) * d)
  have p2 := Nat.two_pow_pos ((cb - al) * d)
  rw [Nat.add_mul, one_mul, v1, pow_succ] at t1
  rw [Nat.add_mul, one_mul, v2, pow_succ] at t2
  unfold Meets
  rw [interval_meets (2 ^ (cb * d)) (by rw [Nat.add_mul, one_mul]; omega) (by rw [Nat.add_mul, one_mul]; omega), v1, v2, Nat.add_mul,
    Nat.add_mul, one_mul, one_mul]
  omega

theorem searchLeaves_spec {over : Overshift} {w d : Nat} (hd : 0 < d) (hw : d < w) (hw64 : w ≤ 64) {lvs : List Node}
    (H : LeavesOk over w d lvs) {al v : Nat} (hal : LevelOk over w d al) (hv : v < 2 ^ (cbits w d * d)) :
    ∃ rng b e, nodeRange over w d (v / 2 ^ ((cbits w d - al) * d) + 2 ^ (al * d)) al = some rng ∧
      searchLeaves over w d lvs rng = some (b, e) ∧ b ≤ e ∧ e ≤ lvs.length ∧
      ∀ i (hi : i < lvs.length), (b ≤ i ∧ i < e) ↔ Meets d (cbits w d) lvs[i] v al := by
  have hq : v / 2 ^ ((cbits w d - al) * d) < 2 ^ (al * d) := by
    rw [Nat.div_lt_iff_lt_mul (Nat.two_pow_pos _), ← pow_add, ← Nat.add_mul, Nat.add_sub_cancel' hal.le]; exact hv
  have hr := nodeRange_ok (over := over) hd hw hw64 hal (code := v / 2 ^ ((cbits w d - al) * d) + 2 ^ (al * d)) (by rw [pow_succ]; omega)
  set rng := (((v / 2 ^ ((cbits w d - al) * d) + 2 ^ (al * d)) * 2 ^ ((cbits w d - al) * d),
    (v / 2 ^ ((cbits w d - al) * d) + 2 ^ (al * d)) * 2 ^ ((cbits w d - al) * d) + (2 ^ ((cbits w d - al) * d) - 1)) : Nat × Nat) with hrng
  have hrn : rng.1 ≤ rng.2 := Nat.le_add_right _ _
  refine ⟨rng, ?_⟩
  have hleaf : ∀ nd ∈ lvs, nodeRange over w d nd.code nd.level = some (nd.code * 2 ^ ((cbits w d - nd.level) * d),
      nd.code * 2 ^ ((cbits w d - nd.level) * d) + (2 ^ ((cbits w d - nd.level) * d) - 1)) :=
    fun nd hnd => nodeRange_ok hd hw hw64 (H.lev nd hnd) (H.hi nd hnd)
  have hap : lvs.Pairwise (fun a b => a.code * 2 ^ ((cbits w d - a.level) * d) + (2 ^ ((cbits w d - a.level) * d) - 1) <
      b.code * 2 ^ ((cbits w d - b.level) * d)) := H.apart.imp (fun {a b} h => by
    have := Nat.two_pow_pos ((cbits w d - a.level) * d)
    unfold Apart at h
    rw [Nat.add_mul, one_mul] at h
    omega)
  obtain ⟨b, hb1, hb2, hb3⟩ := partitionPoint_spec (l := lvs)
    (p := fun n => (nodeRange over w d n.code n.level).map (fun r => decide (r.2 < rng.1)))
    (f := fun n => decide (n.code * 2 ^ ((cbits w d - n.level) * d) + (2 ^ ((cbits w d - n.level) * d) - 1) < rng.1))
    (fun n hn => by simp only [hleaf n hn, Option.map_some])
    (hap.imp (fun {a c} h => by simp only [decide_eq_true_eq]; omega))
  obtain ⟨k, hk1, hk2, hk3⟩ := partitionPoint_spec (l := lvs.drop b)
    (p := fun n => (nodeRange over w d n.code n.level).map (fun r => !decide (rng.2 < r.1)))
    (f := fun n => !decide (rng.2 < n.code * 2 ^ ((cbits w d - n.level) * d)))
    (fun n hn => by simp only [hleaf n (List.mem_of_mem_drop hn), Option.map_some])
    ((List.Pairwise.sublist (List.drop_sublist _ _) hap).imp (fun {a c} h => by
      simp only [Bool.not_eq_true', decide_eq_false_iff_not]; omega))
  rw [List.length_drop] at hk2
  refine ⟨b, b + k, hr, ?_, by omega, by omega, ?_⟩
  · unfold searchLeaves
    simp only [bind, Option.bind]
    rw [hb1]
    dsimp only
    rw [hk1]
  · intro i hi
    have hm := List.getElem_mem hi
    rw [meets_iff (H.lev _ hm).le (H.lo _ hm) (H.hi _ hm) hal.le hv]
    change _ ↔ _ ≤ rng.2 ∧ rng.1 ≤ _
    have b3 := hb3 i hi
    simp only [decide_eq_true_eq] at b3
    by_cases hbi : b ≤ i
    · have k3 := hk3 (i - b) (by rw [List.length_drop]; omega)
      simp only [List.getElem_drop, Nat.add_sub_cancel' hbi, Bool.not_eq_true', decide_eq_false_iff_not] at k3
      omega
    · have := b3.2 (by omega)
      omega

/-- Outcome of the loop over the levels. -/
theorem coverLoop_spec {over : Overshift} {w d : Nat} (hd : 0 < d) (hw : d < w) (hw64 : w ≤ 64) {lvs : List Node}
    (H : LeavesOk over w d lvs) (hne : lvs ≠ []) {lf : Node} (hlf : lf ∈ lvs) {v : Nat} (hv : v < 2 ^ (cbits w d * d)) :
    ∀ al, LevelOk over w d al → ∃ r, coverLoop over w d lvs lf v al = some r ∧
      ((r = none ∧ lf.level ≤ al ∧ v / 2 ^ ((cbits w d - lf.level) * d) = lf.code - 2 ^ (lf.level * d)) ∨
       (∃ b e m, r = some (b, e) ∧ m ≤ al ∧ b < e ∧ e ≤ lvs.length ∧
          ∀ i (hi : i < lvs.length), (b ≤ i ∧ i < e) ↔ Meets d (cbits w d) lvs[i] v m)) := by
  have step : ∀ al, LevelOk over w d al → ∃ r, coverStep over w d lvs lf v al = some r ∧
      ((r = some none ∧ lf.level ≤ al ∧ v / 2 ^ ((cbits w d - lf.level) * d) = lf.code - 2 ^ (lf.level * d)) ∨
       (∃ b e, r = some (some (b, e)) ∧ b < e ∧ e ≤ lvs.length ∧
          ∀ i (hi : i < lvs.length), (b ≤ i ∧ i < e) ↔ Meets d (cbits w d) lvs[i] v al) ∨
       (r = none ∧ ∀ i (hi : i < lvs.length), ¬ Meets d (cbits w d) lvs[i] v al)) := by
    intro al hal
    have hq : v / 2 ^ ((cbits w d - al) * d) < 2 ^ (al * d) := by
      rw [Nat.div_lt_iff_lt_mul (Nat.two_pow_pos _), ← pow_add, ← Nat.add_mul, Nat.add_sub_cancel' hal.le]; exact hv
    have hcw := cbits_mul_lt hd hw
    have hald : al * d ≤ cbits w d * d := Nat.mul_le_mul_right _ hal.le
    have hal64 : mulSz al d = al * d := by
      unfold mulSz
      exact Nat.mod_eq_of_lt (lt_of_lt_of_le (show al * d < 64 by omega) (by norm_num))
    obtain ⟨e1, e2⟩ := (shiftAmount hd hw hw64 (le_refl (cbits w d)) hal.le).1 hal.le
    have henc : enclosing w d v al = some (v / 2 ^ ((cbits w d - al) * d) + 2 ^ (al * d)) := by
      unfold enclosing
      rw [e1, hal64]
      simp only [shr, if_pos e2, shl, if_pos (show al * d < w by omega), bind, Option.bind]
      have hp : 2 ^ (al * d + 1) ≤ 2 ^ w := Nat.pow_le_pow_right (by norm_num) (by omega)
      rw [pow_succ] at hp
      have := Nat.two_pow_pos (al * d)
      rw [Nat.shiftLeft_eq, one_mul, Nat.mod_eq_of_lt (show 2 ^ (al * d) < 2 ^ w by omega), Nat.shiftRight_eq_div_pow,
        Nat.mod_eq_of_lt (by omega)]
    obtain ⟨rng, b, e, s1, s2, s3, s4, s5⟩ := searchLeaves_spec (over := over) hd hw hw64 H hal hv
    have hrest : ∃ r, ((nodeRange over w d (v / 2 ^ ((cbits w d - al) * d) + 2 ^ (al * d)) al).bind (fun rng =>
        (searchLeaves over w d lvs rng).bind (fun be => some (if be.1 ≠ be.2 then some (some be) else none)))) = some r ∧
       ((∃ b e, r = some (some (b, e)) ∧ b < e ∧ e ≤ lvs.length ∧
          ∀ i (hi : i < lvs.length), (b ≤ i ∧ i < e) ↔ Meets d (cbits w d) lvs[i] v al) ∨
       (r = none ∧ ∀ i (hi : i < lvs.length), ¬ Meets d (cbits w d) lvs[i] v al)) := by
      rw [s1, Option.bind_some, s2, Option.bind_some]
      by_cases hbe : b = e
      · refine ⟨none, by simp [hbe], .inr ⟨rfl, fun i hi => ?_⟩⟩
        rw [← s5 i hi]; omega
      · exact ⟨some (some (b, e)), by simp [hbe], .inl ⟨b, e, rfl, by omega, s4, s5⟩⟩
    unfold coverStep
    simp only [bind]
    rw [henc, Option.bind_some]
    by_cases hge : al ≥ lf.level
    · obtain ⟨f1, f2⟩ := (shiftAmount hd hw hw64 hal.le (H.lev lf hlf).le).1 hge
      have hfit : fitsLeaf w d (v / 2 ^ ((cbits w d - al) * d) + 2 ^ (al * d)) al lf =
          some (decide (v / 2 ^ ((cbits w d - lf.level) * d) = lf.code - 2 ^ (lf.level * d))) := by
        unfold fitsLeaf
        rw [if_pos hge, f1]
        simp only [shr, if_pos f2, bind, Option.bind]
        rw [Nat.shiftRight_eq_div_pow]
        have e3 : (v / 2 ^ ((cbits w d - al) * d) + 2 ^ (al * d)) / 2 ^ ((al - lf.level) * d) =
            v / 2 ^ ((cbits w d - lf.level) * d) + 2 ^ (lf.level * d) := by
          have : 2 ^ (al * d) = 2 ^ (lf.level * d) * 2 ^ ((al - lf.level) * d) := by
            rw [← pow_add, ← Nat.add_mul, Nat.add_sub_cancel' hge]
          rw [this, Nat.add_mul_div_right _ _ (Nat.two_pow_pos _), Nat.div_div_eq_div_mul, ← pow_add, ← Nat.add_mul]
          congr 5
          have := (H.lev lf hlf).le
          have := hal.le
          omega
        rw [e3]
        have := H.lo lf hlf
        congr 1
        rw [beq_eq_decide]
        congr 1
        rw [eq_iff_iff]
        omega
      rw [hfit, Option.bind_some]
      by_cases hin : v / 2 ^ ((cbits w d - lf.level) * d) = lf.code - 2 ^ (lf.level * d)
      · rw [if_pos (by simpa using hin)]
        exact ⟨_, rfl, .inl ⟨rfl, hge, hin⟩⟩
      · rw [if_neg (by simpa using hin)]
        obtain ⟨r, hr, hr'⟩ := hrest
        exact ⟨r, hr, .inr hr'⟩
    · have hfit : fitsLeaf w d (v / 2 ^ ((cbits w d - al) * d) + 2 ^ (al * d)) al lf = some false := by
        unfold fitsLeaf; rw [if_neg hge]
      rw [hfit, Option.bind_some, if_neg (by simp)]
      obtain ⟨r, hr, hr'⟩ := hrest
      exact ⟨r, hr, .inr hr'⟩
  intro al
  induction al with
  | zero =>
    intro hal
    obtain ⟨r, hr, h | ⟨b, e, h1, h2, h3, h4⟩ | ⟨h1, h2⟩⟩ := step 0 hal
    · exact ⟨none, by unfold coverLoop; rw [hr, h.1]; rfl, .inl ⟨rfl, h.2⟩⟩
    · exact ⟨some (b, e), by unfold coverLoop; rw [hr, h1]; rfl, .inr ⟨b, e, 0, rfl, le_refl _, h2, h3, h4⟩⟩
    · exfalso
      have h0 : 0 < lvs.length := List.length_pos_iff.2 hne
      apply h2 0 h0
      have hm := List.getElem_mem h0
      have hlt := H.hi _ hm
      have hlo := H.lo _ hm
      rw [pow_succ] at hlt
      have hle := (H.lev _ hm).le
      refine ⟨(lvs[0].code - 2 ^ (lvs[0].level * d)) * 2 ^ ((cbits w d - lvs[0].level) * d), ?_, ?_, ?_⟩
      · calc (lvs[0].code - 2 ^ (lvs[0].level * d)) * 2 ^ ((cbits w d - lvs[0].level) * d)
            < 2 ^ (lvs[0].level * d) * 2 ^ ((cbits w d - lvs[0].level) * d) :=
              Nat.mul_lt_mul_of_pos_right (by omega) (Nat.two_pow_pos _)
          _ = 2 ^ (cbits w d * d) := by rw [← pow_add, ← Nat.add_mul, Nat.add_sub_cancel' hle]
      · rw [Nat.mul_div_cancel _ (Nat.two_pow_pos _)]
      · rw [Nat.sub_zero, Nat.div_eq_of_lt hv, Nat.div_eq_of_lt]
        calc (lvs[0].code - 2 ^ (lvs[0].level * d)) * 2 ^ ((cbits w d - lvs[0].level) * d)
            < 2 ^ (lvs[0].level * d) * 2 ^ ((cbits w d - lvs[0].level) * d) :=
              Nat.mul_lt_mul_of_pos_right (by omega) (Nat.two_pow_pos _)
          _ = 2 ^ (cbits w d * d) := by rw [← pow_add, ← Nat.add_mul, Nat.add_sub_cancel' hle]
  | succ al ih =>
    intro hal
    obtain ⟨r, hr, h | ⟨b, e, h1, h2, h3, h4⟩ | ⟨h1, h2⟩⟩ := step (al + 1) hal
    · exact ⟨none, by unfold coverLoop; rw [hr, h.1]; rfl, .inl ⟨rfl, h.2⟩⟩
    · exact ⟨some (b, e), by unfold coverLoop; rw [hr, h1]; rfl, .inr ⟨b, e, al + 1, rfl, le_refl _, h2, h3, h4⟩⟩
    · obtain ⟨r', hr', hc⟩ := ih (hal.mono (Nat.le_succ _))
      refine ⟨r', by unfold coverLoop; rw [hr, h1]; exact hr', hc.imp (fun k => ⟨k.1, by omega, k.2.2⟩) ?_⟩
      rintro ⟨b, e, m, k1, k2, k3⟩
      exact ⟨b, e, m, k1, by omega, k3⟩

/-- The node containing `c` is inside the node of a lower level containing `c`. -/
theorem Meets.mono {d cb : Nat} {nd : Node} {v u m m' : Nat} (h : Meets d cb nd v m) (hm : m' ≤ m) (hmc : m ≤ cb)
    (hu : u / 2 ^ ((cb - m) * d) = v / 2 ^ ((cb - m) * d)) : Meets d cb nd u m' := by
  obtain ⟨c, h1, h2, h3⟩ := h
  refine ⟨c, h1, h2, ?_⟩
  have e : 2 ^ ((cb - m') * d) = 2 ^ ((cb - m) * d) * 2 ^ ((m - m') * d) := by
    rw [← pow_add, ← Nat.add_mul]; congr 2; omega
  rw [e, ← Nat.div_div_eq_div_mul, ← Nat.div_div_eq_div_mul, h3, hu]

end Rakau
