import Verif.Proof.Bits

/-! Property theorems C16 (node levels and node order) and C49 (leading-zero counts). -/

namespace Rakau
open Spec

/-- C16: the level computed from the code of a node is its depth, for every dimension, code width and node that
fits in the code. -/
theorem C16_tree_level {w d : Nat} (hd : 0 < d) (hw : d < w) (p : Path) (hp : Path.Ok d p)
    (hl : p.length ≤ cbits w d) : treeLevel w d (Path.code d p) = p.length :=
  treeLevel_code hd hw p hp hl

example : (0 < 3 ∧ 3 < 64) ∧ Path.Ok 3 [7, 0, 5] ∧ [7, 0, 5].length ≤ cbits 64 3 ∧ Path.code 3 [7, 0, 5] = 965 ∧
    treeLevel 64 3 965 = 3 := by decide

/-- C16: comparing two node codes never shifts out of range, and yields exactly the depth-first preorder
(an ancestor before its descendants, siblings by child index). -/
theorem C16_node_compare {w d : Nat} (hd : 0 < d) (hw : d < w) (hw64 : w ≤ 64) (p q : Path) (hp : Path.Ok d p)
    (hq : Path.Ok d q) (hpl : p.length ≤ cbits w d) (hql : q.length ≤ cbits w d) :
    ∃ b, nodeCompare w d (Path.code d p) (Path.code d q) = some b ∧ (b = true ↔ Path.Before p q) :=
  nodeCompare_code hd hw hw64 p q hp hq hpl hql

example : Path.Ok 2 [3, 1] ∧ Path.Ok 2 [3, 1, 0] ∧ nodeCompare 32 2 (Path.code 2 [3, 1]) (Path.code 2 [3, 1, 0]) = some true ∧
    nodeCompare 32 2 (Path.code 2 [3, 1, 0]) (Path.code 2 [3, 1]) = some false ∧
    nodeCompare 32 2 (Path.code 2 [2, 3, 3, 3]) (Path.code 2 [3]) = some true := by decide

/-- C16: the codes the library uses are exactly the path codes: every number with its top bit at a multiple of
`d` is the code of exactly one node. -/
theorem C16_codes_are_paths {d : Nat} (hd : 0 < d) (L n : Nat) (h1 : 2 ^ (L * d) ≤ n) (h2 : n < 2 ^ (L * d + 1)) :
    ∃! p : Path, Path.Ok d p ∧ p.length = L ∧ Path.code d p = n := by
  obtain ⟨p, hl, ho, hc⟩ := exists_path d L n h1 h2
  exact ⟨p, ⟨ho, hl, hc⟩, fun q hq => code_inj d hd q p hq.1 ho (hq.2.2.trans hc.symm)⟩

example : 2 ^ (2 * 3) ≤ 100 ∧ 100 < 2 ^ (2 * 3 + 1) ∧ Path.code 3 [4, 4] = 100 := by decide

/-- C16: on the nodes of a tree the comparison is a strict total order: irreflexive, transitive, and any two
different nodes are ordered one way. -/
theorem C16_strict_total_order {w d : Nat} (hd : 0 < d) (hw : d < w) (hw64 : w ≤ 64) :
    let Node := fun n : Nat => ∃ L ≤ cbits w d, 2 ^ (L * d) ≤ n ∧ n < 2 ^ (L * d + 1)
    (∀ n, Node n → nodeCompare w d n n = some false) ∧
    (∀ a b c, Node a → Node b → Node c → nodeCompare w d a b = some true → nodeCompare w d b c = some true →
      nodeCompare w d a c = some true) ∧
    (∀ a b, Node a → Node b → a ≠ b →
      (nodeCompare w d a b = some true ∧ nodeCompare w d b a = some false) ∨
      (nodeCompare w d a b = some false ∧ nodeCompare w d b a = some true)) := by
  intro Node
  have key : ∀ a b, Node a → Node b → ∃ p q, Path.code d p = a ∧ Path.code d q = b ∧
      ((nodeCompare w d a b = some true ∧ Path.Before p q) ∨ (nodeCompare w d a b = some false ∧ ¬ Path.Before p q)) ∧
      Path.Ok d p ∧ Path.Ok d q := by
    rintro a b ⟨La, hLa, a1, a2⟩ ⟨Lb, hLb, b1, b2⟩
    obtain ⟨p, hpl, hpo, hpc⟩ := exists_path d La a a1 a2
    obtain ⟨q, hql, hqo, hqc⟩ := exists_path d Lb b b1 b2
    obtain ⟨r, hr, hb⟩ := nodeCompare_code hd hw hw64 p q hpo hqo (by omega) (by omega)
    rw [hpc, hqc] at hr
    refine ⟨p, q, hpc, hqc, ?_, hpo, hqo⟩
    cases r
    · right; exact ⟨hr, fun h => by simpa using hb.2 h⟩
    · left; exact ⟨hr, hb.1 rfl⟩
  refine ⟨?_, ?_, ?_⟩
  · intro n hn
    obtain ⟨p, q, hp, hq, h | h, hpo, hqo⟩ := key n n hn hn
    · have := code_inj d hd p q hpo hqo (hp.trans hq.symm)
      rw [this] at h
      exact absurd h.2 (lt_irrefl q)
    · exact h.1
  · intro a b c ha hb hc hab hbc
    obtain ⟨p, q, hp, hq, h1, hpo, hqo⟩ := key a b ha hb
    obtain ⟨q', r, hq', hr, h2, hqo', hro⟩ := key b c hb hc
    obtain ⟨p', r', hp', hr', h3, hpo', hro'⟩ := key a c ha hc
    obtain rfl := code_inj d hd q q' hqo hqo' (hq.trans hq'.symm)
    obtain rfl := code_inj d hd p p' hpo hpo' (hp.trans hp'.symm)
    obtain rfl := code_inj d hd r r' hro hro' (hr.trans hr'.symm)
    have l1 : p < q := by rcases h1 with h | h; exact h.2; rw [h.1] at hab; simp at hab
    have l2 : q < r := by rcases h2 with h | h; exact h.2; rw [h.1] at hbc; simp at hbc
    rcases h3 with h | h
    · exact h.1
    · exact absurd (lt_trans l1 l2) h.2
  · intro a b ha hb hne
    obtain ⟨p, q, hp, hq, h1, hpo, hqo⟩ := key a b ha hb
    obtain ⟨q', p', hq', hp', h2, hqo', hpo'⟩ := key b a hb ha
    obtain rfl := code_inj d hd q q' hqo hqo' (hq.trans hq'.symm)
    obtain rfl := code_inj d hd p p' hpo hpo' (hp.trans hp'.symm)
    have hpq : p ≠ q := by rintro rfl; exact hne (hp.symm.trans hq)
    rcases lt_trichotomy p q with h | h | h
    · left
      refine ⟨?_, ?_⟩
      · rcases h1 with g | g; exact g.1; exact absurd h g.2
      · rcases h2 with g | g; exact absurd h (lt_asymm g.2); exact g.1
    · exact absurd h hpq
    · right
      refine ⟨?_, ?_⟩
      · rcases h1 with g | g; exact absurd h (lt_asymm g.2); exact g.1
      · rcases h2 with g | g; exact g.1; exact absurd h g.2

example : (0 < 3 ∧ 3 < 32 ∧ 32 ≤ 64) ∧ (∃ L ≤ cbits 32 3, 2 ^ (L * 3) ≤ 75 ∧ 75 < 2 ^ (L * 3 + 1)) :=
  ⟨by decide, 2, by decide, by decide, by decide⟩

/-- C16: the deepest level always fits: the code of a node at level `cbits` is below `2^w`, and one more level
would not fit. -/
theorem C16_cbits_maximal {w d : Nat} (hd : 0 < d) (hw : d < w) :
    (∀ p, Path.Ok d p → p.length ≤ cbits w d → Path.code d p < 2 ^ w) ∧
    (∀ p, Path.Ok d p → cbits w d < p.length → 2 ^ w ≤ Path.code d p) := by
  refine ⟨fun p hp hl => code_lt_two_pow hd hw p hp hl, fun p _ hl => ?_⟩
  rw [code_eq]
  have h1 := lt_cbits_succ_mul hd hw
  have h2 : (cbits w d + 1) * d ≤ p.length * d := Nat.mul_le_mul_right _ hl
  exact le_trans (Nat.pow_le_pow_right (by norm_num) (le_trans h1 h2)) (Nat.le_add_right _ _)

example : cbits 64 3 = 21 ∧ cbits 32 3 = 10 ∧ cbits 64 2 = 31 ∧ cbits 32 2 = 15 := by decide

/-- C49: every implementation path of the leading-zero count (GCC/clang builtin on the type itself, builtin on a
wider type minus the extra bits, MSVC bit scan, MSVC bit scan on two halves) returns the number of leading zeros, for
every nonzero argument of every width. -/
theorem C49_clz_paths {w n : Nat} (hn : n ≠ 0) (h : n < 2 ^ w) :
    IsLeadingZeros w n (clz w n) ∧
    (w ≤ 32 → IsLeadingZeros w n (clzNarrow w n)) ∧
    (∃ k, clzMsvc w n = some k ∧ IsLeadingZeros w n k) ∧
    (w = 64 → ∃ k, clzMsvcSplit n = some k ∧ IsLeadingZeros w n k) := by
  have hl : n.log2 < w := (Nat.log2_lt hn).2 h
  refine ⟨?_, ?_, ?_, ?_⟩
  · unfold clz; rw [builtinClz_eq hn h]; exact isLeadingZeros_log2 hn h
  · intro hw
    have h' : n < 2 ^ 32 := lt_of_lt_of_le h (Nat.pow_le_pow_right (by norm_num) hw)
    have : clzNarrow w n = w - 1 - n.log2 := by
      unfold clzNarrow; rw [builtinClz_eq hn h']; omega
    rw [this]; exact isLeadingZeros_log2 hn h
  · refine ⟨_, ?_, isLeadingZeros_log2 hn h⟩
    unfold clzMsvc; rw [bitScanReverse_eq hn h]; rfl
  · rintro rfl
    refine ⟨_, ?_, isLeadingZeros_log2 hn h⟩
    unfold clzMsvcSplit
    split
    · rename_i hs
      have hlt : n >>> 32 < 2 ^ 32 := by
        rw [Nat.shiftRight_eq_div_pow, Nat.div_lt_iff_lt_mul (Nat.two_pow_pos 32), ← pow_add]; exact h
      rw [Nat.mod_eq_of_lt hlt, bitScanReverse_eq hs hlt]
      have := log2_shiftRight hs
      simp only [Option.map_some]
      congr 1; omega
    · rename_i hs
      have hs' : n >>> 32 = 0 := by simpa using hs
      have hlt : n < 2 ^ 32 := by
        rw [Nat.shiftRight_eq_div_pow] at hs'
        rcases Nat.div_eq_zero_iff.1 hs' with h0 | h0
        · exact absurd h0 (Nat.two_pow_pos 32).ne'
        · exact h0
      rw [Nat.mod_eq_of_lt hlt, bitScanReverse_eq hn hlt]
      rfl

example : (5 : Nat) ≠ 0 ∧ 5 < 2 ^ 64 ∧ clz 64 5 = 61 ∧ clzMsvcSplit 5 = some 61 ∧ clzMsvcSplit (5 * 2 ^ 32) = some 29 ∧
    clzNarrow 16 5 = 13 := by decide

end Rakau
