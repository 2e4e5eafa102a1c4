import Verif.Proof.NodeProps
import Verif.Props.State

/-!
Properties C17 (mass and centre of mass of nodes), C18 (the centre of mass lies among the particles and in the node's cube) and
C19 (node cubes), and the facts that make the state theorems (C01-C05, C36-C39) apply to trees of floating-point particles.
-/
set_option linter.unusedSectionVars false

namespace Rakau

open Spec

variable {K : Type} [Field K] [LinearOrder K] [IsStrictOrderedRing K] [FloorRing K]

/-! ### The state theorems hold for the floating-point environment -/

/-- C39, C04, C36-C38: the laws required of the floating-point operations by the state theorems hold for every arithmetic (IEEE formats
with or without fused multiply-add included), every instruction set and acceptance criterion. -/
theorem C39_environment (A : Arith K) (simd : Option (Simd K)) (mac : Mac) {w d : Nat} (hs : Supported w d) :
    EnvOk (rakauEnv A simd mac w d) ∧ EnvNoUB (rakauEnv A simd mac w d) :=
  ⟨rakauEnv_ok A simd mac hs, rakauEnv_noUB A simd mac hs⟩

/-- `double` particles in 3D, 64-bit codes, AVX-like batches of 4, geometric acceptance criterion. -/
example : EnvOk (rakauEnv (dbl true) (some ⟨4, true, fun l => l.foldl (dbl true).add (.fin 0)⟩) .bhGeom 64 3) :=
  (C39_environment _ _ _ ⟨.inr rfl, .inr rfl⟩).1

/-- Nodes of a reachable tree. -/
theorem reach_node {env : Env} (E : EnvOk env) {s : TS env} (h : Reach env s) (hz : s.n * cbits env.w env.d < 2 ^ 64) {i : Nat}
    (hi : i < s.tree.length) :
    s.codes.length = s.n ∧ BuildInput s.cfg s.codes ∧ (∃ split, IsBuild s.cfg s.codes split (.ok (s.tree, s.crit))) ∧
    ∃ (hp : i < s.props.length) (p : Path), p.Ok env.d ∧ p.length ≤ cbits env.w env.d ∧ s.tree[i].code = p.code env.d ∧
      s.tree[i].level = p.length ∧ s.tree[i].beg < s.tree[i].fin ∧ s.tree[i].fin ≤ s.n ∧
      env.props s.box s.tree[i] s.parts = .ok s.props[i] ∧
      ∀ k (hk : k < s.codes.length), (s.tree[i].beg ≤ k ∧ k < s.tree[i].fin) ↔ InNode env.d (cbits env.w env.d) p s.codes[k] := by
  have I := reach_inv h
  obtain ⟨hcl, hcs⟩ := rawCodes_spec.1 I.codes
  have hne : s.codes ≠ [] := by
    intro h0
    obtain ⟨split, hb⟩ := I.built
    rw [h0] at hb
    generalize hr : (Except.ok (s.tree, s.crit) : Except Err (List Node × List CNode)) = r at hb
    cases hb with
    | empty => simp at hr; rw [hr.1] at hi; simp at hi
    | run _ _ _ _ h => exact absurd rfl h
    | fail _ h => exact absurd rfl h
  have hbound : ∀ c ∈ s.codes, c < 2 ^ (cbits env.w env.d * env.d) := codes_bound E I.codes
  have B : BuildInput s.cfg s.codes := ⟨E.dim, I.sorted, hbound, by rw [hcl]; exact hz, hne⟩
  refine ⟨hcl, B, I.built, ?_⟩
  obtain ⟨split, hb⟩ := I.built
  obtain ⟨ps, hlen, _, _, hmem, hall⟩ := C11_depth_first B hb
  obtain ⟨h1, h2, h3, h4, h5, _⟩ := hall i hi
  have hf := forall₂_getElem (mapM_ok_iff.1 I.props)
  have hnode := (hmem _).1 (List.getElem_mem (by omega : i < ps.length))
  exact ⟨by rw [← hf.1]; exact hi, ps[i], isNode_ok hnode, hnode.1, h1, h2, h3, by rw [← hcl]; exact h4,
    hf.2 i hi (by rw [← hf.1]; exact hi), h5⟩

/-! ### A sample tree for the examples -/

/-- Batches of 4 numbers, added from the left. -/
def simd4 : Simd ℚ := ⟨4, true, fun l => l.foldl exactQ.add (.fin 0)⟩

theorem simd4_ok : simd4.Ok where
  pos := by decide
  hadd := by
    have key : ∀ (l : List ℚ) (a : ℚ), (l.map Fl.fin).foldl exactQ.add (.fin a) = .fin (a + l.sum) := by
      intro l
      induction l with
      | nil => intro a; simp
      | cons b l ih =>
        intro a
        rw [List.map_cons, List.foldl_cons, ex_add exactQ_exact, ih, List.sum_cons, add_assoc]
    intro l
    show (l.map Fl.fin).foldl exactQ.add (.fin 0) = _
    rw [key, zero_add]

@[reducible] def ratEnv : Env := rakauEnv exactQ (some simd4) .bh 32 3

/-- Six particles in three dimensions, three at the same place, one without mass: coordinates, then masses. -/
def ratData : List (List ℚ) := [[1, 1, -3, 2, 1, 3], [1, 1, 2, -2, 1, 3], [1, 1, 0, 0, 1, 3], [1, 2, 0, 5, 4, 1]]

def ratInp : Input ratEnv := ⟨some (.fin 8), 2, 3, ratData.map (·.map .fin)⟩

def ratS : TS ratEnv := okOr ratInp.exec (TS.default _)

theorem rat_reach : Reach ratEnv ratS := by
  have h : Construct ratInp ratInp.exec := construct_exec (by decide +kernel)
  rw [eq_okOr (d := TS.default _) (show isOk ratInp.exec = true by decide +kernel)] at h
  exact .construct ratInp ratS rfl h

/-- The data of `ratS`, in the order of the tree. -/
def ratX (j k : Nat) : ℚ := (ratData.getD j []).getD ([3, 2, 0, 1, 4, 5].getD k 0) 0

theorem rat_data : IsData 3 ratS.n ratS.parts ratX :=
  isData_of_eq (by decide +kernel)

theorem rat_ok : ∀ S, some simd4 = some S → S.Ok := fun S h => by cases h; exact simd4_ok

section Exact
variable {A : Arith K} (hA : A.Exact)
include hA

/-! ### C19: node cubes -/

/-- C19: an accepted point (in exact arithmetic) is in a node exactly when it lies in the half-open cube given by `get_node_centre` and
`get_node_dim`, whose size is the box size divided by `2 ^ level`. -/
theorem C19_cube {w d : Nat} (hs : Supported w d) {p : Path} (hp : p.Ok d) (hl : p.length ≤ cbits w d) {b : K} (hb : 0 < b)
    {x : Nat → K} {v : Nat} (hv : codeOf A w d (.fin b) ((List.range d).map (fun j => .fin (x j))) = .ok v) :
    ∃ cen : List K, cen.length = d ∧ nodeCentre A w d (p.code d) (.fin b) = .ok (cen.map .fin) ∧
      nodeDim A w p.length (.fin b) = .ok (.fin (b / 2 ^ p.length)) ∧
      (InNode d (cbits w d) p v ↔ InCube cen (b / 2 ^ p.length) x) := by
  obtain ⟨c, h1, h2, h3⟩ := nodeCentre_exact hA hs hp hl b
  have hd := hs.dim
  have hlw : p.length < w := by
    have := cbits_mul_lt hd.1 hd.2.1; have := Nat.le_mul_of_pos_right (cbits w d) hd.1; omega
  refine ⟨_, (List.length_map _).trans h2, h3, nodeDim_exact hA hlw b, ?_⟩
  have e0 : (List.range d).map (fun j => Fl.fin (x j)) = ((List.range d).map x).map .fin := by rw [List.map_map]; rfl
  rw [e0] at hv
  rcases C09_exact_partial hA hs hb (c := (List.range d).map x) (by simp) with ⟨xs, v', k1, _, k3, k4, k5⟩ | ⟨e, _⟩
  swap
  · rw [e] at hv; simp at hv
  rw [k1, Except.ok.injEq] at hv
  subst hv
  have hcell : ∀ j (hj : j < d) (hx : j < xs.length), IsCell b (cbits w d) (x j) xs[j] := by
    intro j hj hx
    have := (forall₂_getElem k4).2 j (by simpa using hj) hx
    simpa using this
  obtain ⟨m, e1, e2, e3⟩ := C06_encode (w := w) (xs := xs) (by rw [k3]; exact hs) (by
    intro y hy
    obtain ⟨j, hj, rfl⟩ := List.getElem_of_mem hy
    rcases exact_accept hA (cbits_le w d) (x := x j) hb with ⟨r, hr, hin, hrc⟩ | ⟨_, hn⟩
    · have := discSingle_lt A (cbits_le w d) hr
      rw [k3]
      have hc1 := hcell j (by omega) hj
      have : xs[j] ≤ r := (cell_le hb hrc).2 hc1.1
      omega
    · exfalso
      rename_i hall _
      exact hn (hall (x j) (List.mem_map.2 ⟨j, List.mem_range.2 (by omega), rfl⟩)))
  have hdx : 0 < xs.length := by omega
  have hmv : m = v' := by
    rw [k3] at e2
    exact interleaves_unique (by omega) e2 k5
  subst hmv
  obtain ⟨c', f1, f2, f3⟩ := C07_node_cube (w := w) (L := p.length) (q := pv d p) (xs := xs) (m := m) (by rw [k3]; exact hs)
    (by rw [k3]; exact hl) (by
      intro y hy
      rw [k3]
      obtain ⟨j, hj, rfl⟩ := List.getElem_of_mem hy
      rcases exact_accept hA (cbits_le w d) (x := x j) hb with ⟨r, hr, hin, hrc⟩ | ⟨_, hn⟩
      · have := discSingle_lt A (cbits_le w d) hr
        have : xs[j] ≤ r := (cell_le hb hrc).2 (hcell j (by omega) hj).1
        omega
      · exfalso
        rename_i hall _
        exact hn (hall (x j) (List.mem_map.2 ⟨j, List.mem_range.2 (by omega), rfl⟩))) e1 (by rw [k3]; exact pv_lt d p hp)
  simp only [k3] at f1 f3
  rw [h1, Option.some.injEq] at f1
  subst f1
  have hm : m < 2 ^ (cbits w d * d) := by have := k5.1; rw [k3] at this; exact this
  rw [inNode_iff hd.1 hp hl hm, ← Nat.shiftRight_eq_div_pow, f3]
  have hL : (2 : K) ^ cbits w d = 2 ^ (cbits w d - p.length) * 2 ^ p.length := by rw [← pow_add, Nat.sub_add_cancel hl]
  have hsz : b / 2 ^ p.length = 2 ^ (cbits w d - p.length) * (b / 2 ^ cbits w d) := by rw [hL]; field_simp
  unfold InCube
  simp only [List.getElem_map, List.length_map]
  have key : ∀ j (hj : j < d) (hx : j < xs.length) (hc : j < c.length),
      (c[j] ≤ xs[j] ∧ xs[j] < c[j] + 2 ^ (cbits w d - p.length)) ↔
      ((c[j] : K) * (b / 2 ^ cbits w d) + b / 2 ^ p.length / 2 - b / 2 - b / 2 ^ p.length / 2 ≤ x j ∧
        x j < (c[j] : K) * (b / 2 ^ cbits w d) + b / 2 ^ p.length / 2 - b / 2 + b / 2 ^ p.length / 2) := by
    intro j hj hx hc
    have hcl := hcell j hj hx
    rw [cell_le hb hcl, ← not_le (a := c[j] + _), cell_le hb hcl, not_le]
    push_cast
    constructor
    · rintro ⟨a1, a2⟩
      refine ⟨by linarith, ?_⟩
      calc x j < _ := a2
        _ = _ := by rw [hsz]; ring
    · rintro ⟨a1, a2⟩
      refine ⟨by linarith, ?_⟩
      calc x j < _ := a2
        _ = _ := by rw [hsz]; ring
  constructor
  · intro h j hj
    exact (key j (by omega) (by omega) hj).1 (h j (by omega))
  · intro h j hj
    exact (key j (by omega) (by omega) (by omega)).2 (h j (by omega))

example : codeOf exactQ 64 2 (.fin 8) ((List.range 2).map (fun j => .fin (if j = 0 then -1 else 3))) = .ok 3386706919782612992 ∧
    nodeCentre exactQ 64 2 (Path.code 2 [2, 3]) (.fin 8) = .ok ([-1, 3].map .fin) ∧
    nodeDim exactQ 64 2 (.fin 8) = .ok (.fin 2) ∧ InNode 2 31 [2, 3] 3386706919782612992 := by decide +kernel

/-- C19: the cubes are those of the regular subdivision of the domain: the root's centre is the origin, and a child's centre is at a
quarter of the parent's size from the parent's centre in every dimension, upwards where the child index has a 1 bit. -/
theorem C19_subdivision {w d : Nat} (hs : Supported w d) (b : K) :
    nodeCentre A w d 1 (.fin b) = .ok (List.replicate d (.fin 0)) ∧
    ∀ (p : Path) (i : Nat), p.Ok d → i < 2 ^ d → p.length + 1 ≤ cbits w d →
      ∃ cen cen' : List K, cen.length = d ∧ cen'.length = d ∧ nodeCentre A w d (p.code d) (.fin b) = .ok (cen.map .fin) ∧
        nodeCentre A w d (p.code d * 2 ^ d + i) (.fin b) = .ok (cen'.map .fin) ∧
        ∀ j (h : j < cen.length) (h' : j < cen'.length),
          cen'[j] = cen[j] + (if i.testBit j then 1 else -1) * (b / 2 ^ p.length / 4) := by
  have hd := hs.dim
  refine ⟨?_, ?_⟩
  · obtain ⟨c, h1, h2, h3⟩ := nodeCentre_exact hA hs (p := []) (by intro a ha; simp at ha) (by simp) b
    have e : Path.code d [] = 1 := rfl
    rw [e] at h3
    rw [h3, List.map_map]
    congr 1
    have h0 : mortonDecode w d 0 = some (List.replicate d 0) := by
      rcases hs with ⟨rfl | rfl, rfl | rfl⟩ <;> decide +kernel
    rw [pv_nil, Nat.zero_shiftLeft, h0, Option.some.injEq] at h1
    rw [← h1, List.map_replicate]
    congr 1
    simp
  · intro p i hp hi hl
    have hpi : Path.Ok d (p ++ [i]) := by
      intro a ha
      rcases List.mem_append.1 ha with h | h
      · exact hp a h
      · rw [List.mem_singleton.1 h]; exact hi
    obtain ⟨c, h1, h2, h3⟩ := nodeCentre_exact hA hs hp (by omega) b
    obtain ⟨c', g1, g2, g3⟩ := nodeCentre_exact hA hs hpi (by simpa using hl) b
    rw [code_append] at g3
    refine ⟨_, _, (List.length_map _).trans h2, (List.length_map _).trans g2, h3, g3, ?_⟩
    intro j hj hj'
    rw [List.length_map] at hj hj'
    obtain ⟨_, _, hc⟩ := corner_child hs hp hi hl h1 g1 (j := j) (by omega)
    simp only [List.getElem_map]
    rw [hc]
    have hL : (2 : K) ^ cbits w d = 2 ^ (cbits w d - p.length - 1) * 2 * 2 ^ p.length := by
      rw [← pow_succ, ← pow_add]; congr 1; omega
    have e1 : (p ++ [i]).length = p.length + 1 := by simp
    rw [e1]
    have hsz : (2 : K) ^ (cbits w d - p.length - 1) * (b / 2 ^ cbits w d) = b / 2 ^ p.length / 2 := by rw [hL]; field_simp
    split
    · push_cast
      rw [add_mul, hsz, pow_succ]
      field_simp; ring
    · push_cast
      rw [pow_succ]
      field_simp; ring

example : Path.code 2 [2, 3] = Path.code 2 [2] * 2 ^ 2 + 3 ∧ nodeCentre exactQ 64 2 (Path.code 2 [2]) (.fin 8) = .ok ([-2, 2].map .fin) ∧
    nodeCentre exactQ 64 2 (Path.code 2 [2] * 2 ^ 2 + 3) (.fin 8) = .ok ([-2 + 8 / 2 / 4, 2 + 8 / 2 / 4].map .fin) ∧
    nodeCentre exactQ 64 2 (Path.code 2 [2] * 2 ^ 2 + 1) (.fin 8) = .ok ([-2 + 8 / 2 / 4, 2 - 8 / 2 / 4].map .fin) := by decide +kernel

/-- C19: the cubes of two different nodes of the same level do not overlap: in some dimension their centres are at least one node size
apart. -/
theorem C19_disjoint {w d : Nat} (hs : Supported w d) {p q : Path} (hp : p.Ok d) (hq : q.Ok d) (hl : p.length ≤ cbits w d)
    (hlen : q.length = p.length) (hne : p ≠ q) {b : K} (hb : 0 < b) :
    ∃ cen cen' : List K, cen.length = d ∧ cen'.length = d ∧ nodeCentre A w d (p.code d) (.fin b) = .ok (cen.map .fin) ∧
      nodeCentre A w d (q.code d) (.fin b) = .ok (cen'.map .fin) ∧
      ∃ j, ∃ (h : j < cen.length) (h' : j < cen'.length), b / 2 ^ p.length ≤ |cen[j] - cen'[j]| := by
  have hd := hs.dim
  obtain ⟨c, h1, h2, h3⟩ := nodeCentre_exact hA hs hp hl b
  obtain ⟨c', g1, g2, g3⟩ := nodeCentre_exact hA hs hq (by omega) b
  refine ⟨_, _, (List.length_map _).trans h2, (List.length_map _).trans g2, h3, g3, ?_⟩
  rw [hlen] at g1 ⊢
  have bound : ∀ q : Path, q.Ok d → q.length = p.length → pv d q <<< ((cbits w d - p.length) * d) < 2 ^ (cbits w d * d) := by
    intro q hq hql
    rw [Nat.shiftLeft_eq]
    calc _ < 2 ^ (q.length * d) * 2 ^ ((cbits w d - p.length) * d) := Nat.mul_lt_mul_of_pos_right (pv_lt d q hq) (Nat.two_pow_pos _)
      _ = _ := by rw [hql, ← pow_add, ← Nat.add_mul, Nat.add_sub_cancel' hl]
  obtain ⟨c0, a1, a2, a3, a4⟩ := mortonDecode_interleaves hs (bound p hp rfl)
  obtain ⟨c1, b1, b2, b3, b4⟩ := mortonDecode_interleaves hs (bound q hq hlen)
  rw [h1, Option.some.injEq] at a1
  rw [g1, Option.some.injEq] at b1
  subst a1; subst b1
  have hcc : c ≠ c' := by
    intro e
    rw [← e] at b4
    have := interleaves_unique (by omega) a4 b4
    rw [Nat.shiftLeft_eq, Nat.shiftLeft_eq] at this
    exact hne (pv_inj hd.1 hp hq hlen.symm (Nat.eq_of_mul_eq_mul_right (Nat.two_pow_pos _) this))
  obtain ⟨j, hj, hj', hjne⟩ : ∃ j, ∃ (h : j < c.length) (h' : j < c'.length), c[j] ≠ c'[j] := by
    by_contra hall
    simp only [not_exists, not_not] at hall
    exact hcc (List.ext_getElem (by omega) (fun i h1 h2 => hall i h1 h2))
  refine ⟨j, by simpa using hj, by simpa using hj', ?_⟩
  obtain ⟨e, he⟩ := corner_dvd a2 (by omega) a4 hj
  obtain ⟨e', he'⟩ := corner_dvd b2 (by omega) b4 hj'
  have hee : e ≠ e' := by intro h; rw [he, he', h] at hjne; exact hjne rfl
  simp only [List.getElem_map]
  rw [he, he']
  have hL : (2 : K) ^ cbits w d = 2 ^ (cbits w d - p.length) * 2 ^ p.length := by rw [← pow_add, Nat.sub_add_cancel hl]
  have hval : ((2 ^ (cbits w d - p.length) * e : Nat) : K) * (b / 2 ^ cbits w d) + b / 2 ^ p.length / 2 - b / 2 -
      (((2 ^ (cbits w d - p.length) * e' : Nat) : K) * (b / 2 ^ cbits w d) + b / 2 ^ p.length / 2 - b / 2) =
      ((e : K) - e') * (b / 2 ^ p.length) := by
    push_cast
    rw [hL]; field_simp; ring
  rw [hval, abs_mul, abs_of_pos (show 0 < b / 2 ^ p.length by positivity)]
  have h1' : (1 : K) ≤ |(e : K) - e'| := by
    have : (1 : ℤ) ≤ |(e : ℤ) - e'| := Int.one_le_abs (by omega)
    exact_mod_cast this
  have : 0 < b / 2 ^ p.length := by positivity
  nlinarith

example : nodeCentre exactQ 32 3 (Path.code 3 [7, 0]) (.fin 8) = .ok ([1, 1, 1].map .fin) ∧
    nodeCentre exactQ 32 3 (Path.code 3 [7, 7]) (.fin 8) = .ok ([3, 3, 3].map .fin) ∧ (8 : ℚ) / 2 ^ 2 ≤ |1 - 3| := by decide +kernel

/-! ### C17: mass and centre of mass -/

/-- The children of node `i`. -/
def children (tree : List Node) (i : Nat) : Finset Nat :=
  (Finset.range tree.length).filter (fun j => i < j ∧ j ≤ i + (tree[i]?.map Node.nChildren).getD 0 ∧
    (tree[j]?.map Node.level) = (tree[i]?.map (fun n => n.level + 1)))

/-- C17: in exact arithmetic, in every reachable tree and whatever the SIMD batch size, the mass of a node is the sum of the masses of
exactly its particles, and its centre of mass the mass-weighted mean of their positions; a node of total mass 0 has the centre of its cube
instead. -/
theorem C17_exact {simd : Option (Simd K)} (hS : ∀ S, simd = some S → S.Ok) {mac : Mac} {w d : Nat} (hs : Supported w d)
    {s : TS (rakauEnv A simd mac w d)} (h : Reach _ s) (hz : s.n * cbits w d < 2 ^ 64) {b : K} (hb : s.box = .fin b)
    {x : Nat → Nat → K} (hx : IsData d s.n s.parts x) {i : Nat} (hi : i < s.tree.length) :
    ∃ hp : i < s.props.length,
      s.props[i].mass = .fin (∑ k ∈ Finset.Ico s.tree[i].beg s.tree[i].fin, x d k) ∧
      (∑ k ∈ Finset.Ico s.tree[i].beg s.tree[i].fin, x d k ≠ 0 →
        s.props[i].com = (List.range d).map (fun j => .fin ((∑ k ∈ Finset.Ico s.tree[i].beg s.tree[i].fin, x d k * x j k) /
          ∑ k ∈ Finset.Ico s.tree[i].beg s.tree[i].fin, x d k))) ∧
      (∑ k ∈ Finset.Ico s.tree[i].beg s.tree[i].fin, x d k = 0 →
        nodeCentre A w d s.tree[i].code s.box = .ok s.props[i].com) := by
  obtain ⟨_, _, _, hp, p, p1, p2, p3, p4, p5, p6, p7, _⟩ := reach_node (rakauEnv_ok A simd mac hs) h hz hi
  refine ⟨hp, ?_⟩
  have p7 : nodeProps A simd mac w d s.box s.tree[i] s.parts = .ok s.props[i] := p7
  rw [hb] at p7 ⊢
  obtain ⟨cen, c1, c2, c3⟩ := nodeProps_exact hA hS mac hs b hx p5.le p6 p1 p2 p3 p4
  obtain ⟨com, hcom⟩ : ∃ com, com = (if ∑ k ∈ Finset.Ico s.tree[i].beg s.tree[i].fin, x d k = 0 then cen else (List.range d).map
        (fun j => (∑ k ∈ Finset.Ico s.tree[i].beg s.tree[i].fin, x d k * x j k) /
          ∑ k ∈ Finset.Ico s.tree[i].beg s.tree[i].fin, x d k)) := ⟨_, rfl⟩
  have c3 := c3 _ com rfl hcom
  rw [p7] at c3
  have hmc : s.props[i].mass = .fin (∑ k ∈ Finset.Ico s.tree[i].beg s.tree[i].fin, x d k) ∧
      s.props[i].com = com.map .fin := by
    cases mac with
    | bh =>
      simp only [Except.ok.injEq] at c3
      rw [c3]; exact ⟨rfl, rfl⟩
    | bhGeom =>
      simp only at c3
      split at c3
      · simp only [Except.ok.injEq] at c3
        rw [c3]; exact ⟨rfl, rfl⟩
      · simp at c3
  refine ⟨hmc.1, fun hne => ?_, fun h0 => ?_⟩
  · rw [hmc.2, hcom, if_neg hne, List.map_map]; rfl
  · rw [c2, hmc.2, hcom, if_pos h0]

/-- The node with the three particles at the same place: masses 1, 2 and 4. -/
example : ∃ hp : 4 < ratS.props.length, ratS.props[4].mass = .fin (∑ k ∈ Finset.Ico 2 5, ratX 3 k) ∧ (∑ k ∈ Finset.Ico 2 5, ratX 3 k) = 7 := by
  obtain ⟨hp, h, _⟩ := C17_exact exactQ_exact rat_ok ⟨.inl rfl, .inr rfl⟩ rat_reach (by decide +kernel) (b := 8) (by decide +kernel) rat_data
    (i := 4) (by decide +kernel)
  have e : (ratS.tree[4]'(by decide +kernel)).beg = 2 ∧ (ratS.tree[4]'(by decide +kernel)).fin = 5 := by decide +kernel
  rw [e.1, e.2] at h
  exact ⟨hp, h, by decide +kernel⟩

/-- The particle without mass: the centre of the node of code 14 instead of the particle's position `(-3, 2, 0)`. -/
example : ratS.props[2]?.map NProps.mass = some (.fin (0 : ℚ)) ∧ ratS.props[2]?.map NProps.com = some [.fin (-2 : ℚ), .fin 2, .fin 2] ∧
    nodeCentre exactQ 32 3 14 (.fin 8) = .ok [.fin (-2), .fin 2, .fin 2] := by decide +kernel

/-- A sum over the particles of an internal node is the sum over its children of the sums over their particles. -/
theorem child_sums {g : Cfg} {codes : List Nat} (I : BuildInput g codes) {split : Nat} {tree : List Node} {crit : List CNode}
    (hb : IsBuild g codes split (.ok (tree, crit))) {i : Nat} (hi : i < tree.length) (hn : tree[i].nChildren ≠ 0) (u : Nat → K) :
    ∑ k ∈ Finset.Ico tree[i].beg tree[i].fin, u k =
      ∑ j ∈ children tree i, ∑ k ∈ Finset.Ico (tree.getD j ⟨0, 0, 0, 0, 0⟩).beg (tree.getD j ⟨0, 0, 0, 0, 0⟩).fin, u k := by
  obtain ⟨h1, h2, h3⟩ := C11_children I hb i hi
  have hmem : ∀ j, j ∈ children tree i ↔ ∃ hj : j < tree.length, i < j ∧ j ≤ i + tree[i].nChildren ∧ tree[j].level = tree[i].level + 1 := by
    intro j
    unfold children
    rw [Finset.mem_filter, Finset.mem_range, List.getElem?_eq_getElem hi]
    constructor
    · rintro ⟨hj, a, b, c⟩
      rw [List.getElem?_eq_getElem hj] at c
      exact ⟨hj, a, b, by simpa using c⟩
    · rintro ⟨hj, a, b, c⟩
      refine ⟨hj, a, b, ?_⟩
      rw [List.getElem?_eq_getElem hj]; simpa using c
  have hgd : ∀ j (hj : j < tree.length), tree.getD j ⟨0, 0, 0, 0, 0⟩ = tree[j] := fun j hj => by
    rw [List.getD_eq_getElem?_getD, List.getElem?_eq_getElem hj, Option.getD_some]
  rw [← Finset.sum_biUnion]
  · apply Finset.sum_congr _ (fun _ _ => rfl)
    ext k
    rw [Finset.mem_biUnion, Finset.mem_Ico]
    constructor
    · rintro ⟨k1, k2⟩
      obtain ⟨j, ⟨hc, hj, j1, j2⟩, _⟩ := h3 hn k k1 k2
      exact ⟨j, (hmem j).2 hc, by rw [hgd j hj, Finset.mem_Ico]; exact ⟨j1, j2⟩⟩
    · rintro ⟨j, hc, hk⟩
      have hc := (hmem j).1 hc
      obtain ⟨hj, _⟩ := id hc
      rw [hgd j hj, Finset.mem_Ico] at hk
      obtain ⟨_, j1, j2⟩ := h1 j hj hc
      omega
  · intro j hjm j' hjm' hne
    have hc := (hmem j).1 hjm
    have hc' := (hmem j').1 hjm'
    obtain ⟨hj, _⟩ := id hc
    obtain ⟨hj', _⟩ := id hc'
    show Disjoint _ _
    rw [Finset.disjoint_left]
    intro k hk hk'
    simp only at hk hk'
    rw [hgd j hj, Finset.mem_Ico] at hk
    rw [hgd j' hj', Finset.mem_Ico] at hk'
    rcases lt_or_gt_of_ne hne with hlt | hgt
    · have := (h2 j j' hj hj' hc hc' hlt).2; omega
    · have := (h2 j' j hj' hj hc' hc hgt).2; omega

/-- C17: an internal node's mass is the sum of its children's masses; with non-negative masses, its mass times centre of mass is the
sum of those of its children. -/
theorem C17_children {simd : Option (Simd K)} (hS : ∀ S, simd = some S → S.Ok) {mac : Mac} {w d : Nat} (hs : Supported w d)
    {s : TS (rakauEnv A simd mac w d)} (h : Reach _ s) (hz : s.n * cbits w d < 2 ^ 64) {b : K} (hb : s.box = .fin b)
    {x : Nat → Nat → K} (hx : IsData d s.n s.parts x) {i : Nat} (hi : i < s.tree.length) (hn : s.tree[i].nChildren ≠ 0) :
    ∃ (mass : Nat → K) (com : Nat → Nat → K),
      (∀ (k : Nat) (pr : NProps K), s.props[k]? = some pr → pr.mass = .fin (mass k) ∧ pr.com = (List.range d).map (fun j => .fin (com k j))) ∧
      mass i = ∑ k ∈ children s.tree i, mass k ∧
      ((∀ k < s.n, 0 ≤ x d k) → ∀ j < d, mass i * com i j = ∑ k ∈ children s.tree i, mass k * com k j) := by
  have hex : ∀ k, ∃ (m : K) (c : Nat → K), ∀ pr : NProps K, s.props[k]? = some pr →
      pr.mass = .fin m ∧ pr.com = (List.range d).map (fun j => .fin (c j)) ∧ ∃ hk : k < s.tree.length,
        m = ∑ t ∈ Finset.Ico s.tree[k].beg s.tree[k].fin, x d t ∧
        ((∀ k < s.n, 0 ≤ x d k) → ∀ j < d, m * c j = ∑ t ∈ Finset.Ico s.tree[k].beg s.tree[k].fin, x d t * x j t) := by
    intro k
    by_cases hk : k < s.props.length
    · have hlen := (mapM_ok_iff.1 (reach_inv h).props).length_eq
      have hkt : k < s.tree.length := by omega
      obtain ⟨_, e1, e2, e3⟩ := C17_exact hA hS hs h hz hb hx hkt
      obtain ⟨_, _, _, _, p, p1, p2, p3, p4, p5, p6, p7, _⟩ := reach_node (rakauEnv_ok A simd mac hs) h hz hkt
      obtain ⟨cen, c1, c2, _⟩ := nodeProps_exact hA hS mac hs b hx p5.le p6 p1 p2 p3 p4
      by_cases hM : ∑ t ∈ Finset.Ico s.tree[k].beg s.tree[k].fin, x d t = 0
      · refine ⟨∑ t ∈ Finset.Ico s.tree[k].beg s.tree[k].fin, x d t, fun j => cen.getD j 0, ?_⟩
        intro pr hpr
        rw [List.getElem?_eq_getElem hk, Option.some.injEq] at hpr
        subst hpr
        refine ⟨e1, ?_, hkt, rfl, ?_⟩
        · have := e3 hM
          rw [hb, c2, Except.ok.injEq] at this
          rw [← this]
          apply List.ext_getElem (by simp [c1])
          intro j h1 h2
          have hjc : j < cen.length := by simpa using h1
          simp [hjc]
        · intro hnn j hj
          rw [hM, zero_mul]
          symm
          apply Finset.sum_eq_zero
          intro t ht
          have h0 := (Finset.sum_eq_zero_iff_of_nonneg (fun t ht => hnn t (by rw [Finset.mem_Ico] at ht; omega))).1 hM t ht
          rw [h0, zero_mul]
      · refine ⟨∑ t ∈ Finset.Ico s.tree[k].beg s.tree[k].fin, x d t, fun j => (∑ t ∈ Finset.Ico s.tree[k].beg s.tree[k].fin, x d t * x j t) /
          ∑ t ∈ Finset.Ico s.tree[k].beg s.tree[k].fin, x d t, ?_⟩
        intro pr hpr
        rw [List.getElem?_eq_getElem hk, Option.some.injEq] at hpr
        subst hpr
        exact ⟨e1, e2 hM, hkt, rfl, fun _ j _ => mul_div_cancel₀ _ hM⟩
    · exact ⟨0, fun _ => 0, fun pr hpr => by rw [List.getElem?_eq_none (by omega)] at hpr; simp at hpr⟩
  choose mass com hmc using hex
  refine ⟨mass, com, fun k pr hpr => ⟨(hmc k pr hpr).1, (hmc k pr hpr).2.1⟩, ?_⟩
  obtain ⟨_, B, ⟨split, hbd⟩, hp, _⟩ := reach_node (rakauEnv_ok A simd mac hs) h hz hi
  have hlen := (mapM_ok_iff.1 (reach_inv h).props).length_eq
  have hget : ∀ k (hk : k < s.tree.length), mass k = ∑ t ∈ Finset.Ico s.tree[k].beg s.tree[k].fin, x d t ∧
        ((∀ k < s.n, 0 ≤ x d k) → ∀ j < d, mass k * com k j = ∑ t ∈ Finset.Ico s.tree[k].beg s.tree[k].fin, x d t * x j t) := by
    intro k hk
    obtain ⟨_, _, _, e1, e2⟩ := hmc k _ (List.getElem?_eq_getElem (show k < s.props.length by omega))
    exact ⟨e1, e2⟩
  have hch : ∀ k ∈ children s.tree i, k < s.tree.length := fun k hk => by
    unfold children at hk; rw [Finset.mem_filter, Finset.mem_range] at hk; exact hk.1
  refine ⟨?_, ?_⟩
  · rw [(hget i hi).1, child_sums hA B hbd hi hn]
    apply Finset.sum_congr rfl
    intro k hk
    rw [(hget k (hch k hk)).1, List.getD_eq_getElem?_getD, List.getElem?_eq_getElem (hch k hk), Option.getD_some]
  · intro hnn j hj
    rw [(hget i hi).2 hnn j hj, child_sums hA B hbd hi hn]
    apply Finset.sum_congr rfl
    intro k hk
    rw [(hget k (hch k hk)).2 hnn j hj, List.getD_eq_getElem?_getD, List.getElem?_eq_getElem (hch k hk), Option.getD_some]

/-- Root of the sample tree: masses 5, 0 and 8 of the children, and mass-weighted `x`. -/
example : children ratS.tree 0 = {1, 2, 3} ∧ (13 : ℚ) = 5 + 0 + 8 ∧ (13 : ℚ) * (20 / 13) = 5 * 2 + 0 * -2 + 8 * (5 / 4) ∧
    (ratS.props.map (fun p => (p.mass, p.com.head?))).take 4 =
      [(.fin 13, some (.fin (20 / 13))), (.fin 5, some (.fin 2)), (.fin 0, some (.fin (-2))), (.fin 8, some (.fin (5 / 4)))] := by
  decide +kernel

/-! ### C18: where the centre of mass is -/

theorem mean_bounds {ι : Type} {S : Finset ι} {m x : ι → K} (hm : ∀ k ∈ S, 0 ≤ m k) (hM : ∑ k ∈ S, m k ≠ 0) {lo hi : K}
    (hx : ∀ k ∈ S, lo ≤ x k ∧ x k ≤ hi) : lo ≤ (∑ k ∈ S, m k * x k) / ∑ k ∈ S, m k ∧ (∑ k ∈ S, m k * x k) / ∑ k ∈ S, m k ≤ hi := by
  have hpos : 0 < ∑ k ∈ S, m k := lt_of_le_of_ne (Finset.sum_nonneg hm) (Ne.symm hM)
  constructor
  · rw [le_div_iff₀ hpos, Finset.mul_sum]
    apply Finset.sum_le_sum
    intro k hk
    rw [mul_comm]
    exact mul_le_mul_of_nonneg_left (hx k hk).1 (hm k hk)
  · rw [div_le_iff₀ hpos, Finset.mul_sum]
    apply Finset.sum_le_sum
    intro k hk
    rw [mul_comm hi]
    exact mul_le_mul_of_nonneg_left (hx k hk).2 (hm k hk)

/-- C19 for the particles of a reachable tree: particle `k` is in the range of node `i` exactly when its position is in the node's
cube. -/
theorem C19_particles {simd : Option (Simd K)} {mac : Mac} {w d : Nat} (hs : Supported w d) {s : TS (rakauEnv A simd mac w d)}
    (h : Reach _ s) (hz : s.n * cbits w d < 2 ^ 64) {b : K} (hb : s.box = .fin b) (hb0 : 0 < b) {x : Nat → Nat → K}
    (hx : IsData d s.n s.parts x) {i : Nat} (hi : i < s.tree.length) :
    ∃ cen : List K, cen.length = d ∧ nodeCentre A w d s.tree[i].code s.box = .ok (cen.map .fin) ∧
      nodeDim A w s.tree[i].level s.box = .ok (.fin (b / 2 ^ s.tree[i].level)) ∧
      ∀ k < s.n, (s.tree[i].beg ≤ k ∧ k < s.tree[i].fin) ↔ InCube cen (b / 2 ^ s.tree[i].level) (fun j => x j k) := by
  obtain ⟨hcl, _, _, hp, p, p1, p2, p3, p4, p5, p6, p7, p8⟩ := reach_node (rakauEnv_ok A simd mac hs) h hz hi
  have I := reach_inv h
  obtain ⟨cen, c1, c2, _⟩ := nodeProps_exact hA (simd := none) (by simp) .bh hs b hx p5.le p6 p1 p2 p3 p4
  have hd := hs.dim
  have hlw : p.length < w := by
    have p2 : p.length ≤ cbits w d := p2
    have := cbits_mul_lt hd.1 hd.2.1; have := Nat.le_mul_of_pos_right (cbits w d) hd.1; omega
  refine ⟨cen, c1, by rw [hb]; exact c2, by rw [p4, hb]; exact nodeDim_exact hA hlw b, ?_⟩
  intro k hk
  have hkc : k < s.codes.length := by omega
  rw [p8 k hkc]
  have hcode := (rawCodes_spec.1 I.codes).2 k hkc
  have hco : coordsAt d s.parts k = some ((List.range d).map (fun j => .fin (x j k))) := by
    unfold coordsAt
    rw [mapM_some_iff]
    apply forall₂_of_getElem
    · rw [List.length_take, hx.1]; simp
    · intro j hj hj'
      have hjd : j < d := by simpa using hj'
      obtain ⟨v, hv, hvv⟩ := hx.2 j (by omega)
      have e : (s.parts.take d)[j] = v := by
        rw [List.getElem_take]
        exact Option.some.inj ((List.getElem?_eq_getElem _).symm.trans hv)
      rw [e, hvv.get hk]; simp
  have hcode : codeOf A w d s.box ((List.range d).map (fun j => .fin (x j k))) = .ok s.codes[k] := by
    have h1 : (do codeOf A w d s.box (← ofUB (coordsAt d s.parts k))) = .ok s.codes[k] := hcode
    rw [hco] at h1
    exact h1
  rw [hb] at hcode
  obtain ⟨cen', d1, d2, _, d4⟩ := C19_cube hA hs p1 p2 hb0 hcode
  rw [p3] at c2
  have c2 : nodeCentre A w d (p.code d) (.fin b) = .ok (cen.map .fin) := c2
  rw [c2, Except.ok.injEq] at d2
  have : cen = cen' := (List.map_injective_iff.2 (fun a b h => by simpa using h)) d2
  rw [this, p4]
  exact d4

/-- Particle 1 of the sample tree (at `(-3, 2, 0)`) and node 2 (centre `(-2, 2, 2)`, size 4). -/
example : ratS.tree[2]?.map (fun n => (n.beg, n.fin, n.level)) = some (1, 2, 1) ∧
    ∃ cen : List ℚ, cen.length = 3 ∧ ∃ hi : 2 < ratS.tree.length, nodeCentre exactQ 32 3 ratS.tree[2].code ratS.box = .ok (cen.map .fin) ∧
      InCube cen (8 / 2 ^ ratS.tree[2].level) (fun j => ratX j 1) := by
  refine ⟨by decide +kernel, ?_⟩
  obtain ⟨cen, c1, c2, _, c4⟩ := C19_particles exactQ_exact ⟨.inl rfl, .inr rfl⟩ rat_reach (by decide +kernel) (b := 8) (by decide +kernel)
    (by norm_num) rat_data (i := 2) (by decide +kernel)
  exact ⟨cen, c1, by decide +kernel, c2, (c4 1 (by decide +kernel)).1 (by decide +kernel)⟩

/-- C18: with non-negative masses, the centre of mass of a node lies between any bounds that hold for the coordinates of all its
particles (so in their bounding box), if the node has mass; and always in the node's closed cube. -/
theorem C18_com_inside {simd : Option (Simd K)} (hS : ∀ S, simd = some S → S.Ok) {mac : Mac} {w d : Nat} (hs : Supported w d)
    {s : TS (rakauEnv A simd mac w d)} (h : Reach _ s) (hz : s.n * cbits w d < 2 ^ 64) {b : K} (hb : s.box = .fin b) (hb0 : 0 < b)
    {x : Nat → Nat → K} (hx : IsData d s.n s.parts x) (hm : ∀ k < s.n, 0 ≤ x d k) {i : Nat} (hi : i < s.tree.length) :
    ∃ (hp : i < s.props.length) (com cen : List K), com.length = d ∧ s.props[i].com = com.map .fin ∧
      nodeCentre A w d s.tree[i].code s.box = .ok (cen.map .fin) ∧ cen.length = d ∧
      (s.props[i].mass ≠ .fin 0 → ∀ j (hj : j < com.length) lo hi',
        (∀ k, s.tree[i].beg ≤ k → k < s.tree[i].fin → lo ≤ x j k ∧ x j k ≤ hi') → lo ≤ com[j] ∧ com[j] ≤ hi') ∧
      ∀ j (hj : j < com.length) (hj' : j < cen.length), |com[j] - cen[j]| ≤ b / 2 ^ s.tree[i].level / 2 := by
  obtain ⟨hp, e1, e2, e3⟩ := C17_exact hA hS hs h hz hb hx hi
  obtain ⟨cen, c1, c2, _, c4⟩ := C19_particles hA hs h hz hb hb0 hx hi
  obtain ⟨_, _, _, _, p, p1, p2, p3, p4, p5, p6, p7, _⟩ := reach_node (rakauEnv_ok A simd mac hs) h hz hi
  have hm' : ∀ k ∈ Finset.Ico s.tree[i].beg s.tree[i].fin, 0 ≤ x d k := fun k hk => hm k (by rw [Finset.mem_Ico] at hk; omega)
  by_cases hM : ∑ k ∈ Finset.Ico s.tree[i].beg s.tree[i].fin, x d k = 0
  · refine ⟨hp, cen, cen, c1, ?_, c2, c1, ?_, ?_⟩
    · have := e3 hM
      rw [c2, Except.ok.injEq] at this
      exact this.symm
    · intro hne; rw [e1, hM] at hne; exact absurd rfl hne
    · intro j hj _
      rw [sub_self, abs_zero]
      positivity
  · refine ⟨hp, (List.range d).map (fun j => (∑ k ∈ Finset.Ico s.tree[i].beg s.tree[i].fin, x d k * x j k) /
      ∑ k ∈ Finset.Ico s.tree[i].beg s.tree[i].fin, x d k), cen, by simp, ?_, c2, c1, ?_, ?_⟩
    · rw [e2 hM, List.map_map]; rfl
    · intro _ j hj lo hi' hall
      rw [List.getElem_map, List.getElem_range]
      exact mean_bounds hA hm' hM (fun k hk => by rw [Finset.mem_Ico] at hk; exact hall k hk.1 hk.2)
    · intro j hj hj'
      rw [List.getElem_map, List.getElem_range, abs_le]
      have := mean_bounds hA hm' hM (x := x j) (lo := cen[j] - b / 2 ^ s.tree[i].level / 2) (hi := cen[j] + b / 2 ^ s.tree[i].level / 2)
        (fun k hk => by
          rw [Finset.mem_Ico] at hk
          have := (c4 k (by omega)).1 hk j hj'
          exact ⟨this.1, this.2.le⟩)
      constructor <;> linarith [this.1, this.2]

/-- The root of the sample tree: all masses are non-negative, the centre of mass is `(20/13, 0, 10/13)`, the particles have
`x` between -3 and 3. -/
example : (∀ k < ratS.n, 0 ≤ ratX 3 k) ∧ ratS.props[0]?.map NProps.com = some ([(20 / 13 : ℚ), 0, 10 / 13].map .fin) ∧
    (∀ k < 6, -3 ≤ ratX 0 k ∧ ratX 0 k ≤ 3) ∧ ratS.box = .fin 8 := by decide +kernel

/-- C19: the size data that the acceptance criteria use: with `bh` the square of the size of the node's cube; with `bh_geom` that size, and
the (rounded) square root of the squared distance of centre of mass and cube centre. -/
theorem C19_size {simd : Option (Simd K)} (hS : ∀ S, simd = some S → S.Ok) {mac : Mac} {w d : Nat} (hs : Supported w d)
    {s : TS (rakauEnv A simd mac w d)} (h : Reach _ s) (hz : s.n * cbits w d < 2 ^ 64) {b : K} (hb : s.box = .fin b)
    {x : Nat → Nat → K} (hx : IsData d s.n s.parts x) {i : Nat} (hi : i < s.tree.length) :
    ∃ (hp : i < s.props.length) (com cen : List K), com.length = d ∧ cen.length = d ∧ s.props[i].com = com.map .fin ∧
      nodeCentre A w d s.tree[i].code s.box = .ok (cen.map .fin) ∧
      (mac = .bh → s.props[i].dim = .fin ((b / 2 ^ s.tree[i].level) ^ 2)) ∧
      (mac = .bhGeom → s.props[i].dim = .fin (b / 2 ^ s.tree[i].level) ∧
        s.props[i].delta = A.sqrt (((com.zip cen).map (fun q => (q.1 - q.2) ^ 2)).sum)) := by
  obtain ⟨_, _, _, hp, p, p1, p2, p3, p4, p5, p6, p7, _⟩ := reach_node (rakauEnv_ok A simd mac hs) h hz hi
  have p7 : nodeProps A simd mac w d s.box s.tree[i] s.parts = .ok s.props[i] := p7
  rw [hb] at p7 ⊢
  obtain ⟨cen, c1, c2, c3⟩ := nodeProps_exact hA hS mac hs b hx p5.le p6 p1 p2 p3 p4
  obtain ⟨com, hcom⟩ : ∃ com, com = (if ∑ k ∈ Finset.Ico s.tree[i].beg s.tree[i].fin, x d k = 0 then cen else (List.range d).map
        (fun j => (∑ k ∈ Finset.Ico s.tree[i].beg s.tree[i].fin, x d k * x j k) /
          ∑ k ∈ Finset.Ico s.tree[i].beg s.tree[i].fin, x d k)) := ⟨_, rfl⟩
  have hcl : com.length = d := by
    rw [hcom]; split
    · exact c1
    · simp
  have c3 := c3 _ com rfl hcom
  rw [p7] at c3
  refine ⟨hp, com, cen, hcl, c1, ?_, c2, ?_, ?_⟩
  · cases mac with
    | bh => simp only [Except.ok.injEq] at c3; rw [c3]
    | bhGeom =>
      simp only at c3
      split at c3
      · simp only [Except.ok.injEq] at c3; rw [c3]
      · simp at c3
  · rintro rfl
    simp only [Except.ok.injEq] at c3; rw [c3, p4]
  · rintro rfl
    simp only at c3
    split at c3
    · simp only [Except.ok.injEq] at c3; rw [c3, p4]; exact ⟨rfl, rfl⟩
    · simp at c3

/-- Geometric criterion: a node with two particles of masses 1 and 3 (the "square root" of this sample arithmetic is the identity). -/
example : nodeProps exactQ none .bhGeom 32 2 (.fin 8) ⟨0, 2, 0, 7, 1⟩ [[.fin 1, .fin 3], [.fin 1, .fin 1], [.fin 1, .fin 3]] =
    .ok ⟨[.fin (5 / 2), .fin 1], .fin 4, .fin 4, .fin ((5 / 2 - 2) ^ 2 + (1 - 2) ^ 2)⟩ := by decide +kernel

end Exact

end Rakau
