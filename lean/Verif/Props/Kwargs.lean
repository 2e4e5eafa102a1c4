import Verif.Model.Kwargs
import Verif.Props.State

/-! Property theorems about keyword arguments (C50) and about what the constructor does to the objects passed to it (C42). -/
namespace Rakau
open Spec

/-! ### C50: duplicate keyword arguments -/

/-- Two arguments at different positions carry the same keyword. -/
def Spec.SameKeyTwice (args : List Arg) : Prop :=
  ∃ (i j : Nat) (a b : KArg), i < j ∧ args[i]? = some (Arg.named a) ∧ args[j]? = some (Arg.named b) ∧ a.tag = b.tag

theorem countP_two {α : Type} {p : α → Bool} {l : List α} (h : 1 < l.countP p) : ∃ (i j : Nat) (a b : α), i < j ∧ l[i]? = some a ∧ l[j]? = some b ∧
    p a = true ∧ p b = true := by
  induction l with
  | nil => simp at h
  | cons x l ih =>
    by_cases hx : p x = true
    · rw [List.countP_cons_of_pos hx] at h
      obtain ⟨b, hb, hpb⟩ := List.countP_pos_iff.1 (show 0 < l.countP p by omega)
      obtain ⟨j, hj, e⟩ := List.getElem_of_mem hb
      exact ⟨0, j + 1, x, b, by omega, rfl, by simp [hj, e], hx, hpb⟩
    · rw [List.countP_cons_of_neg hx] at h
      obtain ⟨i, j, a, b, hij, h1, h2, h3, h4⟩ := ih h
      exact ⟨i + 1, j + 1, a, b, by omega, by simpa using h1, by simpa using h2, h3, h4⟩

theorem two_countP {α : Type} {p : α → Bool} {l : List α} {i j : Nat} {a b : α} (hij : i < j) (h1 : l[i]? = some a) (h2 : l[j]? = some b)
    (ha : p a = true) (hb : p b = true) : 1 < l.countP p := by
  induction l generalizing i j with
  | nil => simp at h1
  | cons x l ih =>
    cases j with
    | zero => omega
    | succ j =>
      cases i with
      | zero =>
        simp only [List.getElem?_cons_zero, Option.some.injEq] at h1
        subst h1
        rw [List.countP_cons_of_pos ha]
        have : 0 < l.countP p := List.countP_pos_iff.2 ⟨b, List.mem_of_getElem? (by simpa using h2), hb⟩
        omega
      | succ i =>
        have := ih (i := i) (j := j) (by omega) (by simpa using h1) (by simpa using h2)
        rw [List.countP_cons]
        omega

/-- C50, what is detected: the check for duplicates rejects a call exactly if two arguments carry the same keyword and have values of the same
type, passed as the same kind of reference. -/
theorem C50_detected_partial (args : List Arg) : hasDuplicates args = true ↔
    ∃ (i j : Nat) (a b : KArg), i < j ∧ args[i]? = some (Arg.named a) ∧ args[j]? = some (Arg.named b) ∧ a.tag = b.tag ∧ a.ty = b.ty ∧ a.cat = b.cat := by
  unfold hasDuplicates
  rw [List.any_eq_true]
  constructor
  · rintro ⟨x, hx, h⟩
    cases x with
    | unnamed => simp [isRepeated] at h
    | named a =>
      simp only [isRepeated, decide_eq_true_eq] at h
      obtain ⟨i, j, y, z, hij, h1, h2, h3, h4⟩ := countP_two h
      cases y with
      | unnamed => simp [sameType] at h3
      | named y =>
        cases z with
        | unnamed => simp [sameType] at h4
        | named z =>
          simp only [sameType, Bool.and_eq_true, beq_iff_eq] at h3 h4
          exact ⟨i, j, y, z, hij, h1, h2, h3.1.1.symm.trans h4.1.1, h3.1.2.symm.trans h4.1.2, h3.2.symm.trans h4.2⟩
  · rintro ⟨i, j, a, b, hij, h1, h2, e1, e2, e3⟩
    refine ⟨.named a, List.mem_of_getElem? h1, ?_⟩
    simp only [isRepeated, decide_eq_true_eq]
    exact two_countP hij h1 h2 (by simp [sameType]) (by simp [sameType, e1, e2, e3])

/-- C50 holds if values passed under the same keyword always have the same type and kind of reference. -/
theorem C50_uniform_partial {args : List Arg}
    (hu : ∀ a b : KArg, Arg.named a ∈ args → Arg.named b ∈ args → a.tag = b.tag → a.ty = b.ty ∧ a.cat = b.cat) :
    hasDuplicates args = true ↔ SameKeyTwice args := by
  rw [C50_detected_partial]
  constructor
  · rintro ⟨i, j, a, b, h⟩; exact ⟨i, j, a, b, h.1, h.2.1, h.2.2.1, h.2.2.2.1⟩
  · rintro ⟨i, j, a, b, hij, h1, h2, e⟩
    obtain ⟨e1, e2⟩ := hu a b (List.mem_of_getElem? h1) (List.mem_of_getElem? h2) e
    exact ⟨i, j, a, b, hij, h1, h2, e, e1, e2⟩

/-- Arguments of a constructor call in two dimensions: coordinates and masses as lvalue vectors, and `max_leaf_n` twice, as an lvalue and as
an rvalue. -/
def dupArgs : List Arg :=
  [.named ⟨.coords 0, .fvec, .lv, 0⟩, .named ⟨.coords 1, .fvec, .lv, 1⟩, .named ⟨.masses, .fvec, .lv, 2⟩,
   .named ⟨.maxLeafN, .other 0, .lv, 3⟩, .named ⟨.maxLeafN, .other 0, .rv, 4⟩]

def dupMem : Mem Nat := ⟨fun o => if o = 2 then [10, 20] else [1, 2], fun o => if o = 3 then 8 else 5, fun _ => 0⟩

/-- C50 is false: the same keyword given twice as different kinds of references compiles (the first one, `max_leaf_n = 8`, is used). -/
theorem C50_fails : SameKeyTwice dupArgs ∧ ctorCompiles 2 dupArgs = true ∧
    ∃ inp vec, ctorArgs toyEnv [] dupArgs dupMem = .run inp vec ∧ inp.maxLeaf = 8 := by
  refine ⟨⟨3, 4, _, _, by decide, rfl, rfl, rfl⟩, by decide +kernel, ⟨none, 8, 128, [[1, 2], [1, 2], [10, 20]]⟩, dupMem.vec, ?_, rfl⟩
  rfl

example : hasDuplicates (dupArgs ++ [.named ⟨.maxLeafN, .other 0, .rv, 9⟩]) = true ∧ hasDuplicates (.unnamed :: .unnamed :: dupArgs) = false := by
  decide +kernel

/-! ### Reading arguments -/

theorem mem_parserTuple {args : List Arg} {a : KArg} : a ∈ parserTuple args ↔ Arg.named a ∈ args := by
  induction args with
  | nil => simp [parserTuple]
  | cons x l ih => cases x <;> simp [parserTuple, ih]

theorem fetch_mem {args : List Arg} {t : KTag} {a : KArg} (h : fetch args t = some a) : Arg.named a ∈ args ∧ a.tag = t := by
  unfold fetch at h
  exact ⟨mem_parserTuple.1 (List.mem_of_find?_eq_some h), by simpa using List.find?_some h⟩

theorem fetch_isSome {args : List Arg} {t : KTag} : (fetch args t).isSome = hasTag args t := by
  rw [Bool.eq_iff_iff]
  unfold fetch hasTag
  rw [List.find?_isSome, List.any_eq_true]
  constructor
  · rintro ⟨a, ha, h⟩
    exact ⟨.named a, mem_parserTuple.1 ha, h⟩
  · rintro ⟨x, hx, h⟩
    cases x with
    | unnamed => simp at h
    | named a => exact ⟨a, mem_parserTuple.2 hx, h⟩

/-! ### C42: lvalue arguments are not modified -/

theorem moveFrom_vec {F : Type} (junk : List F) (vec : Nat → List F) (a : KArg) (o : Nat)
    (h : o ≠ a.obj ∨ a.cat = .clv ∨ a.cat = .crv) : (moveFrom junk vec a).2 o = vec o := by
  unfold moveFrom
  rcases h with h | h | h
  · cases a.cat <;> simp [h]
  · simp [h]
  · simp [h]

theorem moveAll_vec {F : Type} (junk : List F) (l : List KArg) (vec : Nat → List F) (o : Nat)
    (h : ∀ a ∈ l, o ≠ a.obj ∨ a.cat = .clv ∨ a.cat = .crv) : (moveAll junk l vec).2 o = vec o := by
  induction l generalizing vec with
  | nil => rfl
  | cons a l ih =>
    show (moveAll junk l (moveFrom junk vec a).2).2 o = vec o
    rw [ih _ (fun b hb => h b (List.mem_cons_of_mem _ hb)), moveFrom_vec junk vec a o (h a (by simp))]

theorem moveFrom_val {F : Type} (junk : List F) (vec : Nat → List F) (a : KArg) : (moveFrom junk vec a).1 = vec a.obj := by
  unfold moveFrom
  cases a.cat <;> rfl

theorem moveAll_val {F : Type} (junk : List F) (l : List KArg) (vec : Nat → List F) (h : (l.map KArg.obj).Nodup) :
    (moveAll junk l vec).1 = l.map (fun a => vec a.obj) := by
  induction l generalizing vec with
  | nil => rfl
  | cons a l ih =>
    show (moveFrom junk vec a).1 :: (moveAll junk l (moveFrom junk vec a).2).1 = _
    rw [List.map_cons, List.nodup_cons] at h
    rw [moveFrom_val, ih _ h.2, List.map_cons]
    congr 1
    apply List.map_congr_left
    intro b hb
    apply moveFrom_vec
    left
    intro e
    exact h.1 (e ▸ List.mem_map_of_mem hb)

theorem mem_dataArgs {d : Nat} {args : List Arg} {a : KArg} (h : a ∈ dataArgs d args) :
    (∃ j < d, fetch args (.coords j) = some a) ∨ fetch args .masses = some a := by
  unfold dataArgs at h
  rcases List.mem_append.1 h with h | h
  · obtain ⟨j, hj, e⟩ := List.mem_filterMap.1 h
    exact .inl ⟨j, List.mem_range.1 hj, e⟩
  · exact .inr (by simpa using h)

theorem ctorData_cases {F : Type} {junk : List F} {d : Nat} {args : List Arg} {mem : Mem F} {parts : List (List F)} {vec : Nat → List F}
    (h : ctorData junk d args mem = some (some (parts, vec))) :
    vec = mem.vec ∨ (moveData d args = true ∧ hasTag args .nparts = false ∧ (parts, vec) = moveAll junk (dataArgs d args) mem.vec) := by
  unfold ctorData at h
  simp only at h
  split at h
  · split at h
    · cases h
    · split at h <;> simp at h
      exact .inl h.2.symm
  · split at h
    · simp at h; exact .inl h.2.symm
    · split at h
      · rename_i h1 _ h3
        simp only [Option.some.injEq] at h
        exact .inr ⟨h3, by simpa using h1, h.symm⟩
      · simp at h; exact .inl h.2.symm

theorem ctorArgs_run {env : Env} {junk : List env.F} {args : List Arg} {mem : Mem env.F} {inp : Input env} {vec : Nat → List env.F}
    (h : ctorArgs env junk args mem = .run inp vec) : ctorCompiles env.d args = true ∧
      inp.box = (fetch args .boxSize).map (fun a => mem.flt a.obj) ∧ intArg args mem .maxLeafN defaultMaxLeaf = some inp.maxLeaf ∧
      intArg args mem .ncrit defaultNcrit = some inp.ncrit ∧ ctorData junk env.d args mem = some (some (inp.parts, vec)) := by
  unfold ctorArgs at h
  simp only at h
  split at h
  · cases h
  · rename_i hc
    split at h
    · rename_i ml nc e1 e2
      split at h
      · cases h
      · cases h
      · rename_i parts v e3
        simp only [CtorOut.run.injEq] at h
        obtain ⟨rfl, rfl⟩ := h
        exact ⟨by simpa using hc, rfl, e1, e2, e3⟩
    · cases h

/-- C42, the part that holds: the constructor leaves unchanged every object that is not passed as a non-const rvalue, with one exception: a masses
vector passed as a non-const lvalue while all the coordinates are passed as rvalue vectors. -/
theorem C42_unchanged_partial {env : Env} {junk : List env.F} {args : List Arg} {mem : Mem env.F} {inp : Input env} {vec : Nat → List env.F}
    (h : ctorArgs env junk args mem = .run inp vec) {o : Nat} (ho : ∀ a : KArg, Arg.named a ∈ args → a.obj = o → a.cat ≠ .rv)
    (hm : (∃ j < env.d, ∃ a : KArg, fetch args (.coords j) = some a ∧ (a.ty ≠ .fvec ∨ a.cat ≠ .rv)) ∨
      ∀ a : KArg, fetch args .masses = some a → a.obj = o → a.cat ≠ .lv) :
    vec o = mem.vec o := by
  obtain ⟨-, -, -, -, h⟩ := ctorArgs_run h
  rcases ctorData_cases h with h | ⟨h1, h2, h3⟩
  · rw [h]
  · have e : vec = (moveAll junk (dataArgs env.d args) mem.vec).2 := by rw [← h3]
    have hmove : ∀ j < env.d, ∃ a : KArg, fetch args (.coords j) = some a ∧ a.ty = .fvec ∧ a.cat = .rv := by
      intro j hj
      have := List.all_eq_true.1 h1 j (List.mem_range.2 hj)
      cases hf : fetch args (.coords j) with
      | none => simp [hf] at this
      | some a => exact ⟨a, rfl, by simpa [hf] using this⟩
    rw [e]
    apply moveAll_vec
    intro a ha
    by_cases hob : a.obj = o
    · right
      have hrv : a.cat ≠ .rv := by
        rcases mem_dataArgs ha with ⟨j, _, hf⟩ | hf
        · exact ho a (fetch_mem hf).1 hob
        · exact ho a (fetch_mem hf).1 hob
      have hlv : a.cat ≠ .lv := by
        rcases mem_dataArgs ha with ⟨j, hj, hf⟩ | hf
        · obtain ⟨b, hb, _, hb2⟩ := hmove j hj
          rw [hf] at hb
          cases hb
          exact absurd hb2 hrv
        · rcases hm with ⟨j, hj, b, hb, hb2⟩ | hm
          · obtain ⟨c, hc, hc1, hc2⟩ := hmove j hj
            rw [hb] at hc
            cases hc
            rcases hb2 with h | h
            · exact absurd hc1 h
            · exact absurd hc2 h
          · exact hm a hf hob
      cases hcat : a.cat <;> simp_all
    · exact .inl (fun h => hob h.symm)

/-- A constructor call in two dimensions: the coordinates are rvalue vectors, the masses a vector lvalue. -/
def stealArgs : List Arg :=
  [.named ⟨.coords 0, .fvec, .rv, 0⟩, .named ⟨.coords 1, .fvec, .rv, 1⟩, .named ⟨.masses, .fvec, .lv, 2⟩]

/-- C42 is false: the masses vector, passed as an lvalue, is moved from (it is left empty by the move constructor of `std::vector`). -/
theorem C42_fails : ∃ inp vec, ctorArgs toyEnv [] stealArgs dupMem = .run inp vec ∧ dupMem.vec 2 = [10, 20] ∧ vec 2 = [] ∧
    ∀ a : KArg, Arg.named a ∈ stealArgs → a.obj = 2 → a.cat = .lv := by
  refine ⟨⟨none, 16, 128, [[1, 2], [1, 2], [10, 20]]⟩, (moveAll [] (dataArgs 2 stealArgs) dupMem.vec).2, rfl, rfl, by decide +kernel, ?_⟩
  intro a ha ho
  simp [stealArgs] at ha
  rcases ha with rfl | rfl | rfl <;> simp_all

example : ∃ inp vec, ctorArgs toyEnv [] dupArgs dupMem = .run inp vec ∧ (∀ a : KArg, Arg.named a ∈ dupArgs → a.obj = 2 → a.cat ≠ .rv) ∧
    ∃ j < 2, ∃ a : KArg, fetch dupArgs (.coords j) = some a ∧ (a.ty ≠ .fvec ∨ a.cat ≠ .rv) := by
  refine ⟨⟨none, 8, 128, [[1, 2], [1, 2], [10, 20]]⟩, dupMem.vec, rfl, ?_, 0, by decide, ⟨.coords 0, .fvec, .lv, 0⟩, rfl, .inr (by decide)⟩
  intro a ha ho
  simp [dupArgs] at ha
  rcases ha with rfl | rfl | rfl | rfl | rfl <;> simp_all

/-! ### The data that reach the constructor -/

theorem dataArgs_length {d : Nat} {args : List Arg} (h : ctorCompiles d args = true) : (dataArgs d args).length = d + 1 ∧
    (∀ j, ∀ hj : j < d, ∃ a, fetch args (.coords j) = some a ∧ (dataArgs d args)[j]? = some a) ∧
    ∃ a, fetch args .masses = some a ∧ (dataArgs d args)[d]? = some a := by
  unfold ctorCompiles at h
  simp only [Bool.and_eq_true] at h
  obtain ⟨⟨⟨-, -⟩, h1, h2⟩, -⟩ := h
  have hs : ∀ j < d, ∃ a, fetch args (.coords j) = some a := fun j hj => by
    have := List.all_eq_true.1 h1 j (List.mem_range.2 hj)
    rw [← fetch_isSome] at this
    exact Option.isSome_iff_exists.1 this
  obtain ⟨m, hm⟩ := Option.isSome_iff_exists.1 (fetch_isSome.trans h2)
  have key : ∀ k ≤ d, ((List.range k).filterMap (fun j => fetch args (.coords j))).length = k ∧
      ∀ j < k, ((List.range k).filterMap (fun j => fetch args (.coords j)))[j]? = fetch args (.coords j) := by
    intro k
    induction k with
    | zero => intro _; simp
    | succ k ih =>
      intro hk
      obtain ⟨e1, e2⟩ := ih (by omega)
      obtain ⟨a, ha⟩ := hs k (by omega)
      rw [List.range_succ, List.filterMap_append]
      simp only [List.filterMap_cons, ha, List.filterMap_nil]
      refine ⟨by simp [e1], ?_⟩
      intro j hj
      by_cases hjk : j < k
      · rw [List.getElem?_append_left (by omega), e2 j hjk]
      · have : j = k := by omega
        subst this
        rw [List.getElem?_append_right (by omega), e1, ha]
        simp
  obtain ⟨e1, e2⟩ := key d (Nat.le_refl _)
  unfold dataArgs
  refine ⟨by simp [e1, hm], ?_, m, hm, ?_⟩
  · intro j hj
    obtain ⟨a, ha⟩ := hs j hj
    exact ⟨a, ha, by rw [List.getElem?_append_left (by omega), e2 j hj, ha]⟩
  · rw [List.getElem?_append_right (by omega), e1, hm]
    simp

/-- The parameters and data that reach the constructor (the input of theorem C02 and of all others about construction) are those passed under the
respective keywords, in whatever order the arguments are given: the box size, the maximum number of particles per leaf and the critical number,
or their default values; array `j` is the content of the object passed as coordinate `j` (of its first `nparts` elements, for iterators), and the last
array that of the object passed as masses. An object must not be passed twice if it is moved. -/
theorem C02_arguments {env : Env} {junk : List env.F} {args : List Arg} {mem : Mem env.F} {inp : Input env} {vec : Nat → List env.F}
    (h : ctorArgs env junk args mem = .run inp vec)
    (hd : moveData env.d args = true → ((dataArgs env.d args).map KArg.obj).Nodup) :
    inp.parts.length = env.d + 1 ∧
    (∀ t j, t = KTag.coords j ∧ j < env.d ∨ t = .masses ∧ j = env.d → ∃ a, fetch args t = some a ∧
      ((fetch args .nparts = none ∧ inp.parts[j]? = some (mem.vec a.obj)) ∨
        ∃ b, fetch args .nparts = some b ∧ 0 ≤ mem.int b.obj ∧ (mem.int b.obj).toNat ≤ (mem.vec a.obj).length ∧
          inp.parts[j]? = some ((mem.vec a.obj).take (mem.int b.obj).toNat))) ∧
    (inp.box = none ↔ fetch args .boxSize = none) ∧ (∀ a, fetch args .boxSize = some a → inp.box = some (mem.flt a.obj)) ∧
    (fetch args .maxLeafN = none → inp.maxLeaf = 16) ∧ (∀ a, fetch args .maxLeafN = some a → (inp.maxLeaf : Int) = mem.int a.obj) ∧
    (fetch args .ncrit = none → inp.ncrit = 128) ∧ (∀ a, fetch args .ncrit = some a → (inp.ncrit : Int) = mem.int a.obj) := by
  obtain ⟨hc, hb, hml, hnc, hdat⟩ := ctorArgs_run h
  obtain ⟨l1, l2, l3⟩ := dataArgs_length hc
  have hcast : ∀ {x : Int} {n : Nat}, castSize x = some n → 0 ≤ x ∧ n = x.toNat := by
    intro x n hx
    unfold castSize at hx
    split at hx
    · rename_i h
      simp only [Option.some.injEq] at hx
      exact ⟨h.1, hx.symm⟩
    · cases hx
  have hint : ∀ (t : KTag) (df v : Nat), intArg args mem t df = some v → (fetch args t = none → v = df) ∧
      ∀ a, fetch args t = some a → (v : Int) = mem.int a.obj := by
    intro t df v hv
    unfold intArg at hv
    cases hf : fetch args t with
    | none =>
      rw [hf] at hv
      simp only [Option.some.injEq] at hv
      exact ⟨fun _ => hv.symm, fun a ha => by cases ha⟩
    | some a =>
      rw [hf] at hv
      obtain ⟨h1, h2⟩ := hcast hv
      refine ⟨fun h => (by cases h), fun b hb => ?_⟩
      cases hb
      omega
  have hidx : ∀ t j, t = KTag.coords j ∧ j < env.d ∨ t = .masses ∧ j = env.d → ∃ a, fetch args t = some a ∧ (dataArgs env.d args)[j]? = some a := by
    rintro t j (⟨rfl, hj⟩ | ⟨rfl, rfl⟩)
    · exact l2 j hj
    · exact l3
  have hn : (fetch args .nparts).isSome = hasTag args .nparts := fetch_isSome
  have hparts : inp.parts.length = env.d + 1 ∧
    (∀ t j, t = KTag.coords j ∧ j < env.d ∨ t = .masses ∧ j = env.d → ∃ a, fetch args t = some a ∧
      ((fetch args .nparts = none ∧ inp.parts[j]? = some (mem.vec a.obj)) ∨
        ∃ b, fetch args .nparts = some b ∧ 0 ≤ mem.int b.obj ∧ (mem.int b.obj).toNat ≤ (mem.vec a.obj).length ∧
          inp.parts[j]? = some ((mem.vec a.obj).take (mem.int b.obj).toNat))) := by
    unfold ctorData at hdat
    simp only at hdat
    split at hdat
    · rename_i hnp
      rw [hnp] at hn
      obtain ⟨b, hb⟩ := Option.isSome_iff_exists.1 hn
      unfold intArg at hdat
      rw [hb] at hdat
      simp only at hdat
      cases hx : castSize (mem.int b.obj) with
      | none => rw [hx] at hdat; cases hdat
      | some n =>
        rw [hx] at hdat
        obtain ⟨h1, h2⟩ := hcast hx
        simp only at hdat
        split at hdat
        · rename_i hall
          simp only [Option.some.injEq, Prod.mk.injEq] at hdat
          rw [← hdat.1]
          refine ⟨by simp [l1], ?_⟩
          intro t j htj
          obtain ⟨a, ha, ha'⟩ := hidx t j htj
          refine ⟨a, ha, .inr ⟨b, hb, h1, ?_, ?_⟩⟩
          · rw [← h2]
            have := List.all_eq_true.1 hall (mem.vec a.obj) (List.mem_map_of_mem (List.mem_of_getElem? ha'))
            simpa using this
          · rw [← h2, List.getElem?_map, List.getElem?_map, ha']
            rfl
        · simp at hdat
    · rename_i hnp
      have hnone : fetch args .nparts = none := by
        rw [← Option.not_isSome_iff_eq_none, hn]
        exact hnp
      have plain : inp.parts = (dataArgs env.d args).map (fun a => mem.vec a.obj) →
          inp.parts.length = env.d + 1 ∧ ∀ t j, t = KTag.coords j ∧ j < env.d ∨ t = .masses ∧ j = env.d → ∃ a, fetch args t = some a ∧
            ((fetch args .nparts = none ∧ inp.parts[j]? = some (mem.vec a.obj)) ∨
            ∃ b, fetch args .nparts = some b ∧ 0 ≤ mem.int b.obj ∧ (mem.int b.obj).toNat ≤ (mem.vec a.obj).length ∧
              inp.parts[j]? = some ((mem.vec a.obj).take (mem.int b.obj).toNat)) := by
        intro e
        rw [e]
        refine ⟨by simp [l1], ?_⟩
        intro t j htj
        obtain ⟨a, ha, ha'⟩ := hidx t j htj
        exact ⟨a, ha, .inl ⟨hnone, by rw [List.getElem?_map, ha']; rfl⟩⟩
      split at hdat
      · simp only [Option.some.injEq, Prod.mk.injEq] at hdat
        exact plain hdat.1.symm
      · split at hdat
        · rename_i hmv
          simp only [Option.some.injEq] at hdat
          have e := moveAll_val junk (dataArgs env.d args) mem.vec (hd hmv)
          rw [hdat] at e
          exact plain e
        · simp only [Option.some.injEq, Prod.mk.injEq] at hdat
          exact plain hdat.1.symm
  refine ⟨hparts.1, hparts.2, ?_, ?_, (hint _ _ _ hml).1, (hint _ _ _ hml).2, (hint _ _ _ hnc).1, (hint _ _ _ hnc).2⟩
  · rw [hb]; simp
  · intro a ha
    rw [hb, ha]; rfl

example : ∃ inp vec, ctorArgs toyEnv [] stealArgs dupMem = .run inp vec ∧ ((dataArgs 2 stealArgs).map KArg.obj).Nodup ∧
    inp.parts = ([[1, 2], [1, 2], [10, 20]] : List (List Nat)) ∧ inp.maxLeaf = 16 :=
  ⟨⟨none, 16, 128, [[1, 2], [1, 2], [10, 20]]⟩, (moveAll [] (dataArgs 2 stealArgs) dupMem.vec).2, rfl, by decide +kernel, rfl, rfl⟩

/-- C28: without keyword arguments the force functions use `G = 1` and no softening; otherwise the values passed. -/
theorem C28_arguments {F : Type} {tG tEps : KTag} {one zero G eps : F} {args : List Arg} {mem : Mem F}
    (h : accPotArgs tG tEps one zero args mem = some (G, eps)) :
    (hasTag args tG = false → G = one) ∧ (hasTag args tEps = false → eps = zero) ∧
    (∀ a, fetch args tG = some a → G = mem.flt a.obj) ∧ (∀ a, fetch args tEps = some a → eps = mem.flt a.obj) ∧ .unnamed ∉ args := by
  unfold accPotArgs at h
  split at h
  · cases h
  · rename_i hc
    simp only [Option.some.injEq, Prod.mk.injEq] at h
    obtain ⟨rfl, rfl⟩ := h
    refine ⟨?_, ?_, fun a ha => by rw [ha]; rfl, fun a ha => by rw [ha]; rfl, ?_⟩
    · intro ht
      rw [← fetch_isSome, ← Bool.not_eq_true, Option.not_isSome_iff_eq_none] at ht
      rw [ht]; rfl
    · intro ht
      rw [← fetch_isSome, ← Bool.not_eq_true, Option.not_isSome_iff_eq_none] at ht
      rw [ht]; rfl
    · intro hu
      simp only [Bool.or_eq_true, not_or] at hc
      exact hc.2 (List.any_eq_true.2 ⟨_, hu, rfl⟩)

example : accPotArgs (.other 0) (.other 1) (1 : Nat) 0 [.named ⟨.other 1, .other 0, .rv, 7⟩] ⟨fun _ => [], fun _ => 0, fun o => o⟩ = some (1, 7) := rfl

/-! ### C62: which calls of the constructor are accepted -/

/-- The first argument with keyword `t` is `a`. -/
def Spec.FirstArg (args : List Arg) (t : KTag) (a : KArg) : Prop :=
  ∃ i : Nat, args[i]? = some (Arg.named a) ∧ a.tag = t ∧ ∀ k < i, ∀ b : KArg, args[k]? = some (Arg.named b) → b.tag ≠ t

/-- The keyword `t` is given. -/
def Spec.Given (args : List Arg) (t : KTag) : Prop := ∃ a : KArg, Arg.named a ∈ args ∧ a.tag = t

/-- The keywords of the particle data in `d` dimensions. -/
def Spec.DataKey (d : Nat) (t : KTag) : Prop := (∃ j < d, t = .coords j) ∨ t = .masses

theorem fetch_first {args : List Arg} {t : KTag} {a : KArg} : fetch args t = some a ↔ FirstArg args t a := by
  unfold fetch FirstArg
  induction args with
  | nil => simp [parserTuple]
  | cons x l ih =>
    cases x with
    | unnamed =>
      rw [parserTuple, ih]
      constructor
      · rintro ⟨i, h1, h2, h3⟩
        refine ⟨i + 1, by simpa using h1, h2, ?_⟩
        intro k hk b hb
        cases k with
        | zero => simp at hb
        | succ k => exact h3 k (by omega) b (by simpa using hb)
      · rintro ⟨i, h1, h2, h3⟩
        cases i with
        | zero => simp at h1
        | succ i => exact ⟨i, by simpa using h1, h2, fun k hk b hb => h3 (k + 1) (by omega) b (by simpa using hb)⟩
    | named c =>
      rw [parserTuple, List.find?_cons]
      by_cases hc : c.tag = t
      · rw [show (c.tag == t) = true by simpa using hc]
        simp only
        constructor
        · intro h
          cases h
          exact ⟨0, rfl, hc, fun k hk => by omega⟩
        · rintro ⟨i, h1, h2, h3⟩
          cases i with
          | zero => simpa using h1
          | succ i => exact absurd hc (h3 0 (by omega) c (by simp))
      · rw [show (c.tag == t) = false by simpa using hc]
        simp only
        rw [ih]
        constructor
        · rintro ⟨i, h1, h2, h3⟩
          refine ⟨i + 1, by simpa using h1, h2, ?_⟩
          intro k hk b hb
          cases k with
          | zero => simp at hb; rw [← hb]; exact hc
          | succ k => exact h3 k (by omega) b (by simpa using hb)
        · rintro ⟨i, h1, h2, h3⟩
          cases i with
          | zero => simp at h1; rw [h1] at hc; exact absurd h2 hc
          | succ i => exact ⟨i, by simpa using h1, h2, fun k hk b hb => h3 (k + 1) (by omega) b (by simpa using hb)⟩

theorem hasTag_given {args : List Arg} {t : KTag} : hasTag args t = true ↔ Given args t := by
  unfold hasTag Given
  rw [List.any_eq_true]
  constructor
  · rintro ⟨x, hx, h⟩
    cases x with
    | unnamed => simp at h
    | named a => exact ⟨a, hx, by simpa using h⟩
  · rintro ⟨a, ha, h⟩
    exact ⟨.named a, ha, by simpa using h⟩

/-- C62: a constructor call compiles exactly if all arguments are named, no two have the same keyword, type and kind of reference, all coordinates and the masses are given,
their types (apart from const and references) are the same, and either this type is a range and `nparts` is not given, or it is not a range (but an iterator) and `nparts` is
given. -/
theorem C62_accepted {d : Nat} (hd : 0 < d) (args : List Arg) : ctorCompiles d args = true ↔
    (∀ x ∈ args, ∃ a, x = Arg.named a) ∧
    (∀ (i j : Nat) (a b : KArg), i < j → args[i]? = some (Arg.named a) → args[j]? = some (Arg.named b) → a.tag = b.tag → a.ty = b.ty → a.cat ≠ b.cat) ∧
    (∀ t, DataKey d t → Given args t) ∧
    ∃ ty, (∀ t a, DataKey d t → FirstArg args t a → a.ty = ty) ∧
      (((ty = .fvec ∨ ∃ k, ty = .range k) ∧ ¬ Given args .nparts) ∨ ((∃ k, ty = .other k) ∧ Given args .nparts)) := by
  have hdup : (!hasDuplicates args) = true ↔
      ∀ (i j : Nat) (a b : KArg), i < j → args[i]? = some (Arg.named a) → args[j]? = some (Arg.named b) → a.tag = b.tag → a.ty = b.ty → a.cat ≠ b.cat := by
    rw [Bool.not_eq_true', ← Bool.not_eq_true, C50_detected_partial]
    push Not
    rfl
  have hun : (!hasUnnamed args) = true ↔ ∀ x ∈ args, ∃ a, x = Arg.named a := by
    rw [Bool.not_eq_true', ← Bool.not_eq_true]
    unfold hasUnnamed
    rw [List.any_eq_true]
    push Not
    refine forall₂_congr (fun x _ => ?_)
    cases x <;> simp
  have hgiv : ((List.range d).all (fun j => hasTag args (.coords j)) && hasTag args .masses) = true ↔ ∀ t, DataKey d t → Given args t := by
    rw [Bool.and_eq_true, List.all_eq_true, hasTag_given]
    simp only [List.mem_range, hasTag_given]
    constructor
    · rintro ⟨h1, h2⟩ t (⟨j, hj, rfl⟩ | rfl)
      · exact h1 j hj
      · exact h2
    · intro h
      exact ⟨fun j hj => h _ (.inl ⟨j, hj, rfl⟩), h _ (.inr rfl)⟩
  have hmem : ∀ a, a ∈ dataArgs d args ↔ ∃ t, DataKey d t ∧ FirstArg args t a := by
    intro a
    constructor
    · intro h
      rcases mem_dataArgs h with ⟨j, hj, e⟩ | e
      · exact ⟨_, .inl ⟨j, hj, rfl⟩, fetch_first.1 e⟩
      · exact ⟨_, .inr rfl, fetch_first.1 e⟩
    · rintro ⟨t, ⟨j, hj, rfl⟩ | rfl, h⟩
      · exact List.mem_append_left _ (List.mem_filterMap.2 ⟨j, List.mem_range.2 hj, fetch_first.2 h⟩)
      · refine List.mem_append_right _ ?_
        rw [fetch_first.2 h]
        simp
  unfold ctorCompiles
  rw [Bool.and_eq_true, Bool.and_eq_true, Bool.and_eq_true, hdup, hun, hgiv]
  constructor
  · rintro ⟨⟨⟨h1, h2⟩, h3⟩, h4⟩
    refine ⟨h2, h1, h3, ?_⟩
    cases hc : fetch args (.coords 0) with
    | none => rw [hc] at h4; cases h4
    | some c =>
      rw [hc] at h4
      simp only [Bool.and_eq_true, List.all_eq_true, beq_iff_eq] at h4
      refine ⟨c.ty, fun t a ht ha => h4.1 a ((hmem a).2 ⟨t, ht, ha⟩), ?_⟩
      have h5 := h4.2
      rw [← hasTag_given]
      cases hty : c.ty <;> cases hn : hasTag args .nparts <;> simp_all [KTy.isRange]
  · rintro ⟨h2, h1, h3, ty, h4, h5⟩
    refine ⟨⟨⟨h1, h2⟩, h3⟩, ?_⟩
    cases hc : fetch args (.coords 0) with
    | none =>
      have := hasTag_given.2 (h3 _ (.inl ⟨0, hd, rfl⟩))
      rw [← fetch_isSome, hc] at this
      cases this
    | some c =>
      have e := h4 _ c (.inl ⟨0, hd, rfl⟩) (fetch_first.1 hc)
      simp only [Bool.and_eq_true, List.all_eq_true, beq_iff_eq]
      refine ⟨fun a ha => ?_, ?_⟩
      · obtain ⟨t, ht, hf⟩ := (hmem a).1 ha
        rw [h4 t a ht hf, e]
      · rw [e]
        rw [← hasTag_given] at h5
        rcases h5 with ⟨rfl | ⟨k, rfl⟩, h5⟩ | ⟨⟨k, rfl⟩, h5⟩ <;> cases hn : hasTag args .nparts <;> simp_all [KTy.isRange]

/-- Iterators with `nparts`: accepted. Without `nparts`, or ranges with `nparts`, or a range and iterators: rejected. -/
example : let it : Nat → KTag → Arg := fun o t => .named ⟨t, .other 7, .lv, o⟩
    let rg : Nat → KTag → Arg := fun o t => .named ⟨t, .range 7, .clv, o⟩
    ctorCompiles 2 [it 3 .masses, it 1 (.coords 1), it 0 (.coords 0), it 4 .nparts] = true ∧
    ctorCompiles 2 [it 3 .masses, it 1 (.coords 1), it 0 (.coords 0)] = false ∧
    ctorCompiles 2 [rg 3 .masses, rg 1 (.coords 1), rg 0 (.coords 0)] = true ∧
    ctorCompiles 2 [rg 3 .masses, rg 1 (.coords 1), rg 0 (.coords 0), it 4 .nparts] = false ∧
    ctorCompiles 2 [rg 3 .masses, it 1 (.coords 1), rg 0 (.coords 0)] = false ∧
    ctorCompiles 2 [.unnamed, rg 3 .masses, rg 1 (.coords 1), rg 0 (.coords 0)] = false := by decide +kernel

/-- The value of an integer argument is a `std::size_t`. -/
def Spec.FitsSize {F : Type} (args : List Arg) (mem : Mem F) (t : KTag) : Prop := ∀ a, FirstArg args t a → 0 ≤ mem.int a.obj ∧ mem.int a.obj < 2 ^ 64

theorem intArg_fits {F : Type} {args : List Arg} {mem : Mem F} {t : KTag} {n : Nat} : (∃ v, intArg args mem t n = some v) ↔ FitsSize args mem t := by
  unfold intArg FitsSize
  simp only [← fetch_first]
  cases hf : fetch args t with
  | none => simp
  | some a =>
    simp only [Option.some.injEq]
    unfold castSize
    by_cases h : 0 ≤ mem.int a.obj ∧ mem.int a.obj < 2 ^ 64
    · rw [if_pos h]
      simp only [Option.some.injEq, exists_eq', true_iff]
      intro b hb
      rw [← hb]; exact h
    · rw [if_neg h]
      constructor
      · rintro ⟨_, hv⟩; cases hv
      · intro h'; exact absurd (h' a rfl) h

/-- `nparts` is greater than the length of one of the arrays. -/
def Spec.Beyond {F : Type} (d : Nat) (args : List Arg) (mem : Mem F) : Prop :=
  ∃ b t a, FirstArg args .nparts b ∧ DataKey d t ∧ FirstArg args t a ∧ ((mem.vec a.obj).length : Int) < mem.int b.obj

/-- C62: how a call that compiles ends, before the tree is built. It throws exactly if `max_leaf_n`, `ncrit` or `nparts` is given and negative or not below `2^64`. Otherwise it reads
beyond the end of the data exactly if `nparts` is greater than the length of one of the arrays. Otherwise the construction goes on. -/
theorem C62_outcome {env : Env} {junk : List env.F} {args : List Arg} {mem : Mem env.F} (hc : ctorCompiles env.d args = true) :
    (ctorArgs env junk args mem = .badCast ↔ ¬ (FitsSize args mem .maxLeafN ∧ FitsSize args mem .ncrit ∧ FitsSize args mem .nparts)) ∧
    (ctorArgs env junk args mem = .ub ↔ (FitsSize args mem .maxLeafN ∧ FitsSize args mem .ncrit ∧ FitsSize args mem .nparts) ∧
      Beyond env.d args mem) ∧
    ctorArgs env junk args mem ≠ .noCompile := by
  have hdat : (ctorData junk env.d args mem = none ↔ ¬ FitsSize args mem .nparts) ∧
      (ctorData junk env.d args mem = some none ↔ FitsSize args mem .nparts ∧
        Beyond env.d args mem) := by
    have hmem : ∀ a, a ∈ dataArgs env.d args ↔ ∃ t, DataKey env.d t ∧ FirstArg args t a := by
      intro a
      constructor
      · intro h
        rcases mem_dataArgs h with ⟨j, hj, e⟩ | e
        · exact ⟨_, .inl ⟨j, hj, rfl⟩, fetch_first.1 e⟩
        · exact ⟨_, .inr rfl, fetch_first.1 e⟩
      · rintro ⟨t, ⟨j, hj, rfl⟩ | rfl, h⟩
        · exact List.mem_append_left _ (List.mem_filterMap.2 ⟨j, List.mem_range.2 hj, fetch_first.2 h⟩)
        · refine List.mem_append_right _ ?_
          rw [fetch_first.2 h]
          simp
    unfold ctorData
    simp only
    cases hn : hasTag args .nparts with
    | false =>
      have hf : fetch args .nparts = none := by
        rw [← Option.not_isSome_iff_eq_none, fetch_isSome, hn]; simp
      have hfit : FitsSize args mem .nparts := by
        intro a ha
        rw [← fetch_first, hf] at ha
        cases ha
      have hno : ¬ Beyond env.d args mem := by
        rintro ⟨b, _, _, hb, _⟩
        rw [← fetch_first, hf] at hb
        cases hb
      simp only [Bool.false_eq_true, if_false]
      split
      · simp [hfit, hno]
      · split <;> simp [hfit, hno]
    | true =>
      simp only [if_true]
      obtain ⟨b, hb⟩ := Option.isSome_iff_exists.1 (fetch_isSome.trans hn)
      cases hi : intArg args mem .nparts 0 with
      | none =>
        have hnf : ¬ FitsSize args mem .nparts := by
          rw [← intArg_fits (n := 0), hi]; rintro ⟨_, h⟩; cases h
        simp [hnf]
      | some n =>
        have hfit : FitsSize args mem .nparts := (intArg_fits (n := 0)).1 ⟨n, hi⟩
        have hnv : (n : Int) = mem.int b.obj := by
          have := hfit b (fetch_first.1 hb)
          unfold intArg at hi
          rw [hb] at hi
          simp only at hi
          unfold castSize at hi
          rw [if_pos this] at hi
          simp only [Option.some.injEq] at hi
          omega
        simp only
        have key : ((dataArgs env.d args).map (fun a => mem.vec a.obj)).all (fun v => decide (n ≤ v.length)) = false ↔
            Beyond env.d args mem := by
          rw [List.all_eq_false]
          constructor
          · rintro ⟨v, hv, h⟩
            obtain ⟨a, ha, rfl⟩ := List.mem_map.1 hv
            obtain ⟨t, ht, hf⟩ := (hmem a).1 ha
            refine ⟨b, t, a, fetch_first.1 hb, ht, hf, ?_⟩
            simp at h
            omega
          · rintro ⟨b', t, a, h1, ht, hf, h⟩
            obtain rfl : b = b' := by rw [← fetch_first, hb] at h1; exact Option.some.inj h1
            refine ⟨_, List.mem_map_of_mem ((hmem a).2 ⟨t, ht, hf⟩), ?_⟩
            simp
            omega
        split
        · rename_i hall
          rw [hall] at key
          simp only [Bool.true_eq_false, false_iff] at key
          simp [hfit, key]
        · rename_i hall
          have := key.1 (by simpa using hall)
          simp only [hfit, this, not_true_eq_false, iff_false, and_self, iff_true, Option.some_ne_none, not_false_eq_true]
  have e1 := intArg_fits (args := args) (mem := mem) (t := .maxLeafN) (n := defaultMaxLeaf)
  have e2 := intArg_fits (args := args) (mem := mem) (t := .ncrit) (n := defaultNcrit)
  unfold ctorArgs
  rw [hc]
  simp only [Bool.not_true, Bool.false_eq_true, if_false]
  cases h1 : intArg args mem .maxLeafN defaultMaxLeaf with
  | none =>
    rw [h1] at e1
    have : ¬ FitsSize args mem .maxLeafN := by rw [← e1]; rintro ⟨_, h⟩; cases h
    simp [this]
  | some ml =>
    have f1 := e1.1 ⟨ml, h1⟩
    cases h2 : intArg args mem .ncrit defaultNcrit with
    | none =>
      rw [h2] at e2
      have : ¬ FitsSize args mem .ncrit := by rw [← e2]; rintro ⟨_, h⟩; cases h
      simp [this]
    | some nc =>
      have f2 := e2.1 ⟨nc, h2⟩
      simp only
      cases h3 : ctorData junk env.d args mem with
      | none =>
        have := hdat.1.1 h3
        simp [this]
      | some r =>
        have f3 : FitsSize args mem .nparts := by
          by_contra h
          rw [hdat.1.2 h] at h3
          cases h3
        cases r with
        | none =>
          have := (hdat.2.1 h3).2
          simp only [f1, f2, f3, this, and_self, iff_true, not_true_eq_false, iff_false, ne_eq]
          exact ⟨by simp, by simp⟩
        | some p =>
          have : ¬ Beyond env.d args mem := by
            intro h
            rw [hdat.2.2 ⟨f3, h⟩] at h3
            cases h3
          simp [f1, f2, f3, this]

/-- `nparts` equal to 2, 3, -1 and `2^64` for arrays of length 2. -/
example : let it : Nat → KTag → Arg := fun o t => .named ⟨t, .other 7, .lv, o⟩
    let args := [it 2 .masses, it 1 (.coords 1), it 0 (.coords 0), it 4 .nparts]
    let m : Int → Mem Nat := fun x => ⟨fun _ => [1, 2], fun _ => x, fun _ => 0⟩
    (∃ inp vec, ctorArgs toyEnv [] args (m 2) = .run inp vec) ∧ ctorArgs toyEnv [] args (m 3) = .ub ∧ ctorArgs toyEnv [] args (m (-1)) = .badCast ∧
    ctorArgs toyEnv [] args (m (2 ^ 64)) = .badCast :=
  ⟨⟨_, _, rfl⟩, rfl, rfl, rfl⟩

end Rakau
