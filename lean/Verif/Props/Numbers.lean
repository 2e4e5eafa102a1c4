import Verif.Props.Kwargs
import Verif.Proof.Numbers

/-! Property theorems about parameters given in other arithmetic types (C74). -/
namespace Rakau
open Spec

variable {f : Format}

/-- C74: a parameter that arrives as a finite floating-point number is the nearest value of the type, of two such values the even one. -/
theorem C74_nearest (hf : f.Std) {n : Num} {v : ℚ} (h : castF f n = .ok (.fin v)) : ∃ q, val n = some q ∧ Nearest f q v := by
  cases n with
  | int z =>
    simp only [castF, Except.ok.injEq] at h
    exact ⟨_, rfl, Format.rnd_nearest hf.prec h⟩
  | flt g x =>
    simp only [castF] at h
    split at h
    · cases h
    · cases x with
      | nan => simp [Format.conv] at h
      | inf s => simp [Format.conv] at h
      | fin q =>
        simp only [Format.conv, Except.ok.injEq] at h
        exact ⟨_, rfl, Format.rnd_nearest hf.prec h⟩

/-- 1/3 as a `double` in a tree of `float`s, and an integer halfway between two `float`s. -/
example : castF binary32 (.flt binary64 (binary64.rnd (1 / 3))) = .ok (.fin (11184811 / 33554432)) ∧
    castF binary32 (.int (2 ^ 24 + 1)) = .ok (.fin (2 ^ 24)) ∧ castF binary32 (.int (2 ^ 24 + 3)) = .ok (.fin (2 ^ 24 + 4)) := by decide +kernel

/-- C74: the conversion throws exactly if the type has more digits and the value is an infinity or outside the range. Every other finite value arrives as a finite one, without change if the
type has it. Integers never throw. -/
theorem C74_outcome (hf : f.Std) {n : Num} (hn : Occurs n) :
    (∀ e, castF f n = .error e ↔ e = .badCast ∧ TooLarge f n) ∧
    (∀ q, val n = some q → ¬ Outside f q → ∃ v, castF f n = .ok (.fin v)) ∧
    (∀ q, val n = some q → Value f q → castF f n = .ok (.fin q)) ∧
    ∀ z, n = .int z → ∃ v, castF f n = .ok (.fin v) := by
  have hex : ∀ q, Value f q → ¬ Outside f q := by
    rintro q hq (h | h)
    · exact lt_irrefl _ (h _ hq)
    · exact lt_irrefl _ (h _ hq)
  cases n with
  | int z =>
    obtain ⟨r, hr⟩ := Format.int_inside hf hn.1 hn.2
    refine ⟨fun e => by simp [castF, TooLarge, Wider], fun q hq _ => ⟨r, by simp [castF, hr]⟩, fun q hq hv => ?_, fun _ _ => ⟨r, by simp [castF, hr]⟩⟩
    simp only [val, Option.some.injEq] at hq
    subst hq
    simp [castF, Format.value_exact hf.prec hv]
  | flt g x =>
    cases x with
    | nan => refine ⟨fun e => ?_, by simp [val], by simp [val], by simp⟩; simp [castF, Fl.lt, TooLarge, IsInf, val]
    | inf s =>
      refine ⟨fun e => ?_, by simp [val], by simp [val], by simp⟩
      by_cases hg : f.prec < g.prec
      · have e1 : castF f (.flt g (.inf s)) = .error .badCast := by cases s <;> simp [castF, Fl.lt, hg]
        rw [e1]
        constructor
        · intro h; cases h; exact ⟨rfl, hg, .inl trivial⟩
        · rintro ⟨rfl, _⟩; rfl
      · simp [castF, TooLarge, Wider, hg]
    | fin q =>
      have hout := Format.outside_iff hf (q := q)
      refine ⟨fun e => ?_, fun q' hq' ho => ?_, fun q' hq' hv => ?_, by simp⟩
      · by_cases hg : f.prec < g.prec
        · by_cases ho : q < -f.highest ∨ f.highest < q
          · have : Outside f q := hout.2 ho
            have e1 : castF f (.flt g (.fin q)) = .error .badCast := by simp [castF, Fl.lt, hg, ho]
            rw [e1]
            constructor
            · intro h; cases h; exact ⟨rfl, hg, .inr ⟨q, rfl, this⟩⟩
            · rintro ⟨rfl, _⟩; rfl
          · have : ¬ Outside f q := fun h => ho (hout.1 h)
            simp [castF, Fl.lt, TooLarge, IsInf, Wider, val, hg, ho, this]
        · simp [castF, TooLarge, Wider, hg]
      · simp only [val, Option.some.injEq] at hq'
        subst hq'
        have := mt hout.2 ho
        obtain ⟨v, hv⟩ := Format.rnd_inside hf ho
        exact ⟨v, by simp [castF, Fl.lt, Format.conv, this, hv]⟩
      · simp only [val, Option.some.injEq] at hq'
        subst hq'
        have := mt hout.2 (hex _ hv)
        simp [castF, Fl.lt, Format.conv, this, Format.value_exact hf.prec hv]

/-- Numbers of both kinds; the first exceeds the largest `float` by less than half a unit of its last digit. -/
example : Occurs (.flt binary64 (.fin (2 ^ 128 - 2 ^ 103 - 2 ^ 75))) ∧ castF binary32 (.flt binary64 (.fin (2 ^ 128 - 2 ^ 103 - 2 ^ 75))) = .error .badCast ∧
    binary32.rnd (2 ^ 128 - 2 ^ 103 - 2 ^ 75) = .fin binary32.highest ∧ castF binary32 (.flt binary64 (.fin (2 ^ 128 - 2 ^ 104))) = .ok (.fin (2 ^ 128 - 2 ^ 104)) ∧
    castF binary64 (.flt binary64 (.inf true)) = .ok (.inf true) ∧ castF binary32 (.flt binary64 (.inf true)) = .error .badCast :=
  ⟨⟨2 ^ 53 - 2 ^ 28 - 1, 75, by decide, by decide, by decide +kernel, by norm_num⟩, by decide +kernel, by decide +kernel, by decide +kernel, by decide +kernel, by decide +kernel⟩

/-- C74: values of a type that is contained in the type of the library arrive without change, infinities and NaNs included. -/
theorem C74_widening (hf : f.Std) {g : Format} {x : Fl ℚ} (hc : Contains f g) (hn : Occurs (.flt g x)) : castF f (.flt g x) = .ok x := by
  have hp : ¬ f.prec < g.prec := not_lt.2 hc.1
  cases x with
  | nan => simp [castF, hp, Format.conv]
  | inf s => simp [castF, hp, Format.conv]
  | fin q => simp [castF, hp, Format.conv, Format.value_exact hf.prec (Format.value_contains hc hn)]

example : Contains binary64 binary32 ∧ Contains x87 binary64 ∧ ¬ Contains binary32 binary64 ∧ Occurs (.flt binary32 (.fin (3 / 2 ^ 149))) := by
  refine ⟨by unfold Contains; decide, by unfold Contains; decide, by unfold Contains; decide, 3, -149, by decide, by decide, ?_, by norm_num⟩
  norm_num [binary32, abs_of_pos]

/-- The largest values, the smallest positive values and the spacing at 1 of the three types, as in `std::numeric_limits`. -/
example : binary32.highest = (2 ^ 24 - 1) * 2 ^ 104 ∧ binary64.highest = (2 ^ 53 - 1) * 2 ^ 971 ∧ x87.highest = (2 ^ 64 - 1) * 2 ^ 16320 ∧
    (binary32.rnd (1 / 2 ^ 149) = .fin (1 / 2 ^ 149) ∧ binary32.rnd (1 / 2 ^ 150) = .fin 0) ∧
    (binary64.rnd (1 / 2 ^ 1074) = .fin (1 / 2 ^ 1074) ∧ binary64.rnd (1 / 2 ^ 1075) = .fin 0) ∧
    (x87.rnd (1 / 2 ^ 16445) = .fin (1 / 2 ^ 16445) ∧ x87.rnd (1 / 2 ^ 16446) = .fin 0) ∧
    (binary32.rnd (1 + 1 / 2 ^ 23) = .fin (1 + 1 / 2 ^ 23) ∧ binary32.rnd (1 + 1 / 2 ^ 24) = .fin 1) ∧
    (binary64.rnd (1 + 1 / 2 ^ 52) = .fin (1 + 1 / 2 ^ 52) ∧ binary64.rnd (1 + 1 / 2 ^ 53) = .fin 1) ∧
    (x87.rnd (1 + 1 / 2 ^ 63) = .fin (1 + 1 / 2 ^ 63) ∧ x87.rnd (1 + 1 / 2 ^ 64) = .fin 1) := by
  decide +kernel

/-- C74: the conversion keeps the order of numbers. -/
theorem C74_monotone (hf : f.Std) {a b : Num} {p q : ℚ} {x y : Fl ℚ} (ha : val a = some p) (hb : val b = some q) (h : p ≤ q)
    (hx : castF f a = .ok x) (hy : castF f b = .ok y) : x.le y = true := by
  have key : ∀ {n : Num} {q : ℚ} {x : Fl ℚ}, val n = some q → castF f n = .ok x → x = f.rnd q := by
    intro n q x hv hc
    cases n with
    | int z =>
      simp only [val, Option.some.injEq] at hv
      simp only [castF, Except.ok.injEq] at hc
      rw [← hc, hv]
    | flt g y =>
      simp only [castF] at hc
      split at hc
      · cases hc
      · cases y with
        | nan => simp [val] at hv
        | inf s => simp [val] at hv
        | fin r =>
          simp only [val, Option.some.injEq] at hv
          simp only [Format.conv, Except.ok.injEq] at hc
          rw [← hc, hv]
  rw [key ha hx, key hb hy]
  exact Format.rnd_mono hf.prec h

example : castF binary32 (.int (2 ^ 24 + 1)) = .ok (.fin (2 ^ 24)) ∧ castF binary32 (.flt binary64 (.fin (2 ^ 24 + 5 / 4))) = .ok (.fin (2 ^ 24 + 2)) := by decide +kernel

/-- C74: integer parameters. The integer part arrives; the conversion throws exactly if it is not a `std::size_t`, and is undefined exactly for NaN. -/
theorem C74_size (n : Num) :
    (∀ k, castN n = .ok k ↔ WholePart n k) ∧ (castN n = .error .badCast ↔ NoSize n) ∧ (castN n = .error .ub ↔ IsNan n) := by
  cases n with
  | int v =>
    unfold castN castSize
    by_cases h : 0 ≤ v ∧ v < 2 ^ 64
    · simp only [h, and_self, if_true, Except.ok.injEq, reduceCtorEq, false_iff]
      refine ⟨fun k => ⟨?_, ?_⟩, ?_, by simp [IsNan]⟩
      · rintro rfl
        have e : ((v.toNat : ℕ) : ℚ) = (v : ℚ) := by exact_mod_cast Int.toNat_of_nonneg h.1
        refine ⟨v, rfl, by exact_mod_cast h.2, .inl ⟨e.le, ?_⟩⟩
        rw [e]; linarith
      · rintro ⟨q, hq, _, h1⟩
        simp only [val, Option.some.injEq] at hq
        subst hq
        rcases h1 with ⟨h2, h3⟩ | ⟨_, _, h3⟩
        · have h2' : (k : ℤ) ≤ v := by exact_mod_cast h2
          have h3' : v < (k : ℤ) + 1 := by exact_mod_cast h3
          omega
        · have : v < 0 := by exact_mod_cast h3
          omega
      · rintro (h1 | ⟨q, hq, h1⟩)
        · exact h1
        · simp only [val, Option.some.injEq] at hq
          subst hq
          rcases h1 with h1 | h1
          · have : v ≤ -1 := by exact_mod_cast h1
            omega
          · have : (2 : ℤ) ^ 64 ≤ v := by exact_mod_cast h1
            omega
    · simp only [h, if_false, reduceCtorEq, false_iff, true_iff, Except.error.injEq]
      refine ⟨?_, ?_, by simp [IsNan]⟩
      · rintro k ⟨q, hq, hl, h1⟩
        simp only [val, Option.some.injEq] at hq
        subst hq
        have hl' : v < 2 ^ 64 := by exact_mod_cast hl
        rcases h1 with ⟨h2, h3⟩ | ⟨_, h2, h3⟩
        · have h2' : (k : ℤ) ≤ v := by exact_mod_cast h2
          omega
        · have : v < 0 := by exact_mod_cast h3
          have : -1 < v := by exact_mod_cast h2
          omega
      · refine .inr ⟨v, rfl, ?_⟩
        by_cases h0 : 0 ≤ v
        · right
          have : (2 : ℤ) ^ 64 ≤ v := by omega
          exact_mod_cast this
        · left
          have : v ≤ -1 := by omega
          exact_mod_cast this
  | flt g x =>
    cases x with
    | nan => simp [castN, castSz, WholePart, NoSize, IsNan, IsInf, val]
    | inf s => simp [castN, castSz, WholePart, NoSize, IsNan, IsInf, val]
    | fin q =>
      by_cases h : q ≤ -1 ∨ 2 ^ 64 ≤ q
      · simp only [castN, castSz, h, if_true, reduceCtorEq, false_iff, true_iff]
        refine ⟨?_, .inr ⟨q, rfl, h⟩, by simp [IsNan]⟩
        rintro k ⟨q', hq', hl, h1⟩
        simp only [val, Option.some.injEq] at hq'
        subst hq'
        have hk : (0 : ℚ) ≤ k := k.cast_nonneg
        rcases h with h | h <;> rcases h1 with ⟨h2, h3⟩ | ⟨_, h2, h3⟩ <;> linarith
      · simp only [castN, castSz, h, if_false, reduceCtorEq, false_iff, Except.ok.injEq]
        obtain ⟨h1, h2⟩ := not_or.1 h
        refine ⟨fun k => ⟨?_, ?_⟩, ?_, by simp [IsNan]⟩
        · rintro rfl
          refine ⟨q, rfl, not_le.1 h2, ?_⟩
          rcases lt_or_ge q 0 with h0 | h0
          · right
            have : ⌊q⌋ < 0 := Int.floor_lt.2 (by simpa using h0)
            exact ⟨by omega, not_le.1 h1, h0⟩
          · left
            have e : ((⌊q⌋.toNat : ℕ) : ℚ) = (⌊q⌋ : ℚ) := by exact_mod_cast Int.toNat_of_nonneg (Int.floor_nonneg.2 h0)
            rw [e]
            exact ⟨Int.floor_le q, Int.lt_floor_add_one q⟩
        · rintro ⟨q', hq', hl, hk⟩
          simp only [val, Option.some.injEq] at hq'
          subst hq'
          rcases hk with ⟨h3, h4⟩ | ⟨rfl, _, h4⟩
          · have : ⌊q⌋ = (k : ℤ) := Int.floor_eq_iff.2 ⟨by exact_mod_cast h3, by exact_mod_cast h4⟩
            rw [this]; simp
          · have : ⌊q⌋ < 0 := Int.floor_lt.2 (by simpa using h4)
            omega
        · rintro (h3 | ⟨q', hq', h3⟩)
          · exact h3
          · simp only [val, Option.some.injEq] at hq'
            subst hq'
            exact h h3

example : WholePart (.int 16) 16 ∧ WholePart (.flt binary64 (.fin (-1 / 2))) 0 ∧ NoSize (.int (-1)) ∧ castN (.int (2 ^ 64)) = .error .badCast ∧
    castN (.flt binary32 (.fin 100)) = .ok 100 :=
  ⟨⟨16, rfl, by norm_num, .inl ⟨by norm_num, by norm_num⟩⟩, ⟨_, rfl, by norm_num, .inr ⟨rfl, by norm_num, by norm_num⟩⟩, .inr ⟨_, rfl, .inl (by norm_num)⟩, by decide +kernel, by decide +kernel⟩

/-- C74, the part that holds of integer parameters: an integer, in whatever type it is given, arrives without change, or the conversion throws because it is not a `std::size_t`. (Missing: an
exception for numbers that are not integers, see `C74_truncated_fails` and `C74_nan_fails`.) -/
theorem C74_integer_partial {n : Num} {z : ℤ} (h : val n = some (z : ℚ)) :
    (∀ k, castN n = .ok k ↔ z = k ∧ z < 2 ^ 64) ∧ ∀ e, castN n = .error e ↔ e = .badCast ∧ (z < 0 ∨ 2 ^ 64 ≤ z) := by
  obtain ⟨h1, h2, h3⟩ := C74_size n
  have hnan : ¬ IsNan n := by
    rintro ⟨g, rfl⟩
    simp [val] at h
  have hinf : ¬ IsInf n := by
    intro hi
    cases n with
    | int v => exact hi
    | flt g x =>
      cases x with
      | inf s => simp [val] at h
      | nan => exact hi
      | fin q => exact hi
  constructor
  · intro k
    rw [h1]
    constructor
    · rintro ⟨q, hq, hl, hk⟩
      rw [h] at hq
      cases hq
      have hl' : z < 2 ^ 64 := by exact_mod_cast hl
      rcases hk with ⟨a, b⟩ | ⟨_, a, b⟩
      · have a' : (k : ℤ) ≤ z := by exact_mod_cast a
        have b' : z < (k : ℤ) + 1 := by exact_mod_cast b
        omega
      · have a' : -1 < z := by exact_mod_cast a
        have b' : z < 0 := by exact_mod_cast b
        omega
    · rintro ⟨rfl, hl⟩
      exact ⟨_, h, by exact_mod_cast hl, .inl ⟨by simp, by simp⟩⟩
  · intro e
    have hiff : NoSize n ↔ z < 0 ∨ 2 ^ 64 ≤ z := by
      constructor
      · rintro (hi | ⟨q, hq, hk⟩)
        · exact absurd hi hinf
        · rw [h] at hq
          cases hq
          rcases hk with a | a
          · left
            have : z ≤ -1 := by exact_mod_cast a
            omega
          · right; exact_mod_cast a
      · rintro (a | a)
        · exact .inr ⟨_, h, .inl (by have : z ≤ -1 := by omega
                                     exact_mod_cast this)⟩
        · exact .inr ⟨_, h, .inr (by exact_mod_cast a)⟩
    cases e with
    | badCast => rw [h2, hiff]; simp
    | ub => rw [h3]; simp [hnan]

example : val (.flt binary32 (.fin 16)) = some ((16 : ℤ) : ℚ) ∧ castN (.flt binary32 (.fin 16)) = .ok 16 ∧ val (.flt binary64 (.fin (-3))) = some ((-3 : ℤ) : ℚ) ∧
    castN (.flt binary64 (.fin (-3))) = .error .badCast := by decide +kernel

/-- A number that is converted without an exception arrives. -/
theorem cast_arrives (hf : f.Std) {n : Num} (hn : Occurs n) (hc : Comparable f n) {x : Fl ℚ} (h : castF f n = .ok x) : Arrives f n x := by
  cases x with
  | fin v =>
    obtain ⟨q, h1, h2⟩ := C74_nearest hf h
    exact .inl ⟨q, v, h1, rfl, h2⟩
  | nan =>
    cases n with
    | int z =>
      obtain ⟨r, hr⟩ := Format.int_inside hf hn.1 hn.2
      simp [castF, hr] at h
    | flt g y =>
      simp only [castF] at h
      split at h
      · cases h
      · cases y with
        | nan => exact .inr ⟨g, rfl, rfl⟩
        | inf s => simp [Format.conv] at h
        | fin q =>
          simp only [Format.conv, Except.ok.injEq] at h
          unfold Format.rnd at h
          split at h <;> cases h
  | inf s =>
    cases n with
    | int z =>
      obtain ⟨r, hr⟩ := Format.int_inside hf hn.1 hn.2
      simp [castF, hr] at h
    | flt g y =>
      cases y with
      | nan => simp [castF, Fl.lt, Format.conv] at h
      | inf s' =>
        simp only [castF, Format.conv] at h
        split at h
        · cases h
        · simp only [Except.ok.injEq, Fl.inf.injEq] at h
          subst h
          exact .inr ⟨g, rfl, rfl⟩
      | fin q =>
        rcases hc with hc | hc
        · by_cases ho : Outside f q
          · rw [((C74_outcome hf hn).1 .badCast).2 ⟨rfl, hc, .inr ⟨q, rfl, ho⟩⟩] at h
            cases h
          · obtain ⟨v, hv⟩ := (C74_outcome hf hn).2.1 q rfl ho
            rw [hv] at h
            cases h
        · rw [C74_widening hf hc hn] at h
          cases h

/-- The first argument with keyword `t` that is a number. -/
theorem castArg_ok {α : Type} {args : List Arg} {m : NMem} {t : KTag} {cast : Num → Except Bad α} (h : castArg args m t cast = .ok ()) {a : KArg}
    (ha : fetch args t = some a) : ∃ v, cast (m.num a.obj) = .ok v := by
  unfold castArg at h
  rw [ha] at h
  simp only at h
  cases hc : cast (m.num a.obj) with
  | ok v => exact ⟨v, rfl⟩
  | error e => rw [hc] at h; cases h

theorem castArg_error {α : Type} {args : List Arg} {m : NMem} {t : KTag} {cast : Num → Except Bad α} {e : Bad} :
    castArg args m t cast = .error e ↔ ∃ a, fetch args t = some a ∧ cast (m.num a.obj) = .error e := by
  unfold castArg
  cases hf : fetch args t with
  | none => simp
  | some a =>
    cases hc : cast (m.num a.obj) with
    | ok v => simp [Except.map, hc]
    | error e' => simp [Except.map, hc]

theorem castArgs_ok {args : List Arg} {m : NMem} : castArgs f args m = .ok () ↔ castArg args m .boxSize (castF f) = .ok () ∧
    castArg args m .maxLeafN castN = .ok () ∧ castArg args m .ncrit castN = .ok () ∧ castArg args m .nparts castN = .ok () := by
  unfold castArgs
  cases h1 : castArg args m .boxSize (castF f) with
  | error e => simp [bind, Except.bind]
  | ok u =>
    cases h2 : castArg args m .maxLeafN castN with
    | error e => simp [bind, Except.bind]
    | ok u =>
      cases h3 : castArg args m .ncrit castN with
      | error e => simp [bind, Except.bind]
      | ok u => simp [bind, Except.bind]

section
variable {fused : Bool} {simd : Option (Simd ℚ)} {mac : Mac} {w d : Nat} {junk : List (Fl ℚ)} {args : List Arg} {m : NMem}

/-- All the numbers given as parameters can occur, in types that are comparable to the one of the library. -/
def Spec.GoodNums (f : Format) (args : List Arg) (m : NMem) : Prop := ∀ t a, FirstArg args t a → Occurs (m.num a.obj) ∧ Comparable f (m.num a.obj)

/-- A call with a box size and integers, the particles given by iterators. -/
def numArgs (t : KTag) : List Arg :=
  [.named ⟨.coords 0, .other 1, .lv, 0⟩, .named ⟨.coords 1, .other 1, .lv, 0⟩, .named ⟨.masses, .other 1, .lv, 0⟩, .named ⟨.nparts, .other 2, .rv, 1⟩,
   .named ⟨.boxSize, .other 3, .rv, 2⟩, .named ⟨t, .other 3, .rv, 3⟩]

/-- Three particles of which two are used, `box` as a `double`, and the number `x`. -/
def numMem (box : ℚ) (x : Num) : NMem :=
  ⟨fun _ => [.fin 1, .fin 2, .fin 3], fun o => if o = 1 then .int 2 else if o = 2 then .flt binary64 (.fin box) else x⟩

/-- Which calls of the example meet the hypotheses. -/
theorem numMem_good {t : KTag} {box : ℚ} {x : Num} (hb : Value binary64 box) (hx : Occurs x) (hc : Comparable binary32 x) :
    GoodNums binary32 (numArgs t) (numMem box x) := by
  intro t' a _
  unfold numMem
  simp only
  split
  · exact ⟨⟨by norm_num, by norm_num⟩, trivial⟩
  · split
    · exact ⟨hb, .inl (by decide)⟩
    · exact ⟨hx, hc⟩

/-- C74: the parameters that reach the constructor, when they are given in any arithmetic types: the box size is the nearest value of the type of the library, the integers are the
integer parts; the arrays have `nparts` elements if that is given. Parameters that are not given have their default values. -/
theorem C74_ctor (hf : f.Std) (hg : GoodNums f args m) {inp : Input (rakauEnv (f.ieee fused) simd mac w d)} {vec : Nat → List (Fl ℚ)}
    (h : ctorNum f fused simd mac w d junk args m = .run inp vec) (hd : moveData d args = true → ((dataArgs d args).map KArg.obj).Nodup) :
    (¬ Given args .boxSize → inp.box = none) ∧ (∀ a, FirstArg args .boxSize a → ∃ b : Fl ℚ, inp.box = some b ∧ Arrives f (m.num a.obj) b) ∧
    (¬ Given args .maxLeafN → inp.maxLeaf = 16) ∧ (∀ a, FirstArg args .maxLeafN a → WholePart (m.num a.obj) inp.maxLeaf) ∧
    (¬ Given args .ncrit → inp.ncrit = 128) ∧ (∀ a, FirstArg args .ncrit a → WholePart (m.num a.obj) inp.ncrit) ∧
    ∀ a, FirstArg args .nparts a → ∀ v ∈ inp.parts, WholePart (m.num a.obj) (List.length (α := Fl ℚ) v) := by
  unfold ctorNum at h
  split at h
  · cases h
  cases hc : castArgs f args m with
  | error e => rw [hc] at h; cases e <;> cases h
  | ok u =>
    rw [hc] at h
    simp only at h
    obtain ⟨c1, c2, c3, c4⟩ := castArgs_ok.1 hc
    obtain ⟨r0, r1, r2, r3, r4, r5, r6, r7⟩ := C02_arguments h hd
    have ng : ∀ t, ¬ Given args t → fetch args t = none := by
      intro t ht
      rw [← hasTag_given, ← fetch_isSome] at ht
      exact Option.not_isSome_iff_eq_none.1 ht
    have hint : ∀ {a : KArg} {k : Nat}, (∃ v, castN (m.num a.obj) = .ok v) → ((k : Int) = (m.conv f).int a.obj) → WholePart (m.num a.obj) k := by
      rintro a k ⟨v, hv⟩ hk
      simp only [NMem.conv, hv] at hk
      obtain rfl : k = v := by exact_mod_cast hk
      exact (C74_size _).1 _ |>.1 hv
    refine ⟨fun hb => r2.2 (ng _ hb), fun a ha => ?_, fun hb => r4 (ng _ hb), fun a ha => ?_, fun hb => r6 (ng _ hb), fun a ha => ?_, fun a ha v hv => ?_⟩
    · obtain ⟨x, hx⟩ := castArg_ok c1 (fetch_first.2 ha)
      refine ⟨x, ?_, cast_arrives hf (hg _ _ ha).1 (hg _ _ ha).2 hx⟩
      rw [r3 a (fetch_first.2 ha)]
      simp [NMem.conv, hx]
    · exact hint (castArg_ok c2 (fetch_first.2 ha)) (r5 a (fetch_first.2 ha))
    · exact hint (castArg_ok c3 (fetch_first.2 ha)) (r7 a (fetch_first.2 ha))
    · obtain ⟨j, hj⟩ := List.mem_iff_getElem?.1 hv
      have hjl : j < d + 1 := by
        have := (List.getElem?_eq_some_iff.1 hj).1
        have e : inp.parts.length = d + 1 := r0
        omega
      have ht : ∃ t, t = KTag.coords j ∧ j < d ∨ t = KTag.masses ∧ j = d := by
        rcases Nat.lt_or_ge j d with h1 | h1
        · exact ⟨_, .inl ⟨rfl, h1⟩⟩
        · exact ⟨.masses, .inr ⟨rfl, by omega⟩⟩
      obtain ⟨t, ht⟩ := ht
      obtain ⟨b, _, hb⟩ := r1 t j ht
      rcases hb with ⟨hb, _⟩ | ⟨b', hb', hb0, hb1, hb2⟩
      · rw [fetch_first.2 ha] at hb; cases hb
      · obtain rfl : a = b' := by rw [fetch_first.2 ha] at hb'; exact Option.some.inj hb'
        refine hint (castArg_ok c4 (fetch_first.2 ha)) ?_
        rw [hj] at hb2
        rw [Option.some.inj hb2, List.length_take]
        omega

/-- The `double` nearest to 1/10 as the box size of a tree of `float`s, and 10 as a `double` for `ncrit`. -/
example : GoodNums binary32 (numArgs .ncrit) (numMem (3602879701896397 / 2 ^ 55) (.flt binary64 (.fin 10))) ∧ moveData 2 (numArgs .ncrit) = false ∧
    (match ctorNum binary32 false none .bh 64 2 [] (numArgs .ncrit) (numMem (3602879701896397 / 2 ^ 55) (.flt binary64 (.fin 10))) with
      | .run inp _ => decide (inp.box = some (Fl.fin (13421773 / 2 ^ 27 : ℚ)) ∧ inp.maxLeaf = 16 ∧ inp.ncrit = 10 ∧ inp.parts = List.replicate 3 [Fl.fin (1 : ℚ), .fin 2])
      | _ => false) = true :=
  ⟨numMem_good ⟨3602879701896397, -55, by decide, by decide, by decide +kernel, by norm_num⟩ ⟨10, 0, by decide, by decide, by decide +kernel, by norm_num⟩ (.inl (by decide)),
    by decide +kernel, by decide +kernel⟩

/-- C74: which calls throw because of the types of the parameters, if none of the integer parameters is NaN: those with a box size that is too large for the type, or with an integer
parameter whose integer part is not a `std::size_t`. -/
theorem C74_throws (hf : f.Std) (hg : GoodNums f args m) (hc : ctorCompiles d args = true)
    (hn : ∀ t a, t = .maxLeafN ∨ t = .ncrit ∨ t = .nparts → FirstArg args t a → ¬ IsNan (m.num a.obj)) :
    ctorNum f fused simd mac w d junk args m = .badCast ↔
      (∃ a, FirstArg args .boxSize a ∧ TooLarge f (m.num a.obj)) ∨
      ∃ t a, (t = .maxLeafN ∨ t = .ncrit ∨ t = .nparts) ∧ FirstArg args t a ∧ NoSize (m.num a.obj) := by
  have hbox : ∀ e, castArg args m .boxSize (castF f) = .error e ↔ e = .badCast ∧ ∃ a, FirstArg args .boxSize a ∧ TooLarge f (m.num a.obj) := by
    intro e
    rw [castArg_error]
    constructor
    · rintro ⟨a, ha, h⟩
      have := ((C74_outcome hf (hg _ _ (fetch_first.1 ha)).1).1 e).1 h
      exact ⟨this.1, a, fetch_first.1 ha, this.2⟩
    · rintro ⟨rfl, a, ha, h⟩
      exact ⟨a, fetch_first.2 ha, ((C74_outcome hf (hg _ _ ha).1).1 _).2 ⟨rfl, h⟩⟩
  have hint : ∀ t, (t = .maxLeafN ∨ t = .ncrit ∨ t = .nparts) → ∀ e, castArg args m t castN = .error e ↔ e = .badCast ∧ ∃ a, FirstArg args t a ∧ NoSize (m.num a.obj) := by
    intro t ht e
    rw [castArg_error]
    constructor
    · rintro ⟨a, ha, h⟩
      cases e with
      | badCast => exact ⟨rfl, a, fetch_first.1 ha, (C74_size _).2.1.1 h⟩
      | ub => exact absurd ((C74_size _).2.2.1 h) (hn t a ht (fetch_first.1 ha))
    · rintro ⟨rfl, a, ha, h⟩
      exact ⟨a, fetch_first.2 ha, (C74_size _).2.1.2 h⟩
  have hok : castArgs f args m = .ok () → ctorArgs (rakauEnv (f.ieee fused) simd mac w d) junk args (m.conv f) ≠ .badCast := by
    intro hc'
    obtain ⟨_, c2, c3, c4⟩ := castArgs_ok.1 hc'
    have hfit : ∀ t, castArg args m t castN = .ok () → FitsSize args (m.conv f) t := by
      intro t ht a ha
      obtain ⟨v, hv⟩ := castArg_ok ht (fetch_first.2 ha)
      simp only [NMem.conv, hv]
      obtain ⟨q, _, hq, h1⟩ := ((C74_size _).1 _).1 hv
      refine ⟨by omega, ?_⟩
      rcases h1 with ⟨h1, _⟩ | ⟨rfl, _⟩
      · have : (v : ℚ) < 2 ^ 64 := lt_of_le_of_lt h1 hq
        exact_mod_cast this
      · norm_num
    intro hb
    exact ((C62_outcome hc).1.1 hb) ⟨hfit _ c2, hfit _ c3, hfit _ c4⟩
  unfold ctorNum
  simp only [hc, Bool.not_true, Bool.false_eq_true, if_false]
  have h1 := hbox
  have h2 := hint .maxLeafN (.inl rfl)
  have h3 := hint .ncrit (.inr (.inl rfl))
  have h4 := hint .nparts (.inr (.inr rfl))
  have hall : ∀ e, castArgs f args m = .error e → e = .badCast ∧ ((∃ a, FirstArg args .boxSize a ∧ TooLarge f (m.num a.obj)) ∨
      ∃ t a, (t = .maxLeafN ∨ t = .ncrit ∨ t = .nparts) ∧ FirstArg args t a ∧ NoSize (m.num a.obj)) := by
    intro e he
    unfold castArgs at he
    cases e1 : castArg args m .boxSize (castF f) with
    | error e' =>
      rw [e1] at he
      obtain rfl : e' = e := by simpa [bind, Except.bind] using he
      obtain ⟨r, h⟩ := (h1 _).1 e1
      exact ⟨r, .inl h⟩
    | ok u =>
      rw [e1] at he
      cases e2 : castArg args m .maxLeafN castN with
      | error e' =>
        rw [e2] at he
        obtain rfl : e' = e := by simpa [bind, Except.bind] using he
        obtain ⟨r, a, h⟩ := (h2 _).1 e2
        exact ⟨r, .inr ⟨_, a, .inl rfl, h⟩⟩
      | ok u =>
        rw [e2] at he
        cases e3 : castArg args m .ncrit castN with
        | error e' =>
          rw [e3] at he
          obtain rfl : e' = e := by simpa [bind, Except.bind] using he
          obtain ⟨r, a, h⟩ := (h3 _).1 e3
          exact ⟨r, .inr ⟨_, a, .inr (.inl rfl), h⟩⟩
        | ok u =>
          rw [e3] at he
          obtain ⟨r, a, h⟩ := (h4 _).1 (by simpa [bind, Except.bind] using he)
          exact ⟨r, .inr ⟨_, a, .inr (.inr rfl), h⟩⟩
  constructor
  · intro h
    cases he : castArgs f args m with
    | error e => exact (hall e he).2
    | ok u => rw [he] at h; exact absurd h (hok he)
  · intro h
    cases he : castArgs f args m with
    | error e => rw [(hall e he).1]
    | ok u =>
      exfalso
      obtain ⟨c1, c2, c3, c4⟩ := castArgs_ok.1 he
      rcases h with h | ⟨t, a, rfl | rfl | rfl, h⟩
      · rw [(h1 _).2 ⟨rfl, h⟩] at c1; cases c1
      · rw [(h2 _).2 ⟨rfl, a, h⟩] at c2; cases c2
      · rw [(h3 _).2 ⟨rfl, a, h⟩] at c3; cases c3
      · rw [(h4 _).2 ⟨rfl, a, h⟩] at c4; cases c4

/-- A box size that is too large for `float`, and a negative `ncrit`. -/
example : GoodNums binary32 (numArgs .ncrit) (numMem (2 ^ 200) (.int (-5))) ∧ ctorCompiles 2 (numArgs .ncrit) = true ∧
    FirstArg (numArgs .ncrit) .boxSize ⟨.boxSize, .other 3, .rv, 2⟩ ∧ TooLarge binary32 ((numMem (2 ^ 200) (.int (-5))).num 2) ∧
    FirstArg (numArgs .ncrit) .ncrit ⟨.ncrit, .other 3, .rv, 3⟩ ∧ NoSize ((numMem (2 ^ 200) (.int (-5))).num 3) :=
  ⟨numMem_good ⟨1, 200, by decide, by decide, by decide +kernel, by norm_num⟩ ⟨by norm_num, by norm_num⟩ trivial, by decide +kernel, fetch_first.1 (by decide +kernel),
    ⟨by show 24 < 53; decide, .inr ⟨2 ^ 200, rfl, (Format.outside_iff binary32_std).2 (.inr (by decide +kernel))⟩⟩,
    fetch_first.1 (by decide +kernel), .inr ⟨_, rfl, .inl (by norm_num)⟩⟩

end

/-- C74: the parameters of the force functions: `G` and `eps` are the nearest values of the type of the library, by default 1 and 0; the call throws exactly if one of them is too large for it. -/
theorem C74_accpot (hf : f.Std) {args : List Arg} {m : NMem} (hg : GoodNums f args m) {tG tEps : KTag} {r : Except Bad (Fl ℚ × Fl ℚ)}
    (h : accPotNum f tG tEps args m = some r) :
    (∀ G eps, r = .ok (G, eps) →
      (¬ Given args tG → G = .fin 1) ∧ (∀ a, FirstArg args tG a → Arrives f (m.num a.obj) G) ∧
      (¬ Given args tEps → eps = .fin 0) ∧ ∀ a, FirstArg args tEps a → Arrives f (m.num a.obj) eps) ∧
    ∀ e, r = .error e ↔ e = .badCast ∧ ∃ t a, (t = tG ∨ t = tEps) ∧ FirstArg args t a ∧ TooLarge f (m.num a.obj) := by
  unfold accPotNum at h
  split at h
  · cases h
  simp only [Option.some.injEq] at h
  have ng : ∀ t, ¬ Given args t → fetch args t = none := by
    intro t ht
    rw [← hasTag_given, ← fetch_isSome] at ht
    exact Option.not_isSome_iff_eq_none.1 ht
  have one : ∀ t (dflt : Fl ℚ),
      (∀ x, fltArg f args m t dflt = .ok x →
        (¬ Given args t → x = dflt) ∧ ∀ a, FirstArg args t a → Arrives f (m.num a.obj) x) ∧
      ∀ e, fltArg f args m t dflt = .error e ↔
        e = .badCast ∧ ∃ a, FirstArg args t a ∧ TooLarge f (m.num a.obj) := by
    intro t dflt
    unfold fltArg
    cases ha : fetch args t with
    | none =>
      have hno : ∀ a, ¬ FirstArg args t a := fun a h' => by rw [← fetch_first, ha] at h'; cases h'
      refine ⟨fun x hx => ⟨fun _ => ?_, fun a h' => absurd h' (hno a)⟩, fun e => ?_⟩
      · simpa using hx.symm
      · simp [hno]
    | some a =>
      have hfa := fetch_first.1 ha
      refine ⟨fun x hx => ⟨fun hG => ?_, fun b hb => ?_⟩, fun e => ?_⟩
      · rw [ng t hG] at ha; cases ha
      · obtain rfl : a = b := by rw [← fetch_first, ha] at hb; exact Option.some.inj hb
        exact cast_arrives hf (hg _ _ hfa).1 (hg _ _ hfa).2 hx
      · simp only
        rw [(C74_outcome hf (hg _ _ hfa).1).1 e]
        constructor
        · rintro ⟨r, h'⟩
          exact ⟨r, a, hfa, h'⟩
        · rintro ⟨r, b, hb, h'⟩
          obtain rfl : a = b := by rw [← fetch_first, ha] at hb; exact Option.some.inj hb
          exact ⟨r, h'⟩
  obtain ⟨g1, g2⟩ := one tG (.fin 1)
  obtain ⟨p1, p2⟩ := one tEps (.fin 0)
  cases e1 : fltArg f args m tG (.fin 1) with
  | error e' =>
    rw [e1] at h
    have hr : r = .error e' := by rw [← h]; rfl
    subst hr
    refine ⟨by simp, fun e => ?_⟩
    obtain ⟨rfl, a, ha⟩ := (g2 _).1 e1
    constructor
    · intro he
      cases he
      exact ⟨rfl, _, a, .inl rfl, ha⟩
    · rintro ⟨rfl, _⟩; rfl
  | ok G =>
    rw [e1] at h
    cases e2 : fltArg f args m tEps (.fin 0) with
    | error e' =>
      rw [e2] at h
      have hr : r = .error e' := by rw [← h]; rfl
      subst hr
      refine ⟨by simp, fun e => ?_⟩
      obtain ⟨rfl, a, ha⟩ := (p2 _).1 e2
      constructor
      · intro he
        cases he
        exact ⟨rfl, _, a, .inr rfl, ha⟩
      · rintro ⟨rfl, _⟩; rfl
    | ok eps =>
      rw [e2] at h
      have hr : r = .ok (G, eps) := by rw [← h]; rfl
      subst hr
      refine ⟨fun G' eps' he => ?_, fun e => ?_⟩
      · simp only [Except.ok.injEq, Prod.mk.injEq] at he
        obtain ⟨rfl, rfl⟩ := he
        exact ⟨(g1 _ e1).1, (g1 _ e1).2, (p1 _ e2).1, (p1 _ e2).2⟩
      · constructor
        · intro he; cases he
        · rintro ⟨rfl, t, a, rfl | rfl, ha⟩
          · rw [(g2 _).2 ⟨rfl, a, ha⟩] at e1; cases e1
          · rw [(p2 _).2 ⟨rfl, a, ha⟩] at e2; cases e2

/-- `G` given as an integer, `eps` as a `double`; the second one arrives as zero if it is too small. -/
example :
    accPotNum binary32 (.other 0) (.other 1) [.named ⟨.other 1, .other 0, .rv, 2⟩, .named ⟨.other 0, .other 0, .rv, 1⟩] (numMem (1 / 2) (.int 0)) = some (.ok (.fin 2, .fin (1 / 2))) ∧
    accPotNum binary32 (.other 0) (.other 1) [.named ⟨.other 1, .other 0, .rv, 2⟩] (numMem (1 / 2 ^ 200) (.int 0)) = some (.ok (.fin 1, .fin 0)) ∧
    accPotNum binary32 (.other 0) (.other 1) [.named ⟨.other 1, .other 0, .rv, 2⟩] (numMem (2 ^ 200) (.int 0)) = some (.error .badCast) := by decide +kernel

/-- C74: a call of a force function compiles exactly if all its arguments are named and no two of them have the same keyword, type and kind of reference. -/
theorem C74_compiles (f : Format) (tG tEps : KTag) (args : List Arg) (m : NMem) : (accPotNum f tG tEps args m).isSome = true ↔
    (∀ x ∈ args, ∃ a, x = Arg.named a) ∧
    ∀ (i j : Nat) (a b : KArg), i < j → args[i]? = some (Arg.named a) → args[j]? = some (Arg.named b) → a.tag = b.tag → a.ty = b.ty → a.cat ≠ b.cat := by
  have hdup : hasDuplicates args = false ↔
      ∀ (i j : Nat) (a b : KArg), i < j → args[i]? = some (Arg.named a) → args[j]? = some (Arg.named b) → a.tag = b.tag → a.ty = b.ty → a.cat ≠ b.cat := by
    rw [← Bool.not_eq_true, C50_detected_partial]
    push Not
    rfl
  have hun : hasUnnamed args = false ↔ ∀ x ∈ args, ∃ a, x = Arg.named a := by
    rw [← Bool.not_eq_true]
    unfold hasUnnamed
    rw [List.any_eq_true]
    push Not
    refine forall₂_congr (fun x _ => ?_)
    cases x <;> simp
  rw [← hun, ← hdup]
  unfold accPotNum
  cases hasDuplicates args <;> cases hasUnnamed args <;> simp

/-- Two values for `G`, both rvalues of the same type; the same as an rvalue and an lvalue; a call with a value that has no name. -/
example : accPotNum binary32 (.other 0) (.other 1) [.named ⟨.other 0, .other 0, .rv, 2⟩, .named ⟨.other 0, .other 0, .rv, 1⟩] (numMem 1 (.int 0)) = none ∧
    (accPotNum binary32 (.other 0) (.other 1) [.named ⟨.other 0, .other 0, .rv, 2⟩, .named ⟨.other 0, .other 0, .lv, 1⟩] (numMem 1 (.int 0))).isSome = true ∧
    accPotNum binary32 (.other 0) (.other 1) [.named ⟨.other 0, .other 0, .rv, 2⟩, .unnamed] (numMem 1 (.int 0)) = none := by decide +kernel

/-- C74 is false for integer parameters: a value of `max_leaf_n` or `ncrit` that is not an integer is truncated, without an exception, -/
theorem C74_truncated_fails :
    castN (.flt binary64 (.fin (5 / 2))) = .ok 2 ∧ ¬ (∃ k : Nat, val (.flt binary64 (.fin (5 / 2))) = some (k : ℚ)) ∧
    (match ctorNum binary32 false none .bh 64 2 [] (numArgs .maxLeafN) (numMem 100 (.flt binary64 (.fin (5 / 2)))) with
      | .run inp _ => decide (inp.maxLeaf = 2)
      | _ => false) = true := by
  refine ⟨by decide +kernel, ?_, by decide +kernel⟩
  rintro ⟨k, hk⟩
  simp only [val, Option.some.injEq] at hk
  have h2 : (k : ℚ) * 2 = 5 := by rw [← hk]; norm_num
  have : k * 2 = 5 := by exact_mod_cast h2
  omega

/-- ... and NaN is undefined behaviour: in any call that compiles in which `max_leaf_n` is NaN and the box size is not too large, whatever the other arguments. -/
theorem C74_nan_fails {fused : Bool} {simd : Option (Simd ℚ)} {mac : Mac} {w d : Nat} {junk : List (Fl ℚ)} {args : List Arg} {m : NMem} {a : KArg} (hf : f.Std) (hg : GoodNums f args m)
    (hc : ctorCompiles d args = true) (hb : ∀ b, FirstArg args .boxSize b → ¬ TooLarge f (m.num b.obj)) (ha : FirstArg args .maxLeafN a) (hn : IsNan (m.num a.obj)) :
    ctorNum f fused simd mac w d junk args m = .ub := by
  have h1 : castArg args m .boxSize (castF f) = .ok () := by
    cases h : castArg args m .boxSize (castF f) with
    | ok u => rfl
    | error e =>
      obtain ⟨b, hb1, hb2⟩ := castArg_error.1 h
      exact absurd (((C74_outcome hf (hg _ _ (fetch_first.1 hb1)).1).1 e).1 hb2).2 (hb b (fetch_first.1 hb1))
  have h2 : castArg args m .maxLeafN castN = .error .ub := castArg_error.2 ⟨a, fetch_first.2 ha, (C74_size _).2.2.2 hn⟩
  have h3 : castArgs f args m = .error .ub := by
    unfold castArgs
    rw [h1, h2]
    rfl
  unfold ctorNum
  rw [hc, h3]
  rfl

example : GoodNums binary32 (numArgs .maxLeafN) (numMem 100 (.flt binary64 .nan)) ∧ ctorCompiles 2 (numArgs .maxLeafN) = true ∧
    FirstArg (numArgs .maxLeafN) .maxLeafN ⟨.maxLeafN, .other 3, .rv, 3⟩ ∧ IsNan ((numMem 100 (.flt binary64 .nan)).num 3) ∧
    castF binary32 ((numMem 100 (.flt binary64 .nan)).num 2) = .ok (.fin 100) :=
  ⟨numMem_good ⟨100, 0, by decide, by decide, by decide +kernel, by norm_num⟩ trivial (.inl (by decide)), by decide +kernel, fetch_first.1 (by decide +kernel), ⟨_, rfl⟩, by decide +kernel⟩

end Rakau
