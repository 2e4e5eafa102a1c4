import Verif.Model.Kwargs
import Verif.Model.Round
import Verif.Model.Split

/-!
Parameters given in other arithmetic types than the one of the library: `boost::numeric_cast` of keyword arguments
(include/rakau/tree.hpp:1590-1613, 1696, 3389-3396).

`boost::numeric_cast` is modelled from its documentation: conversions to an integer type and from a floating-point type to one of lower precision check
the range, others do not; values are truncated on conversion to integers and otherwise rounded as by `static_cast`. The bounds are exact: for `float` and `double`
the bound `2^64` is computed as `2^64 - 1`, which rounds to `2^64`, plus one, which leaves it unchanged.
-/
namespace Rakau

/-- A number of some arithmetic type: of an integer type, or of a floating-point type with the given format. -/
inductive Num
  | int (v : ℤ)
  | flt (g : Format) (x : Fl ℚ)

/-- `std::numeric_limits<F>::max()`; the lowest value is its negative. -/
def Format.highest (f : Format) : ℚ := (2 ^ f.prec - 1) * 2 ^ ((f.emax : ℤ) - f.prec)

/-- `static_cast` from one floating-point type to another. -/
def Format.conv (f : Format) : Fl ℚ → Fl ℚ
  | .nan => .nan
  | .inf s => .inf s
  | .fin q => f.rnd q

/-- How a conversion fails: `boost::bad_numeric_cast`, or undefined behaviour. -/
inductive Bad
  | badCast | ub
  deriving DecidableEq

/-- `boost::numeric_cast<F>` (tree.hpp:1593, 3392, 3395). -/
def castF (f : Format) : Num → Except Bad (Fl ℚ)
  | .int v => .ok (f.rnd v)
  | .flt g x =>
    if decide (f.prec < g.prec) && (x.lt (.fin (-f.highest)) || Fl.lt (.fin f.highest) x) then .error .badCast else .ok (f.conv x)

/-- `boost::numeric_cast<size_type>` (tree.hpp:1602, 1609, 1696). -/
def castN : Num → Except Bad Nat
  | .int v => match castSize v with
    | some n => .ok n
    | none => .error .badCast
  | .flt _ x => match castSz x with
    | .ok n => .ok n
    | .error .ub => .error .ub
    | .error _ => .error .badCast

/-- The values of objects: particle data, and numbers of any types. -/
structure NMem where
  vec : Nat → List (Fl ℚ)
  num : Nat → Num

/-- The values after conversion. -/
def NMem.conv (m : NMem) (f : Format) : Mem (Fl ℚ) :=
  ⟨m.vec, fun o => match castN (m.num o) with
    | .ok n => n
    | .error _ => 0, fun o => match castF f (m.num o) with
    | .ok x => x
    | .error _ => .nan⟩

/-- A conversion of the argument with keyword `t`, if it is given. -/
def castArg {α : Type} (args : List Arg) (m : NMem) (t : KTag) (cast : Num → Except Bad α) : Except Bad Unit :=
  match fetch args t with
  | some a => (cast (m.num a.obj)).map (fun _ => ())
  | none => .ok ()

/-- The conversions by the generic constructor, in order (tree.hpp:1590-1613, 1696). -/
def castArgs (f : Format) (args : List Arg) (m : NMem) : Except Bad Unit := do
  castArg args m .boxSize (castF f)
  castArg args m .maxLeafN castN
  castArg args m .ncrit castN
  castArg args m .nparts castN

/-- The generic constructor before `construct_impl` (tree.hpp:1573-1724), with parameters of any arithmetic types. -/
def ctorNum (f : Format) (fused : Bool) (simd : Option (Simd ℚ)) (mac : Mac) (w d : Nat) (junk : List (Fl ℚ)) (args : List Arg) (m : NMem) :
    CtorOut (rakauEnv (f.ieee fused) simd mac w d) :=
  if !ctorCompiles d args then .noCompile else
  match castArgs f args m with
  | .error .badCast => .badCast
  | .error .ub => .ub
  | .ok () => ctorArgs (rakauEnv (f.ieee fused) simd mac w d) junk args (m.conv f)

/-- A floating-point argument, or its default value (tree.hpp:3389-3396). -/
def fltArg (f : Format) (args : List Arg) (m : NMem) (t : KTag) (dflt : Fl ℚ) : Except Bad (Fl ℚ) :=
  match fetch args t with
  | some a => castF f (m.num a.obj)
  | none => .ok dflt

/-- `parse_accpot_kwargs` (tree.hpp:3376-3403) without the split argument, with parameters of any arithmetic types. -/
def accPotNum (f : Format) (tG tEps : KTag) (args : List Arg) (m : NMem) : Option (Except Bad (Fl ℚ × Fl ℚ)) :=
  if hasDuplicates args || hasUnnamed args then none else some (do
    let G ← fltArg f args m tG (.fin 1)
    let eps ← fltArg f args m tEps (.fin 0)
    .ok (G, eps))

end Rakau
