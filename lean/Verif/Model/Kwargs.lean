import Verif.Model.State

/-!
Model of keyword arguments (include/rakau/detail/igor.hpp) and of the part of the generic constructor that checks and reads them
(include/rakau/tree.hpp:1552-1724).

An argument is described by what its type records: the tag, the type of the value without qualifiers, the kind of reference. The values live
in objects identified by numbers. Calls that do not compile are an outcome.
-/
namespace Rakau

/-- The tags of the constructor's keyword arguments (include/rakau/tree.hpp:599-626); `other` is any other tag. -/
inductive KTag
  | coords (j : Nat)
  | masses
  | nparts
  | boxSize
  | maxLeafN
  | ncrit
  | other (k : Nat)
  deriving DecidableEq

/-- The type of a value without const and reference: the vector type of the particle data (`f_vector<F>`), other ranges, other types. -/
inductive KTy
  | fvec
  | range (k : Nat)
  | other (k : Nat)
  deriving DecidableEq

/-- The kind of reference: `T &`, `const T &`, `T &&`, `const T &&`. -/
inductive KCat
  | lv
  | clv
  | rv
  | crv
  deriving DecidableEq

/-- `tagged_container<Tag, T>` (igor.hpp:41-47), the type of a named argument, with the object the reference refers to. -/
structure KArg where
  tag : KTag
  ty : KTy
  cat : KCat
  obj : Nat
  deriving DecidableEq

/-- An argument of a call: named or not. -/
inductive Arg
  | unnamed
  | named (a : KArg)
  deriving DecidableEq

/-- The tuple built by `build_parser_tuple` (igor.hpp:97-112): the named arguments in order. -/
def parserTuple : List Arg → List KArg
  | [] => []
  | .unnamed :: l => parserTuple l
  | .named a :: l => a :: parserTuple l

/-- `has` (igor.hpp:139-143). -/
def hasTag (args : List Arg) (t : KTag) : Bool := args.any (fun | .named a => a.tag == t | .unnamed => false)

/-- `has_unnamed_arguments` (igor.hpp:157-161). -/
def hasUnnamed (args : List Arg) : Bool := args.any (fun | .named _ => false | .unnamed => true)

/-- `std::is_same_v` of the types of two arguments: the object is not part of the type. -/
def sameType : Arg → Arg → Bool
  | .named a, .named b => a.tag == b.tag && a.ty == b.ty && a.cat == b.cat
  | .unnamed, .unnamed => true
  | _, _ => false

/-- `is_repeated_named_argument` (igor.hpp:178-188). -/
def isRepeated (args : List Arg) : Arg → Bool
  | .unnamed => false
  | .named a => decide (args.countP (sameType (.named a)) > 1)

/-- `has_duplicates` (igor.hpp:192-196). -/
def hasDuplicates (args : List Arg) : Bool := args.any (isRepeated args)

/-- `fetch_one_impl` (igor.hpp:208-226): the first argument with the tag. The reference kind of the result is that of the argument. -/
def fetch (args : List Arg) (t : KTag) : Option KArg := (parserTuple args).find? (fun a => a.tag == t)

/-- `is_range_v` of a type. -/
def KTy.isRange : KTy → Bool
  | .fvec => true
  | .range _ => true
  | .other _ => false

/-- The particle data arguments in order: coordinates, then masses. -/
def dataArgs (d : Nat) (args : List Arg) : List KArg :=
  (List.range d).filterMap (fun j => fetch args (.coords j)) ++ (fetch args .masses).toList

/-- The compile-time checks of the generic constructor (tree.hpp:1577-1639). -/
def ctorCompiles (d : Nat) (args : List Arg) : Bool :=
  !hasDuplicates args && !hasUnnamed args &&
  ((List.range d).all (fun j => hasTag args (.coords j)) && hasTag args .masses) &&
  match fetch args (.coords 0) with
  | some c => (dataArgs d args).all (fun a => a.ty == c.ty) && (c.ty.isRange != hasTag args .nparts)
  | none => false

/-- `gc_check_move_pdata` (tree.hpp:1564-1569): all the coordinates are non-const rvalue vectors. -/
def moveData (d : Nat) (args : List Arg) : Bool :=
  (List.range d).all (fun j => match fetch args (.coords j) with | some a => a.ty == .fvec && a.cat == .rv | none => false)

/-- The values of objects: ranges (for an iterator: the elements that can be reached from it), integers, and floating-point numbers. -/
structure Mem (F : Type) where
  vec : Nat → List F
  int : Nat → Int
  flt : Nat → F

/-- Initialisation of a vector from `std::move(x)` (tree.hpp:1706), `x` being the reference of an argument: a non-const vector is moved from, and
left with the content `junk`, a const vector is copied. -/
def moveFrom {F : Type} (junk : List F) (vec : Nat → List F) (a : KArg) : List F × (Nat → List F) :=
  match a.cat with
  | .lv | .rv => (vec a.obj, fun o => if o = a.obj then junk else vec o)
  | .clv | .crv => (vec a.obj, vec)

/-- The initialisation of the array of vectors, in order (tree.hpp:1703-1707). -/
def moveAll {F : Type} (junk : List F) : List KArg → (Nat → List F) → List (List F) × (Nat → List F)
  | [], vec => ([], vec)
  | a :: l, vec =>
    let (v, vec) := moveFrom junk vec a
    let (vs, vec) := moveAll junk l vec
    (v :: vs, vec)

/-- How the part of the constructor before `construct_impl` ends. -/
inductive CtorOut (env : Env)
  | noCompile
  /-- `boost::numeric_cast` throws. -/
  | badCast
  /-- An iterator is advanced too far, or (`Model/Numbers.lean`) a NaN is converted to an integer. -/
  | ub
  /-- The constructor goes on with this input, the objects having the given content. -/
  | run (inp : Input env) (vec : Nat → List env.F)

/-- `boost::numeric_cast<size_type>`. -/
def castSize (x : Int) : Option Nat := if 0 ≤ x ∧ x < 2 ^ 64 then some x.toNat else none

/-- An integer argument, or its default value (tree.hpp:1600-1613). -/
def intArg {F : Type} (args : List Arg) (mem : Mem F) (t : KTag) (dflt : Nat) : Option Nat :=
  match fetch args t with
  | some a => castSize (mem.int a.obj)
  | none => some dflt

/-- The particle data (tree.hpp:1659-1720). If the lengths of ranges differ, an exception is thrown before anything is moved: `Input.check` gives
the same exception for the data returned here. -/
def ctorData {F : Type} (junk : List F) (d : Nat) (args : List Arg) (mem : Mem F) : Option (Option (List (List F) × (Nat → List F))) :=
  let as := dataArgs d args
  let parts := as.map (fun a => mem.vec a.obj)
  if hasTag args .nparts then
    match intArg args mem .nparts 0 with
    | none => none
    | some n => if parts.all (fun v => n ≤ v.length) then some (some (parts.map (·.take n), mem.vec)) else some none
  else if parts.any (fun v => v.length != (parts.headD []).length) then some (some (parts, mem.vec))
  else if moveData d args then some (some (moveAll junk as mem.vec))
  else some (some (parts, mem.vec))

/-- The generic constructor before `construct_impl` (tree.hpp:1573-1724). The box size is of type `F`: its `numeric_cast` is the identity. -/
def ctorArgs (env : Env) (junk : List env.F) (args : List Arg) (mem : Mem env.F) : CtorOut env :=
  if !ctorCompiles env.d args then .noCompile
  else
    let box := (fetch args .boxSize).map (fun a => mem.flt a.obj)
    match intArg args mem .maxLeafN defaultMaxLeaf, intArg args mem .ncrit defaultNcrit with
    | some ml, some nc =>
      match ctorData junk env.d args mem with
      | none => .badCast
      | some none => .ub
      | some (some (parts, vec)) => .run ⟨box, ml, nc, parts⟩ vec
    | _, _ => .badCast

/-- `parse_accpot_kwargs` (tree.hpp:3376-3403) without the split argument: `none` if the call does not compile, otherwise `G` and `eps` (of
type `F`). `tG` and `tEps` are the tags of the two arguments, `one` and `zero` the default values. -/
def accPotArgs {F : Type} (tG tEps : KTag) (one zero : F) (args : List Arg) (mem : Mem F) : Option (F × F) :=
  if hasDuplicates args || hasUnnamed args then none
  else some (((fetch args tG).map (fun a => mem.flt a.obj)).getD one, ((fetch args tEps).map (fun a => mem.flt a.obj)).getD zero)

end Rakau
