import Verif.Model.Asserts

/-! Model of the encoding and decoding methods of the bundled libmorton (include/rakau/detail/libmorton) that rakau does not call itself, and of the
generators of its tables. The code type has `mw` bits, the coordinate type `cw` bits. A shift by the width of its (promoted) operand or more, a conversion
of a `float` that does not fit, and an access through a pointer to another type are undefined behaviour, modelled as `none`. The terms for `x`, `y` and `z`
of one round of a loop do not depend on each other; they are modelled as one loop per coordinate, with the same rounds. -/
namespace Rakau

/-- What differs between platforms: the branch of `findFirstSetBitZeroIdx` (morton_common.h:13-37) and the width of `uint_fast32_t`, the element type of
the 32-bit masks. -/
inductive Comp
  | gcc | win32 | win64
deriving DecidableEq

structure Plat where
  comp : Comp
  fast : Nat

/-- `findFirstSetBit` (morton_common.h:11-47) for a `w`-bit type: `none` is the return value `false`, `some k` is `true` with `k` at the location. With
gcc, `(sizeof(morton) * 8) - __builtin_clzll(x) - 1` is computed in the 64-bit type `unsigned long`, and `clzll` counts in 64 bits. -/
def firstSetBit (p : Plat) (w x : Nat) : Option Nat :=
  match p.comp with
  | .gcc => if x = 0 then none else some ((subW 64 (subW 64 w (builtinClz 64 x)) 1 + 1) % 2 ^ 64)
  | .win64 => (bitScanReverse 64 x).map (· + 1)
  | .win32 =>
    if w ≤ 32 then (bitScanReverse 32 x).map (· + 1)
    else match bitScanReverse 32 (x >>> 32) with
      | some l => some (l + 32 + 1)
      | none => (bitScanReverse 32 (x &&& 0xFFFFFFFF)).map (· + 1)

/-! ### Encoders -/

/-- One round of `m2D_e_LUT` (morton2D.h:54-58). -/
def encL2Step (mw x y answer shift : Nat) : Nat :=
  ((answer <<< 16) % 2 ^ mw ||| lut lut2ex ((y >>> shift) &&& 0xFF) <<< 1 ||| lut lut2ex ((x >>> shift) &&& 0xFF)) % 2 ^ mw

/-- One round of `m3D_e_LUT` (morton3D.h:56-61). -/
def encL3Step (mw x y z answer shift : Nat) : Nat :=
  ((answer <<< 24) % 2 ^ mw ||| lut lut3ex ((z >>> shift) &&& 0xFF) <<< 2 ||| lut lut3ex ((y >>> shift) &&& 0xFF) <<< 1 |||
    lut lut3ex ((x >>> shift) &&& 0xFF)) % 2 ^ mw

/-- `m2D_e_LUT`, `m3D_e_LUT` (morton2D.h:50-61, morton3D.h:52-64). -/
def encL (mw cw : Nat) : List Nat → Nat
  | [x, y] => (lutShifts cw).foldl (encL2Step mw x y) 0
  | [x, y, z] => (lutShifts cw).foldl (encL3Step mw x y z) 0
  | _ => 0

/-- The loop `while (maxbit >= i)` of `compute2D_ET_LUT_encode` (morton2D.h:70-73). The first argument bounds the number of rounds: in the tenth round
`i` would be 72 and the shift of `c` undefined. -/
def et2Loop (mw cw : Nat) (t : List Nat) (c maxbit : Nat) : Nat → Nat → Nat → Option Nat
  | 0, _, _ => none
  | n + 1, i, answer =>
    if i ≤ maxbit then do
      let u ← shr (max cw 32) c i
      let v ← shl mw (lut t (u &&& 0xFF)) (i * 2)
      et2Loop mw cw t c maxbit n (i + 8) (answer ||| v)
    else some answer

/-- `compute2D_ET_LUT_encode` (morton2D.h:64-75). It takes a pointer to `coord`, so it compiles only if `coord` is the type of the entries of the table. -/
def et2 (p : Plat) (mw cw : Nat) (t : List Nat) (c : Nat) : Option Nat :=
  match firstSetBit p cw c with
  | none => some 0
  | some maxbit => et2Loop mw cw t c maxbit 10 0 0

/-- The loop of `compute3D_ET_LUT_encode` from round `i` down to 0 (morton3D.h:72-75). -/
def et3Loop (mw cw : Nat) (t : List Nat) (c : Nat) : Nat → Nat → Option Nat
  | 0, answer => some ((answer <<< 24) % 2 ^ mw ||| lut t (c &&& 0xFF) % 2 ^ mw)
  | i + 1, answer => do
    let u ← shr (max cw 32) c ((i + 1) * 8)
    et3Loop mw cw t c i ((answer <<< 24) % 2 ^ mw ||| lut t (u &&& 0xFF) % 2 ^ mw)

/-- `compute3D_ET_LUT_encode` (morton3D.h:67-77). `(int)ceil((maxbit + 1) / 8.0f)` is exact for locations up to 64; the other locations that occur (next to
`2^64`) give a number outside `int`. -/
def et3 (p : Plat) (mw cw : Nat) (t : List Nat) (c : Nat) : Option Nat :=
  match firstSetBit p cw c with
  | none => some 0
  | some maxbit =>
    let q := ((maxbit + 1) % 2 ^ 64 + 7) / 8
    if q < 2 ^ 31 then et3Loop mw cw t c q 0 else none

/-- The masks of the magic bits methods, read through a pointer to the code type (morton2D.h:102, 213, morton3D.h:108, 235): `uint_fast32_t` entries for codes
of at most 32 bits, `uint_fast64_t` entries otherwise. The access is defined if the types agree. -/
def masks (p : Plat) (mw : Nat) (m32 m64 : List Nat) : Option (List Nat) :=
  if mw ≤ 32 then (if mw = p.fast then some m32 else none) else (if mw = 64 then some m64 else none)

/-- `magicbit2D_masks32`, `magicbit2D_masks64` (morton2D.h:96-97). -/
def m2m32 : List Nat := [0xFFFFFFFF, 0x0000FFFF, 0x00FF00FF, 0x0F0F0F0F, 0x33333333, 0x55555555]
def m2m64 : List Nat :=
  [0x00000000FFFFFFFF, 0x0000FFFF0000FFFF, 0x00FF00FF00FF00FF, 0x0F0F0F0F0F0F0F0F, 0x3333333333333333, 0x5555555555555555]

/-- `magicbit3D_masks32_encode`, `magicbit3D_masks64_encode`, `magicbit3D_masks32_decode`, `magicbit3D_masks64_decode` (morton3D.h:102-103, 229-230). -/
def m3e32 : List Nat := [0x000003ff, 0, 0x30000ff, 0x0300f00f, 0x30c30c3, 0x9249249]
def m3e64 : List Nat := [0x1fffff, 0x1f00000000ffff, 0x1f0000ff0000ff, 0x100f00f00f00f00f, 0x10c30c30c30c30c3, 0x1249249249249249]
def m3d32 : List Nat := [0, 0x000003ff, 0x30000ff, 0x0300f00f, 0x30c30c3, 0x9249249]
def m3d64 : List Nat := [0x1fffff, 0x1f00000000ffff, 0x1f0000ff0000ff, 0x100f00f00f00f00f, 0x10c30c30c30c30c3, 0x1249249249249249]

/-- One step of the magic bits encoders: `x = (x | x << s) & mask`. -/
def spreadStep (mw s mask x : Nat) : Nat := (x ||| (x <<< s) % 2 ^ mw) &&& mask

/-- `morton2D_SplitBy2Bits` (morton2D.h:100-111). -/
def split2 (mw : Nat) (k : List Nat) (a : Nat) : Nat :=
  let x := a % 2 ^ mw
  let x := if mw > 32 then spreadStep mw 32 (k.getD 0 0) x else x
  let x := spreadStep mw 16 (k.getD 1 0) x
  let x := spreadStep mw 8 (k.getD 2 0) x
  let x := spreadStep mw 4 (k.getD 3 0) x
  let x := spreadStep mw 2 (k.getD 4 0) x
  spreadStep mw 1 (k.getD 5 0) x

/-- `morton3D_SplitBy3bits` (morton3D.h:106-116). -/
def split3 (mw : Nat) (k : List Nat) (a : Nat) : Nat :=
  let x := a % 2 ^ mw &&& k.getD 0 0
  let x := if mw = 64 then spreadStep mw 32 (k.getD 1 0) x else x
  let x := spreadStep mw 16 (k.getD 2 0) x
  let x := spreadStep mw 8 (k.getD 3 0) x
  let x := spreadStep mw 4 (k.getD 4 0) x
  spreadStep mw 2 (k.getD 5 0) x

/-- The part of coordinate `j` of `d` in the loop of `m2D_e_for`, `m3D_e_for` (morton2D.h:124-130, morton3D.h:131-137) with `n` rounds:
`(x & (1 << i)) << ((d - 1) * i + j)`, computed in the wider of the two types. -/
def encForC (mw cw d j n x : Nat) : Option Nat :=
  (List.range n).foldlM (fun answer i => do
    let one ← shl mw 1 i
    let v ← shl (max mw cw) (x &&& one) ((d - 1) * i + j)
    return (answer ||| v) % 2 ^ mw) 0

/-- The number of rounds of `m2D_e_for`, `m3D_e_for` (morton2D.h:123, morton3D.h:130). -/
def forBits (mw d : Nat) : Nat := mw / d

/-- The number of rounds of `m2D_e_for_ET`, `m3D_e_for_ET` (morton2D.h:138-142, morton3D.h:146-151): the locations are those of the coordinates converted
to the code type, 0 if there is no bit. -/
def forETBits (p : Plat) (mw : Nat) (xs : List Nat) : Nat :=
  min (forBits mw xs.length) (((xs.map (fun x => (firstSetBit p mw (x % 2 ^ mw)).getD 0)).foldr max 0 + 1) % 2 ^ 64)

/-- `a | b | c` of terms, one for each coordinate. -/
def orAll : List (Option Nat) → Option Nat
  | [] => some 0
  | a :: as => do return (← a) ||| (← orAll as)

/-- The methods of encoding and of decoding. -/
inductive Method
  | sLUT | lut | sLUTET | lutET | magic | loop | loopET | bmi
deriving DecidableEq

/-- All encoders: `m2D_e_sLUT`, `m2D_e_LUT`, `m2D_e_sLUT_ET`, `m2D_e_LUT_ET`, `m2D_e_magicbits`, `m2D_e_for`, `m2D_e_for_ET`, `m2D_e_BMI`
(morton2D.h:36-150, morton_BMI.h:26-32) and the same in 3 dimensions (morton3D.h:37-160, morton_BMI.h:44-51). -/
def libEncode (p : Plat) (t : Method) (mw cw : Nat) (xs : List Nat) : Option Nat :=
  match t, xs with
  | .sLUT, _ => some (encLUT mw cw xs)
  | .lut, _ => some (encL mw cw xs)
  | .bmi, _ => some (encBMI mw xs)
  | .loop, _ => orAll (xs.zipIdx.map (fun (x, j) => encForC mw cw xs.length j (forBits mw xs.length) x))
  | .loopET, _ => orAll (xs.zipIdx.map (fun (x, j) => encForC mw cw xs.length j (forETBits p mw xs) x))
  | .sLUTET, [x, y] => orAll [et2 p mw cw lut2ex x, et2 p mw cw lut2ey y]
  | .lutET, [x, y] => orAll [et2 p mw cw lut2ex x, (et2 p mw cw lut2ex y).map (fun a => (a <<< 1) % 2 ^ mw)]
  | .sLUTET, [x, y, z] => orAll [et3 p mw cw lut3ex x, et3 p mw cw lut3ey y, et3 p mw cw lut3ez z]
  | .lutET, [x, y, z] => orAll [et3 p mw cw lut3ex x, (et3 p mw cw lut3ex y).map (fun a => (a <<< 1) % 2 ^ mw),
      (et3 p mw cw lut3ex z).map (fun a => (a <<< 2) % 2 ^ mw)]
  | .magic, [x, y] => do
    let k ← masks p mw m2m32 m2m64
    return split2 mw k x ||| (split2 mw k y <<< 1) % 2 ^ mw
  | .magic, [x, y, z] => do
    let k ← masks p mw m3e32 m3e64
    return split3 mw k x ||| (split3 mw k y <<< 1) % 2 ^ mw ||| (split3 mw k z <<< 2) % 2 ^ mw
  | _, _ => none

/-! ### Decoders -/

/-- `morton2D_DecodeCoord_LUT256`, `morton3D_DecodeCoord_LUT256` (morton2D.h:153-161, morton3D.h:165-173) with `startshift = o`; `c` code bits give `s` bits
in each of `loops` rounds. -/
def decLUT (mw cw c s loops : Nat) (t : List Nat) (m o : Nat) : Option Nat := do
  let a ← (List.range loops).foldlM (fun a i => do
    let u ← shr mw m (i * c + o)
    return a ||| (lut t (u &&& (2 ^ c - 1)) <<< (s * i)) % 2 ^ mw) 0
  return a % 2 ^ cw

/-- The loop `while (firstbit_location > i)` of the early termination decoders (morton2D.h:185-191, 202-207, morton3D.h:199-206, 218-224), for one coordinate
with its table and its offset `o`. The first argument bounds the number of rounds: in the ninth round `i` would be at least 64 and the shift of `m` undefined. -/
def decETLoop (mw cw c s : Nat) (t : List Nat) (m o loc : Nat) : Nat → Nat → Nat → Nat → Option Nat
  | 0, _, _, _ => none
  | n + 1, i, back, x =>
    if i < loc then do
      let u ← shr mw m (i + o)
      let v ← shl (max cw 32) (lut t (u &&& (2 ^ c - 1))) back
      decETLoop mw cw c s t m o loc n (i + c) (back + s) ((x ||| v) % 2 ^ cw)
    else some x

/-- One coordinate of `m2D_d_sLUT_ET`, `m2D_d_LUT_ET`, `m3D_d_sLUT_ET`, `m3D_d_LUT_ET` (morton2D.h:178-208, morton3D.h:192-226). -/
def decET (p : Plat) (mw cw c s : Nat) (t : List Nat) (m o : Nat) : Option Nat :=
  match firstSetBit p mw m with
  | none => some 0
  | some loc => decETLoop mw cw c s t m o loc 9 0 0 0

/-- One step of the magic bits decoders: `x = (x ^ (x >> s)) & mask`. -/
def gatherStep (s mask x : Nat) : Nat := (x ^^^ (x >>> s)) &&& mask

/-- `morton2D_GetSecondBits` (morton2D.h:211-221). -/
def get2 (mw cw : Nat) (k : List Nat) (m : Nat) : Nat :=
  let x := m &&& k.getD 5 0
  let x := gatherStep 1 (k.getD 4 0) x
  let x := gatherStep 2 (k.getD 3 0) x
  let x := gatherStep 4 (k.getD 2 0) x
  let x := gatherStep 8 (k.getD 1 0) x
  let x := if mw > 32 then gatherStep 16 (k.getD 0 0) x else x
  x % 2 ^ cw

/-- `morton3D_GetThirdBits` (morton3D.h:233-243). -/
def get3 (mw cw : Nat) (k : List Nat) (m : Nat) : Nat :=
  let x := m &&& k.getD 5 0
  let x := gatherStep 2 (k.getD 4 0) x
  let x := gatherStep 4 (k.getD 3 0) x
  let x := gatherStep 8 (k.getD 2 0) x
  let x := gatherStep 16 (k.getD 1 0) x
  let x := if mw > 32 then gatherStep 32 (k.getD 0 0) x else x
  x % 2 ^ cw

/-- Coordinate `j` of `d` in the loops of `m2D_d_for`, `m2D_d_for_ET`, `m3D_d_for`, `m3D_d_for_ET` (morton2D.h:237-242, 253-258, morton3D.h:259-266, 277-284)
for `i = 0, ..., n` — the bound is included: `(m & (1 << (d * i + j))) >> ((d - 1) * i + j)`. -/
def decForC (mw cw d j n m : Nat) : Option Nat :=
  (List.range (n + 1)).foldlM (fun x i => do
    let one ← shl mw 1 (d * i + j)
    let v ← shr mw (m &&& one) ((d - 1) * i + j)
    return (x ||| v) % 2 ^ cw) 0

/-- `_pext_u32`/`_pext_u64` on `n` bits: the bits of `src` at the places of the one bits of `mask`, next to each other. -/
def pext : Nat → Nat → Nat → Nat
  | 0, _, _ => 0
  | n + 1, src, mask => if mask % 2 = 1 then src % 2 + 2 * pext n (src / 2) (mask / 2) else pext n (src / 2) (mask / 2)

/-- `m2D_d_BMI`, `m3D_d_BMI` (morton_BMI.h:34-38, 53-58). -/
def decBMI (mw cw d m : Nat) : Option (List Nat) :=
  if d = 2 then some [pext mw m (0x5555555555555555 % 2 ^ mw) % 2 ^ cw, pext mw m (0xAAAAAAAAAAAAAAAA % 2 ^ mw) % 2 ^ cw]
  else if d = 3 then some [pext mw m (0x9249249249249249 % 2 ^ mw) % 2 ^ cw, pext mw m (0x2492492492492492 % 2 ^ mw) % 2 ^ cw,
    pext mw m (0x4924924924924924 % 2 ^ mw) % 2 ^ cw]
  else none

/-- The rounds of the early termination loops: `min(defaultbits, firstbit_location / 2.0f)` (morton2D.h:251-252, morton3D.h:275-276) as an integer. The division
is exact enough for locations up to 64; for the others that occur (next to `2^64`) the minimum is the first number. -/
def decForETBits (mw d loc : Nat) : Nat := min (mw / d) (loc / d)

/-- All decoders (morton2D.h:163-259, morton3D.h:175-285, morton_BMI.h:34-58) in `d` dimensions. -/
def libDecode (p : Plat) (t : Method) (mw cw d m : Nat) : Option (List Nat) :=
  match t, d with
  | .sLUT, 2 => [(lut2dx, 0), (lut2dy, 0)].mapM (fun (t, o) => decLUT mw cw 8 4 (mw / 8) t m o)
  | .sLUT, 3 => [(lut3dx, 0), (lut3dy, 0), (lut3dz, 0)].mapM (fun (t, o) => decLUT mw cw 9 3 (if mw ≤ 32 then 4 else 7) t m o)
  | .lut, 2 => [(lut2dx, 0), (lut2dx, 1)].mapM (fun (t, o) => decLUT mw cw 8 4 (mw / 8) t m o)
  | .lut, 3 => [(lut3dx, 0), (lut3dx, 1), (lut3dx, 2)].mapM (fun (t, o) => decLUT mw cw 9 3 (if mw ≤ 32 then 4 else 7) t m o)
  | .sLUTET, 2 => [(lut2dx, 0), (lut2dy, 0)].mapM (fun (t, o) => decET p mw cw 8 4 t m o)
  | .sLUTET, 3 => [(lut3dx, 0), (lut3dy, 0), (lut3dz, 0)].mapM (fun (t, o) => decET p mw cw 9 3 t m o)
  | .lutET, 2 => [(lut2dx, 0), (lut2dx, 1)].mapM (fun (t, o) => decET p mw cw 8 4 t m o)
  | .lutET, 3 => [(lut3dx, 0), (lut3dx, 1), (lut3dx, 2)].mapM (fun (t, o) => decET p mw cw 9 3 t m o)
  | .magic, 2 => do
    let k ← masks p mw m2m32 m2m64
    return [get2 mw cw k m, get2 mw cw k (m >>> 1)]
  | .magic, 3 => do
    let k ← masks p mw m3d32 m3d64
    return [get3 mw cw k m, get3 mw cw k (m >>> 1), get3 mw cw k (m >>> 2)]
  | .loop, d => (List.range d).mapM (fun j => decForC mw cw d j (forBits mw d) m)
  | .loopET, d =>
    match firstSetBit p mw m with
    | none => some (List.replicate d 0)
    | some loc => (List.range d).mapM (fun j => decForC mw cw d j (decForETBits mw d loc) m)
  | .bmi, d => decBMI mw cw d m
  | _, _ => none

/-! ### Generators of the tables -/

/-- `generate2D_EncodeLUT` (morton_LUT_generators.h:18-34), without printing: `(x_table, y_table)`; `f16` is the width of `uint_fast16_t`. -/
def genEnc2 (p : Plat) (f16 bits : Nat) : Option (List Nat × List Nat) := do
  let xs ← (List.range (2 ^ bits)).mapM (fun i => libEncode p .magic p.fast f16 [i % 2 ^ f16, 0])
  let ys ← (List.range (2 ^ bits)).mapM (fun i => libEncode p .magic p.fast f16 [0, i % 2 ^ f16])
  return (xs.map (· % 2 ^ f16), ys.map (· % 2 ^ f16))

/-- `generate2D_DecodeLUT` (morton_LUT_generators.h:36-52): the type of `i` is the 64-bit `size_t`, the tables have the 8-bit type `uint_fast8_t`. -/
def genDec2 (p : Plat) (bits : Nat) : Option (List (List Nat)) :=
  (List.range (2 ^ bits)).mapM (fun i => libDecode p .loop 64 8 2 i)

/-- `generate3D_EncodeLUT` (morton_LUT_generators.h:54-75). -/
def genEnc3 (p : Plat) (f16 bits : Nat) : Option (List Nat × List Nat × List Nat) := do
  let xs ← (List.range (2 ^ bits)).mapM (fun i => libEncode p .magic p.fast f16 [i % 2 ^ f16, 0, 0])
  let ys ← (List.range (2 ^ bits)).mapM (fun i => libEncode p .magic p.fast f16 [0, i % 2 ^ f16, 0])
  let zs ← (List.range (2 ^ bits)).mapM (fun i => libEncode p .magic p.fast f16 [0, 0, i % 2 ^ f16])
  return (xs, ys, zs)

/-- `generate3D_DecodeLUT` (morton_LUT_generators.h:77-100): 64-bit codes, then the 8-bit type of the tables. -/
def genDec3 (p : Plat) (bits : Nat) : Option (List (List Nat)) :=
  (List.range (2 ^ bits)).mapM (fun i => (libDecode p .magic 64 p.fast 3 i).map (·.map (· % 2 ^ 8)))

end Rakau
