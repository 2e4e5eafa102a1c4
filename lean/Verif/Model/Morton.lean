import Verif.Model.MortonTables
import Verif.Model.Bits

/-! Model of the table-driven Morton encoders and decoders used by rakau. -/
namespace Rakau

/-- Table read. The index is masked to the table size by every caller. -/
def lut (t : List Nat) (i : Nat) : Nat := t.getD i 0

/-- One iteration of the loop of `m3D_e_sLUT` (libmorton/morton3D.h:40-47) on a `w`-bit code type:
`answer = answer << 24 | (z256[(z >> shift) & 0xFF] | y256[..] | x256[..])`. -/
def enc3Step (w x y z answer shift : Nat) : Nat :=
  ((answer <<< 24) % 2 ^ w ||| (lut lut3ez ((z >>> shift) &&& 0xFF) ||| lut lut3ey ((y >>> shift) &&& 0xFF) |||
    lut lut3ex ((x >>> shift) &&& 0xFF))) % 2 ^ w

/-- `m3D_e_sLUT<morton, uint32_t>` (libmorton/morton3D.h:37-49): shifts 24, 16, 8, 0. -/
def enc3 (w x y z : Nat) : Nat := [24, 16, 8, 0].foldl (enc3Step w x y z) 0

/-- One iteration of the loop of `m2D_e_sLUT` (libmorton/morton2D.h:39-45). -/
def enc2Step (w x y answer shift : Nat) : Nat :=
  ((answer <<< 16) % 2 ^ w ||| lut lut2ey ((y >>> shift) &&& 0xFF) ||| lut lut2ex ((x >>> shift) &&& 0xFF)) % 2 ^ w

/-- `m2D_e_sLUT<morton, uint32_t>` (libmorton/morton2D.h:36-47). -/
def enc2 (w x y : Nat) : Nat := [24, 16, 8, 0].foldl (enc2Step w x y) 0

/-- `morton3D_DecodeCoord_LUT256` (libmorton/morton3D.h:165-175) with `startshift = 0`, `w`-bit codes and
`cw`-bit coordinates: `loops = (sizeof(morton) <= 4) ? 4 : 7`, final cast to the coordinate type. -/
def dec3 (w cw : Nat) (t : List Nat) (m : Nat) : Nat :=
  ((List.range (if w ≤ 32 then 4 else 7)).foldl
    (fun a i => a ||| (lut t ((m >>> (i * 9)) &&& 0x1FF) <<< (3 * i)) % 2 ^ w) 0) % 2 ^ cw

/-- `morton2D_DecodeCoord_LUT256` (libmorton/morton2D.h:153-161) with `startshift = 0`; `loops = sizeof(morton)`. -/
def dec2 (w cw : Nat) (t : List Nat) (m : Nat) : Nat :=
  ((List.range (w / 8)).foldl
    (fun a i => a ||| (lut t ((m >>> (i * 8)) &&& 0xFF) <<< (4 * i)) % 2 ^ w) 0) % 2 ^ cw

/-- `morton_encoder<NDim, UInt>` (tree.hpp:217-299): coordinates are first cast to `uint32_t`. Only 2 and 3
dimensions with 32/64-bit codes exist. -/
def mortonEncode (w : Nat) : List Nat → Option Nat
  | [x, y] => if w = 32 ∨ w = 64 then some (enc2 w (x % 2 ^ 32) (y % 2 ^ 32)) else none
  | [x, y, z] => if w = 32 ∨ w = 64 then some (enc3 w (x % 2 ^ 32) (y % 2 ^ 32) (z % 2 ^ 32)) else none
  | _ => none

/-- `morton_decoder<NDim, UInt>` (tree.hpp:302-372): coordinate type `uint32_t` for 64-bit codes, `uint16_t` for
32-bit codes. -/
def mortonDecode (w d m : Nat) : Option (List Nat) :=
  if w = 32 ∨ w = 64 then
    if d = 2 then some [dec2 w (w / 2) lut2dx m, dec2 w (w / 2) lut2dy m]
    else if d = 3 then some [dec3 w (w / 2) lut3dx m, dec3 w (w / 2) lut3dy m, dec3 w (w / 2) lut3dz m]
    else none
  else none

end Rakau
