import Verif.Prelude

/-!
# Images and palettes in the preprocessor

Models `write_image_in_table`, `get_image_as_table`, `write_palette_in_table`, `get_palette_as_table` and
`save_table_as_image`, /repo/src/LuaPreProcessor.cpp:419-653. Reading of files (TGA) is not modelled: an image is its width,
height, bytes per pixel and bytes; a palette is its size and bytes.
-/

set_option autoImplicit false

namespace Silice

/-- One component: `(byte >> (8 - depth)) & ((1 << depth) - 1)`, /repo/src/LuaPreProcessor.cpp:444. -/
def component (depth byte : Nat) : Nat := (byte >>> (8 - depth)) &&& (2 ^ depth - 1)

/-- The components of a pixel, the first one in the top bits, /repo/src/LuaPreProcessor.cpp:442-445. `v` is a `uint32_t`. -/
def packPixel (depth : Nat) (bytes : List Nat) : Nat :=
  bytes.foldl (fun v b => (v <<< depth) % 2 ^ 32 ||| component depth b) 0

/-- Next pixel: its value and the bytes that remain. `none`: the bytes are read past their end (undefined behaviour). -/
def takePixel (depth nc : Nat) (bytes : List Nat) : Option (Nat × List Nat) :=
  if nc ≤ bytes.length then some (packPixel depth (bytes.take nc), bytes.drop nc) else none

/-- A row, the loop at 441. -/
def takeRow (depth nc : Nat) : Nat → List Nat → Option (List Nat × List Nat)
  | 0, bytes => some ([], bytes)
  | w + 1, bytes =>
    match takePixel depth nc bytes with
    | none => none
    | some (v, rest) => (takeRow depth nc w rest).map fun r => (v :: r.1, r.2)

/-- All rows, the loop at 440. -/
def takeRows (depth nc w : Nat) : Nat → List Nat → Option (List (List Nat))
  | 0, _ => some []
  | h + 1, bytes =>
    match takeRow depth nc w bytes with
    | none => none
    | some (r, rest) => (takeRows depth nc w h rest).map (r :: ·)

/-- An image as read from a file. -/
structure Img where
  width : Nat
  height : Nat
  bitsPerPixel : Nat
  bytes : List Nat

/-- Outcomes: a table, an error reported to the script, or undefined behaviour. -/
inductive ImgOut (T : Type) where
  | table (t : T)
  | error
  | undef
deriving DecidableEq, Repr

/-- `get_image_as_table`, /repo/src/LuaPreProcessor.cpp:570-606, and `write_image_in_table` (419-453) which writes the same numbers
row after row. The check on the depth is `depth < 0 || depth > 8`. -/
def imageTable (depth : Int) (i : Img) : ImgOut (List (List Nat)) :=
  if depth < 0 ∨ depth > 8 then .error
  else
    match takeRows depth.toNat (i.bitsPerPixel / 8) i.width i.height i.bytes with
    | some rows => .table rows
    | none => .undef

/-- A palette as read from a file: number of entries, bytes per entry, bytes. -/
structure Pal where
  size : Nat
  chans : Nat
  bytes : List Nat

/-- The loop on the 256 entries, /repo/src/LuaPreProcessor.cpp:487-496, from entry `idx`: entries past the size are 0. -/
def palLoop (depth size : Nat) : Nat → Nat → List Nat → Option (List Nat)
  | 0, _, _ => some []
  | n + 1, idx, bytes =>
    if idx < size then
      match takePixel depth 3 bytes with
      | none => none
      | some (v, rest) => (palLoop depth size n (idx + 1) rest).map (v :: ·)
    else (palLoop depth size n (idx + 1) bytes).map (0 :: ·)

/-- `get_palette_as_table`, /repo/src/LuaPreProcessor.cpp:512-560, and `write_palette_in_table` (463-501). The bits per pixel of
the image must be 8. -/
def paletteTable (depth : Int) (bitsPerPixel : Nat) (p : Pal) : ImgOut (List Nat) :=
  if depth < 0 ∨ depth > 8 then .error
  else if bitsPerPixel ≠ 8 ∨ p.chans ≠ 3 then .error
  else
    match palLoop depth.toNat p.size 256 0 p.bytes with
    | some t => .table t
    | none => .undef

/-- Components written for a number by `save_table_as_image`, /repo/src/LuaPreProcessor.cpp:640. -/
def savedPixel (v : Nat) : List Nat := [v &&& 255, (v >>> 8) &&& 255, (v >>> 16) &&& 255]

/-- Bytes of an entry of the palette written by `save_table_as_image_with_palette`, /repo/src/LuaPreProcessor.cpp:703 and 747: the three
low bytes, lowest first, of `(clr >> 16) | (((clr >> 8) & 255) << 8) | ((clr & 255) << 16)`. -/
def savedEntry (clr : Nat) : List Nat :=
  let e := (clr >>> 16) ||| (((clr >>> 8) &&& 255) <<< 8) ||| ((clr &&& 255) <<< 16)
  [e &&& 255, (e >>> 8) &&& 255, (e >>> 16) &&& 255]

/-- The check on the number of entries of the palette, /repo/src/LuaPreProcessor.cpp:699-708, and the bytes written. -/
def savedPalette (clrs : List Nat) : ImgOut (List (List Nat)) :=
  if clrs.length = 256 then .table (clrs.map savedEntry) else .error

/-- The check of `save_table_as_image` on the rows, /repo/src/LuaPreProcessor.cpp:622-633: width, or `none` if a row differs from the
one before; rows without columns before the first one are not compared. -/
def saveWidth : Nat → List (List Nat) → Option Nat
  | w, [] => some w
  | w, r :: rs => if w ≠ 0 ∧ w ≠ r.length then none else saveWidth r.length rs

end Silice
