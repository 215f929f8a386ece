import Verif.Model.FastPalette
import Verif.Model.FastFrame
/-!
# The sections of the fast lossless encoder with a palette (lib/jxl/enc_fast_lossless.cc:3568-3637, 3674-3752)

All pixels lie in one buffer of the caller (`oneshot`).
-/
namespace Jxl.FastCode

/-- The palette as it is sent (enc_fast_lossless.cc:3714-3724): a row for each channel, the colour zero first.  The loop also stores what follows
the last colour in the table, behind the row. -/
def paletteRows (nb : Nat) (colours : List Nat) : List (List (BitVec 16)) :=
  (List.range nb).map fun c => (0 :: colours).map fun p => BitVec.ofNat 16 (colourByte c p)

/-- `FillRowPalette` (enc_fast_lossless.cc:3556-3566). -/
def indexRow (nb : Nat) (lookup : Nat → Nat) (r : List Nat) (xs : Nat) : Option (List (BitVec 16)) :=
  (List.range xs).mapM fun x => (loadPixel nb r x).map fun p => BitVec.ofNat 16 (indexOf lookup p)

/-- The rows of `ProcessImageAreaPalette` (enc_fast_lossless.cc:3580-3591) for the area of `xs` by `ys` pixels at (`x0`, `y0`). -/
def indexRows (nb : Nat) (lookup : Nat → Nat) (stride : Nat) (buf : List Nat) (x0 y0 xs ys : Nat) : Option (List (List (BitVec 16))) :=
  (List.range ys).mapM fun y => indexRow nb lookup (buf.drop (stride * (y0 + y) + x0 * nb)) xs

/-- The residuals of rows, with those of what lies behind each row in its buffer.  The borders of palette rows (enc_fast_lossless.cc:3725-3745)
and of rows of indices (3592-3605) are those of other channels. -/
def planeResiduals (rows : List (List (BitVec 16))) (pad : Nat → List Nat) : Option (List (List Nat × List Nat)) := do
  let res ← residualRows none rows
  some (res.mapIdx fun y r => (r, pad y))

/-- The announcement of a palette of `n` colours (enc_fast_lossless.cc:3684-3708). -/
def paletteHeader (nb n : Nat) : List (Nat × Nat) :=
  [(2, 0b01), (2, 0b01), (5, 0b00000)] ++ (if nb = 1 then [(2, 0b00)] else if nb = 3 then [(2, 0b01)] else if nb = 4 then [(2, 0b10)] else [(2, 0b11), (13, nb - 1)]) ++
  (if n < 256 then [(2, 0b00), (8, n)] else [(2, 0b01), (10, n - 256)]) ++ [(2, 0b00), (4, 0)]

/-- `PrepareDCGlobalPalette` (enc_fast_lossless.cc:3674-3708) up to the palette. -/
def paletteGlobalWrites (nb n : Nat) (hs : List (Nat × Nat)) : List (Nat × Nat) :=
  [(1, 1), (1, 1)] ++ (treeWrites ++ (hs ++ ([(1, 1), (1, 1)] ++ paletteHeader nb n)))

/-- The only section of a small image (enc_fast_lossless.cc:3709-3746, 3617-3637): all in one writer, the palette with the first code and the
indices with the second one. -/
def writePaletteSingle (k : Nat) (codes : List Code) (nb : Nat) (colours : List Nat) (lookup : Nat → Nat) (stride : Nat) (buf : List Nat) (w h : Nat)
    (pad : Nat → Nat → List Nat) : Option (List Bool) := do
  let hs ← writeStreamHeader codes
  let p ← planeResiduals (paletteRows nb colours) (pad 0)
  let rows ← indexRows nb lookup stride buf 0 0 w h
  let i ← planeResiduals rows (pad 1)
  let wss ← writeChannels k codes [p, i]
  some (emit 0 (paletteGlobalWrites nb (colours.length + 1) hs ++ wss.flatten))

/-- The first section of a large image (enc_fast_lossless.cc:3674-3752), filled up to a byte. -/
def writePaletteGlobal (k : Nat) (codes : List Code) (nb : Nat) (colours : List Nat) (pad : Nat → Nat → List Nat) : Option (List Bool) := do
  let hs ← writeStreamHeader codes
  let p ← planeResiduals (paletteRows nb colours) (pad 0)
  let wss ← writeChannels k codes [p]
  let s := emit 0 (paletteGlobalWrites nb (colours.length + 1) hs ++ wss.flatten)
  some (s ++ List.replicate ((8 - s.length % 8) % 8) false)

/-- The section of a group of a large image (enc_fast_lossless.cc:3610-3637) at (`x0`, `y0`). -/
def writePaletteGroup (k : Nat) (codes : List Code) (nb : Nat) (lookup : Nat → Nat) (stride : Nat) (buf : List Nat) (x0 y0 xs ys : Nat)
    (pad : Nat → Nat → List Nat) : Option (List Bool) := do
  let rows ← indexRows nb lookup stride buf x0 y0 xs ys
  let i ← planeResiduals rows (pad 0)
  let wss ← writeChannels k codes [i]
  some (emit 0 (groupWrites ++ wss.flatten))

/-- The counters of the first channel with a palette of `n` colours (enc_fast_lossless.cc:3953-3962). -/
def paletteCounts (n : Nat) (raw : List Nat) : List Nat :=
  let token := (hybrid000 (packSigned (BitVec.ofNat 32 (n - 1))).toNat).1
  raw.mapIdx fun i v => if i < token + 1 then max v 1 else if i < 10 then 1 else v

end Jxl.FastCode
