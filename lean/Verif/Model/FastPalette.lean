import Verif.Model.FastPixels
/-!
# The palette of the fast lossless encoder (lib/jxl/enc_fast_lossless.cc:3545-3566, 3754-3874)

Counting the colours of an image with eight bits per sample, the table that gives each pixel its index, and the colours that are stored.
-/
namespace Jxl.FastCode

/-- `pixel_hash` (enc_fast_lossless.cc:3545-3554). -/
def pixelHash (p : Nat) : Nat := (p * 2654435761 % 2 ^ 32) >>> (32 - 16)

/-- `n` bytes at `pos` put together (enc_fast_lossless.cc:3560-3563, 3764-3766, 3776-3779); reading outside the buffer is undefined. -/
def loadBytes (r : List Nat) (pos : Nat) : Nat → Option Nat
  | 0 => some 0
  | n + 1 => do
    let p ← loadBytes r pos n
    let b ← r[pos + n]?
    some (p ||| b <<< (8 * n))

/-- A pixel (enc_fast_lossless.cc:3776-3779). -/
def loadPixel (nb : Nat) (r : List Nat) (x : Nat) : Option Nat := loadBytes r (x * nb) nb

/-- A pixel in the unrolled loop: always four bytes, of which those of the pixel are kept (enc_fast_lossless.cc:3762-3768). -/
def loadPixel4 (nb : Nat) (r : List Nat) (x : Nat) : Option Nat := (loadBytes r (x * nb) 4).map fun p => p &&& (2 ^ (8 * nb) - 1)

/-- One pixel put into the hash table (enc_fast_lossless.cc:3769-3773, 3780-3782): the table and whether colours collided. -/
def addPixel (s : (Nat → Nat) × Bool) (p : Nat) : (Nat → Nat) × Bool :=
  (fun i => if i = pixelHash p then p else s.1 i, s.2 || (s.1 (pixelHash p) != 0 && p != s.1 (pixelHash p)))

/-- `look_ahead` (enc_fast_lossless.cc:3760). -/
def lookAhead (nb : Nat) : Nat := 7 + (if nb = 1 then 3 else if nb < 4 then 1 else 0)

/-- The unrolled loop (enc_fast_lossless.cc:3761-3774) from column `x` on: where it stops and the table.  The first argument bounds the
rounds in the model; the width is enough. -/
def detectBlocks (nb : Nat) (r : List Nat) (width : Nat) : Nat → Nat → (Nat → Nat) × Bool → Option (Nat × (Nat → Nat) × Bool)
  | 0, x, s => some (x, s)
  | fuel + 1, x, s =>
    if x + lookAhead nb < width then
      ((List.range 8).mapM fun i => loadPixel4 nb r (x + i)).bind fun ps => detectBlocks nb r width fuel (x + 8) (ps.foldl addPixel s)
    else some (x, s)

/-- `detect_palette` (enc_fast_lossless.cc:3754-3785) for the row `r`. -/
def detectRow (nb : Nat) (r : List Nat) (width : Nat) (t : Nat → Nat) : Option ((Nat → Nat) × Bool) :=
  (detectBlocks nb r width width 0 (t, false)).bind fun s =>
    ((List.range' s.1 (width - s.1)).mapM fun x => loadPixel nb r x).map fun ps => ps.foldl addPixel s.2

/-- The rows of the groups in the order of the loops (enc_fast_lossless.cc:3801-3819): where each begins and its width. -/
def groupRows (nb width height stride : Nat) : List (Nat × Nat) :=
  (List.range ((height + 255) / 256)).flatMap fun gy => (List.range ((width + 255) / 256)).flatMap fun gx =>
    (List.range (min (height - 256 * gy) 256)).map fun y => ((256 * gy + y) * stride + 256 * gx * nb, min (width - 256 * gx) 256)

/-- Rows until colours collide (enc_fast_lossless.cc:3801-3819). -/
def detectRows (nb : Nat) (buf : List Nat) : List (Nat × Nat) → (Nat → Nat) → Option ((Nat → Nat) × Bool)
  | [], t => some (t, false)
  | (pos, xs) :: rows, t => (detectRow nb (buf.drop pos) xs t).bind fun s => if s.2 then some s else detectRows nb buf rows s.1

/-- The colours in the table (enc_fast_lossless.cc:3826-3838). -/
def paletteEntries (t : Nat → Nat) : List Nat := (List.range (2 ^ 16)).filterMap fun k => if t k = 0 then none else some (t k)

/-- A byte of a colour. -/
def colourByte (i p : Nat) : Nat := (p >>> (8 * i)) &&& 0xFF

/-- Only grey without many holes (enc_fast_lossless.cc:3824-3825, 3834-3836, 3844-3847).  `d < n * 1.4f` for integers means `5 d < 7 n` here: the
constant is a little less than 1.4 and rounding the product does not take it past an integer. -/
def dull (es : List Nat) : Bool :=
  es.all (fun p => colourByte 0 p == colourByte 1 p && colourByte 0 p == colourByte 2 p) &&
    decide (5 * ((es.foldl (fun m p => max m (colourByte 1 p)) 0 : Int) - (es.foldl (fun m p => min m (colourByte 1 p)) 255 : Nat)) < 7 * (es.length : Int))

/-- The index of every colour (enc_fast_lossless.cc:3870-3873). -/
def lookupOf : Nat → List Nat → (Nat → Nat) → Nat → Nat
  | _, [], l => l
  | i, p :: ps, l => lookupOf (i + 1) ps fun h => if h = pixelHash p then i else l h

/-- Whether a palette is used (enc_fast_lossless.cc:3795-3874 for eight bits, all at once and with effort 2 or more), with the colours that
follow the colour zero and the table of indices.  `srt` is the sorting by luma.  The outer `none` is undefined behaviour. -/
def choosePalette (srt : List Nat → List Nat) (nb width height stride : Nat) (buf : List Nat) : Option (Option (List Nat × (Nat → Nat))) :=
  (detectRows nb buf (groupRows nb width height stride) fun _ => 0).map fun s =>
    if s.2 || decide (512 ≤ (paletteEntries s.1).length) || dull (paletteEntries s.1) then none
    else some (srt (paletteEntries s.1), lookupOf 1 (srt (paletteEntries s.1)) fun _ => 0)

/-- What is sent for a pixel (`FillRowPalette`, enc_fast_lossless.cc:3556-3566). -/
def indexOf (lookup : Nat → Nat) (p : Nat) : Nat := lookup (pixelHash p)

/-- The colour of an index in the stored palette (enc_fast_lossless.cc:3717-3724, zero first). -/
def storedColour (colours : List Nat) (i : Nat) : Option Nat := (0 :: colours)[i]?

end Jxl.FastCode
