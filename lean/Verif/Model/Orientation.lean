/-!
# Model of undoing the orientation (lib/jxl/render_pipeline/stage_write.cc, lib/jxl/dec_external_image.cc, lib/jxl/image_metadata.h)

A pixel is one value of a type `α`, standing for the interleaved samples after conversion to the output type (the conversion, whose
dithering depends on the position, is not modelled).  Sizes are natural numbers; none of the subtractions of the code goes below zero
for the calls considered (proved where used: the model subtracts only under the guards of the code).
-/
namespace Jxl.Orient

/-- `ShouldFlipX` (stage_write.cc:440-445). -/
def shouldFlipX (o : Nat) : Bool := o == 2 || o == 3 || o == 8 || o == 7
/-- `ShouldFlipY` (stage_write.cc:446-451). -/
def shouldFlipY (o : Nat) : Bool := o == 4 || o == 3 || o == 6 || o == 7
/-- `ShouldTranspose` (stage_write.cc:452-457). -/
def shouldTranspose (o : Nat) : Bool := o == 5 || o == 6 || o == 8 || o == 7

/-- `oriented_xsize` / `oriented_ysize` (image_metadata.h:395-415) with `keep_orientation` false. -/
def orientedX (o w h : Nat) : Nat := if o > 4 then h else w
def orientedY (o w h : Nat) : Nat := if o > 4 then w else h

/-- `std::swap(a[i], a[j])` -/
def swap {α} (l : List α) (i j : Nat) : List α :=
  match l[i]?, l[j]? with
  | some a, some b => (l.set i b).set j a
  | _, _ => l

/-- The swap loop of `FlipX` (stage_write.cc:534-540): `k` of the `num` iterations done. -/
def flipLoop {α} (l : List α) (last : Nat) : Nat → List α
  | 0 => l
  | k + 1 => swap (flipLoop l last k) k (last - k)

/-- `FlipX` (stage_write.cc:523-545) on the samples. -/
def flipRow {α} (l : List α) : List α := flipLoop l (l.length - 1) (l.length / 2)

/-- `WriteToOutput` (stage_write.cc:647-683): the pixel at column `X`, row `Y` of the output. -/
def writeToOutput {α} (o ypos xstart : Nat) (px : List α) : List ((Nat × Nat) × α) :=
  px.mapIdx fun i p => (if shouldTranspose o then (ypos, xstart + i) else (xstart + i, ypos), p)

/-- `OutputBuffers` (stage_write.cc:486-521). -/
def outputBuffers {α} (o width ypos xstart : Nat) (px : List α) : List ((Nat × Nat) × α) :=
  if shouldFlipX o then writeToOutput o ypos (width - xstart - px.length) (flipRow px) else writeToOutput o ypos xstart px

/-- `kChunkSize` (stage_write.cc:259). -/
def kChunkSize : Nat := 1024

/-- The chunk loop of `ProcessRow` (stage_write.cc:346-369). -/
def chunkLoop {α} (o width ypos xpos : Nat) (row : Nat → α) (limit x0 : Nat) : List ((Nat × Nat) × α) :=
  if x0 < limit then
    outputBuffers o width ypos (xpos + x0) ((List.range (min kChunkSize (limit - x0))).map fun i => row (x0 + i)) ++
      chunkLoop o width ypos xpos row limit (x0 + kChunkSize)
  else []
termination_by limit - x0
decreasing_by have : 0 < kChunkSize := by decide
              omega

/-- `ProcessRow` (stage_write.cc:334-370): `row i` is the pixel at `xpos + i`. -/
def processRow {α} (o width height : Nat) (row : Nat → α) (xsize xpos ypos : Nat) : List ((Nat × Nat) × α) :=
  if ypos ≥ height then []
  else if xpos ≥ width then []
  else
    chunkLoop o width (if shouldFlipY o then height - 1 - ypos else ypos) xpos row (min xsize (width - xpos)) 0

/-- Byte offset of a pixel in the output buffer (stage_write.cc:659-660, 676-677) for pixel size `ps`. -/
def offset (stride ps : Nat) (p : Nat × Nat) : Nat := p.2 * stride + p.1 * ps

/-- `UndoOrientation` (dec_external_image.cc:119-228): where the sample at `(x, y)` goes; `none` for no copy (orientation 1). -/
def externalPos (o w h x y : Nat) : Option (Nat × Nat) :=
  match o with
  | 2 => some (w - x - 1, y)
  | 3 => some (w - x - 1, h - y - 1)
  | 4 => some (x, h - y - 1)
  | 5 => some (y, x)
  | 6 => some (h - y - 1, x)
  | 7 => some (h - y - 1, w - x - 1)
  | 8 => some (y, w - x - 1)
  | _ => none

/-- The rows may be processed in any order; here in the order `ys`. -/
def externalWrites {α} (o w h : Nat) (img : Nat → Nat → α) (ys : List Nat) : List ((Nat × Nat) × α) :=
  ys.flatMap fun y => (List.range w).filterMap fun x => (externalPos o w h x y).map fun p => (p, img x y)

/-- The output after a sequence of writes; `none` where nothing was written. -/
def canvas {α} : List ((Nat × Nat) × α) → Nat × Nat → Option α
  | [], _ => none
  | (q, v) :: ws, p =>
    match canvas ws p with
    | some u => some u
    | none => if q = p then some v else none

end Jxl.Orient
