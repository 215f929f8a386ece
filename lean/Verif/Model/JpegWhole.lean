import Verif.Model.JpegMeta
import Verif.Model.JpegCoeff
/-!
# A JPEG file through a JPEG XL file

The parts of `Model/JpegMarkers.lean`, `Model/JpegRecon.lean` and `Model/JpegMeta.lean` put together, with what the
codestream contributes: `lib/jxl/jpeg/enc_jpeg_data.cc:215-284` (`SetChromaSubsamplingFromJpegData`,
`SetColorTransformFromJpegData`), `lib/jxl/frame_header.h:67-166` (`JpegOrder`, `YCbCrChromaSubsampling`),
`lib/jxl/enc_frame.cc:381-406` and `:820-865` (`MakeFrameHeader` and `ComputeJPEGTranscodingData`: sampling factors and
quantization tables), `lib/jxl/dec_frame.cc:222-248` and `:440-478` (the same on the other side), and
`lib/jxl/jpeg/enc_jpeg_data.cc:286-330`, `lib/jxl/jpeg/dec_jpeg_data.cc:22-45` (the box).

Results are `Option (Option _)`: the outer `none` is undefined behaviour, the inner one a refusal.  Simplifications.  The
codestream carries size, colour transform, sampling modes, quantization tables (`qraw`), colour maps and what is coded of
the coefficients (`Model/JpegCoeff.lean`) as they are.  The compressor is a parameter.  Boxes other than that for the reconstruction data hold their contents as
they are.  Refusals for other reasons than those mentioned here (sizes, memory, limits of the codestream) do not occur.
-/
namespace Jxl.Jpeg
open Jxl.JpegMeta (Meta Stored)

/-! ## What the codestream says -/

/-- `kHShift` and `kVShift` (frame_header.cc:30-31). -/
def hShift : List Nat := [0, 1, 1, 0]
def vShift : List Nat := [0, 1, 0, 1]

/-- What the codestream carries; `modes` is `channel_mode_`, `qt` the table of `QuantEncoding::RAW`; for a channel and the
number of a block, the value of the colour map there, the DC coefficient and the other ones. -/
structure Content where
  width : Nat
  height : Nat
  ycc : Bool
  modes : List Nat
  qt : List Nat
  cmap : Nat → Nat → Int
  dc : Nat → Nat → Int
  ac : Nat → Nat → List Int

/-- What the encoder is free to choose: whether to predict chroma (`force_cfl_jpeg_recompression`), the colour maps
(enc_frame.cc:890-971), and how DC coefficients are rounded. -/
structure Choices where
  force : Bool
  cmap : Jpg → Nat → Nat → Int
  dc : Nat → Int → Int

/-- The choices the code may make: maps of `int8_t`. -/
def Choices.Ok (e : Choices) : Prop := (∀ j c i, -128 ≤ e.cmap j c i ∧ e.cmap j c i ≤ 127) ∧ DcOk e.dc

/-- `JpegOrder` (frame_header.h:67-79). -/
def jpegOrder (ycc gray : Bool) : List Nat := if gray then [0, 0, 0] else if ycc then [1, 0, 2] else [0, 1, 2]

/-- The loop of `YCbCrChromaSubsampling::Set` over the modes (frame_header.h:106-116). -/
def channelMode (c : Comp) : Option Nat :=
  (List.range 4).find? fun i => 1 <<< hShift.getD i 0 == c.h && 1 <<< vShift.getD i 0 == c.v

/-- `SetChromaSubsamplingFromJpegData` with `Set` (enc_jpeg_data.cc:215-239, frame_header.h:103-120). -/
def channelModes : List Comp → Option (List Nat)
  | [a] => (channelMode a).bind fun m => some [m, m, m]
  | [a, b, c] => (channelMode b).bind fun m0 => (channelMode a).bind fun m1 => (channelMode c).bind fun m2 => some [m0, m1, m2]
  | _ => none

/-- The search for an Adobe marker (enc_jpeg_data.cc:253-272): `none` is a refusal, `some none` nothing found. -/
def findAdobe : List Nat → List (List Nat) → Option (Option Bool)
  | [], _ => some none
  | m :: ms, apps =>
    if isApp m then
      match apps with
      | [] => none
      | a :: apps =>
        if m = 0xee ∧ a.length = 15 ∧ (a.drop 3).take 5 = [65, 100, 111, 98, 101] then some (some (a.getD 14 0 == 0))
        else findAdobe ms apps
    else findAdobe ms apps

/-- `SetColorTransformFromJpegData` (enc_jpeg_data.cc:241-284): is it YCbCr? -/
def colorTransform (j : Jpg) : Option Bool :=
  if j.comps.length ≠ 1 ∧ j.comps.length ≠ 3 then none
  else if 0xe0 ∈ j.markers then some true
  else (findAdobe j.markers j.app).bind fun a =>
    some (!(a.getD (j.comps.map (·.id) == [82, 71, 66])) || j.comps.length == 1)

/-- The table of a component, transposed (enc_frame.cc:830-840). -/
def transposed (q : QuantTable) : List Nat := (List.range 64).map fun i => q.values (8 * (i % 8) + i / 8)

/-- The tables of the components (enc_frame.cc:827-842). -/
def rawTables (j : Jpg) : List Nat → Option (List Nat)
  | [] => some []
  | c :: cs =>
    (j.comps[c]?).bind fun k => (j.quant[k.quant]?).bind fun q => (rawTables j cs).bind fun l => some (transposed q ++ l)

/-- The ratios of the tables (enc_frame.cc:850-865); a division by zero is undefined. -/
def ratiosOk (qt : List Nat) : Option Bool :=
  if 0 ∈ qt then none
  else some ((List.range 192).all fun i => 2048 * qt.getD (64 + i % 64) 0 / qt.getD i 0 ≤ 256 * 2048 - 1)

/-- `Recompute` (frame_header.h:154-161): `maxhs_` or `maxvs_`. -/
def maxShift (shift modes : List Nat) : Nat := (modes.map (shift.getD · 0)).foldl max 0

/-- `xsize_blocks` or `ysize_blocks` (frame_dimensions.h:43-44), shifted as in dec_frame.cc:237-240: the width or height
in blocks of a channel when the file is reconstructed. -/
def blocksOf (shift : List Nat) (size : Nat) (modes : List Nat) (c : Nat) : Nat :=
  (divCeil size (8 <<< maxShift shift modes) <<< maxShift shift modes) >>> (maxShift shift modes - shift.getD (modes.getD c 0) 0)

/-- `Is444` (frame_header.h:122-126): all shifts the same. -/
def is444 (modes : List Nat) : Bool :=
  (List.range 3).all fun c => maxShift hShift modes - hShift.getD (modes.getD c 0) 0 == 0 && maxShift vShift modes - vShift.getD (modes.getD c 0) 0 == 0

/-- The number of blocks of a channel. -/
def blockCount (width height : Nat) (modes : List Nat) (c : Nat) : Nat := blocksOf hShift width modes c * blocksOf vShift height modes c

/-- The maps, zero where they are not computed (enc_frame.cc:888-891). -/
def cmapOf (e : Choices) (j : Jpg) (modes : List Nat) (c i : Nat) : Int :=
  if e.force && is444 modes && j.comps.length == 3 then e.cmap j c i else 0

/-- Does the encoder predict a channel (enc_frame.cc:1014-1015)? -/
def predicts (e : Choices) (modes : List Nat) (c : Nat) : Bool := !(c == 1) && e.force && is444 modes

/-- The block of a channel in the file (enc_frame.cc:880-884). -/
def channelBlock (j : Jpg) (ycc : Bool) (c i : Nat) : List Int := j.store ((jpegOrder ycc (j.comps.length == 1)).getD c 0) i

/-- What is coded (enc_frame.cc:982-1062). -/
def codedOf (e : Choices) (j : Jpg) (ycc : Bool) (modes qt : List Nat) : Content where
  width := j.width
  height := j.height
  ycc := ycc
  modes := modes
  qt := qt
  cmap := cmapOf e j modes
  dc c i :=
    if j.comps.length = 1 ∧ c ≠ 1 then 0
    else e.dc (qt.getD (64 * c) 0) ((channelBlock j ycc c i).headD 0 + dcOffset ycc (qt.getD (64 * c) 0))
  ac c i :=
    if j.comps.length = 1 ∧ c ≠ 1 then List.replicate 64 0
    else encodeAc qt (predicts e modes c) c (cmapOf e j modes c i) (channelBlock j ycc 1 i) (channelBlock j ycc c i)

/-- Is that defined? -/
def codedDefined (e : Choices) (j : Jpg) (ycc : Bool) (modes qt : List Nat) : Bool :=
  j.comps.length == 1 || (List.range 3).all fun c => (List.range (blockCount j.width j.height modes c)).all fun i =>
    acDefined qt (predicts e modes c) c (cmapOf e j modes c i) (channelBlock j ycc 1 i)

/-- What the encoder puts into the codestream (enc_frame.cc:381-406, 820-1062). -/
def contentOf (e : Choices) (j : Jpg) : Option (Option Content) :=
  andThen (some (channelModes j.comps)) fun modes =>
    andThen (some (colorTransform j)) fun ycc =>
      check (ycc = true ∨ modes = [0, 0, 0]) <|
        andThen (always (rawTables j (jpegOrder ycc (j.comps.length == 1)))) fun qt =>
          andThen (always (ratiosOk qt)) fun ok =>
            check (ok = true) <|
              if codedDefined e j ycc modes qt then some (some (codedOf e j ycc modes qt)) else none

/-- Does the decoder predict a block (dec_group.cc:377-379, 386)? -/
def restores (t : Content) (c i : Nat) : Bool := is444 t.modes && !(t.cmap 0 i == 0 && t.cmap 2 i == 0) && !(c == 1)

/-- The channel of a component. -/
def channelOf (ycc : Bool) (n k : Nat) : Nat := if n = 1 then 1 else (jpegOrder ycc false).getD k 0

/-- The coefficients of `n` components (dec_group.cc:356-410). -/
def storeOf (t : Content) (n : Nat) : Store := fun k i =>
  if k < n then
    let c := channelOf t.ycc n k
    decodeCoeffs t.qt (restores t c i) c (t.cmap c i) (dcOffset t.ycc (t.qt.getD (64 * c) 0)) (t.dc c i) (t.ac 1 i) (t.ac c i)
  else List.replicate 64 0

/-- What the decoder requires of tables and coefficients (dec_group.cc:250-252, 411-420). -/
def storeOk (t : Content) (n : Nat) : Bool :=
  (List.range 192).all (fun i => decide (1 ≤ t.qt.getD i 0) && decide (t.qt.getD i 0 < 65536)) &&
    (List.range n).all fun k => (List.range (blockCount t.width t.height t.modes (channelOf t.ycc n k))).all fun i => coeffsOk (storeOf t n k i)

/-- The components (dec_frame.cc:226-247), from identifiers and numbers of quantization tables. -/
def componentsOf (modes : List Nat) (cs : List (Nat × Nat)) : Option (List Comp) :=
  let comp (a : Nat × Nat) (c : Nat) : Comp := ⟨a.1, 1 <<< hShift.getD (modes.getD c 0) 0, 1 <<< vShift.getD (modes.getD c 0) 0, a.2⟩
  match cs with
  | [a] => some [comp a 0]
  | [a, b, c] => some [comp a 1, comp b 0, comp c 2]
  | _ => none

/-- The values of a table, from the table of a channel (dec_frame.cc:463-468). -/
def tableOf (qt : List Nat) (c : Nat) (k : Nat) : Nat := if k < 64 then qt.getD (c * 64 + (k % 8) * 8 + k / 8) 0 else 0

/-- The tables in use (dec_frame.cc:456-469): pairs of a channel and the number of a table. -/
def setTables (qt : List Nat) : List (Nat × Nat) → List (Nat → Nat) → Option (Option (List (Nat → Nat)))
  | [], ts => some (some ts)
  | (c, q) :: rest, ts =>
    if q = ts.length then some none
    else if ts.length < q then none
    else setTables qt rest (ts.set q (tableOf qt c))

/-- The other ones (dec_frame.cc:470-477): copies of the one before. -/
def copyUnused (used : List Nat) : Nat → Option (Nat → Nat) → List (Nat → Nat) → Option (List (Nat → Nat))
  | _, _, [] => some []
  | i, prev, t :: ts =>
    if i ∈ used then (copyUnused used (i + 1) (some t) ts).bind fun l => some (t :: l)
    else prev.bind fun p => (copyUnused used (i + 1) (some p) ts).bind fun l => some (p :: l)

/-- The channel from which each component's table is taken, in the order of the loop (dec_frame.cc:456-460). -/
def tableSources (ycc : Bool) (cs : List (Nat × Nat)) : List (Nat × Nat) :=
  if cs.length = 1 then cs.map fun a => (1, a.2)
  else (List.range cs.length).map fun c => (c, ((cs[(jpegOrder ycc false).getD c 0]?).getD (0, 0)).2)

/-- The values of all tables (dec_frame.cc:448-478). -/
def tablesOf (c : Content) (cs : List (Nat × Nat)) (n : Nat) : Option (Option (List (Nat → Nat))) :=
  andThen (setTables c.qt (tableSources c.ycc cs) (List.replicate n fun _ => 0)) fun ts =>
    some (copyUnused (cs.map (·.2)) 0 none ts)

/-! ## Reconstruction data -/

/-- Do the tables `i - 1` and `i` agree (jpeg_data.cc:208-218)? -/
def sameTable (j : Jpg) (i : Nat) : Bool :=
  match j.quant[i - 1]?, j.quant[i]? with
  | some a, some b => (List.range 64).all fun k => a.values k == b.values k
  | _, _ => false

/-- What the bundle is given. -/
def reconOf (j : Jpg) (app : List (Nat × Nat)) : Recon where
  markers := j.markers
  app := app
  com := j.com.map List.length
  quant := j.quant.map fun q => ⟨q.precision, q.index, q.isLast⟩
  comps := j.comps.map fun c => (c.id, c.quant)
  huff := j.huff.map fun h => ⟨h.slot, h.isLast, 0 :: h.counts, h.values⟩
  scans := j.scans.map fun s => ⟨⟨s.ss, s.se, s.al, s.ah, s.comps, 0⟩, s.points, s.runs⟩
  restart := j.restart
  inter := j.inter.map List.length
  tail := j.tail.length
  pads := padSource j.pads

def metaOf (j : Jpg) : Meta := ⟨j.app, j.com, j.inter, j.tail⟩

/-- Huffman tables; tables with codes of length 0 are not modelled. -/
def huffOf : List ReconHuff → Option (List HuffCode)
  | [] => some []
  | h :: hs =>
    match h.counts with
    | 0 :: counts => (huffOf hs).bind fun l => some (⟨h.slot, counts, h.values, h.isLast⟩ :: l)
    | _ => none

/-- `JPEGData` when it is written. -/
def jpgOf (r : Recon) (m : Meta) (c : Content) (comps : List Comp) (tables : List (Nat → Nat)) (huff : List HuffCode) (store : Store) : Jpg where
  width := c.width
  height := c.height
  restart := r.restart
  comps := comps
  quant := List.zipWith (fun (h : QuantHead) t => ⟨h.index, h.precision, t, h.isLast⟩) r.quant tables
  huff := huff
  scans := r.scans.map fun s => ⟨s.head.ss, s.head.se, s.head.ah, s.head.al, s.head.comps, s.points, s.runs⟩
  app := m.app
  com := m.com
  inter := m.inter
  markers := r.markers
  pads := []
  store := store
  tail := m.tail

/-! ## The box -/

def toBits (bytes : List Nat) : List Bool := bytes.flatMap (bitsOf 8)

def groups : Nat → List Bool → List Nat
  | 0, _ => []
  | n + 1, s => ofBits (s.take 8) :: groups n (s.drop 8)

def fromBits (s : List Bool) : List Nat := groups (s.length / 8) s

/-- `ZeroPadToByte`. -/
def zeroPad (s : List Bool) : List Bool := s ++ List.replicate ((8 - s.length % 8) % 8) false

/-- `JumpToByteBoundary` after `used` bits: the bits skipped must be zero. -/
def toBoundary (used : Nat) (s : List Bool) : Option (List Bool) :=
  let n := (8 - used % 8) % 8
  if n ≤ s.length ∧ (s.take n).all (· == false) then some (s.drop n) else none

/-! ## Files -/

/-- The JPEG XL file: the box with the reconstruction data (as bits), the profile of the image, the Exif and XMP boxes,
and the codestream. -/
structure Transcoded where
  box : List Bool
  icc : List Nat
  exif : Option (List Nat)
  xmp : Option (List Nat)
  content : Content

/-- The encoder: `ReadJpeg`, `EncodeJPEGData`, `ComputeJPEGTranscodingData`. -/
def transcode (e : Choices) (compress : List Nat → List Nat) (builtin : List Nat) (d : List Nat) : Option (Option Transcoded) :=
  andThen (readJpeg d) fun j =>
    andThen (JpegMeta.encodeMeta (metaOf j)) fun s =>
      andThen (putRecon (sameTable j) (reconOf j s.app)) fun bits =>
        andThen (contentOf e j) fun c =>
          some (some ⟨zeroPad bits ++ toBits (compress s.data), JpegMeta.storedIcc builtin j.app, JpegMeta.exifBox j.app,
            JpegMeta.xmpBox j.app, c⟩)

/-- `WriteJpeg` with the padding bits of the bundle: they are used if `has_zero_padding_bit` is set
(dec_jpeg_data_writer.cc:1017-1023). -/
def writeWith (pads : Option (List Nat)) (j : Jpg) : Option (Option (List Nat)) :=
  check (j.markers ≠ []) <|
    andThen (writeSections j j.markers { WriteState.start j with pads := pads }) fun r =>
      check (r.2 = none ∨ r.2 = some []) <| some (some ([255, 0xd8] ++ r.1))

/-- The decoder: `DecodeJPEGData`, what `FrameDecoder` adds to it, and `WriteJpeg`. -/
def reconstruct (decompress : List Nat → Option (List Nat)) (t : Transcoded) : Option (Option (List Nat)) :=
  andThen (getRecon t.box) fun r =>
    andThen (some (toBoundary (t.box.length - r.2.length) r.2)) fun rest =>
      andThen (some (decompress (fromBits rest))) fun data =>
        andThen (JpegMeta.rebuild ⟨r.1.app, r.1.com, r.1.inter, r.1.tail, data⟩ t.icc t.exif t.xmp) fun m =>
          andThen (some (componentsOf t.content.modes r.1.comps)) fun comps =>
            andThen (tablesOf t.content r.1.comps r.1.quant.length) fun tables =>
              andThen (always (huffOf r.1.huff)) fun huff =>
                check (storeOk t.content comps.length = true) <|
                  writeWith r.1.pads (jpgOf r.1 m t.content comps tables huff (storeOf t.content comps.length))

end Jxl.Jpeg
