import Verif.Model.ModularFrame
/-!
# Passes and the sections of a modular frame (lib/jxl/frame_header.cc, frame_header.h, dec_modular.h, dec_frame.cc, enc_modular.cc)

Sizes are computed without overflow.
-/
namespace Jxl.Passes
open Jxl Jxl.Modular Jxl.Modular.GroupHeader

/-- `Passes` (frame_header.h:259-309); the arrays are cut to the elements in use, `shift` to all passes but the last one. -/
structure Passes where
  num : Nat
  shift : List Nat
  down : List Nat
  last : List Nat
deriving DecidableEq

/-- Coding of `num_passes` (frame_header.cc:138-139). -/
def numEnc : U32.Enc := ⟨U32.val 1, U32.val 2, U32.val 3, U32.bitsOffset 3 4⟩
/-- Coding of `num_downsample` (frame_header.cc:143-144). -/
def countEnc : U32.Enc := ⟨U32.val 0, U32.val 1, U32.val 2, U32.bitsOffset 1 3⟩
/-- Coding of `downsample` (frame_header.cc:158). -/
def downEnc : U32.Enc := ⟨U32.val 1, U32.val 2, U32.val 4, U32.val 8⟩
/-- Coding of `last_pass` (frame_header.cc:165). -/
def lastEnc : U32.Enc := ⟨U32.val 0, U32.val 1, U32.val 2, U32.bitsOffset 3 0⟩

/-- The check of an element of `downsample` (frame_header.cc:159-161). -/
def downOk (prev : Option Nat) (v : Nat) : Bool :=
  match prev with
  | none => true
  | some p => decide (v < p)

/-- The checks of an element of `last_pass` (frame_header.cc:166-172). -/
def lastOk (num : Nat) (prev : Option Nat) (v : Nat) : Bool :=
  (match prev with
  | none => true
  | some p => decide (p < v)) && decide (v < num)

/-- A loop that checks each element against the one before it (frame_header.cc:156-173), writing. -/
def writeSeq (e : U32.Enc) (ok : Option Nat → Nat → Bool) : Option Nat → List Nat → Option (List Bool)
  | _, [] => some []
  | prev, v :: l => do
    let a ← U32.write e v
    if ok prev v then
      let b ← writeSeq e ok (some v) l
      some (a ++ b)
    else none

/-- The same loop, reading. -/
def readSeq (e : U32.Enc) (ok : Option Nat → Nat → Bool) : Nat → Option Nat → List Bool → Option (List Nat × List Bool)
  | 0, _, s => some ([], s)
  | n + 1, prev, s => do
    let (v, s) ← U32.read e s
    if ok prev v then
      let (l, s) ← readSeq e ok n (some v) s
      some (v :: l, s)
    else none

/-- `Passes::VisitFields` (frame_header.cc:137-178), writing; `JXL_ENSURE` is an error.  With one pass nothing else is sent. -/
def write (p : Passes) : Option (List Bool) := do
  let a ← U32.write numEnc p.num
  if p.num > 11 then none
  else if p.num = 1 then some a
  else
    let b ← U32.write countEnc p.down.length
    if p.down.length > 4 ∨ p.down.length > p.num then none
    else
      let c ← writeAll (writeBitsField 2) p.shift
      let d ← writeSeq downEnc downOk none p.down
      let e ← writeSeq lastEnc (lastOk p.num) none p.last
      some (a ++ (b ++ (c ++ (d ++ e))))

/-- `Passes::VisitFields` (frame_header.cc:137-178), reading. -/
def read (s : List Bool) : Option (Passes × List Bool) := do
  let (num, s) ← U32.read numEnc s
  if num > 11 then none
  else if num = 1 then some (⟨1, [], [], []⟩, s)
  else
    let (count, s) ← U32.read countEnc s
    if count > 4 ∨ count > num then none
    else
      let (shift, s) ← readAll (rdBits 2) (num - 1) s
      let (down, s) ← readSeq downEnc downOk count none s
      let (last, s) ← readSeq lastEnc (lastOk num) count none s
      some (⟨num, shift, down, last⟩, s)

/-- The body of the loop of `GetDownsamplingBracket` (frame_header.h:272-280) for pass `i`: the new `minShift`. -/
def step (p : Passes) (i : Nat) (minShift : Int) : Int :=
  let m := (p.down.zip p.last).foldl (fun m e =>
    if i = e.2 then (if e.1 = 1 then 0 else if e.1 = 2 then 1 else if e.1 = 4 then 2 else if e.1 = 8 then 3 else m) else m) minShift
  if i = p.num - 1 then 0 else m

/-- `GetDownsamplingBracket` (frame_header.h:268-284): `minShift` and `maxShift`. -/
def bracket (p : Passes) : Nat → Int × Int
  | 0 => (step p 0 3, 2)
  | i + 1 => (step p (i + 1) (bracket p i).1, (bracket p i).1 - 1)

/-- `GetDownsamplingTargetForCompletedPasses` (frame_header.h:286-295). -/
def target (p : Passes) (n : Nat) : Nat :=
  if n ≥ p.num then 1 else (p.down.zip p.last).foldl (fun r e => if n > e.2 then min r e.1 else r) 8

/-- `ModularStreamId` (dec_modular.h:31-95). -/
inductive Stream
  | global
  | varDctDc (g : Nat)
  | modularDc (g : Nat)
  | acMetadata (g : Nat)
  | quantTable (t : Nat)
  | modularAc (pass g : Nat)
deriving DecidableEq

/-- `ModularStreamId::ID` (dec_modular.h:44-68); there are 17 quantisation tables. -/
def Stream.id (d : FrameDim.Dims) : Stream → Nat
  | .global => 0
  | .varDctDc g => 1 + g
  | .modularDc g => 1 + d.numDcGroups + g
  | .acMetadata g => 1 + 2 * d.numDcGroups + g
  | .quantTable t => 1 + 3 * d.numDcGroups + t
  | .modularAc pass g => 1 + 3 * d.numDcGroups + 17 + d.numGroups * pass + g

/-- `ModularStreamId::Num` (dec_modular.h:88-90). -/
def numStreams (d : FrameDim.Dims) (passes : Nat) : Nat := (Stream.modularAc passes 0).id d

/-- The sections with modular data after the first one: of a group of the low frequencies, or of a group in a pass. -/
inductive Sect
  | lf (g : Nat)
  | hf (pass g : Nat)
deriving DecidableEq

/-- The area of a section (dec_frame.cc:319-328, 487-490 and 513-514; enc_modular.cc:1040-1044 and 1057-1061), not clipped. -/
def Sect.rect (d : FrameDim.Dims) : Sect → FrameDim.Rect
  | .lf g => ⟨g % d.xsizeDcGroups * d.dcGroupDim, g / d.xsizeDcGroups * d.dcGroupDim, d.dcGroupDim, d.dcGroupDim⟩
  | .hf _ g => ⟨g % d.xsizeGroups * d.groupDim, g / d.xsizeGroups * d.groupDim, d.groupDim, d.groupDim⟩

/-- The shifts of a section (dec_frame.cc:330 and 522; enc_modular.cc:1047-1051 and 1067). -/
def Sect.shifts (p : Passes) : Sect → Int × Int
  | .lf _ => (3, 1000)
  | .hf pass _ => bracket p pass

/-- The stream of a section (dec_frame.cc:331 and 534). -/
def Sect.stream : Sect → Stream
  | .lf g => .modularDc g
  | .hf pass g => .modularAc pass g

/-- The sections of a frame. -/
def Sect.Of (d : FrameDim.Dims) (p : Passes) : Sect → Prop
  | .lf g => g < d.numDcGroups
  | .hf pass g => pass < p.num ∧ g < d.numGroups

/-- A colour channel of the whole frame, subsampled by powers of two (dec_modular.cc:250-266). -/
def colourGeom (d : FrameDim.Dims) (hs vs : Nat) : Squeeze.Geom := ⟨FrameDim.divCeil d.xsize (1 <<< hs), FrameDim.divCeil d.ysize (1 <<< vs), hs, vs⟩

/-- An extra channel of the whole frame (dec_modular.cc:268-279); upsampling of the frame and of the channel are powers of two. -/
def extraGeom (d : FrameDim.Dims) (up ec : Nat) : Squeeze.Geom :=
  ⟨FrameDim.divCeil d.xsizeUpsampled (2 ^ ec), FrameDim.divCeil d.ysizeUpsampled (2 ^ ec), (ec : Int) - up, (ec : Int) - up⟩

/-- The part of a channel in a section (dec_modular.cc:355-361, enc_modular.cc:1407-1413), as in `Frame.groupChannel`. -/
def part (shifts : Int × Int) (rect : FrameDim.Rect) (c : Channel) : Option FrameDim.Rect :=
  let shift := min c.hshift c.vshift
  if shift > shifts.2 ∨ shift < shifts.1 then none
  else
    let r := FrameDim.Rect.clamped (rect.x0 >>> c.hshift.toNat) (rect.y0 >>> c.vshift.toNat) (rect.xs >>> c.hshift.toNat) (rect.ys >>> c.vshift.toNat) c.w c.h
    if r.xs = 0 ∨ r.ys = 0 then none else some r

/-- The part of a channel the encoder copies to a section (enc_modular.cc:1404-1422). -/
def cutChannel (shifts : Int × Int) (rect : FrameDim.Rect) (c : Channel) : Option Channel :=
  (part shifts rect c).map fun r =>
    ⟨r.xs, r.ys, c.hshift, c.vshift, (List.range r.ys).map fun y => ((c.rows.getD (r.y0 + y) []).drop r.x0).take r.xs⟩

/-- The image the encoder makes for a section (enc_modular.cc:1394-1424), from the first channel on that is larger than a group. -/
def cutGroup (groupDim : Nat) (shifts : Int × Int) (rect : FrameDim.Rect) (img : Image) : Image :=
  ⟨((img.channel.drop img.nbMeta).dropWhile fun c => decide (c.w ≤ groupDim ∧ c.h ≤ groupDim)).filterMap (cutChannel shifts rect), 0⟩

/-- Sections stored in the full image one after the other (dec_modular.cc:407-424), each with what the encoder put in it. -/
def storeAll (d : FrameDim.Dims) (p : Passes) (src : Image) (secs : List Sect) (img : Image) : Image :=
  secs.foldl (fun img s => Frame.storeGroup d.groupDim (s.shifts p).1 (s.shifts p).2 (s.rect d) img (cutGroup d.groupDim (s.shifts p) (s.rect d) src)) img

/-- The sections of a frame that uses the full image, in the order in which they come: `DecodeGroup` for each, with its shifts, area and stream
(dec_frame.cc:318-333 and 513-538), and its channels stored (dec_modular.cc:407-424). -/
def readSections (env : Jxl.Stream.Env) (u : Whole.Build) (junk : Nat → Nat → Nat → Px) (d : FrameDim.Dims) (p : Passes) :
    Frame.Global → List (Sect × List Bool) → Jxl.Stream.Out Frame.Global
  | g, [] => .ok g
  | g, (s, b) :: rest => (Frame.readGroup env u junk d.groupDim g (s.stream.id d) (s.shifts p).1 (s.shifts p).2 (s.rect d) b).bind fun q =>
    readSections env u junk d p { g with img := Frame.storeGroup d.groupDim (s.shifts p).1 (s.shifts p).2 (s.rect d) g.img q.1 } rest

end Jxl.Passes
