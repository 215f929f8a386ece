import Verif.Model.ModularStream
import Verif.Model.F16
import Verif.Model.FrameDim
/-!
# The sections of a frame with modular encoding (lib/jxl/dec_modular.cc, quant_weights.cc)

Frames without patches, splines, noise, subsampling and upsampling, in one pass: all channels have the size of the frame.  Sizes are
computed without overflow.  Truncated sections (`allow_truncated_group`) are not modelled.
-/
namespace Jxl.Modular.Frame
open Jxl Jxl.Modular Jxl.Modular.Squeeze Jxl.Modular.GroupHeader Jxl.Modular.Whole Jxl.MaTree

/-- One factor of `DecodeDC` (quant_weights.cc:518-523): divided by 128 it must be at least `1e-8f`, which is said here of its pattern. -/
def readFactor (s : List Bool) : Option (List Bool) := do
  let (v, s) ← F16.read s
  if v < 2 ^ 31 ∧ 0x35ABCC77 ≤ v then some s else none

/-- `DequantMatrices::DecodeDC` (quant_weights.cc:513-528); modular frames do not use the factors. -/
def readDcQuant (s : List Bool) : Option (List Bool) := do
  let (b, s) ← readBool s
  if b then some s
  else
    let s ← readFactor s
    let s ← readFactor s
    readFactor s

/-- The tree of the frame and its code, if there is one (dec_modular.cc:222-236). -/
def readFrameTree (env : Stream.Env) (limit : Nat) : Bool → List Bool → Stream.Out (Option (List Node × Stream.Code) × List Bool)
  | false, s => .ok (none, s)
  | true, s => (TreeStream.readTree env limit s).bind fun p =>
    (Stream.decodeHistograms env ((p.1.length + 1) / 2) p.2).bind fun q => .ok (some (p.1, q.1), q.2)

/-- `nb` channels of the size of the frame (dec_modular.cc:250-253), with any contents. -/
def frameImage (junk : Nat → Nat → Nat → Px) (w h nb : Nat) : Image := ⟨(List.range nb).map fun i => blank (junk i) ⟨w, h, 0, 0⟩, 0⟩

/-- What the first section gives: tree and code of the frame, the header, the image so far, the transforms to undo in the whole image and
those to undo in each group. -/
structure Global where
  code : Option (List Node × Stream.Code)
  header : GroupHeader.Header
  img : Image
  undo : List Tr
  moved : List Tr

/-- `have_something` (dec_modular.cc:301-308). -/
def haveSomething (groupDim : Nat) (img : Image) : Bool := (img.channel.drop img.nbMeta).any fun c => decide (c.w ≤ groupDim ∧ c.h ≤ groupDim)

/-- The transforms that go to the groups, and those that stay (dec_modular.cc:309-316). -/
def moveTransforms (groupDim : Nat) (img : Image) (ts : List Tr) : List Tr × List Tr :=
  if haveSomething groupDim img then ([], ts)
  else
    match ts with
    | [.rct b t] => ([.rct b t], [])
    | ts => ([], ts)

/-- `DecodeDC` and `DecodeGlobalInfo` (dec_modular.cc:209-321) for a frame of `w` by `h` pixels with `nb` channels. -/
def readGlobal (env : Stream.Env) (junk : Nat → Nat → Nat → Px) (groupDim w h nb : Nat) (s : List Bool) : Stream.Out (Global × List Bool) :=
  match readDcQuant s with
  | none => .bad
  | some s =>
    match readBool s with
    | none => .bad
    | some (b, s) =>
      (readFrameTree env (min (2 ^ 22) (1024 + w * h * nb / 16)) b s).bind fun p =>
        (readCoded env junk p.1 0 groupDim groupDim (frameImage junk w h nb) p.2).bind fun q =>
          let m := moveTransforms groupDim q.2.2.1 q.2.1
          .ok (⟨p.1, q.1, q.2.2.1, m.2, m.1⟩, q.2.2.2)

/-- `use_full_image` after `MaybeDropFullImage` (dec_modular.cc:323-332). -/
def useFull (groupDim : Nat) (g : Global) : Bool := !(g.undo.isEmpty && !haveSomething groupDim g.img)

/-- The image of `FinalizeDecoding` (dec_modular.cc:740-764) if the full image is used. -/
def finalImage (u : Build) (g : Global) : Stream.Out Image := undoAll u g.undo g.img

/-- `ModularStreamId::ID` of a group in the first pass (dec_modular.h:62-65); there are 17 quantisation tables. -/
def groupStream (numDcGroups g : Nat) : Nat := 1 + 3 * numDcGroups + 17 + g

/-- The channel of a group for a channel of the frame (dec_modular.cc:359-379); `none` if it is empty or in another pass.  `rect` is the area of
the group, not clipped; shifts are not negative. -/
def groupChannel (junk : Nat → Nat → Px) (minShift maxShift : Int) (rect : FrameDim.Rect) (c : Channel) : Option Channel :=
  let shift := min c.hshift c.vshift
  if shift > maxShift ∨ shift < minShift then none
  else
    let r := FrameDim.Rect.clamped (rect.x0 >>> c.hshift.toNat) (rect.y0 >>> c.vshift.toNat) (rect.xs >>> c.hshift.toNat) (rect.ys >>> c.vshift.toNat) c.w c.h
    if r.xs = 0 ∨ r.ys = 0 then none else some (blank junk ⟨r.xs, r.ys, c.hshift, c.vshift⟩)

/-- All channels of a group (dec_modular.cc:350-379): from the first one on that is larger than a group. -/
def groupImage (junk : Nat → Nat → Nat → Px) (groupDim : Nat) (minShift maxShift : Int) (rect : FrameDim.Rect) (img : Image) : Image :=
  ⟨(((img.channel.drop img.nbMeta).dropWhile fun c => decide (c.w ≤ groupDim ∧ c.h ≤ groupDim)).mapIdx fun i c =>
    groupChannel (junk i) minShift maxShift rect c).filterMap id, 0⟩

/-- The transforms moved to the groups (dec_modular.cc:415-417), in order. -/
def undoMoved (u : Build) : List Tr → Image → Stream.Out Image
  | [], img => .ok img
  | t :: ts, img => (invTr u img t).bind (undoMoved u ts)

/-- `DecodeGroup` (dec_modular.cc:334-422) with the default options of a stream (options.h:59-67); without any channel nothing is read. -/
def readGroup (env : Stream.Env) (u : Build) (junk : Nat → Nat → Nat → Px) (groupDim : Nat) (g : Global) (stream : Nat) (minShift maxShift : Int)
    (rect : FrameDim.Rect) (s : List Bool) : Stream.Out (Image × List Bool) :=
  if (groupImage junk groupDim minShift maxShift rect g.img).channel = [] then .ok (⟨[], 0⟩, s)
  else
    (readImage env u junk g.code stream 0x1FFFFFFF 0xFFFFFF (groupImage junk groupDim minShift maxShift rect g.img) s).bind fun p =>
      if useFull groupDim g then .ok p else (undoMoved u g.moved p.1).bind fun i => .ok (i, p.2)

/-- `CopyImageTo` (dec_modular.cc:418-421): a channel of a group put into the channel of the frame at (`x0`, `y0`). -/
def placeChannel (x0 y0 : Nat) (g c : Channel) : Channel :=
  { c with rows := c.rows.mapIdx fun y r => r.mapIdx fun x p =>
      if y0 ≤ y ∧ y < y0 + g.h ∧ x0 ≤ x ∧ x < x0 + g.w then ((g.rows[y - y0]?).bind fun gr => gr[x - x0]?).getD p else p }

/-- The loop over the channels (dec_modular.cc:408-423); the channels of the group follow those of the frame that have a part in it. -/
def placeAll (minShift maxShift : Int) (rect : FrameDim.Rect) : List Channel → List Channel → List Channel
  | [], _ => []
  | c :: cs, gs =>
    match groupChannel (fun _ _ => 0) minShift maxShift rect c, gs with
    | some _, g :: gs => placeChannel (rect.x0 >>> c.hshift.toNat) (rect.y0 >>> c.vshift.toNat) g c :: placeAll minShift maxShift rect cs gs
    | some _, [] => c :: cs
    | none, gs => c :: placeAll minShift maxShift rect cs gs

/-- A group copied into the full image (dec_modular.cc:407-424). -/
def storeGroup (groupDim : Nat) (minShift maxShift : Int) (rect : FrameDim.Rect) (img gi : Image) : Image :=
  let rest := img.channel.drop img.nbMeta
  ⟨img.channel.take img.nbMeta ++ ((rest.takeWhile fun c => decide (c.w ≤ groupDim ∧ c.h ≤ groupDim)) ++
    placeAll minShift maxShift rect (rest.dropWhile fun c => decide (c.w ≤ groupDim ∧ c.h ≤ groupDim)) gi.channel), img.nbMeta⟩

/-- All groups of a frame that uses the full image, in the order in which they are decoded: the stream, the area and the bits of each.  What
follows a section is not looked at. -/
def readGroups (env : Stream.Env) (u : Build) (junk : Nat → Nat → Nat → Px) (groupDim : Nat) (minShift maxShift : Int) :
    Global → List (Nat × FrameDim.Rect × List Bool) → Stream.Out Global
  | g, [] => .ok g
  | g, (stream, rect, s) :: rest => (readGroup env u junk groupDim g stream minShift maxShift rect s).bind fun p =>
    readGroups env u junk groupDim minShift maxShift { g with img := storeGroup groupDim minShift maxShift rect g.img p.1 } rest

end Jxl.Modular.Frame
