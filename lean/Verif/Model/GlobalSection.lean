import Verif.Model.PatchDict
import Verif.Model.Splines
import Verif.Model.BlockCtx
import Verif.Model.FrameParams
import Verif.Model.QuantTables
/-!
# The parts of the global section of a frame before its modular images

`FrameDecoder::ProcessDCGlobal` and `DecodeGlobalDCInfo` in `lib/jxl/dec_frame.cc`, and the order of writing in `lib/jxl/enc_frame.cc`.

The draw cache of the splines (dec_frame.cc:303-308) reads no bits; its control points are in `Splines.allPoints`.  The modular part of the section is not here.
-/
namespace Jxl.GlobalSection
open Stream (Out chk)

/-- The fields of the frame header that select the parts. -/
structure Header where
  patches : Bool
  splines : Bool
  noise : Bool
  varDct : Bool
  upsampling : Nat
  ecUpsampling : List Nat

/-- Sizes known from the headers: the padded frame, the extra channels, the number of pixels and the saved frames. -/
structure Dims where
  frames : Nat → Patches.Frame
  xs : Nat
  ys : Nat
  nec : Nat
  pixels : Nat

/-- What is only read for frames with DCT blocks. -/
structure Info where
  quant : FrameParams.Quant
  ctx : BlockCtx.Ctx
  cfl : FrameParams.Cfl

/-- What the section sets in the state of the decoder; `splines` is `none` after `Splines::Clear`. -/
structure Global where
  patches : Patches.Dict
  splines : Option Splines.Set
  noise : List Nat
  dc : List Nat
  info : Option Info

/-- `PatchDictionary::Clear` (dec_patch_dictionary.h:119-122). -/
def clear (d : Patches.Dict) : Patches.Dict := { d with positions := [] }

/-- Patches (dec_frame.cc:272-288).  That extra channels are used is found out, but not asked for. -/
def readPatches (env : Stream.Env) (h : Header) (m : Dims) (old : Patches.Dict) (s : List Bool) : Out (Patches.Dict × List Bool) :=
  if h.patches then
    (Patches.readDict env m.frames m.xs m.ys m.nec old s).bind fun ((d, _), s) =>
      if h.upsampling ≠ 1 ∧ h.ecUpsampling.any (· != h.upsampling) then .bad else .ok (d, s)
  else .ok (clear old, s)

/-- Splines (dec_frame.cc:289-293). -/
def readSplines (env : Stream.Env) (h : Header) (m : Dims) (s : List Bool) : Out (Option Splines.Set × List Bool) :=
  if h.splines then (Splines.readSet env m.pixels s).bind fun (q, s) => .ok (some q, s) else .ok (none, s)

/-- Noise (dec_frame.cc:294-296); without the flag the table is left as it is. -/
def readNoise (h : Header) (old : List Nat) (s : List Bool) : Out (List Nat × List Bool) :=
  if h.noise then chk (FrameParams.readNoise s) else .ok (old, s)

/-- `DecodeGlobalDCInfo` (dec_frame.cc:62-79). -/
def readInfo (env : Stream.Env) (s : List Bool) : Out (Info × List Bool) :=
  (chk (FrameParams.readQuant s)).bind fun (q, s) =>
    (BlockCtx.read env s).bind fun (c, s) =>
      (chk (FrameParams.readCfl s)).bind fun (f, s) => .ok (⟨q, c, f⟩, s)

/-- The call of it (dec_frame.cc:299-302). -/
def readInfo? (env : Stream.Env) (h : Header) (s : List Bool) : Out (Option Info × List Bool) :=
  if h.varDct then (readInfo env s).bind fun (i, s) => .ok (some i, s) else .ok (none, s)

/-- `FrameDecoder::ProcessDCGlobal` (dec_frame.cc:269-302), with the patches and the noise left from earlier frames. -/
def read (env : Stream.Env) (h : Header) (m : Dims) (old : Patches.Dict) (oldNoise : List Nat) (s : List Bool) : Out (Global × List Bool) :=
  (readPatches env h m old s).bind fun (p, s) =>
    (readSplines env h m s).bind fun (q, s) =>
      (readNoise h oldNoise s).bind fun (n, s) =>
        (chk (QuantTables.readDcs s)).bind fun (d, s) =>
          (readInfo? env h s).bind fun (i, s) => .ok (⟨p, q, n, d, i⟩, s)

/-- The global sections of the frames of an image one after the other, each with its header and sizes; the dictionary and the table of noise are kept in between
(`shared_storage.image_features`, dec_frame.cc:270-296). -/
def readAll (env : Stream.Env) : List (Header × Dims × List Bool) → Patches.Dict → List Nat → Out (List Global)
  | [], _, _ => .ok []
  | (h, m, s) :: fs, old, n => (read env h m old n s).bind fun (g, _) => (readAll env fs g.patches g.noise).bind fun gs => .ok (g :: gs)

/-! ### The encoder -/

/-- The choices of the entropy coder for one stream, and the tokens it stores. -/
structure Coding where
  layers : List Stream.Layer
  plan : Stream.Plan
  tokens : List Ans.Token

/-- What the encoder has to write. -/
structure Input where
  patches : Coding
  splines : Coding
  noise : List Nat
  dcX : Nat
  dcY : Nat
  dcB : Nat
  info : Info
  ctxLayers : List Stream.Layer
  useMtf : Bool
  simple : Bool

/-- A part that is only written if it is selected. -/
def opt (b : Bool) (w : Option (List Bool)) : Option (List Bool) := if b then w else some []

/-- `EncodeGlobalDCInfo` (enc_frame.cc:1240-1250). -/
def writeInfo (mem : Nat → List Alias.Entry) (i : Input) : Option (List Bool) := do
  let q ← FrameParams.writeQuant i.info.quant
  let c ← BlockCtx.write mem i.ctxLayers i.useMtf i.simple i.info.ctx
  let f ← FrameParams.writeCfl i.info.cfl
  some (q ++ (c ++ f))

/-- The global section up to its modular part (enc_frame.cc:1360-1381). -/
def write (mem : Nat → List Alias.Entry) (h : Header) (i : Input) : Option (List Bool) := do
  let p ← opt h.patches (Patches.writeDict mem i.patches.layers i.patches.plan i.patches.tokens)
  let q ← opt h.splines (Patches.writeDict mem i.splines.layers i.splines.plan i.splines.tokens)
  let n ← opt h.noise (FrameParams.writeNoise i.noise)
  let d ← QuantTables.writeDcs i.dcX i.dcY i.dcB
  let f ← opt h.varDct (writeInfo mem i)
  some (p ++ (q ++ (n ++ (d ++ f))))

end Jxl.GlobalSection
