import Verif.Model.SkipFrames
/-!
# Model of the frame header fields behind frame references (lib/jxl/dec_frame.cc, frame_header.{h,cc})
-/
namespace Jxl.SkipFrames

/-- What a frame header (and the patch dictionary) says about stored frames. -/
structure Header where
  isLast : Bool
  hasDuration : Bool
  /-- `frame_type`: 0 regular, 1 DC frame, 2 reference only, 3 skip progressive (frame_header.h:58-71) -/
  frameType : Nat
  dcLevel : Nat
  saveAs : Nat
  /-- `custom_size_or_origin` -/
  cropped : Bool
  /-- `blending_info` and `extra_channel_blending_info`: whether the mode differs from replace, and the source -/
  blending : List (Bool × Nat)
  /-- `ref` of each reference position of the patch dictionary, when the frame has patches -/
  patches : Option (List Nat)
  useDcFrame : Bool
  deriving DecidableEq, Repr

/-- The blending part (dec_frame.cc:830-842): one entry of the loop. -/
def blendBit (cropped : Bool) (result : Nat) (b : Bool × Nat) : Nat := if cropped || b.1 then result ||| (1 <<< b.2) else result

/-- `PatchDictionary::GetReferences` (dec_patch_dictionary.cc:180-186). -/
def patchRefs (refs : List Nat) (result : Nat) : Nat := refs.foldl (fun r s => r ||| (1 <<< s)) result

/-- Blending and patches in `FrameDecoder::References` (dec_frame.cc:829-847). -/
def Header.blendRefs (h : Header) : Nat := if h.frameType = 0 ∨ h.frameType = 3 then h.blending.foldl (blendBit h.cropped) 0 else 0

def Header.pixelRefs (h : Header) : Nat :=
  match h.patches with
  | none => h.blendRefs
  | some refs => h.blendRefs ||| patchRefs refs 0

/-- `FrameDecoder::References` of a frame decoded completely (dec_frame.cc:821-858). -/
def Header.references (h : Header) : Nat :=
  if h.useDcFrame then h.pixelRefs ||| (16 <<< (h.dcLevel + 1 - 1)) else h.pixelRefs

/-- The frame of the skipping model that a header describes. -/
def Header.frame (h : Header) : Frame :=
  { isLast := h.isLast, hasDuration := h.hasDuration, regular := h.frameType == 0, dcLevel := if h.frameType = 1 then h.dcLevel else 0,
    saveAs := h.saveAs, reference := h.references }

end Jxl.SkipFrames
