import Verif.Spec.FrameRefs
/-!
# Model of frame skipping (lib/jxl/decode.cc)

`none` is an access outside an array, a failed internal check, or a loop that does not end.
-/
namespace Jxl.SkipFrames
open Jxl.FrameRefs

/-- The loop filling `storage[s]` (decode.cc:259-268): `id` is the frame currently in the slot, `i` the index of the next frame. -/
def storageLoop (s : Nat) (id i : Nat) : List FrameRef → List Nat
  | [] => []
  | f :: fs =>
    if f.savedAs.testBit s then i :: storageLoop s i (i + 1) fs
    else id :: storageLoop s id (i + 1) fs

/-- `storage[s]` with `invalid = refs.size()` (decode.cc:251-269). -/
def storage (refs : List FrameRef) (s : Nat) : List Nat := storageLoop s refs.length 0 refs

/-- The locals `seen`, `stack` and `result`. -/
structure Dfs where
  seen : List Bool
  stack : List Nat
  result : List Nat

/-- The body shared by both loops (decode.cc:285-290, 299-304). -/
def visit (invalid : Nat) (st : Dfs) (frameRef : Nat) : Option Dfs :=
  if frameRef = invalid then some st
  else
    match st.seen[frameRef]? with
    | none => none
    | some true => some st
    | some false => some { seen := st.seen.set frameRef true, stack := frameRef :: st.stack, result := st.result ++ [frameRef] }

/-- One slot of a loop over the slots: only if the mask has the bit, look at `storage[s][row]`. -/
def visitSlot (refs : List FrameRef) (mask row : Nat) (st : Dfs) (s : Nat) : Option Dfs :=
  if mask.testBit s then (storage refs s)[row]?.bind (visit refs.length st) else some st

/-- A loop over the eight slots (decode.cc:284-291 with every bit set, 297-305). -/
def visitSlots (refs : List FrameRef) (mask row : Nat) (st : Dfs) : Option Dfs := (List.range 8).foldlM (visitSlot refs mask row) st

/-- One iteration of the outer loop after the pop. -/
def expand (refs : List FrameRef) (frameIndex : Nat) (st : Dfs) : Option Dfs :=
  if frameIndex = 0 then some st
  else (refs[frameIndex]?).bind fun f => visitSlots refs f.reference (frameIndex - 1) st

/-- The `while` loop (decode.cc:293-306). -/
def loop (refs : List FrameRef) : Nat → Dfs → Option Dfs
  | 0, _ => none
  | fuel + 1, st =>
    match st.stack with
    | [] => some st
    | frameIndex :: rest => (expand refs frameIndex { st with stack := rest }).bind (loop refs fuel)

/-- `GetFrameDependencies` (decode.cc:243-309). -/
def dependencies (index : Nat) (refs : List FrameRef) : Option (List Nat) :=
  if index < refs.length then do
    let st ← visitSlots refs 255 index { seen := (List.replicate (index + 1) false).set index true, stack := [index], result := [] }
    let st ← loop refs (index + 2) st
    some st.result
  else none

/-- What the decoder reads from a frame header, and the slots the frame turns out to read (`FrameDecoder::References`, dec_frame.cc:821-858). -/
structure Frame where
  isLast : Bool
  hasDuration : Bool
  regular : Bool
  /-- `0` for anything but a DC frame, else its level (1 to 4) -/
  dcLevel : Nat
  saveAs : Nat
  reference : Nat
  deriving DecidableEq, Repr

/-- `FrameHeader::CanBeReferenced` (frame_header.h:373-379). -/
def Frame.canBeReferenced (f : Frame) : Bool := !f.isLast && f.dcLevel == 0 && (!f.hasDuration || f.saveAs != 0)

/-- `FrameDecoder::SavedAs` (dec_frame.cc:799-809). -/
def Frame.savedAs (f : Frame) : Nat :=
  if f.dcLevel ≠ 0 then 16 <<< (f.dcLevel - 1) else if f.canBeReferenced then 1 <<< f.saveAs else 0

/-- `is_last_of_still` (decode.cc:1345-1351). -/
def Frame.lastOfStill (coalescing : Bool) (f : Frame) : Bool := f.isLast || f.hasDuration || (!coalescing && f.regular)

/-- What became of the frames of this pass. -/
inductive Fate
  /-- skipped without decoding -/
  | dropped
  /-- decoded (or at least handed to the frame decoder), not shown -/
  | hidden
  /-- decoded, and part of what the user asked for -/
  | shown
  deriving DecidableEq, Repr

/-- The part of the decoder that skipping is about (decode.cc:493-527). -/
structure State where
  coalescing : Bool := true
  skipFrames : Nat := 0
  internal : Nat := 0
  external : Nat := 0
  refs : List FrameRef := []
  extToInt : List Nat := []
  required : List Bool := []
  /-- not in the code: the fates of frames `0 .. internal - 1` -/
  fates : List Fate := []
  deriving DecidableEq, Repr

/-- Marking the dependencies (decode.cc:892-899). -/
def mark (required : List Bool) : List Nat → Option (List Bool)
  | [] => some required
  | idx :: deps => if idx < required.length then mark (required.set idx true) deps else none

/-- The new `frame_required` of `JxlDecoderSkipFrames` (decode.cc:882-901). -/
def newRequired (d : State) (nextFrame : Nat) : Option (List Bool) :=
  match d.extToInt[nextFrame]? with
  | none => some []
  | some internalIndex =>
    if internalIndex < d.refs.length then
      (dependencies internalIndex d.refs).bind (mark (List.replicate (internalIndex + 1) false))
    else some []

/-- `JxlDecoderSkipFrames` (decode.cc:872-902). -/
def skip (d : State) (amount : Nat) : Option State :=
  (newRequired d (d.external + (d.skipFrames + amount))).map fun r => { d with skipFrames := d.skipFrames + amount, required := r }

/-- `JxlDecoderRewind` (decode.cc:816-826, 870): the tables of references and of frame numbers survive. -/
def rewind (d : State) : State := { d with skipFrames := 0, internal := 0, external := 0, fates := [] }

/-- Whether the frame is skipped without decoding (decode.cc:1387-1407). -/
def drops (d : State) (f : Frame) : Bool :=
  decide (d.skipFrames > 0) && !((f.canBeReferenced || f.dcLevel != 0) && d.required.getD d.internal true)

/-- `frame_external_to_internal` after the header (decode.cc:1368-1374). -/
def newExtToInt (d : State) : Option (List Nat) :=
  if d.external ≥ d.extToInt.length then
    if d.extToInt.length + 1 = d.external + 1 then some (d.extToInt ++ [d.internal]) else none
  else some d.extToInt

/-- `frame_refs` after the header (decode.cc:1376-1385). -/
def newRefs (d : State) (f : Frame) : Option (List FrameRef) :=
  if d.internal ≥ d.refs.length then
    if d.refs.length + 1 = d.internal + 1 then some (d.refs ++ [⟨255, f.savedAs⟩]) else none
  else some d.refs

/-- The entry filled in once all sections are decoded (decode.cc:1519-1529). -/
def fillIn (refs : List FrameRef) (i : Nat) (f : Frame) : List FrameRef :=
  match refs[i]? with
  | none => refs
  | some r => refs.set i { r with reference := f.reference }

/-- One frame (decode.cc:1343-1407, 1519-1529).  `complete` is false if the frame is abandoned before all its sections are decoded: no pixels were
wanted at all, or `JxlDecoderSkipCurrentFrame` was called. -/
def frame (d : State) (f : Frame) (complete : Bool) : Option State :=
  (newExtToInt d).bind fun e =>
    (newRefs d f).map fun r =>
      let last := f.lastOfStill d.coalescing
      let dropped := drops d f
      { d with
        external := if last then d.external + 1 else d.external
        internal := d.internal + 1
        skipFrames := if d.skipFrames > 0 ∧ last then d.skipFrames - 1 else d.skipFrames
        extToInt := e
        refs := if dropped ∨ !complete then r else fillIn r d.internal f
        fates := d.fates ++ [if dropped then .dropped else if d.skipFrames > 0 then .hidden else .shown] }

/-- What the user can do. -/
inductive Action
  | skip (amount : Nat)
  | rewind
  /-- let the decoder go on to the next frame -/
  | frame (complete : Bool)
  /-- `JxlDecoderSetCoalescing`, allowed only before any frame (decode.cc:973-979) -/
  | coalescing (c : Bool)
  deriving DecidableEq, Repr

/-- One action on a file with frames `fs`. -/
def step (fs : List Frame) (d : State) : Action → Option State
  | .skip n => skip d n
  | .rewind => some (rewind d)
  | .frame complete =>
    match fs[d.internal]? with
    | none => some d
    | some f => frame d f complete
  | .coalescing c => some (if d.internal = 0 then { d with coalescing := c } else d)

def run (fs : List Frame) (d : State) (as : List Action) : Option State := as.foldlM (step fs) d

/-- What the file's frames really read and store. -/
def truth (fs : List Frame) : List FrameRef := fs.map fun f => ⟨f.reference, f.savedAs⟩

end Jxl.SkipFrames
