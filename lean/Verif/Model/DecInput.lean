import Verif.Model.Signature
/-!
# Model of the decoder's input window and box loop (lib/jxl/decode.cc)

`inp` are the bytes the caller has provided and the decoder has not yet consumed
(`next_in`/`avail_in`).  `JxlDecoderReleaseInput` followed by `JxlDecoderSetInput` with a buffer
that starts with the unconsumed bytes is the operation `more`, which appends bytes.

The codestream parser is an arbitrary client that obtains a span (`get`), consumes bytes
(`advance`) and asks for more (`request`).

Outcome `none` is undefined behaviour (reading past the window, unsigned wrap-around); errors are
separate outcomes.  Not modelled: the JPEG reconstruction box (treated like any other skipped
box), the content decoders of metadata boxes (C30), the behaviour after the codestream parser has
finished, and memory allocation failure.
-/
namespace Jxl.DecInput
open Signature (Sig)

/-- `BoxStage` (decode.cc:232-240); `start` is "signature not seen yet" (`got_signature` false). -/
inductive Stage where
  | start | header | ftyp | skip | partialCs | codestream | buffering
deriving DecidableEq, Repr

/-- The fields of `JxlDecoderStruct` used by the input and box layer (decode.cc:420-700). -/
structure Dec where
  stage : Stage := .start
  /-- `have_container` -/
  container : Bool := false
  /-- `jxl_file_format_version` -/
  version : Nat := 0
  /-- `next_jxlp_index` -/
  nextIdx : Nat := 0
  /-- `jxlp_ooo_buffer` -/
  ooo : List (Nat × List UInt8 × Bool) := []
  /-- `jxlp_ooo_buffer_total` -/
  oooTotal : Nat := 0
  /-- `buffering_jxlp_index` -/
  bufIdx : Nat := 0
  /-- `last_codestream_seen` -/
  last : Bool := false
  /-- `file_pos` -/
  filePos : Nat := 0
  inp : List UInt8 := []
  /-- `header_size` -/
  headerSize : Nat := 0
  /-- `box_contents_unbounded` -/
  unbounded : Bool := false
  /-- `box_contents_end` -/
  cend : Nat := 0
  /-- `box_contents_size` -/
  csize : Nat := 0
  /-- `box_count` -/
  boxCount : Nat := 0
  /-- `codestream_copy` -/
  copy : List UInt8 := []
  /-- `codestream_unconsumed` -/
  unconsumed : Nat := 0
  /-- `codestream_pos` -/
  pos : Nat := 0
deriving DecidableEq, Repr

/-- What one step yields: the loop goes on, the parser gets a span, the caller is asked for more
input, the decoder reports success, the file is refused, an "Internal:" error, or a buffer limit
is hit. -/
inductive Res where
  | ok (s : Dec)
  | span (l : List UInt8) (s : Dec)
  | need (s : Dec)
  | done
  | refused
  | internal
  | limit
deriving DecidableEq, Repr

/-- `AdvanceInput` (decode.cc:623-628). -/
def advIn (n : Nat) (s : Dec) : Option Dec :=
  if n ≤ s.inp.length then some { s with inp := s.inp.drop n, filePos := s.filePos + n } else none

/-- `AvailableCodestream` (decode.cc:630-637). -/
def avail (s : Dec) : Option Nat :=
  if s.unbounded then some s.inp.length
  else if s.filePos ≤ s.cend then some (min s.inp.length (s.cend - s.filePos)) else none

/-- `CanAddBuffer` (decode.cc:565-571), 64-bit. -/
def canAdd (s : Dec) (len : Nat) : Bool := len + s.oooTotal + s.copy.length < 2 ^ 48

/-- `AdvanceCodestream` (decode.cc:639-660). -/
def advance (n : Nat) (s : Dec) : Option Dec :=
  (avail s).bind fun a =>
  if s.copy = [] then
    if n ≤ a then advIn n s else advIn a { s with pos := n - a }
  else
    if s.copy.length ≤ s.pos + n + s.unconsumed then
      advIn (min s.unconsumed (s.unconsumed + (s.pos + n) - s.copy.length))
        { s with pos := (s.pos + n) - min (s.pos + n) s.copy.length, unconsumed := 0, copy := [] }
    else some { s with pos := s.pos + n }

/-- `RequestMoreInput` (decode.cc:662-674); inner `none` is the limit error. -/
def requestMore (s : Dec) : Option (Option Dec) :=
  if s.copy = [] then
    (avail s).bind fun a =>
    if canAdd s a then (advIn a { s with copy := s.inp.take a }).map some else some none
  else (advIn s.unconsumed { s with unconsumed := 0 }).map some

/-- `jxlp_ooo_buffer.find`. -/
def find (i : Nat) : List (Nat × List UInt8 × Bool) → Option (List UInt8 × Bool)
  | [] => none
  | e :: t => if e.1 = i then some e.2 else find i t

/-- `jxlp_ooo_buffer.erase`. -/
def erase (i : Nat) : List (Nat × List UInt8 × Bool) → List (Nat × List UInt8 × Bool)
  | [] => []
  | e :: t => if e.1 = i then t else e :: erase i t

/-- `InjectNextBufferedJxlpBox` (decode.cc:575-592) for an entry that was found. -/
def inject (s : Dec) (e : List UInt8 × Bool) : Dec :=
  { s with
    copy := s.copy ++ e.1
    last := s.last || e.2
    nextIdx := s.nextIdx + 1
    ooo := erase s.nextIdx s.ooo
    oooTotal := s.oooTotal - e.1.length }

/-- `HandleBoxes` after the codestream parser asked for more input (decode.cc:2029-2043). -/
def afterNeed (s : Dec) : Res :=
  if s.filePos = s.cend ∧ s.unbounded = false then
    match find s.nextIdx s.ooo with
    | some e => .ok (inject s e)
    | none => .ok { s with stage := .header }
  else .need s

/-- The parser asks for more input. -/
def request (s : Dec) : Option Res :=
  (requestMore s).map fun r => match r with
    | some s' => afterNeed s'
    | none => .limit

/-- `GetCodestreamInput` (decode.cc:685-708), after the pending skip. -/
def getTail (s : Dec) : Option Res :=
  if s.copy.length < s.pos then some .internal
  else if s.copy.length < s.unconsumed then some .internal
  else (avail s).bind fun a =>
    if s.copy = [] then
      if a = 0 then request s else some (.span (s.inp.take a) s)
    else if canAdd s a then
      if a < s.unconsumed then none
      else
        some (.span ((s.copy ++ (s.inp.take a).drop s.unconsumed).drop s.pos)
          { s with copy := s.copy ++ (s.inp.take a).drop s.unconsumed, unconsumed := a })
    else some .limit

/-- `GetCodestreamInput` (decode.cc:676-711). -/
def getInput (s : Dec) : Option Res :=
  if s.copy = [] ∧ 0 < s.pos then
    (avail s).bind fun a =>
    (advIn (min s.pos a) { s with pos := s.pos - min s.pos a }).bind fun s' =>
    if 0 < s'.pos then request s' else getTail s'
  else getTail s

/-- The top of the box loop in every stage but `header` (decode.cc:1677-1679). -/
def enter (s : Dec) : Option Dec :=
  (advIn s.headerSize s).map fun s => { s with headerSize := 0 }

/-- `LoadBE32`, `LoadBE64`. -/
def loadBE (l : List UInt8) : Nat := l.foldl (fun a b => 256 * a + b.toNat) 0

inductive Hdr where
  | need
  | bad
  | ok (size hsize : Nat) (ty : List UInt8)
deriving DecidableEq, Repr

/-- `ParseBoxHeader`, the checks (decode.cc:1662-1670). -/
def checkHdr (size hsize : Nat) (ty : List UInt8) (filePos : Nat) : Hdr :=
  if 0 < size ∧ size < hsize then .bad
  else if 2 ^ 64 ≤ filePos + size then .bad
  else .ok size hsize ty

/-- `ParseBoxHeader` (decode.cc:1638-1671). -/
def parseHdr (inp : List UInt8) (filePos : Nat) : Hdr :=
  if inp.length < 8 then .need
  else if loadBE (inp.take 4) = 1 then
    if inp.length < 16 then .need
    else checkHdr (loadBE ((inp.drop 8).take 8)) 16 ((inp.drop 4).take 4) filePos
  else checkHdr (loadBE (inp.take 4)) 8 ((inp.drop 4).take 4) filePos

def tFtyp : List UInt8 := [0x66, 0x74, 0x79, 0x70]
def tJxlc : List UInt8 := [0x6a, 0x78, 0x6c, 0x63]
def tJxlp : List UInt8 := [0x6a, 0x78, 0x6c, 0x70]
def tBrob : List UInt8 := [0x62, 0x72, 0x6f, 0x62]
/-- major brand `"jxl "` -/
def tBrand : List UInt8 := [0x6a, 0x78, 0x6c, 0x20]

/-- The stage for a box type and the "only one jxlc box" check (decode.cc:1913-1940). -/
def dispatch (ty : List UInt8) (s : Dec) : Res :=
  if ty = tFtyp then .ok { s with stage := .ftyp }
  else if ty = tJxlc then
    if s.last then .refused else .ok { s with stage := .codestream, last := true }
  else if ty = tJxlp then .ok { s with stage := .partialCs }
  else .ok { s with stage := .skip }

/-- A complete box header (decode.cc:1868-1895). -/
def boxFound (size hsize : Nat) (ty : List UInt8) (s : Dec) : Res :=
  if s.boxCount + 1 = 2 ∧ ty ≠ tFtyp then .refused
  else if ty = tFtyp ∧ s.boxCount + 1 ≠ 2 then .refused
  else dispatch ty
    { s with
      boxCount := s.boxCount + 1
      unbounded := decide (size = 0)
      cend := if size = 0 then 0 else s.filePos + size
      csize := if size = 0 then 0 else size - hsize
      headerSize := hsize }

/-- Stage `kHeader` while the codestream is not finished (decode.cc:1791-1941).  The `JXL_DEC_BOX`
event merely returns to the caller at the end of this step, with the header still in the window. -/
def tickHeader (s : Dec) : Res :=
  if s.container = false then .ok { s with stage := .codestream, unbounded := true }
  else if s.inp = [] then .need s
  else match parseHdr s.inp s.filePos with
    | .need => .need s
    | .bad => .refused
    | .ok size hsize ty =>
      if ty = tBrob ∧ s.inp.length < hsize + 4 then .need s
      else boxFound size hsize ty s

/-- Stage `kFtyp` (decode.cc:1948-1964). -/
def tickFtyp (s : Dec) : Option Res :=
  if s.csize < 12 then some .refused
  else if s.inp.length < 8 then some (.need s)
  else if s.inp.take 4 ≠ tBrand then some .refused
  else if 1 < loadBE ((s.inp.drop 4).take 4) then some .refused
  else (advIn 8 { s with version := loadBE ((s.inp.drop 4).take 4), stage := .skip }).map .ok

/-- The counter of a partial codestream box has been read (decode.cc:1981-2020). -/
def partialFound (counter : Nat) (isLast : Bool) (s : Dec) : Res :=
  if counter = s.nextIdx then
    .ok { s with nextIdx := s.nextIdx + 1, last := s.last || isLast, stage := .codestream }
  else if 1 ≤ s.version then
    if 2 ^ 20 ≤ s.ooo.length then .limit
    else if (find counter s.ooo).isSome then .refused
    else .ok { s with
      ooo := s.ooo ++ [(counter, [], isLast)], bufIdx := counter, stage := .buffering }
  else .refused

/-- Stage `kPartialCodestream` (decode.cc:1965-2020). -/
def tickPartial (s : Dec) : Option Res :=
  if s.last then some .refused
  else if s.inp.length < 4 then some (.need s)
  else if s.unbounded = false ∧ s.csize < 4 then some .refused
  else
    let w := loadBE (s.inp.take 4)
    if w % 2 ^ 31 < s.nextIdx then some .refused
    else (advIn 4 s).map (partialFound (w % 2 ^ 31) (decide (2 ^ 31 ≤ w)))

/-- `entry.first->append` (decode.cc:2073-2075). -/
def addTo (i : Nat) (l : List UInt8) :
    List (Nat × List UInt8 × Bool) → List (Nat × List UInt8 × Bool)
  | [] => []
  | e :: t => if e.1 = i then (e.1, e.2.1 ++ l, e.2.2) :: t else e :: addTo i l t

/-- Stage `kBufferingJxlp` (decode.cc:2066-2087). -/
def tickBuffering (s : Dec) : Option Res :=
  (avail s).bind fun a =>
  if canAdd s a then
    (advIn a { s with ooo := addTo s.bufIdx (s.inp.take a) s.ooo, oooTotal := s.oooTotal + a }).map
      fun s' =>
        if s'.unbounded = false ∧ s'.cend ≤ s'.filePos then .ok { s' with stage := .header }
        else .need s'
  else some .limit

/-- Stage `kSkip` (decode.cc:2127-2155); `boxOut`: the caller has set a box output buffer. -/
def tickSkip (boxOut : Bool) (s : Dec) : Option Res :=
  if s.unbounded then
    if boxOut then (advIn s.inp.length s).map .need else some .done
  else if s.filePos ≤ s.cend then
    if s.inp.length < s.cend - s.filePos then (advIn s.inp.length s).map .need
    else (advIn (s.cend - s.filePos) { s with stage := .header }).map .ok
  else none

/-- The signature check of `JxlDecoderProcessInput` (decode.cc:2169-2188). -/
def tickStart (s : Dec) : Res :=
  match Signature.check s.inp with
  | .notEnough => .need s
  | .invalid => .refused
  | .container => .ok { s with container := true, stage := .header }
  | .codestream => .ok { s with last := true, stage := .header }

/-- One iteration of the box loop (decode.cc:1674-2160). -/
def tick (boxOut : Bool) (s : Dec) : Option Res :=
  match s.stage with
  | .start => some (tickStart s)
  | .header => some (tickHeader s)
  | .ftyp => (enter s).bind tickFtyp
  | .skip => (enter s).bind (tickSkip boxOut)
  | .partialCs => (enter s).bind tickPartial
  | .codestream => (enter s).map .ok
  | .buffering => (enter s).bind tickBuffering

/-- What can happen to a decoder: the caller provides more bytes, the box loop makes one
iteration, the codestream parser (or `JxlDecoderSkipCurrentFrame`, decode.cc:904-915) uses its
input. -/
inductive Op where
  | more (xs : List UInt8)
  | tick (boxOut : Bool)
  | get
  | advance (n : Nat)
  | request
deriving Repr

def step (o : Op) (s : Dec) : Option Res :=
  match o with
  | .more xs => some (.ok { s with inp := s.inp ++ xs })
  | .tick b => tick b s
  | .get => (enter s).bind getInput
  | .advance n => (advance n s).map .ok
  | .request => request s

end Jxl.DecInput
