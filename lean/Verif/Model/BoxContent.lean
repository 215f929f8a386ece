/-!
# Box contents decoder

Model of `lib/jxl/box_content_decoder.cc`.  The Brotli library is outside the model; it enters as
a parameter: any stateful function that takes the available input and the free output space and
says how much it consumed, what it wrote and how it ended (`BrotliDecoderDecompressStream`).
`size_t` values are natural numbers: positions inside a file stay below `2 ^ 64`.
-/

namespace Jxl.BoxContent

/-- The statuses `JxlBoxContentDecoder::Process` can return (`lib/include/jxl/decode.h`). -/
inductive Status where
  | error | needMoreInput | needMoreOutput | complete
deriving DecidableEq, Repr

/-- `BrotliDecoderResult`. -/
inductive BResult where
  | error | success | needsMoreInput | needsMoreOutput
deriving DecidableEq, Repr

/-- What one call of `BrotliDecoderDecompressStream` did. -/
structure BCall (σ : Type) where
  consumed : Nat
  out : List UInt8
  res : BResult
  st : σ

/-- The Brotli decoder: a fresh instance, and its streaming function. -/
structure Brotli (σ : Type) where
  init : σ
  step : σ → List UInt8 → Nat → BCall σ

/-- The members of `JxlBoxContentDecoder` (`box_content_decoder.h`:36-47). -/
structure St (σ : Type) where
  headerDone : Bool
  brob : Bool
  untilEof : Bool
  remaining : Nat
  pos : Nat
  brotli : Option σ

/-- `JxlBoxContentDecoder::StartBox` (`box_content_decoder.cc`:28-39). -/
def startBox {σ : Type} (brob untilEof : Bool) (contentsSize : Nat) : St σ :=
  { headerDone := false, brob := brob, untilEof := untilEof, remaining := if untilEof then 0 else contentsSize, pos := 0, brotli := none }

/-- Outcome of one call: the status, the bytes written to the output buffer, the box bytes handed
over (copied, or consumed by Brotli), and the new state. -/
structure Res (σ : Type) where
  status : Status
  out : List UInt8
  fed : List UInt8
  st : St σ

/-- `if (!box_until_eof_) x = std::min(x, remaining_)` (`box_content_decoder.cc`:74, 108). -/
def clampIn {σ : Type} (s : St σ) (n : Nat) : Nat :=
  if s.untilEof then n else min n s.remaining

/-- `pos_ += n; if (!box_until_eof_) remaining_ -= n`. -/
def advance {σ : Type} (s : St σ) (n : Nat) : St σ :=
  { s with pos := s.pos + n, remaining := if s.untilEof then s.remaining else s.remaining - n }

/-- The uncompressed branch (`box_content_decoder.cc`:105-121): `memcpy`, then the status. -/
def processRaw {σ : Type} (s : St σ) (inp : List UInt8) (cap : Nat) : Res σ :=
  let canRead := clampIn s inp.length
  let toWrite := min canRead cap
  let s' := advance s toWrite
  let status :=
    if toWrite < canRead then Status.needMoreOutput
    else if !s.untilEof && 0 < s'.remaining then Status.needMoreInput
    else Status.complete
  { status := status, out := inp.take toWrite, fed := inp.take toWrite, st := s' }

/-- The statuses after a Brotli call (`box_content_decoder.cc`:82-104). -/
def brobStatus {σ : Type} (s' : St σ) (r : BResult) : Status :=
  match r with
  | .error => .error
  | .needsMoreInput => if !s'.untilEof && s'.remaining == 0 then .error else .needMoreInput
  | .needsMoreOutput => .needMoreOutput
  | .success => if !s'.untilEof && s'.remaining != 0 then .error else .complete

/-- The Brotli call (`box_content_decoder.cc`:69-104), after the four type bytes were skipped.
On a Brotli error the counters are left as they were. -/
def processBrotli {σ : Type} (B : Brotli σ) (s : St σ) (inp : List UInt8) (cap : Nat) : Res σ :=
  let avail := clampIn s inp.length
  let c := B.step (s.brotli.getD B.init) (inp.take avail) cap
  let s1 := { s with brotli := some c.st }
  if c.res = .error then { status := .error, out := c.out, fed := [], st := s1 }
  else
    let s' := advance s1 c.consumed
    { status := brobStatus s' c.res, out := c.out, fed := inp.take c.consumed, st := s' }

/-- The compressed branch (`box_content_decoder.cc`:56-104). -/
def processBrob {σ : Type} (B : Brotli σ) (s : St σ) (inp : List UInt8) (cap : Nat) : Res σ :=
  if s.headerDone then processBrotli B s inp cap
  else if inp.length < 4 then { status := .needMoreInput, out := [], fed := [], st := s }
  else if !s.untilEof && s.remaining < 4 then { status := .error, out := [], fed := [], st := s }
  else
    let r := processBrotli B { advance s 4 with headerDone := true } (inp.drop 4) cap
    { r with fed := inp.take 4 ++ r.fed }

/-- `JxlBoxContentDecoder::Process` (`box_content_decoder.cc`:41-122): `inp` are the bytes from
`next_in`, which the caller says start at offset `boxPos` of the box contents; `cap` is the free
space of the output buffer. -/
def process {σ : Type} (B : Brotli σ) (s : St σ) (inp : List UInt8) (boxPos cap : Nat) : Res σ :=
  if s.pos < boxPos then { status := .error, out := [], fed := [], st := s }
  else
    let offset := s.pos - boxPos
    if inp.length < offset then { status := .error, out := [], fed := [], st := s }
    else if s.brob then processBrob B s (inp.drop offset) cap
    else processRaw s (inp.drop offset) cap

/-- One call of the surrounding decoder: it has the bytes `boxPos .. boxPos + len` of the file
(counted from the start of the box contents) and `cap` bytes of output space
(`decode.cc`:1690-1695). -/
structure Call where
  boxPos : Nat
  len : Nat
  cap : Nat

/-- A sequence of calls over a file whose bytes after the box header are `file`, stopping at the
first error as the surrounding decoder does (`decode.cc`:1708-1711). -/
def run {σ : Type} (B : Brotli σ) (file : List UInt8) (s : St σ) : List Call → List (Res σ)
  | [] => []
  | c :: cs =>
    let r := process B s ((file.drop c.boxPos).take c.len) c.boxPos c.cap
    if r.status = .error then [r] else r :: run B file r.st cs

end Jxl.BoxContent
