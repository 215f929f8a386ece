import Verif.Spec.JpegBits
/-!
# The bit writer of JPEG reconstruction and the bit reader of the JPEG parser

`lib/jxl/jpeg/dec_jpeg_data_writer.cc:42-187` (`JpegBitWriter`) and
`lib/jxl/jpeg/enc_jpeg_data_reader.cc:380-473` (`BitReaderState`).

Bytes and 64-bit words are `Nat`s; every operation that could leave 64 bits is reduced explicitly.  `none` as
the outer result is undefined behaviour: a store outside the 16384-byte chunk, a load outside the input, or a
shift by 64 or more.  Simplification: the chunks handed to the output queue and the bytes of the current chunk
are one list `out`, newest byte first; `pos` is the position in the current chunk, which decides whether a
store is inside it.
-/
namespace Jxl.Jpeg

/-- `kJpegBitWriterChunkSize` (dec_jpeg_data_writer.cc:44). -/
def chunkSize : Nat := 16384

/-- `JpegBitWriter` (dec_jpeg_serialization_state.h:31-39). -/
structure Writer where
  out : List Nat
  pos : Nat
  buf : Nat
  room : Nat
  healthy : Bool
deriving Repr, DecidableEq

/-- `JpegBitWriterInit` (dec_jpeg_data_writer.cc:52-61). -/
def Writer.init : Writer := { out := [], pos := 0, buf := 0, room := 64, healthy := true }

/-- `HasZeroByte` (dec_jpeg_data_writer.cc:46-50): `(x - 0x01..01) & ~x & 0x80..80`. -/
def hasZeroByte (x : Nat) : Bool :=
  (((x + 2 ^ 64 - 0x0101010101010101) % 2 ^ 64) &&& (2 ^ 64 - 1 - x) &&& 0x8080808080808080) != 0

/-- `Reserve` and `SwapBuffer` (dec_jpeg_data_writer.cc:63-75): a full chunk is queued, a new one started. -/
def reserve (w : Writer) (n : Nat) : Writer := if chunkSize < w.pos + n then { w with pos := 0 } else w

/-- `EmitByte` (dec_jpeg_data_writer.cc:83-87): always stores two bytes. -/
def emitByte (w : Writer) (b : Nat) : Option Writer :=
  if w.pos + 1 < chunkSize then
    if b = 255 then some { w with out := 0 :: b :: w.out, pos := w.pos + 2 }
    else some { w with out := b :: w.out, pos := w.pos + 1 }
  else none

/-- The eight calls of `EmitByte` (dec_jpeg_data_writer.cc:101-108), for the `k` low bytes. -/
def emitBytes (v : Nat) : Nat → Writer → Option Writer
  | 0, w => some w
  | k + 1, w => (emitByte w ((v >>> (8 * k)) &&& 0xFF)).bind (emitBytes v k)

/-- The bytes of a 64-bit word as `StoreBE64` leaves them, last stored byte first. -/
def be64Rev (v : Nat) : List Nat := (List.range 8).map fun i => v / 2 ^ (8 * i) % 256

/-- The output of the full put buffer (dec_jpeg_data_writer.cc:96-113). -/
def emitWord (w : Writer) (v : Nat) : Option Writer :=
  if hasZeroByte (2 ^ 64 - 1 - v) then emitBytes v 8 w
  else if w.pos + 8 ≤ chunkSize then some { w with out := be64Rev v ++ w.out, pos := w.pos + 8 }
  else none

/-- `DischargeBitBuffer` (dec_jpeg_data_writer.cc:89-117); `over` is `-bw->put_bits`, the number of bits that
do not fit. -/
def discharge (w : Writer) (over bits : Nat) : Option Writer :=
  if over ≥ 64 then none
  else
    (emitWord w (w.buf ||| (bits >>> over))).bind fun w' =>
      some { w' with room := 64 - over, buf := (bits <<< (64 - over)) % 2 ^ 64 }

/-- `WriteBits` (dec_jpeg_data_writer.cc:119-130). -/
def writeBits (w : Writer) (n bits : Nat) : Option Writer :=
  if w.room < n then
    if n > 64 then some { w with healthy := false } else discharge w (n - w.room) bits
  else if w.room - n ≥ 64 then none
  else some { w with buf := w.buf ||| ((bits <<< (w.room - n)) % 2 ^ 64), room := w.room - n }

/-- `EmitMarker` (dec_jpeg_data_writer.cc:132-137). -/
def emitMarker (w : Writer) (m : Nat) : Option Writer :=
  let w := reserve w 2
  if w.pos + 1 < chunkSize then some { w with out := m :: 255 :: w.out, pos := w.pos + 2 } else none

/-- The loop reading `n` padding bits (dec_jpeg_data_writer.cc:147-155): pattern, union of the bits and the
rest; refused when they run out.  `pad_pattern` is a `uint8_t`. -/
def takePads : Nat → List Nat → Nat → Nat → Option (Nat × Nat × List Nat)
  | 0, src, pat, dang => some (pat, dang, src)
  | _ + 1, [], _, _ => none
  | n + 1, b :: src, pat, dang => takePads n src (((pat <<< 1) % 256) ||| b) (dang ||| b)

/-- The loop over whole bytes (dec_jpeg_data_writer.cc:164-169); at most eight rounds. -/
def emitWhole : Nat → Writer → Option Writer
  | 0, w => if w.room ≤ 56 then none else some w
  | k + 1, w =>
    if w.room ≤ 56 then
      (emitByte w ((w.buf >>> 56) &&& 0xFF)).bind fun w =>
        emitWhole k { w with buf := (w.buf <<< 8) % 2 ^ 64, room := w.room + 8 }
    else some w

/-- The last byte (dec_jpeg_data_writer.cc:170-174) and the reset of the buffer. -/
def emitLast (w : Writer) (pat : Nat) : Option Writer :=
  (if w.room < 64 then
      let mask := 0xFF >>> (64 - w.room)
      emitByte w ((((w.buf >>> 56) &&& (255 - mask)) % 256) ||| pat)
    else some w).bind fun w => some { w with buf := 0, room := 64 }

/-- `JumpToByteBoundary` (dec_jpeg_data_writer.cc:139-179).  `pads = none` is the null pointer: pad with ones.
The inner `none` is the result `false`. -/
def jump (w : Writer) (pads : Option (List Nat)) : Option (Option (Writer × Option (List Nat))) :=
  let n := w.room % 8
  match pads with
  | none =>
    ((emitWhole 8 (reserve w 16)).bind fun w => emitLast w (2 ^ n - 1)).bind fun w => some (some (w, none))
  | some src =>
    match takePads n src 0 0 with
    | none => some none
    | some (pat, dang, rest) =>
      if dang > 1 then some none
      else ((emitWhole 8 (reserve w 16)).bind fun w => emitLast w pat).bind fun w => some (some (w, some rest))

/-- One call made on the writer while a segment is written. -/
inductive WOp
  | reserve (n : Nat)
  | write (n bits : Nat)
deriving Repr, DecidableEq

def WOp.run (w : Writer) : WOp → Option Writer
  | .reserve n => some (Jpeg.reserve w n)
  | .write n bits => writeBits w n bits

/-- A sequence of calls. -/
def runOps : List WOp → Writer → Option Writer
  | [], w => some w
  | o :: os, w => (o.run w).bind (runOps os)

/-- The codes written by a sequence of calls. -/
def opCodes : List WOp → List (Nat × Nat)
  | [] => []
  | .reserve _ :: os => opCodes os
  | .write n v :: os => (n, v) :: opCodes os

/-- The segments of a scan (`DoEncodeScan`, dec_jpeg_data_writer.cc:812-821 and 889-892): the codes, the byte
boundary, and a restart marker between segments. -/
def writeSegs : Nat → List (List WOp) → Writer → Option (List Nat) → Option (Option (Writer × Option (List Nat)))
  | _, [], w, p => some (some (w, p))
  | i, os :: rest, w, p =>
    (runOps os w).bind fun w => (jump w p).bind fun q =>
      match q with
      | none => some none
      | some (w, p) =>
        if rest = [] then some (some (w, p))
        else (emitMarker w (0xD0 + i % 8)).bind fun w => writeSegs (i + 1) rest w p

/-! ## The reader -/

/-- `BitReaderState` (enc_jpeg_data_reader.cc:381-473). -/
structure Reader where
  pos : Nat
  val : Nat
  left : Nat
  marker : Nat
deriving Repr, DecidableEq

/-- `GetNextByte` (enc_jpeg_data_reader.cc:396-413). -/
def getNextByte (d : List Nat) (r : Reader) : Option (Nat × Reader) :=
  if r.pos ≥ r.marker then some (0, { r with pos := r.pos + 1 })
  else
    match d[r.pos]? with
    | none => none
    | some c =>
      if c = 255 then
        match d[r.pos + 1]? with
        | none => none
        | some e =>
          if e = 0 then some (c, { r with pos := r.pos + 2 })
          else some (c, { r with pos := r.pos + 1, marker := r.pos })
      else some (c, { r with pos := r.pos + 1 })

/-- The loop of `FillBitWindow` (enc_jpeg_data_reader.cc:417-421); at most eight rounds. -/
def fillLoop (d : List Nat) : Nat → Reader → Option Reader
  | 0, r => if r.left ≤ 56 then none else some r
  | k + 1, r =>
    if r.left ≤ 56 then
      (getNextByte d r).bind fun p =>
        fillLoop d k { p.2 with val := ((p.2.val <<< 8) % 2 ^ 64) ||| p.1, left := p.2.left + 8 }
    else some r

/-- `FillBitWindow` (enc_jpeg_data_reader.cc:415-423). -/
def fill (d : List Nat) (r : Reader) : Option Reader := if r.left ≤ 16 then fillLoop d 8 r else some r

/-- `Reset` (enc_jpeg_data_reader.cc:387-393); `len_ - 2` with fewer than two bytes would wrap around. -/
def Reader.reset (d : List Nat) (pos : Nat) : Option Reader :=
  if d.length < 2 then none else fill d { pos := pos, val := 0, left := 0, marker := d.length - 2 }

/-- `ReadBits` (enc_jpeg_data_reader.cc:425-430). -/
def readBits (d : List Nat) (r : Reader) (n : Nat) : Option (Nat × Reader) :=
  (fill d r).bind fun r =>
    if r.left < n then none
    else some ((r.val >>> (r.left - n)) &&& (2 ^ n - 1), { r with left := r.left - n })

/-- Giving back one byte (enc_jpeg_data_reader.cc:450-456). -/
def unreadByte (d : List Nat) (marker pos : Nat) : Option Nat :=
  if pos = 0 then none
  else
    let p := pos - 1
    if p < marker then
      match d[p]? with
      | none => none
      | some b =>
        if b = 0 then
          if p = 0 then none
          else
            match d[p - 1]? with
            | none => none
            | some c => if c = 255 then some (p - 1) else some p
        else some p
    else some p

/-- The loop giving back unused bytes (enc_jpeg_data_reader.cc:447-457). -/
def unread (d : List Nat) (marker : Nat) : Nat → Nat → Option Nat
  | 0, pos => some pos
  | k + 1, pos => (unreadByte d marker pos).bind (unread d marker k)

/-- `FinishStream` (enc_jpeg_data_reader.cc:432-464): the padding bits seen and the position of the marker that
follows; the inner `none` is the failure. -/
def finishStream (d : List Nat) (r : Reader) : Option (Option (List Nat × Nat)) :=
  let npad := r.left % 8
  let padbits := (r.val >>> (r.left - npad)) &&& (2 ^ npad - 1)
  let pads := ((List.range npad).reverse).map fun i => (padbits >>> i) &&& 1
  (unread d r.marker (r.left >>> 3) r.pos).bind fun pos =>
    if pos > r.marker then some none else some (some (pads, pos))

/-- A sequence of `ReadBits` calls with the given widths. -/
def readMany (d : List Nat) : List Nat → Reader → Option (List Nat × Reader)
  | [], r => some ([], r)
  | n :: ns, r =>
    (readBits d r n).bind fun p => (readMany d ns p.2).bind fun q => some (p.1 :: q.1, q.2)

/-- `ProcessRestart` (enc_jpeg_data_reader.cc:725-743) after `FinishStream`: the expected marker is at `pos`. -/
def restartAt (d : List Nat) (pos i : Nat) : Option Bool :=
  if d.length < pos + 2 then some false
  else
    match d[pos]?, d[pos + 1]? with
    | some a, some b => some (a == 255 && b == 0xD0 + i % 8)
    | _, _ => none

/-- The segments of a scan (`ProcessScan`, enc_jpeg_data_reader.cc:768 and 810-826): for every segment the values
read and the padding bits, and the position after the scan. -/
def readSegs (d : List Nat) : Nat → List (List Nat) → Nat → Option (Option (List (List Nat × List Nat) × Nat))
  | _, [], pos => some (some ([], pos))
  | i, ns :: rest, pos =>
    (Reader.reset d pos).bind fun r => (readMany d ns r).bind fun q => (finishStream d q.2).bind fun f =>
      match f with
      | none => some none
      | some (pads, pos) =>
        if rest = [] then some (some ([(q.1, pads)], pos))
        else
          (restartAt d pos i).bind fun ok =>
            if ok then
              (readSegs d (i + 1) rest (pos + 2)).bind fun t =>
                match t with
                | none => some none
                | some (l, p) => some (some ((q.1, pads) :: l, p))
            else some none

end Jxl.Jpeg
