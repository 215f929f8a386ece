/-!
# Model of container box headers (lib/jxl/encode.cc, lib/jxl/decode.cc)

`size_t` and `uint64_t` values are natural numbers below 2^64; additions wrap explicitly.  Writing outside a buffer is the outcome `none`.
-/
namespace Jxl.Box

def w64 (x : Nat) : Nat := x % 2 ^ 64

/-- The low `8 n` bits of `x`, most significant byte first: the loops of encode.cc:380-394 and 464-466. -/
def be : Nat → Nat → List UInt8
  | 0, _ => []
  | n + 1, x => UInt8.ofNat ((x >>> (8 * n)) &&& 0xff) :: be n x

/-- `kSmallBoxHeaderSize`, `kLargeBoxHeaderSize`, `kLargeBoxContentSizeThreshold` (encode_internal.h:410-413). -/
def smallHeader : Nat := 8
def largeHeader : Nat := 16
def largeThreshold : Nat := 0x100000000 - smallHeader

/-- `WriteBoxHeader` (encode.cc:361-393): the bytes stored.  Note that the threshold is compared with `box_size`, still 0. -/
def writeHeader (type : List UInt8) (size : Nat) (unbounded force : Bool) : List UInt8 :=
  let boxSize := 0
  let large := !unbounded && (decide (boxSize ≥ largeThreshold) || force)
  let boxSize := if unbounded then 0 else if large then w64 (size + largeHeader) else w64 (size + smallHeader)
  be 4 (if large then 1 else boxSize) ++ type ++ (if large then be 8 boxSize else [])

/-- The header part of `AppendBox` (encode.cc:396-437): `maxSize` is the bound given beforehand, `size` the actual content size.  The inner `none` is
an error. -/
def appendBox (type : List UInt8) (unbounded : Bool) (maxSize size : Nat) : Option (List UInt8) :=
  let large := decide (maxSize ≥ largeThreshold) && !unbounded
  let headerSize := if large then largeHeader else smallHeader
  if size > maxSize then none
  else
    let h := writeHeader type size unbounded large
    if h.length = headerSize then some h else none

def jxlc : List UInt8 := [0x6a, 0x78, 0x6c, 0x63]
def jxlp : List UInt8 := [0x6a, 0x78, 0x6c, 0x70]

/-- `WriteJxlpBoxCounter` (encode.cc:456-461); `counter` is 32 bits. -/
def jxlpCounter (counter : Nat) (last : Bool) : List UInt8 := be 4 (if last then counter ||| 0x80000000 else counter)

/-- The header of the box around one frame (encode.cc:963-1004, 1089-1118).  `mode2` is output mode 2 (one-shot fallback), `useLarge` the estimate,
`reserved` the number of bytes left free in front of the content, which is also the size of the buffer the header is written to.
`none` is a write outside that buffer, `some none` an error. -/
def frameBox (mode2 useLarge last : Bool) (counter content : Nat) : Option (Option (List UInt8)) :=
  let reserved :=
    if mode2 then 12
    else (if useLarge then largeHeader else smallHeader) + (if !last || decide (counter > 0) then 4 else 0)
  if !useLarge && decide (content ≥ largeThreshold) then some none
  else if last && decide (counter = 0) then
    let h := writeHeader jxlc content false useLarge
    if h.length > reserved then none
    else if h.length = reserved then some (some h) else some none
  else
    let h := writeHeader jxlp (w64 (content + 4)) false useLarge
    if h.length > reserved then none
    else if h.length = reserved - 4 then some (some (h ++ jxlpCounter counter last)) else some none

/-! ## Decoder -/

inductive Parse where
  | needMore (headerSize : Nat)
  | error
  | ok (type : List UInt8) (boxSize headerSize : Nat)
deriving DecidableEq

/-- `OutOfBounds` (decode.cc:61-66). -/
def outOfBounds (a b size : Nat) : Bool :=
  let pos := w64 (a + b)
  if pos > size then true else if pos < a then true else false

/-- `LoadBE32`, `LoadBE64` (byte_order.h:67-100). -/
def load (l : List UInt8) : Nat := l.foldl (fun a b => a <<< 8 ||| b.toNat) 0

/-- `ParseBoxHeader` (decode.cc:1639-1671); `inp` are the available bytes. -/
def parse (inp : List UInt8) (pos filePos : Nat) : Parse :=
  if outOfBounds pos 8 inp.length then .needMore 8
  else
    let size32 := load ((inp.drop pos).take 4)
    let type := (inp.drop (pos + 4)).take 4
    if size32 = 1 then
      if outOfBounds (pos + 8) 8 inp.length then .needMore 16
      else
        let size := load ((inp.drop (pos + 8)).take 8)
        if size > 0 ∧ size < 16 then .error
        else if w64 (filePos + size) < filePos then .error
        else .ok type size 16
    else if size32 > 0 ∧ size32 < 8 then .error
    else if w64 (filePos + size32) < filePos then .error
    else .ok type size32 8

end Jxl.Box
