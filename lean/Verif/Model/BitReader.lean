import Verif.Spec.Bits
/-!
# Model of `BitReader` (lib/jxl/dec_bit_reader.h, dec_bit_reader.cc)

`none` is undefined behaviour (memory access outside the buffer, or a violated `JXL_DASSERT`).
Pointers are offsets into the buffer.  `size_t`/`uint64_t` counters of consumed bits and over-read bytes are
unbounded (they would need 2^61 bytes to wrap); `buf_` is exactly 64 bits wide.
-/
namespace Jxl

/-- Members of `BitReader` (dec_bit_reader.h:303-321). -/
structure BitReader where
  bytes : List UInt8
  buf : Nat := 0
  bitsInBuf : Nat := 0
  next : Nat := 0
  overread : Nat := 0
  checked : Nat := 0
deriving Repr, DecidableEq

namespace BitReader

/-- Little-endian value of a byte string. -/
def leVal : List UInt8 → Nat
  | [] => 0
  | b :: bs => b.toNat + 256 * leVal bs

/-- `LoadLE64` (base/byte_order.h:118): undefined if fewer than 8 bytes are left at `p`. -/
def loadLE64 (bytes : List UInt8) (p : Nat) : Option Nat :=
  if p + 8 ≤ bytes.length then some (leVal ((bytes.drop p).take 8)) else none

/-- The byte loop of `BoundsCheckedRefill` (dec_bit_reader.cc:19-22); at most 7 or 8 iterations,
`fuel` bounds them. -/
def refillLoop : Nat → BitReader → BitReader
  | 0, r => r
  | fuel + 1, r =>
    if r.bitsInBuf < 64 - 8 then
      match r.bytes[r.next]? with
      | none => r
      | some b =>
        refillLoop fuel { r with
          buf := r.buf ||| (b.toNat <<< r.bitsInBuf) % 2 ^ 64
          next := r.next + 1
          bitsInBuf := r.bitsInBuf + 8 }
    else r

/-- `BoundsCheckedRefill` (dec_bit_reader.cc:15-34). -/
def boundsCheckedRefill (r : BitReader) : BitReader :=
  let r := refillLoop 8 r
  let extra := (63 - r.bitsInBuf) / 8
  { r with overread := r.overread + extra, bitsInBuf := r.bitsInBuf + extra * 8 }

/-- `Refill` (dec_bit_reader.h:84-101).  The comparison `next_byte_ > end_minus_8_` is on pointers, hence the
form without subtraction. -/
def refill (r : BitReader) : Option BitReader :=
  if r.next + 8 > r.bytes.length then some r.boundsCheckedRefill
  else do
    let w ← loadLE64 r.bytes r.next
    some { r with
      buf := r.buf ||| (w <<< r.bitsInBuf) % 2 ^ 64
      next := r.next + (63 - r.bitsInBuf) / 8
      bitsInBuf := r.bitsInBuf ||| 56 }

/-- Constructor (dec_bit_reader.h:44-53). -/
def mk' (bytes : List UInt8) : Option BitReader := refill { bytes }

/-- `PeekBits` (dec_bit_reader.h:113-127). -/
def peekBits (r : BitReader) (n : Nat) : Option Nat :=
  if n ≤ 56 then some (r.buf &&& (2 ^ n - 1)) else none

/-- `Consume` (dec_bit_reader.h:132-144); the assertion `bits_in_buf_ >= num_bits` is a precondition. -/
def consume (r : BitReader) (n : Nat) : Option BitReader :=
  if n ≤ r.bitsInBuf then some { r with bitsInBuf := r.bitsInBuf - n, buf := r.buf >>> n } else none

/-- `ReadBits` (dec_bit_reader.h:146-152). -/
def readBits (r : BitReader) (n : Nat) : Option (Nat × BitReader) := do
  let r ← r.refill
  let v ← r.peekBits n
  let r ← r.consume n
  some (v, r)

/-- `SkipBits` (dec_bit_reader.h:165-199). -/
def skipBits (r : BitReader) (skip : Nat) : Option BitReader :=
  if skip ≤ r.bitsInBuf then r.consume skip
  else do
    let skip := skip - r.bitsInBuf
    let r := { r with bitsInBuf := 0, buf := 0 }
    let whole := skip / 8
    let skip := skip % 8
    if whole > r.bytes.length - r.next then
      let r ← refill { r with next := r.bytes.length }
      r.consume (skip + 8)
    else
      let r ← refill { r with next := r.next + whole }
      r.consume skip

/-- `TotalBitsConsumed` (dec_bit_reader.h:201-204). -/
def totalBitsConsumed (r : BitReader) : Nat := (r.next + r.overread) * 8 - r.bitsInBuf

/-- `JumpToByteBoundary` (dec_bit_reader.h:206-213); the `Bool` is the returned status. -/
def jumpToByteBoundary (r : BitReader) : Option (Bool × BitReader) :=
  let remainder := r.totalBitsConsumed % 8
  if remainder = 0 then some (true, r)
  else do
    let (v, r) ← r.readBits (8 - remainder)
    some (v == 0, r)

/-- `MarkUnhealthy` (dec_bit_reader.h:228-233). -/
def markUnhealthy (r : BitReader) : BitReader :=
  { r with next := r.bytes.length, overread := r.overread + 8 }

/-- `AllReadsWithinBounds` (dec_bit_reader.h:238-251). -/
def allReadsWithinBounds (r : BitReader) : Bool × BitReader :=
  (!(r.totalBitsConsumed > r.bytes.length * 8), { r with checked := r.totalBitsConsumed })

/-- `Close` (dec_bit_reader.h:254-265): returned status. -/
def close (r : BitReader) : Bool :=
  !(r.totalBitsConsumed > r.checked && r.totalBitsConsumed > r.bytes.length * 8)

end BitReader

/-- The public operations a client performs on a reader. -/
inductive BitReader.Op where
  | read (n : Nat)
  | skip (n : Nat)
  | jump
  | check
deriving Repr, DecidableEq

/-- What an operation returns: a value, nothing, or a status. -/
inductive BitReader.Out where
  | value (v : Nat)
  | done
  | status (ok : Bool)
deriving Repr, DecidableEq

/-- One public operation. -/
def BitReader.step (r : BitReader) : BitReader.Op → Option (BitReader.Out × BitReader)
  | .read n => do let (v, r) ← r.readBits n; some (.value v, r)
  | .skip n => do let r ← r.skipBits n; some (.done, r)
  | .jump => do let (s, r) ← r.jumpToByteBoundary; some (.status s, r)
  | .check => let (s, r) := r.allReadsWithinBounds; some (.status s, r)

/-- A sequence of public operations. -/
def BitReader.run (r : BitReader) : List BitReader.Op → Option (List BitReader.Out × BitReader)
  | [] => some ([], r)
  | op :: ops => do
    let (o, r) ← r.step op
    let (os, r) ← r.run ops
    some (o :: os, r)

end Jxl
