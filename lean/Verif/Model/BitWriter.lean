import Verif.Spec.Bits
import Verif.Model.PaddedBytes
/-!
# Model of `BitWriter` (lib/jxl/enc_bit_writer.h, enc_bit_writer.cc)

The storage is a `PaddedBytes` whose fresh memory is arbitrary.  Allotments (`WithMaxBits`) form a stack of
`(prev_bits_written_, max_bits_)`, innermost first.  `none` is undefined behaviour or a violated assertion.
Little-endian path of `Write` (the other one is a byte loop with the same effect).  Statistics (`AuxOut`,
histogram bits) are not modelled.
-/
namespace Jxl

structure BitWriter where
  st : PaddedBytes := {}
  bits : Nat := 0
  stack : List (Nat × Nat) := []

namespace BitWriter

/-- The 8 little-endian bytes of a 64-bit value (`memcpy(p, &v, 8)`). -/
def le64 (v : Nat) : List UInt8 := (List.range 8).map fun i => UInt8.ofNat (v / 256 ^ i % 256)

/-- `Write` (enc_bit_writer.cc:183-207). -/
def write (w : BitWriter) (n : Nat) (v : Nat) : Option BitWriter :=
  if v < 2 ^ n ∧ n ≤ 56 then
    let off := w.bits / 8
    let k := w.bits % 8
    match w.st.mem[off]? with
    | none => none
    | some p =>
      if off + 8 ≤ w.st.mem.length ∧ p.toNat >>> k = 0 then
        let x := p.toNat ||| (v <<< k) % 2 ^ 64
        some { w with st := { w.st with mem := PaddedBytes.blit w.st.mem off (le64 x) }, bits := w.bits + n }
      else none
  else none

/-- `ZeroPadToByte` (enc_bit_writer.h:85-91). -/
def zeroPadToByte (w : BitWriter) : Option BitWriter :=
  let rem := (w.bits + 7) / 8 * 8 - w.bits
  if rem = 0 then some w else w.write rem 0

/-- `Allotment::Init` (enc_bit_writer.cc:37-48); `false` when the storage cannot grow. -/
def openAllotment (w : BitWriter) (a : Alloc) (maxBits : Nat) : Bool × BitWriter :=
  match w.st.resize a (w.st.size + (maxBits + 7) / 8) with
  | (true, st) => (true, { w with st := st, stack := (w.bits, maxBits) :: w.stack })
  | (false, st) => (false, { w with st := st })

/-- `PrivateReclaim` (enc_bit_writer.cc:84-109).  The assertions `BitsWritten() >= prev` and `used <= max` are
preconditions; shrinking never reallocates. -/
def closeAllotment (w : BitWriter) : Option BitWriter :=
  match w.stack with
  | [] => none
  | (prev, maxBits) :: rest =>
    if prev ≤ w.bits ∧ w.bits - prev ≤ maxBits ∧ (maxBits - (w.bits - prev)) / 8 ≤ w.st.size then
      let used := w.bits - prev
      let (_, st) := w.st.resize none (w.st.size - (maxBits - used) / 8)
      some { w with st := st, stack := rest.map fun p => (p.1 + used, p.2) }
    else none

/-- `AppendByteAligned(span)` (enc_bit_writer.cc:111-125). `some (false, _)` is an error status. -/
def appendByteAligned (w : BitWriter) (a : Alloc) (span : List UInt8) : Bool × BitWriter :=
  if span = [] then (true, w)
  else
    match w.st.resize a (w.st.size + span.length + 1) with
    | (false, st) => (false, { w with st := st })
    | (true, st) =>
      if w.bits % 8 = 0 then
        let pos := w.bits / 8
        let mem := PaddedBytes.blit st.mem pos span
        if pos + span.length < st.size then
          (true, { w with
            st := { st with mem := mem.set (pos + span.length) 0 }
            bits := w.bits + span.length * 8 })
        else (false, { w with st := { st with mem := mem } })
      else (false, { w with st := st })

/-- `GetSpan` (enc_bit_writer.h:49-53): the finished bytes, once byte aligned. -/
def getSpan (w : BitWriter) : Option (List UInt8) :=
  if w.bits % 8 = 0 then some (w.st.mem.take (w.bits / 8)) else none

inductive Op where
  | openAllot (a : Alloc) (maxBits : Nat)
  | write (n v : Nat)
  | pad
  | closeAllot
  | append (a : Alloc) (span : List UInt8)
  | shrink (a : Alloc)

/-- One operation; an error status ends the encoding (`ok = false`). -/
def step (w : BitWriter) : Op → Option (Bool × BitWriter)
  | .openAllot a m => some (w.openAllotment a m)
  | .write n v => (w.write n v).map (true, ·)
  | .pad => w.zeroPadToByte.map (true, ·)
  | .closeAllot => w.closeAllotment.map (true, ·)
  | .append a s => some (w.appendByteAligned a s)
  | .shrink a => some ((w.st.shrinkToFit a).1, { w with st := (w.st.shrinkToFit a).2 })

/-- A history of operations.  `none`: undefined behaviour; `some none`: an operation reported failure (allocation). -/
def run (w : BitWriter) : List Op → Option (Option BitWriter)
  | [] => some (some w)
  | op :: ops =>
    match w.step op with
    | none => none
    | some (false, _) => some none
    | some (true, w) => run w ops

end BitWriter
end Jxl
