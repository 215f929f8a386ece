import Verif.Model.PaddedBytes
/-!
# Model of base-128 integers (lib/jxl/enc_icc_codec.cc, lib/jxl/icc_codec.cc, lib/jxl/encode.cc) and of the frame index box

Memory is a list of bytes; writing outside of it is the outcome `none`.
-/
namespace Jxl.VarInt

/-- The loop shared by the two `EncodeVarInt` functions (enc_icc_codec.cc:96-106, encode.cc:654-665): `outSize` is the size the code
compares the position with, `mem` the memory that may be written.  The flag is false when the check fails. -/
def encLoop (outSize : Nat) (mem : List UInt8) (pos value : Nat) : Option (Bool × List UInt8 × Nat) :=
  if h : value > 127 then
    if pos > outSize then some (false, mem, pos)
    else if pos ≥ mem.length then none
    else encLoop outSize (mem.set pos (UInt8.ofNat ((value &&& 127) ||| 128))) (pos + 1) (value >>> 7)
  else
    if pos > outSize then some (false, mem, pos)
    else if pos ≥ mem.length then none
    else some (true, mem.set pos (UInt8.ofNat (value &&& 127)), pos + 1)
termination_by value
decreasing_by rw [Nat.shiftRight_eq_div_pow]; omega

/-- `EncodeVarInt` of the ICC codec (enc_icc_codec.cc:88-109), appending to a `PaddedBytes`. -/
def encIcc (b : PaddedBytes) (a1 a2 : Alloc) (value : Nat) : Option (Bool × PaddedBytes) :=
  match b.resize a1 (b.size + 9) with
  | (false, b') => some (false, b')
  | (true, b') =>
    match encLoop b'.size b'.mem b.size value with
    | none => none
    | some (false, mem, _) => some (false, { b' with mem := mem })
    | some (true, mem, pos) => some ({ b' with mem := mem }.resize a2 pos)

/-- `DecodeVarInt` (icc_codec.cc:62-90) with `k` bytes of the loop left. -/
def decLoop (inp : List UInt8) : Nat → Nat → Nat → Option (Nat × Nat)
  | 0, pos, ret =>
    match inp[pos]? with
    | none => none
    | some b =>
      if b.toNat &&& 0x80 ≠ 0 then none
      else if b.toNat &&& 0x7e ≠ 0 then none
      else some (ret ||| ((b.toNat &&& 1) <<< 63), pos + 1)
  | k + 1, pos, ret =>
    match inp[pos]? with
    | none => none
    | some b =>
      let ret := ret ||| ((b.toNat &&& 0x7f) <<< (7 * (8 - k)))
      if b.toNat &&& 0x80 = 0 then some (ret, pos + 1) else decLoop inp k (pos + 1) ret

def decode (inp : List UInt8) (pos : Nat) : Option (Nat × Nat) := decLoop inp 9 pos 0

/-! ## Frame index box -/

/-- `JxlEncoderFrameIndexBoxEntry` (encode_internal.h:70-74). -/
structure Entry where
  indexed : Bool
  duration : BitVec 32
  off : BitVec 64

/-- State of the loop of `EncodeFrameIndexBox` (encode.cc:699-702). -/
structure IdxSt where
  prevPrev : Option Nat := none
  prev : Nat := 0
  tPrev : BitVec 32 := 0
  t : BitVec 32 := 0

def offAt (es : List Entry) (i : Nat) : BitVec 64 := match es[i]? with | some e => e.off | none => 0

/-- The three numbers recorded for the previous indexed frame (encode.cc:707-720, 729-736), converted to `uint64_t`. -/
def record (es : List Entry) (s : IdxSt) (i : Nat) : List Nat :=
  let off := match s.prevPrev with
    | none => offAt es s.prev
    | some pp => offAt es s.prev - offAt es pp
  [off.toNat, (s.tPrev.signExtend 64).toNat, ((BitVec.ofNat 32 (i - s.prev)).signExtend 64).toNat]

/-- The loop over the entries (encode.cc:703-739): the numbers written, in order. -/
def records (es : List Entry) : List Entry → Nat → IdxSt → List Nat
  | [], i, s => record es s i
  | e :: rest, i, s =>
    if e.indexed then
      record es s i ++ records es rest (i + 1) { prevPrev := some s.prev, prev := i, tPrev := s.t, t := s.t + e.duration }
    else records es rest (i + 1) s

/-- Number of frames listed (encode.cc:671-676). -/
def numIndexed : List Entry → Nat
  | [] => 0
  | _ :: rest => 1 + (rest.filter (·.indexed)).length

/-- Successive `ok &= EncodeVarInt(...)`. -/
def encMany (outSize : Nat) (st : Bool × List UInt8 × Nat) : List Nat → Option (Bool × List UInt8 × Nat)
  | [] => some st
  | v :: vs =>
    match st with
    | (ok, mem, pos) =>
      match encLoop outSize mem pos v with
      | none => none
      | some (ok', mem', pos') => encMany outSize (ok && ok', mem', pos') vs

/-- `StoreBE32` (byte_order.h). -/
def be32 (x : BitVec 32) : List UInt8 :=
  [UInt8.ofNat (x.toNat >>> 24), UInt8.ofNat (x.toNat >>> 16), UInt8.ofNat (x.toNat >>> 8), UInt8.ofNat x.toNat]

def store (mem : List UInt8) (pos : Nat) (d : List UInt8) : Option (List UInt8) :=
  if pos + d.length ≤ mem.length then some (PaddedBytes.blit mem pos d) else none

/-- `EncodeFrameIndexBox` (encode.cc:668-742).  `none` is undefined behaviour (no entries, `int` overflow of the buffer size, write outside
the buffer); the inner `none` is a failure. -/
def frameIndexBox (es : List Entry) (tnum tden : BitVec 32) : Option (Option (List UInt8)) :=
  match es with
  | [] => none
  | _ :: rest =>
    let nf := numIndexed es
    let size := 18 + nf * 30
    if size ≥ 2 ^ 31 then none
    else
      match encLoop size (List.replicate size 0) 0 nf with
      | none => none
      | some (ok, mem, pos) =>
        match store mem pos (be32 tnum) with
        | none => none
        | some mem =>
          match store mem (pos + 4) (be32 tden) with
          | none => none
          | some mem =>
            match encMany size (ok, mem, pos + 8) (records es rest 1 {}) with
            | none => none
            | some (true, mem, pos) => some (some (mem.take pos))
            | some (false, _, _) => some none

end Jxl.VarInt
