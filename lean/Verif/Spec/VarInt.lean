/-!
# Specification: base-128 integers and the frame index box

Little-endian groups of seven bits; the top bit of a byte says that another byte follows.
-/
namespace Jxl.VarInt.Spec

def varint (v : Nat) : List UInt8 :=
  if h : v > 127 then UInt8.ofNat (v % 128 + 128) :: varint (v / 128) else [UInt8.ofNat v]
termination_by v
decreasing_by omega

/-- Frames listed by the index: frame 0 and every marked frame. -/
def listed (marked : List Bool) : List Nat := (List.range marked.length).filter fun i => i = 0 ∨ marked.getD i false

/-- Big-endian 32-bit number. -/
def u32be (x : Nat) : List UInt8 :=
  [UInt8.ofNat (x / 2 ^ 24), UInt8.ofNat (x / 2 ^ 16 % 256), UInt8.ofNat (x / 2 ^ 8 % 256), UInt8.ofNat (x % 256)]

/-- Offset relative to the previous listed frame, absolute for the first. -/
def relOffset (off : Nat → Nat) (prev : Option Nat) (p : Nat) : Nat :=
  match prev with
  | none => off p
  | some q => off p - off q

/-- The documented content of the box: for each listed frame the offset relative to the previous listed frame, the ticks to the next listed
frame and the number of frames to the next listed frame (to the end for the last).  `start i` is the tick at which frame `i` starts,
`start n` the end of the stream. -/
def recordsFrom (n : Nat) (off : Nat → Nat) (ticks : Nat → Nat → Nat) : Option Nat → List Nat → List Nat
  | _, [] => []
  | prev, p :: rest =>
    let next := rest.headD n
    [relOffset off prev p, ticks p next, next - p] ++ recordsFrom n off ticks (some p) rest

end Jxl.VarInt.Spec
