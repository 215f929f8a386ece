/-!
# Specification: the ICC profiles whose tag list the decoder refuses

An ICC profile has a 128-byte header, a big-endian 32-bit number of tags and twelve bytes for each tag: four letters, offset and size.
-/
namespace Jxl.Icc.Spec

/-- Big-endian 32-bit number. -/
def be32 (x : Nat) : List UInt8 := [UInt8.ofNat (x / 2 ^ 24), UInt8.ofNat (x / 2 ^ 16), UInt8.ofNat (x / 2 ^ 8), UInt8.ofNat x]

/-- Value of a big-endian number. -/
def value (l : List UInt8) : Nat := l.foldl (fun a b => 256 * a + b.toNat) 0

/-- `n` bytes from byte `p` on. -/
def bytes (l : List UInt8) (p n : Nat) : List UInt8 := (l.drop p).take n

/-- Twelve bytes of the tag list. -/
def entry (name : List UInt8) (offset size : Nat) : List UInt8 := name ++ be32 offset ++ be32 size

/-- The three colorant entries in a row, each 20 bytes long and 20 bytes after the one before, counted modulo `2 ^ 32`. -/
def triple (offset : Nat) : List UInt8 :=
  entry [0x72, 0x58, 0x59, 0x5a] offset 20 ++ entry [0x67, 0x58, 0x59, 0x5a] ((offset + 20) % 2 ^ 32) 20 ++
    entry [0x62, 0x58, 0x59, 0x5a] ((offset + 40) % 2 ^ 32) 20

/-- The tag list holds, before the last byte of the profile, the three colorants with offsets that run over the end of the 32-bit numbers. -/
def Overrun (icc : List UInt8) : Prop :=
  ∃ k off, k < value (bytes icc 128 4) ∧ 132 + 12 * k + 36 < icc.length ∧ off < 2 ^ 32 ∧ 2 ^ 32 ≤ off + 40 ∧
    bytes icc (132 + 12 * k) 36 = triple off

end Jxl.Icc.Spec
