import Verif.Spec.Bits
/-!
# Entropy-coded segments of JPEG (specification vocabulary)

ITU-T T.81, B.1.1.5 and F.1.2.3: codes are packed most significant bit first into bytes, the last byte is
padded, and every byte `0xFF` of the segment is followed by a stuffed `0x00` so that no marker appears inside.
-/
namespace Jxl.Jpeg

/-- The `n` low bits of `v`, most significant first. -/
def msb (n v : Nat) : List Bool := (bitsOf n v).reverse

/-- The number whose binary digits, most significant first, are the given bits. -/
def valMsb (l : List Bool) : Nat := ofBits l.reverse

/-- The bytes of a bit string, eight bits each, most significant bit first. -/
def packBytes (l : List Bool) : List Nat :=
  (List.range (l.length / 8)).map fun i => valMsb ((l.drop (8 * i)).take 8)

/-- Byte stuffing: `0x00` after every `0xFF`. -/
def stuff : List Nat → List Nat
  | [] => []
  | b :: bs => if b = 255 then b :: 0 :: stuff bs else b :: stuff bs

/-- The codes written, as one bit string: each code is a length and a value. -/
def codeBits (ws : List (Nat × Nat)) : List Bool := ws.flatMap fun w => msb w.1 w.2

/-- An entropy-coded segment: the bits and the padding, packed and stuffed. -/
def segment (bits pads : List Bool) : List Nat := stuff (packBytes (bits ++ pads))

/-- A bit as the byte stored for it. -/
def bit01 (b : Bool) : Nat := b.toNat

/-- The padding a segment of `len` bits receives from a stream of padding bits. -/
def padsOf (len : Nat) : Option (List Nat) → List Bool
  | none => List.replicate ((8 - len % 8) % 8) true
  | some src => (src.take ((8 - len % 8) % 8)).map (· == 1)

/-- The padding stream after a segment of `len` bits. -/
def padsRest (len : Nat) : Option (List Nat) → Option (List Nat)
  | none => none
  | some src => some (src.drop ((8 - len % 8) % 8))

/-- Codes a segment may contain: at most 64 bits each, and no bits above the stated length. -/
def CodesOk (ws : List (Nat × Nat)) : Prop := ∀ w ∈ ws, w.1 ≤ 64 ∧ w.2 < 2 ^ w.1

/-- Each segment's bits with the padding it receives, the padding stream being used up in order. -/
def withPads : List (List Bool) → Option (List Nat) → List (List Bool × List Bool)
  | [], _ => []
  | B :: Bs, p => (B, padsOf B.length p) :: withPads Bs (padsRest B.length p)

/-- A scan: the segments, separated by restart markers counting modulo eight. -/
def scanBytes : Nat → List (List Bool × List Bool) → List Nat
  | _, [] => []
  | i, s :: rest =>
    segment s.1 s.2 ++ (if rest = [] then [] else 255 :: (0xD0 + i % 8) :: scanBytes (i + 1) rest)

/-- What reading the segments must return. -/
def SegsRead : List (List Bool × List Bool) → List (List Nat) → List (List Nat × List Nat) → Prop
  | [], [], [] => True
  | s :: ss, ns :: nss, r :: rs =>
    (r.1.length = ns.length ∧ codeBits (ns.zip r.1) = s.1 ∧ (∀ p ∈ ns.zip r.1, p.2 < 2 ^ p.1) ∧
      r.2 = s.2.map bit01) ∧ SegsRead ss nss rs
  | _, _, _ => False

/-- Widths fit the segments: at most 16 bits per call, and together all the bits of the segment. -/
def WidthsFit : List (List Bool × List Bool) → List (List Nat) → Prop
  | [], [] => True
  | s :: ss, ns :: nss => (∀ n ∈ ns, n ≤ 16) ∧ ns.sum = s.1.length ∧ WidthsFit ss nss
  | _, _ => False

end Jxl.Jpeg
