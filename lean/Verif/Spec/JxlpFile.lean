import Verif.Spec.Container
/-!
# Files made of partial codestream boxes

The byte strings of container files with partial codestream boxes in any order and any other boxes
between them, written down from the file format.
-/
namespace Jxl.Container

/-- Big-endian 32-bit number. -/
def be32 (n : Nat) : List UInt8 :=
  [UInt8.ofNat (n / 2 ^ 24), UInt8.ofNat (n / 2 ^ 16), UInt8.ofNat (n / 2 ^ 8), UInt8.ofNat n]

/-- A box of known size. -/
def box (ty content : List UInt8) : List UInt8 := be32 (8 + content.length) ++ ty ++ content

/-- The content of a partial codestream box. -/
def pieceContent (p : Piece) : List UInt8 :=
  be32 (p.idx + if p.isLast then 2 ^ 31 else 0) ++ p.payload

/-- A box after the file type box. -/
inductive Item where
  | part (p : Piece)
  | other (ty content : List UInt8)

def Item.bytes : Item → List UInt8
  | .part p => box (chars "jxlp") (pieceContent p)
  | .other ty c => box ty c

/-- Fits the format: 31-bit index, 32-bit size, types of four bytes. -/
def Item.ok : Item → Prop
  | .part p => p.idx < 2 ^ 31 ∧ 12 + p.payload.length < 2 ^ 32
  | .other ty c => ty.length = 4 ∧ ty ≠ chars "ftyp" ∧ ty ≠ chars "jxlc" ∧ ty ≠ chars "jxlp" ∧
      8 + c.length < 2 ^ 32 ∧ (ty = chars "brob" → 4 ≤ c.length)

/-- The partial codestream boxes in order of arrival. -/
def parts : List Item → List Piece
  | [] => []
  | .part p :: t => p :: parts t
  | .other _ _ :: t => parts t

def body : List Item → List UInt8
  | [] => []
  | i :: t => i.bytes ++ body t

/-- A file of the given version. -/
def jxlpFile (version : Nat) (items : List Item) : List UInt8 :=
  box (chars "JXL ") [0xd, 0xa, 0x87, 0xa] ++
    (box (chars "ftyp") (chars "jxl " ++ be32 version ++ chars "jxl ") ++ body items)

end Jxl.Container
