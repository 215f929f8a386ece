/-!
# Model of the signature check (lib/jxl/decode.cc)
-/
namespace Jxl.Signature

inductive Sig where
  | notEnough | invalid | codestream | container
deriving DecidableEq, Repr

/-- `kJxlSignatureBox` (lib/jxl/common.h) . -/
def box : List UInt8 := [0, 0, 0, 0xc, 0x4a, 0x58, 0x4c, 0x20, 0xd, 0xa, 0x87, 0xa]

/-- `ReadSignature` (decode.cc:115-147): answer and new position. -/
def read (buf : List UInt8) (pos : Nat) : Sig × Nat :=
  if pos ≥ buf.length then (.notEnough, pos)
  else
    let b := buf.drop pos
    if b[0]? = some 0xff then
      if b.length < 2 then (.notEnough, pos)
      else if b[1]? = some 0x0a then (.codestream, pos + 2) else (.invalid, pos)
    else if b[0]? = some 0 then
      if b.length < box.length then (.notEnough, pos)
      else if b.take box.length = box then (.container, pos + box.length) else (.invalid, pos)
    else (.invalid, pos)

/-- `JxlSignatureCheck` (decode.cc:156-159). -/
def check (buf : List UInt8) : Sig := (read buf 0).1

end Jxl.Signature
