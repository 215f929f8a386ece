import Verif.Model.BitParser
/-!
# Model of the header integer coders (lib/jxl/field_encodings.h, fields.cc, enc_fields.cc)

Written bits are a bit string; `none` from a writer is an error status.
-/
namespace Jxl

/-- `BitsCoder::Write` (enc_fields.cc:86-96). -/
def writeBitsField (bits value : Nat) : Option (List Bool) :=
  if value ≥ 2 ^ bits then none else some (bitsOf bits value)

/-- `BitsCoder::CanEncode` (fields.cc:414-423): status and size. -/
def canEncodeBits (bits value : Nat) : Option Nat := if value ≥ 2 ^ bits then none else some bits

namespace U32
/-! `U32Distr` (field_encodings.h:43-62): the raw 32-bit descriptor is a `Nat`. -/

/-- `IsDirect` -/
def isDirect (d : Nat) : Bool := d &&& 0x80000000 != 0
/-- `Direct` -/
def direct (d : Nat) : Nat := d &&& 0x7FFFFFFF
/-- `ExtraBits` -/
def extraBits (d : Nat) : Nat := (d &&& 0x1F) + 1
/-- `Offset` -/
def offset (d : Nat) : Nat := (d >>> 5) &&& 0x3FFFFFF

/-- `Val` (field_encodings.h:65-67). -/
def val (v : Nat) : Nat := v ||| 0x80000000
/-- `BitsOffset` (field_encodings.h:70-72). -/
def bitsOffset (bits off : Nat) : Nat := ((bits - 1) &&& 0x1F) + ((off &&& 0x3FFFFFF) <<< 5)

/-- `U32Enc` (field_encodings.h:78-94): four distributions. -/
structure Enc where
  d0 : Nat
  d1 : Nat
  d2 : Nat
  d3 : Nat

/-- `GetDistr`; selectors are 0..3. -/
def Enc.get (e : Enc) : Nat → Nat
  | 0 => e.d0
  | 1 => e.d1
  | 2 => e.d2
  | _ => e.d3

/-- The loop of `ChooseSelector` (fields.cc:471-496) over the remaining selectors; `best` is
`(*selector, *total_bits)`. -/
def chooseLoop (e : Enc) (value : Nat) : List Nat → Nat × Nat → Nat × Nat
  | [], best => best
  | s :: ss, best =>
    let d := e.get s
    if isDirect d then
      if direct d = value then (s, 2) else chooseLoop e value ss best
    else if value < offset d ∨ value ≥ offset d + 2 ^ extraBits d then chooseLoop e value ss best
    else if 2 + extraBits d < best.2 then chooseLoop e value ss (s, 2 + extraBits d)
    else chooseLoop e value ss best

/-- `ChooseSelector` (fields.cc:459-505): selector and total bits, `none` for "no feasible selector". -/
def chooseSelector (e : Enc) (value : Nat) : Option (Nat × Nat) :=
  let r := chooseLoop e value [0, 1, 2, 3] (0, 64)
  if r.2 = 64 then none else some r

/-- `U32Coder::CanEncode` (fields.cc:442-449). -/
def canEncode (e : Enc) (value : Nat) : Option Nat := (chooseSelector e value).map (·.2)

/-- `U32Coder::Write` (enc_fields.cc:99-116). -/
def write (e : Enc) (value : Nat) : Option (List Bool) := do
  let (sel, total) ← chooseSelector e value
  let d := e.get sel
  if isDirect d then some (bitsOf 2 sel)
  else if value < offset d then none
  else some (bitsOf 2 sel ++ bitsOf (total - 2) (value - offset d))

/-- `U32Coder::Read` (fields.cc:451-459); the result is a `uint32_t`. -/
def read (e : Enc) (s : List Bool) : Option (Nat × List Bool) := do
  let (sel, s) ← rdBits 2 s
  let d := e.get sel
  if isDirect d then some (direct d, s)
  else
    let (x, s) ← rdBits (extraBits d) s
    some ((x + offset d) % 2 ^ 32, s)

/-- `U32Coder::MaxEncodedBits` (fields.cc:429-440). -/
def maxEncodedBits (e : Enc) : Nat :=
  2 + [0, 1, 2, 3].foldl (fun acc s => if isDirect (e.get s) then acc else max acc (extraBits (e.get s))) 0

end U32

namespace U64

/-- The group loop of `U64Coder::Write` (enc_fields.cc:139-156) from `shift` on; `fuel` bounds the iterations. -/
def writeTail : Nat → Nat → Nat → List Bool
  | 0, _, _ => []
  | fuel + 1, value, shift =>
    if value > 0 ∧ shift < 60 then
      bitsOf 1 1 ++ bitsOf 8 (value &&& 255) ++ writeTail fuel (value >>> 8) (shift + 8)
    else if value > 0 then bitsOf 1 1 ++ bitsOf 4 (value &&& 15)
    else bitsOf 1 0

/-- `U64Coder::Write` (enc_fields.cc:119-161). -/
def write (value : Nat) : List Bool :=
  if value = 0 then bitsOf 2 0
  else if value ≤ 16 then bitsOf 2 1 ++ bitsOf 4 (value - 1)
  else if value ≤ 272 then bitsOf 2 2 ++ bitsOf 8 (value - 17)
  else bitsOf 2 3 ++ bitsOf 12 (value &&& 4095) ++ writeTail 8 (value >>> 12) 12

/-- Size loop of `U64Coder::CanEncode` (fields.cc:547-560). -/
def sizeTail : Nat → Nat → Nat → Nat
  | 0, _, _ => 0
  | fuel + 1, value, shift =>
    if value > 0 ∧ shift < 60 then 1 + 8 + sizeTail fuel (value >>> 8) (shift + 8)
    else if value > 0 then 1 + 4
    else 1

/-- `U64Coder::CanEncode` (fields.cc:537-564). -/
def encodedBits (value : Nat) : Nat :=
  if value = 0 then 2
  else if value ≤ 16 then 2 + 4
  else if value ≤ 272 then 2 + 8
  else 2 + 12 + sizeTail 8 (value >>> 12) 12

/-- The `while` loop of `U64Coder::Read` (fields.cc:525-532). -/
def readTail : Nat → Nat → Nat → List Bool → Option (Nat × List Bool)
  | 0, _, _, _ => none
  | fuel + 1, result, shift, s => do
    let (c, s) ← rdBits 1 s
    if c = 0 then some (result, s)
    else if shift = 60 then
      let (x, s) ← rdBits 4 s
      some (result ||| (x <<< shift) % 2 ^ 64, s)
    else
      let (x, s) ← rdBits 8 s
      readTail fuel (result ||| (x <<< shift) % 2 ^ 64) (shift + 8) s

/-- `U64Coder::Read` (fields.cc:507-535). -/
def read (s : List Bool) : Option (Nat × List Bool) := do
  let (sel, s) ← rdBits 2 s
  if sel = 0 then some (0, s)
  else if sel = 1 then
    let (x, s) ← rdBits 4 s
    some (1 + x, s)
  else if sel = 2 then
    let (x, s) ← rdBits 8 s
    some (17 + x, s)
  else
    let (x, s) ← rdBits 12 s
    readTail 8 x 12 s

end U64

namespace EnumField

/-- The distribution used for all enums (fields.h:180-191). -/
def enc : U32.Enc := ⟨U32.val 0, U32.val 1, U32.bitsOffset 4 2, U32.bitsOffset 6 18⟩

/-- `EnumValid` (field_encodings.h:122-134); `bits` is `EnumBits(Enum())`. -/
def valid (bits value : Nat) : Bool := decide (value < 64) && bits.testBit value

/-- `Visitor::Enum` in `WriteVisitor`: the value is written, then `EnumValid` decides the status. -/
def write (bits value : Nat) : Option (List Bool) := do
  let b ← U32.write enc value
  if valid bits value then some b else none

/-- `Visitor::Enum` in `ReadVisitor`. -/
def read (bits : Nat) (s : List Bool) : Option (Nat × List Bool) := do
  let (v, s) ← U32.read enc s
  if valid bits v then some (v, s) else none

end EnumField
end Jxl
