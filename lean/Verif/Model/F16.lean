import Verif.Model.BitParser
/-!
# Model of `F16Coder` (lib/jxl/fields.cc:566-602, enc_fields.cc:164-206)

A `float` is its 32-bit IEEE pattern.  Floating-point multiplication only occurs in the subnormal branch of `Read`,
where `(1/16384) * (mantissa * (1/1024))` is exact (an integer below 2^10 scaled by powers of two); the model gives
the pattern of that exact product.
-/
namespace Jxl.F16

/-- Pattern of the binary32 number `m * 2^-24` for `m < 1024` (exact). -/
def subnormalPattern (m : Nat) : Nat :=
  if m = 0 then 0 else (m.log2 + 103) * 2 ^ 23 + (m - 2 ^ m.log2) * 2 ^ (23 - m.log2)

/-- `F16Coder::Read` on the 16 bits read. -/
def decode (bits16 : Nat) : Option Nat :=
  let sign := bits16 >>> 15
  let biasedExp := (bits16 >>> 10) &&& 0x1F
  let mantissa := bits16 &&& 0x3FF
  if biasedExp = 31 then none
  else if biasedExp = 0 then
    some (if sign ≠ 0 then subnormalPattern mantissa ^^^ 2 ^ 31 else subnormalPattern mantissa)
  else
    some ((sign <<< 31) ||| ((biasedExp + (127 - 15)) <<< 23) ||| (mantissa <<< (23 - 10)))

/-- `F16Coder::CanEncode`: not NaN or infinity and `|value| <= 65504.0f` (order of non-negative floats is the order
of their patterns). -/
def canEncode (b : Nat) : Bool := decide (((b >>> 23) &&& 0xFF) ≠ 255) && decide (b &&& 0x7FFFFFFF ≤ 0x477FE000)

/-- `F16Coder::Write`: the 16 bits written; `none` is an error status. -/
def encode (b : Nat) : Option Nat :=
  let sign := b >>> 31
  let exp : Int := ((b >>> 23) &&& 0xFF : Nat) - 127
  let mantissa32 := b &&& 0x7FFFFF
  if exp > 15 then none
  else if exp < -24 then some 0
  else
    let r : Option (Nat × Nat) :=
      if exp < -14 then
        let subExp := (-14 - exp).toNat
        if 1 ≤ subExp ∧ subExp < 11 then some (0, (1 <<< (10 - subExp)) + (mantissa32 >>> (13 + subExp))) else none
      else
        let e16 := (exp + 15).toNat
        if 1 ≤ e16 ∧ e16 < 31 then some (e16, mantissa32 >>> 13) else none
    match r with
    | none => none
    | some (e16, m16) =>
      if m16 < 1024 then
        let bits16 := (sign <<< 15) ||| (e16 <<< 10) ||| m16
        if bits16 < 0x10000 then some bits16 else none
      else none

/-- Field level: `ReadFixedBits<16>` then conversion. -/
def read (s : List Bool) : Option (Nat × List Bool) := do
  let (x, s) ← rdBits 16 s
  let v ← decode x
  some (v, s)

def write (b : Nat) : Option (List Bool) := (encode b).map (bitsOf 16)

end Jxl.F16
