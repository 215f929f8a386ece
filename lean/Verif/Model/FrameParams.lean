import Verif.Model.Coders
import Verif.Model.F16
/-!
# Parameters of a whole frame: quantiser, colour correlation, noise

`lib/jxl/quantizer.cc`, `lib/jxl/chroma_from_luma.cc`, `lib/jxl/enc_chroma_from_luma.cc`, `lib/jxl/dec_noise.cc`, `lib/jxl/enc_noise.cc`.

Floats are their patterns, as in `F16`; the values of the noise table are non-negative multiples of 2^-149, of which every float is one, and
the product with 1024 is exact (it could only overflow for values that are refused anyway).  A value that does not fit the bits it is written with is not
defined in the code and refused here.
-/
namespace Jxl.FrameParams

/-! ### Quantiser -/

/-- The stored fields of `QuantizerParams` (quantizer.h:168-176). -/
structure Quant where
  scale : Nat
  dc : Nat
deriving DecidableEq

/-- `QuantizerParams::VisitFields` (quantizer.cc:126-128). -/
def scaleEnc : U32.Enc := ⟨U32.bitsOffset 11 1, U32.bitsOffset 11 2049, U32.bitsOffset 12 4097, U32.bitsOffset 16 8193⟩

/-- `QuantizerParams::VisitFields` (quantizer.cc:129-131). -/
def dcEnc : U32.Enc := ⟨U32.val 16, U32.bitsOffset 5 1, U32.bitsOffset 8 1, U32.bitsOffset 16 1⟩

/-- `Quantizer::Decode` (quantizer.cc:142-149). -/
def readQuant (s : List Bool) : Option (Quant × List Bool) := do
  let (a, s) ← U32.read scaleEnc s
  let (b, s) ← U32.read dcEnc s
  some (⟨a, b⟩, s)

/-- `WriteQuantizerParams` (enc_fields.cc:242-246). -/
def writeQuant (q : Quant) : Option (List Bool) := do
  let a ← U32.write scaleEnc q.scale
  let b ← U32.write dcEnc q.dc
  some (a ++ b)

/-! ### Colour correlation -/

/-- The stored fields of `ColorCorrelation` (chroma_from_luma.h:106-111). -/
structure Cfl where
  factor : Nat
  baseX : Nat
  baseB : Nat
  x : Int
  b : Int
deriving DecidableEq

/-- The initial values (chroma_from_luma.h:106-111), of which `kYToBRatio` is one (opsin_params.h:33). -/
def Cfl.initial : Cfl := ⟨84, 0, 0x3F800000, 0, 0⟩

/-- `kColorFactorDist` (chroma_from_luma.h:47-48). -/
def factorEnc : U32.Enc := ⟨U32.val 84, U32.val 256, U32.bitsOffset 8 2, U32.bitsOffset 16 258⟩

/-- A base correlation (chroma_from_luma.cc:30-33): its magnitude is at most 4. -/
def readBase (s : List Bool) : Option (Nat × List Bool) := do
  let (v, s) ← F16.read s
  if v % 2 ^ 31 > 0x40800000 then none else some (v, s)

/-- `ColorCorrelation::DecodeDC` (chroma_from_luma.cc:24-44). -/
def readCfl (s : List Bool) : Option (Cfl × List Bool) := do
  let (d, s) ← rdBits 1 s
  if d = 1 then some (.initial, s)
  else do
    let (f, s) ← U32.read factorEnc s
    let (bx, s) ← readBase s
    let (bb, s) ← readBase s
    let (x, s) ← rdBits 8 s
    let (b, s) ← rdBits 8 s
    some (⟨f, bx, bb, (x : Int) + -128, (b : Int) + -128⟩, s)

/-- The test for the initial values (enc_chroma_from_luma.cc:400-402); both zeros are equal to zero. -/
def Cfl.isInitial (c : Cfl) : Bool := c.x == 0 && c.b == 0 && c.factor == 84 && c.baseX % 2 ^ 31 == 0 && c.baseB == 0x3F800000

/-- Eight bits for a value from -128 on (enc_chroma_from_luma.cc:411-414). -/
def writeByte (v : Int) : Option (List Bool) := if v - -128 < 0 then none else writeBitsField 8 (v - -128).toNat

/-- `ColorCorrelationEncodeDC` (enc_chroma_from_luma.cc:389-417), without the allotment. -/
def writeCfl (c : Cfl) : Option (List Bool) :=
  if c.isInitial then some (bitsOf 1 1)
  else do
    let f ← U32.write factorEnc c.factor
    let bx ← F16.write c.baseX
    let bb ← F16.write c.baseB
    let x ← writeByte c.x
    let b ← writeByte c.b
    some (bitsOf 1 0 ++ (f ++ (bx ++ (bb ++ (x ++ b)))))

/-- The bits that `ColorCorrelationEncodeDC` asks for (enc_chroma_from_luma.cc:399). -/
def cflAllotment : Nat := 1 + 2 * 8 + 12 + 32

/-! ### Noise -/

/-- How many units are in one. -/
def one : Nat := 2 ^ 149

/-- `std::lround(val * precision)` (enc_noise.cc:334): halves are rounded up. -/
def quantise (v : Nat) : Nat := (v * 1024 + one / 2) / one

/-- `NoiseParams::HasAny` (noise.h:37-42); `1e-3f` is `0x83126F * 2^-33`. -/
def hasAny (lut : List Nat) : Bool := lut.any fun v => decide (v > 0x83126F * 2 ^ 116)

/-- `EncodeFloatParam` (enc_noise.cc:332-338). -/
def writeLevel (v : Nat) : Option (List Bool) := if quantise v < 2 ^ 10 then some (bitsOf 10 (quantise v)) else none

/-- `EncodeNoise` (enc_noise.cc:369-380), without the allotment. -/
def writeNoise (lut : List Nat) : Option (List Bool) :=
  if hasAny lut then (lut.mapM writeLevel).map List.flatten else none

/-- `DecodeNoise` (dec_noise.cc:154-164) for the remaining `n` values. -/
def readLevels : Nat → List Bool → Option (List Nat × List Bool)
  | 0, s => some ([], s)
  | n + 1, s => do
    let (q, s) ← rdBits 10 s
    let (vs, s) ← readLevels n s
    some (q * (one / 1024) :: vs, s)

/-- `DecodeNoise` (dec_noise.cc:159-164); there are eight values (noise.h:29). -/
def readNoise (s : List Bool) : Option (List Nat × List Bool) := readLevels 8 s

/-- `kNoiseLutMax` (noise.h:23), to which the encoder limits the values: `1023.4999f` is `16769022 * 2^-14`. -/
def lutMax : Nat := 16769022 * 2 ^ 125

end Jxl.FrameParams
