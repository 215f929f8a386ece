import Verif.Model.JpegParse
/-!
# The coefficients of a JPEG file in the codestream

The part of `ComputeJPEGTranscodingData` that turns coefficients into what is coded (`lib/jxl/enc_frame.cc:843-865` and
`:976-1062`), with `RatioJPEG` (`lib/jxl/chroma_from_luma.h:69-71`), the step of the DC coefficients
(`lib/jxl/enc_quant_weights.cc:144-180`, `F16Coder::Write`, `lib/jxl/enc_fields.cc:168-207`) and its use
(`lib/jxl/enc_modular.cc:1682-1727`), and the part of `DecodeGroupImpl` that turns them back
(`lib/jxl/dec_group.cc:243-255` and `:356-424`).

Blocks are lists of 64 coefficients.  Signed overflow in the encoder is undefined (`cflDefined`), in the decoder vector
arithmetic wraps.  Simplifications.  All coefficients of a block are coded in one pass.  The entropy coding of the
coefficients is not part of this file.  For the DC coefficients, floating-point numbers are replaced by what is known of
them: exact values up to the error of a few roundings.
-/
namespace Jxl.Jpeg

/-- Where a position of a block goes when it is transposed (enc_frame.cc:1018-1022, dec_group.cc:375). -/
def swapPos (k : Nat) : Nat := 8 * (k % 8) + k / 8

/-- `RatioJPEG` (chroma_from_luma.h:69-71): division towards zero. -/
def ratioJpeg (cm : Int) : Int := (cm * 2048).tdiv 84

/-- `scaled_qtable` (enc_frame.cc:848-865, dec_group.cc:246-255) at a position of the JPEG block; `qt` is the transposed
table of the three channels. -/
def scaledQt (qt : List Nat) (c k : Nat) : Nat := 2048 * qt.getD (64 + swapPos k) 0 / qt.getD (64 * c + swapPos k) 0

/-- `coeff_scale` and `cfl_factor` (enc_frame.cc:1036-1042). -/
def coeffScale (ratio cm : Int) : Int := (ratioJpeg cm * ratio + 1024) / 2048
def cflFactor (ratio cm y : Int) : Int := (y * coeffScale ratio cm + 1024) / 2048

def fits32 (x : Int) : Bool := decide (-(2 ^ 31) ≤ x) && decide (x < 2 ^ 31)

/-- None of the operations of enc_frame.cc:1036-1043 overflows. -/
def cflDefined (ratio cm y : Int) : Bool :=
  fits32 (ratioJpeg cm * ratio) && fits32 (ratioJpeg cm * ratio + 1024) && fits32 (y * coeffScale ratio cm) &&
    fits32 (y * coeffScale ratio cm + 1024)

/-! ## Encoder -/

/-- The block of a channel as it is coded (enc_frame.cc:1014-1047): transposed, what is predicted from the block of
channel 1 (`y`) subtracted if `cfl` is set.  The coefficient at position 0 is not coded with the others. -/
def encodeAc (qt : List Nat) (cfl : Bool) (c : Nat) (cm : Int) (y b : List Int) : List Int :=
  (List.range 64).map fun k =>
    if k = 0 then 0
    else
      let i := swapPos k
      if cfl then b.getD i 0 - cflFactor (scaledQt qt c i) cm (y.getD i 0) else b.getD i 0

/-- The loop of enc_frame.cc:1027-1046 is defined; it also goes over position 0. -/
def acDefined (qt : List Nat) (cfl : Bool) (c : Nat) (cm : Int) (y : List Int) : Bool :=
  !cfl || (List.range 64).all fun i => cflDefined (scaledQt qt c i) cm (y.getD i 0)

/-- What is added to DC coefficients of RGB images (enc_frame.cc:1004-1008, dec_group.cc:243-245). -/
def dcOffset (ycc : Bool) (q : Nat) : Int := if ycc then 0 else (1024 / q : Nat)

/-! ## The DC coefficients

With `q` the first entry of a table, `1 / (255 * 8.0f / q) * 128` is stored as a half-precision number `f`, rounded
towards zero; the integer coded for `v` is the one next to `v * (q / 2040) / (f / 128)`.  In units of `2 ^ -14` the exact
value of the number stored is `q * 2 ^ 18 / 255`. -/

/-- `f = m * 2 ^ k` may be the number stored: `m` has 11 bits, and `f` is what remains of a number that is
`q * 2 ^ 18 / 255` up to a relative error of `2 ^ -22` when the other bits are dropped
(enc_frame.cc:834, quant_weights.h:388-393, enc_quant_weights.cc:157, enc_fields.cc:183-201). -/
def DcStepOk (q f : Nat) : Prop :=
  ∃ m k : Nat, 1024 ≤ m ∧ m < 2048 ∧ f = m * 2 ^ k ∧ 255 * f * 4194304 ≤ q * 262144 * 4194305 ∧
    q * 262144 * 4194303 < 255 * ((m + 1) * 2 ^ k) * 4194304

/-- `n` may be the integer coded for `v`: the nearest one, if products and quotients have a relative error of at most
`2 ^ -20` altogether (enc_frame.cc:1013, enc_modular.cc:1693-1727). -/
def DcCodedOk (q f : Nat) (v n : Int) : Prop :=
  2097152 * (n * (255 * f) - v * (q * 262144)).natAbs ≤ 1048576 * (255 * f) + 2 * (v.natAbs * (q * 262144))

/-- A function that may be the one of the encoder, from entries of tables and coefficients to integers coded. -/
def DcOk (code : Nat → Int → Int) : Prop :=
  ∀ q, 1 ≤ q → q < 2 ^ 16 → ∃ f, DcStepOk q f ∧ ∀ v, DcCodedOk q f v (code q v)

/-- Computed without rounding other than that to half precision and to an integer. -/
def exactStep (q : Nat) : Nat :=
  let w := q * 262144 / 255
  let k := w.log2 - 10
  w / 2 ^ k * 2 ^ k

def exactDc (q : Nat) (v : Int) : Int :=
  let f := 255 * exactStep q
  let n : Nat := (2 * v.natAbs * (q * 262144) + f) / (2 * f)
  if v < 0 then -n else n

/-! ## Decoder -/

/-- Arithmetic of 32-bit lanes. -/
def wrap32 (x : Int) : Int := (x + 2 ^ 31) % 2 ^ 32 - 2 ^ 31

/-- `DemoteTo` to 16 bits. -/
def sat16 (x : Int) : Int := max (-(2 ^ 15)) (min (2 ^ 15 - 1) x)

/-- `cfl_factor` (dec_group.cc:403-406). -/
def laneFactor (ratio cm y : Int) : Int :=
  wrap32 (wrap32 (y * (wrap32 (wrap32 (ratio * ratioJpeg cm) + 1024) / 2048)) + 1024) / 2048

/-- The block of a channel (dec_group.cc:375-408): transposed, with the prediction added if `cfl` is set; `y` is the block
coded for channel 1. -/
def decodeAc (qt : List Nat) (cfl : Bool) (c : Nat) (cm : Int) (y b : List Int) : List Int :=
  (List.range 64).map fun i =>
    if cfl then sat16 (wrap32 (b.getD (swapPos i) 0 + laneFactor (scaledQt qt c i) cm (y.getD (swapPos i) 0)))
    else sat16 (b.getD (swapPos i) 0)

/-- The DC coefficient (dec_group.cc:409-410). -/
def decodeDc (off dc : Int) : Int := max (-2047) (min 2047 (dc - off))

/-- The block with its DC coefficient. -/
def decodeCoeffs (qt : List Nat) (cfl : Bool) (c : Nat) (cm off dc : Int) (y b : List Int) : List Int :=
  decodeDc off dc :: (decodeAc qt cfl c cm y b).drop 1

/-- The test of dec_group.cc:411-420. -/
def coeffsOk (b : List Int) : Bool := b.all fun x => decide (-4095 ≤ x) && decide (x ≤ 4095)

end Jxl.Jpeg
