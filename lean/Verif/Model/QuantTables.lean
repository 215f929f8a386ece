import Verif.Model.Coders
import Verif.Model.F16
/-!
# Quantisation tables of a frame

`lib/jxl/quant_weights.cc`, `lib/jxl/enc_quant_weights.cc`.  Floats are their patterns, as in `F16`.  Multiplications by 64 and 128 and their inverses add to
the exponent; they are exact for all numbers read from the stream.  Where a product would leave the range of normal floats on writing, the number
written is zero or refused, and so it is here.  A table of any size given pixel by pixel (`kQuantModeRAW`) is a modular image, read and written by given functions.
-/
namespace Jxl.QuantTables

/-- `kAlmostZero`, `1e-8f` (quant_weights.cc:371). -/
def almostZero : Nat := 0x322BCC77

/-- What the decoder demands of a number. -/
inductive Check where
  | any
  /-- `std::abs(v) < kAlmostZero` is refused. -/
  | nonzero
  /-- `v < kAlmostZero` is refused. -/
  | positive
deriving DecidableEq

/-- The tests of quant_weights.cc:380, 409, 422, 435, 448. -/
def Check.passes : Check → Nat → Bool
  | .any, _ => true
  | .nonzero, v => decide (almostZero ≤ v % 2 ^ 31)
  | .positive, v => decide (v < 2 ^ 31 ∧ almostZero ≤ v)

/-- How a number is stored: divided by 64 or as it is. -/
structure Field where
  scaled : Bool
  check : Check
deriving DecidableEq

/-- The product with 64 of a number read from the stream. -/
def times64 (v : Nat) : Nat := if v % 2 ^ 31 = 0 then v else v + 6 * 2 ^ 23

/-- The product with 1/64 of a number to be written. -/
def by64 (w : Nat) : Nat := if w % 2 ^ 31 < 7 * 2 ^ 23 then 0 else w - 6 * 2 ^ 23

/-- A number is read, tested and scaled (quant_weights.cc:378-384, 408-412, 421-425, 433-437, 446-450, 460-465). -/
def readField (f : Field) (s : List Bool) : Option (Nat × List Bool) := do
  let (v, s) ← F16.read s
  if f.check.passes v then some (if f.scaled then times64 v else v, s) else none

/-- Several numbers. -/
def readFields : List Field → List Bool → Option (List Nat × List Bool)
  | [], s => some ([], s)
  | f :: fs, s => do
    let (w, s) ← readField f s
    let (ws, s) ← readFields fs s
    some (w :: ws, s)

/-- A number is written (enc_quant_weights.cc:34-35, 57, 65-66, 74, 83, 102-103). -/
def writeField (f : Field) (w : Nat) : Option (List Bool) := F16.write (if f.scaled then by64 w else w)

/-- Several numbers. -/
def writeFields : List Field → List Nat → Option (List Bool)
  | [], [] => some []
  | f :: fs, w :: ws => do
    let a ← writeField f w
    let b ← writeFields fs ws
    some (a ++ b)
  | _, _ => none

/-- `idweights` (quant_weights.cc:406-414): three channels of three. -/
def idFields : List Field := List.replicate 9 ⟨true, .nonzero⟩

/-- `dct2weights` (quant_weights.cc:419-427): three channels of six. -/
def dct2Fields : List Field := List.replicate 18 ⟨true, .nonzero⟩

/-- `dct4multipliers` (quant_weights.cc:444-452): three channels of two. -/
def dct4Fields : List Field := List.replicate 6 ⟨false, .nonzero⟩

/-- `dct4x8multipliers` (quant_weights.cc:432-438). -/
def dct4x8Fields : List Field := List.replicate 3 ⟨false, .nonzero⟩

/-- `afv_weights` (quant_weights.cc:458-465): three channels of nine, of which six are scaled. -/
def afvFields : List Field := (List.replicate 3 (List.replicate 6 ⟨true, .any⟩ ++ List.replicate 3 ⟨false, .any⟩)).flatten

/-- `distance_bands` (quant_weights.cc:376-384): three channels of `n`. -/
def bandFields (n : Nat) : List Field := (List.replicate 3 (⟨true, .positive⟩ :: List.replicate (n - 1) ⟨false, .any⟩)).flatten

/-- `DctQuantWeightParams` (quant_weights.h:31-54), the used bands of the three channels in a row. -/
structure Dct where
  n : Nat
  bands : List Nat
deriving DecidableEq

/-- `DecodeDctParams` (quant_weights.cc:373-387). -/
def readDct (s : List Bool) : Option (Dct × List Bool) := do
  let (n, s) ← rdBits 4 s
  let (ws, s) ← readFields (bandFields (n + 1)) s
  some (⟨n + 1, ws⟩, s)

/-- `EncodeDctParams` (enc_quant_weights.cc:28-39). -/
def writeDct (d : Dct) : Option (List Bool) :=
  if d.n < 1 then none
  else do
    let a ← writeBitsField 4 (d.n - 1)
    let b ← writeFields (bandFields d.n) d.bands
    some (a ++ b)

/-- `QuantEncoding` (quant_weights.h:57-282); the number of a predefined table is always 0. -/
inductive Enc (R : Type) where
  | library
  | id (ws : List Nat)
  | dct2 (ws : List Nat)
  | dct4 (ws : List Nat) (d : Dct)
  | dct4x8 (ws : List Nat) (d : Dct)
  | afv (ws : List Nat) (d e : Dct)
  | dct (d : Dct)
  | raw (r : R)

/-- `Decode` (quant_weights.cc:388-487) for the table `i`; `small`: the table has the size of one block. -/
def readEnc {R : Type} (raw : Nat → List Bool → Option (R × List Bool)) (small : Bool) (i : Nat) (s : List Bool) : Option (Enc R × List Bool) := do
  let (mode, s) ← rdBits 3 s
  if mode = 0 then some (.library, s)
  else if mode = 6 then do
    let (d, s) ← readDct s
    some (.dct d, s)
  else if mode = 7 then do
    let (r, s) ← raw i s
    some (.raw r, s)
  else if small = false then none
  else if mode = 1 then do
    let (ws, s) ← readFields idFields s
    some (.id ws, s)
  else if mode = 2 then do
    let (ws, s) ← readFields dct2Fields s
    some (.dct2 ws, s)
  else if mode = 3 then do
    let (ws, s) ← readFields dct4Fields s
    let (d, s) ← readDct s
    some (.dct4 ws d, s)
  else if mode = 4 then do
    let (ws, s) ← readFields dct4x8Fields s
    let (d, s) ← readDct s
    some (.dct4x8 ws d, s)
  else do
    let (ws, s) ← readFields afvFields s
    let (d, s) ← readDct s
    let (e, s) ← readDct s
    some (.afv ws d e, s)

/-- `EncodeQuant` (enc_quant_weights.cc:41-112) for the table `i`. -/
def writeEnc {R : Type} (raw : Nat → R → Option (List Bool)) (i : Nat) : Enc R → Option (List Bool)
  | .library => some (bitsOf 3 0)
  | .id ws => do
    let a ← writeFields idFields ws
    some (bitsOf 3 1 ++ a)
  | .dct2 ws => do
    let a ← writeFields dct2Fields ws
    some (bitsOf 3 2 ++ a)
  | .dct4 ws d => do
    let a ← writeFields dct4Fields ws
    let b ← writeDct d
    some (bitsOf 3 3 ++ (a ++ b))
  | .dct4x8 ws d => do
    let a ← writeFields dct4x8Fields ws
    let b ← writeDct d
    some (bitsOf 3 4 ++ (a ++ b))
  | .afv ws d e => do
    let a ← writeFields afvFields ws
    let b ← writeDct d
    let c ← writeDct e
    some (bitsOf 3 5 ++ (a ++ (b ++ c)))
  | .dct d => do
    let a ← writeDct d
    some (bitsOf 3 6 ++ a)
  | .raw r => do
    let a ← raw i r
    some (bitsOf 3 7 ++ a)

/-- `required_size_x` (quant_weights.h:401-402). -/
def sizeX : List Nat := [1, 1, 1, 1, 2, 4, 1, 1, 2, 1, 1, 8, 4, 16, 8, 32, 16]

/-- `required_size_y` (quant_weights.h:406-407). -/
def sizeY : List Nat := [1, 1, 1, 1, 2, 4, 2, 4, 4, 1, 1, 8, 8, 16, 16, 32, 32]

/-- `required_size == 1` (quant_weights.cc:392). -/
def small (i : Nat) : Bool := sizeX.getD i 0 * sizeY.getD i 0 == 1

/-- The loop of `DequantMatrices::Decode` (quant_weights.cc:503-508) with `n` tables left, from the table `i` on. -/
def readEncs {R : Type} (raw : Nat → List Bool → Option (R × List Bool)) : Nat → Nat → List Bool → Option (List (Enc R) × List Bool)
  | _, 0, s => some ([], s)
  | i, n + 1, s => do
    let (e, s) ← readEnc raw (small i) i s
    let (es, s) ← readEncs raw (i + 1) n s
    some (e :: es, s)

/-- `DequantMatrices::Decode` (quant_weights.cc:497-511). -/
def readTables {R : Type} (raw : Nat → List Bool → Option (R × List Bool)) (s : List Bool) : Option (List (Enc R) × List Bool) := do
  let (d, s) ← rdBits 1 s
  if d = 1 then some (List.replicate 17 .library, s) else readEncs raw 0 17 s

/-- The loop of `DequantMatricesEncode` (enc_quant_weights.cc:133-138). -/
def writeEncs {R : Type} (raw : Nat → R → Option (List Bool)) : Nat → List (Enc R) → Option (List Bool)
  | _, [] => some []
  | i, e :: es => do
    let a ← writeEnc raw i e
    let b ← writeEncs raw (i + 1) es
    some (a ++ b)

/-- The test for predefined tables (enc_quant_weights.cc:123-128). -/
def Enc.isLibrary {R : Type} : Enc R → Bool
  | .library => true
  | _ => false

/-- `DequantMatricesEncode` (enc_quant_weights.cc:116-142), without the allotment. -/
def writeTables {R : Type} (raw : Nat → R → Option (List Bool)) (es : List (Enc R)) : Option (List Bool) :=
  if es.all Enc.isLibrary then some (bitsOf 1 1)
  else do
    let a ← writeEncs raw 0 es
    some (bitsOf 1 0 ++ a)

/-! ### Factors of the lowest frequencies -/

/-- `kDCQuant` (quant_weights.h:289-299): 1/4096, 1/512, 1/256. -/
def dcDefault : List Nat := [0x39800000, 0x3B000000, 0x3B800000]

/-- A factor is read (quant_weights.cc:518-523). -/
def readDc (s : List Bool) : Option (Nat × List Bool) := do
  let (v, s) ← F16.read s
  let w := if v % 2 ^ 31 = 0 then v else v - 7 * 2 ^ 23
  if Check.positive.passes w then some (w, s) else none

/-- `DequantMatrices::DecodeDC` (quant_weights.cc:513-528), after the factors were set to the default (dec_frame.cc:141-142). -/
def readDcs (s : List Bool) : Option (List Nat × List Bool) := do
  let (d, s) ← rdBits 1 s
  if d = 1 then some (dcDefault, s)
  else do
    let (x, s) ← readDc s
    let (y, s) ← readDc s
    let (b, s) ← readDc s
    some ([x, y, b], s)

/-- A factor is written (enc_quant_weights.cc:159). -/
def writeDc (w : Nat) : Option (List Bool) :=
  if w % 2 ^ 31 < 2 ^ 23 then F16.write 0 else if w % 2 ^ 31 ≥ 248 * 2 ^ 23 then none else F16.write (w + 7 * 2 ^ 23)

/-- `DequantMatricesEncodeDC` (enc_quant_weights.cc:144-164), without the allotment. -/
def writeDcs (x y b : Nat) : Option (List Bool) :=
  if [x, y, b] = dcDefault then some (bitsOf 1 1)
  else do
    let a ← writeDc x
    let c ← writeDc y
    let d ← writeDc b
    some (bitsOf 1 0 ++ (a ++ (c ++ d)))

end Jxl.QuantTables
