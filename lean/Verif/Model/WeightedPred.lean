/-!
# Model of the weighted (self-correcting) predictor (lib/jxl/modular/encoding/context_predict.h:27-212)

`pixel_type_w` is `int64_t`: its values are integers here and every result that does not fit is
undefined behaviour, reported as `none`, as is an access outside an array. `uint32_t` arithmetic
wraps. `header` fields are numbers of 5 or 4 bits (`Header.Ok`), which is how they are read.
-/
namespace Jxl.Wp

/-- `weighted::Header` (context_predict.h:33-67). -/
structure Header where
  p1C : Nat
  p2C : Nat
  p3Ca : Nat
  p3Cb : Nat
  p3Cc : Nat
  p3Cd : Nat
  p3Ce : Nat
  w0 : Nat
  w1 : Nat
  w2 : Nat
  w3 : Nat
deriving DecidableEq, Repr

/-- The values are read with 5 and 4 bits (context_predict.h:44-60). -/
def Header.Ok (h : Header) : Prop :=
  h.p1C < 32 ∧ h.p2C < 32 ∧ h.p3Ca < 32 ∧ h.p3Cb < 32 ∧ h.p3Cc < 32 ∧ h.p3Cd < 32 ∧ h.p3Ce < 32 ∧ h.w0 < 16 ∧ h.w1 < 16 ∧ h.w2 < 16 ∧ h.w3 < 16

/-- The default header (context_predict.h:50-60). -/
def defaultHeader : Header := { p1C := 16, p2C := 10, p3Ca := 7, p3Cb := 7, p3Cc := 7, p3Cd := 0, p3Ce := 0, w0 := 13, w1 := 12, w2 := 12, w3 := 12 }

/-- `weighted::State` (context_predict.h:69-74); `pred_errors[i]` are separate fields. -/
structure State where
  p0 : Int
  p1 : Int
  p2 : Int
  p3 : Int
  pred : Int
  pe0 : List (BitVec 32)
  pe1 : List (BitVec 32)
  pe2 : List (BitVec 32)
  pe3 : List (BitVec 32)
  error : List (BitVec 32)
deriving DecidableEq

/-- `divlookup` (context_predict.h:79-87). -/
def divlookup : List Nat :=
  [16777216, 8388608, 5592405, 4194304, 3355443, 2796202, 2396745, 2097152,
   1864135,  1677721, 1525201, 1398101, 1290555, 1198372, 1118481, 1048576,
   986895,   932067,  883011,  838860,  798915,  762600,  729444,  699050,
   671088,   645277,  621378,  599186,  578524,  559240,  541200,  524288,
   508400,   493447,  479349,  466033,  453438,  441505,  430185,  419430,
   409200,   399457,  390167,  381300,  372827,  364722,  356962,  349525,
   342392,   335544,  328965,  322638,  316551,  310689,  305040,  299593,
   294337,   289262,  284359,  279620,  275036,  270600,  266305,  262144]

/-- The constructor (context_predict.h:93-100). -/
def init (xsize : Nat) : State :=
  let z := List.replicate ((xsize + 2) * 2) 0#32
  { p0 := 0, p1 := 0, p2 := 0, p3 := 0, pred := 0, pe0 := z, pe1 := z, pe2 := z, pe3 := z, error := z }

/-- A result of `int64_t` arithmetic. -/
def chk (x : Int) : Option Int := if -9223372036854775808 ≤ x ∧ x < 9223372036854775808 then some x else none

/-- `AddBits` (context_predict.h:89-91): the shift is unsigned and cannot overflow; the result is
converted back. -/
def addBits (x : Int) : Int := (BitVec.ofInt 64 (x * 8)).toInt

/-- `ErrorWeight` (context_predict.h:103-107). -/
def errorWeight (x maxw : Nat) : Option Nat :=
  let shift := Nat.log2 (x + 1) - 5
  (divlookup[x >>> shift]?).map fun d => (4 + ((maxw * d % 4294967296) >>> shift)) % 4294967296

/-- `WeightedAverage` (context_predict.h:111-131). A sum of weights below 16 would make
`log_weight - 4` negative. -/
def weightedAverage (p0 p1 p2 p3 : Int) (w0 w1 w2 w3 : Nat) : Option Int :=
  let s := (w0 + w1 + w2 + w3) % 4294967296
  if s < 16 then none
  else
    let k := Nat.log2 s - 4
    let v0 := w0 >>> k
    let v1 := w1 >>> k
    let v2 := w2 >>> k
    let v3 := w3 >>> k
    let ws := (v0 + v1 + v2 + v3) % 4294967296
    if ws = 0 then none
    else
      let r : Nat := ((ws >>> 1) + 4294967295) % 4294967296
      (chk (p0 * v0)).bind fun m0 => (chk (p1 * v1)).bind fun m1 => (chk (p2 * v2)).bind fun m2 => (chk (p3 * v3)).bind fun m3 =>
      (chk (r + m0)).bind fun s0 => (chk (s0 + m1)).bind fun s1 => (chk (s1 + m2)).bind fun s2 => (chk (s2 + m3)).bind fun s3 =>
      (divlookup[ws - 1]?).bind fun d => (chk (s3 * d)).map fun q => q / 16777216

/-- The rows in the two-row buffers (context_predict.h:139-140, 197-198). -/
def curRow (y xsize : Nat) : Nat := if y % 2 = 1 then 0 else xsize + 2
def prevRow (y xsize : Nat) : Nat := if y % 2 = 1 then xsize + 2 else 0

/-- The weight of one predictor (context_predict.h:144-151). -/
def weightOf (pe : List (BitVec 32)) (posN posNE posNW maxw : Nat) : Option Nat :=
  (pe[posN]?).bind fun a => (pe[posNE]?).bind fun b => (pe[posNW]?).bind fun c => errorWeight (a + b + c).toNat maxw

/-- The property (context_predict.h:165-171); `std::abs` of values that come from `int32_t`. -/
def property (teW teN teNW teNE : Int) : Int :=
  let p := teW
  let p := if teN.natAbs > p.natAbs then teN else p
  let p := if teNW.natAbs > p.natAbs then teNW else p
  if teNE.natAbs > p.natAbs then teNE else p

/-- `prediction[0]` (context_predict.h:173). -/
def pred0 (W NE N : Int) : Option Int := (chk (W + NE)).bind fun a => chk (a - N)

/-- `prediction[1]` and `prediction[2]` (context_predict.h:174-175). -/
def pred12 (base sumWN te : Int) (c : Nat) : Option Int :=
  (chk (sumWN + te)).bind fun a => (chk (a * c)).bind fun b => chk (base - b / 32)

/-- `prediction[3]` (context_predict.h:176-179). -/
def pred3 (h : Header) (N W NW NN teN teNW teNE : Int) : Option Int :=
  (chk (teNW * h.p3Ca)).bind fun a => (chk (teN * h.p3Cb)).bind fun b => (chk (teNE * h.p3Cc)).bind fun c =>
  (chk (NN - N)).bind fun d0 => (chk (d0 * h.p3Cd)).bind fun d => (chk (NW - W)).bind fun e0 => (chk (e0 * h.p3Ce)).bind fun e =>
  (chk (a + b)).bind fun s1 => (chk (s1 + c)).bind fun s2 => (chk (s2 + d)).bind fun s3 => (chk (s3 + e)).bind fun s4 => chk (N - s4 / 32)

/-- The test for equal signs (context_predict.h:184). -/
def sameSign (teN teW teNW : Int) : Bool :=
  decide (0 < (((BitVec.ofInt 64 teN ^^^ BitVec.ofInt 64 teW) ||| (BitVec.ofInt 64 teN ^^^ BitVec.ofInt 64 teNW)).toInt))

/-- What `Predict` delivers: the returned value, the property, the state with `prediction` and
`pred` replaced. -/
structure Res where
  guess : Int
  prop : Int
  st : State

/-- The end of `Predict` (context_predict.h:183-192). -/
def finish (s : State) (q0 q1 q2 q3 avg N W NE teW teN teNW teNE : Int) : Option Res :=
  let pred := if sameSign teN teW teNW then avg else max (min W (min NE N)) (min (max W (max NE N)) avg)
  (chk (pred + 3)).map fun a => { guess := a / 8, prop := property teW teN teNW teNE, st := { s with p0 := q0, p1 := q1, p2 := q2, p3 := q3, pred := pred } }

/-- The part after the errors have been read (context_predict.h:162-192). -/
def predictCore (h : Header) (s : State) (N W NE NW NN teW teN teNW teNE : Int) (w0 w1 w2 w3 : Nat) : Option Res :=
  (chk (teN + teW)).bind fun sumWN =>
  (pred0 W NE N).bind fun q0 => (pred12 N sumWN teNE h.p1C).bind fun q1 => (pred12 W sumWN teNW h.p2C).bind fun q2 => (pred3 h N W NW NN teN teNW teNE).bind fun q3 =>
  (weightedAverage q0 q1 q2 q3 w0 w1 w2 w3).bind fun avg => finish s q0 q1 q2 q3 avg N W NE teW teN teNW teNE

/-- `teW` (context_predict.h:159). -/
def readW (s : State) (cur x : Nat) : Option (BitVec 32) := if x = 0 then some 0#32 else s.error[cur + x - 1]?

/-- `Predict` (context_predict.h:133-193), with the property computed. -/
def predict (h : Header) (s : State) (x y xsize : Nat) (N W NE NW NN : Int) : Option Res :=
  let posN := prevRow y xsize + x
  let posNE := if x < xsize - 1 then posN + 1 else posN
  let posNW := if x > 0 then posN - 1 else posN
  (weightOf s.pe0 posN posNE posNW h.w0).bind fun w0 => (weightOf s.pe1 posN posNE posNW h.w1).bind fun w1 =>
  (weightOf s.pe2 posN posNE posNW h.w2).bind fun w2 => (weightOf s.pe3 posN posNE posNW h.w3).bind fun w3 =>
  (readW s (curRow y xsize) x).bind fun teW => (s.error[posN]?).bind fun teN => (s.error[posNW]?).bind fun teNW => (s.error[posNE]?).bind fun teNE =>
  predictCore h s (addBits N) (addBits W) (addBits NE) (addBits NW) (addBits NN) teW.toInt teN.toInt teNW.toInt teNE.toInt w0 w1 w2 w3

/-- One predictor in `UpdateErrors` (context_predict.h:201-209). -/
def updateOne (pe : List (BitVec 32)) (p val : Int) (cur prev x : Nat) : Option (List (BitVec 32)) :=
  (chk (p - val)).bind fun d => (chk ((d.natAbs : Int))).bind fun a => (chk (a + 3)).bind fun b =>
    let err := BitVec.ofInt 32 (b / 8)
    if cur + x < pe.length then
      let pe1 := pe.set (cur + x) err
      (pe1[prev + x + 1]?).map fun o => pe1.set (prev + x + 1) (o + err)
    else none

/-- `UpdateErrors` (context_predict.h:195-211). -/
def update (s : State) (val0 : Int) (x y xsize : Nat) : Option State :=
  let cur := curRow y xsize
  let prev := prevRow y xsize
  let val := addBits val0
  (chk (s.pred - val)).bind fun d =>
  if cur + x < s.error.length then
    (updateOne s.pe0 s.p0 val cur prev x).bind fun a0 => (updateOne s.pe1 s.p1 val cur prev x).bind fun a1 =>
    (updateOne s.pe2 s.p2 val cur prev x).bind fun a2 => (updateOne s.pe3 s.p3 val cur prev x).map fun a3 =>
      { s with pe0 := a0, pe1 := a1, pe2 := a2, pe3 := a3, error := s.error.set (cur + x) (BitVec.ofInt 32 d) }
  else none

end Jxl.Wp
