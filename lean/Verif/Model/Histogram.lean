import Verif.Spec.Bits
/-!
# Model of the storage of normalised histograms (lib/jxl/enc_ans.cc, dec_ans.cc, ans_common.h)

The bit reader supplies zero bits past the end of the stream (the caller checks the bounds later), so reading is total here.
Counts are non-negative.
-/
namespace Jxl.Histo

/-- `ReadBits(n)`: value and remaining bits. -/
def rd (n : Nat) (s : List Bool) : Nat × List Bool := (ofBits (s.take n), s.drop n)

/-- `StoreVarLenUint8` (enc_ans.cc:52-64). -/
def storeVarLen8 (n : Nat) : List Bool :=
  if n = 0 then bitsOf 1 0 else bitsOf 1 1 ++ bitsOf 3 n.log2 ++ bitsOf n.log2 (n - 2 ^ n.log2)

/-- `DecodeVarLenUint8` (dec_ans.cc:33-43). -/
def readVarLen8 (s : List Bool) : Nat × List Bool :=
  match rd 1 s with
  | (b, s) =>
    if b = 1 then
      match rd 3 s with
      | (n, s) => if n = 0 then (1, s) else match rd n s with | (v, s) => (v + 2 ^ n, s)
    else (0, s)

/-- `GetPopulationCountPrecision` (ans_common.h:27-34); `ANS_LOG_TAB_SIZE` is 12. -/
def precision (logcount shift : Nat) : Nat := min logcount (shift - (12 - logcount) / 2)

/-- `CreateFlatHistogram` (ans_common.h:39-50). -/
def flat (length total : Nat) : List Nat :=
  (List.range length).map fun i => if i < total % length then total / length + 1 else total / length

/-- `kBitWidthLengths` (enc_ans.cc:291-293). -/
def widthLengths : List Nat := [5, 4, 4, 4, 4, 4, 3, 3, 3, 3, 3, 6, 7, 7]
/-- `kBitWidthSymbols` (enc_ans.cc:294-296). -/
def widthSymbols : List Nat := [17, 11, 15, 3, 9, 7, 4, 2, 5, 6, 0, 33, 1, 65]

/-- `huff` (dec_ans.cc:108-126): code length and value, by the next 7 bits. -/
def huff : List (Nat × Nat) :=
  [(3, 10), (7, 12), (3, 7), (4, 3), (3, 6), (3, 8), (3, 9), (4, 5), (3, 10), (4, 4), (3, 7), (4, 1), (3, 6), (3, 8), (3, 9), (4, 2),
   (3, 10), (5, 0), (3, 7), (4, 3), (3, 6), (3, 8), (3, 9), (4, 5), (3, 10), (4, 4), (3, 7), (4, 1), (3, 6), (3, 8), (3, 9), (4, 2),
   (3, 10), (6, 11), (3, 7), (4, 3), (3, 6), (3, 8), (3, 9), (4, 5), (3, 10), (4, 4), (3, 7), (4, 1), (3, 6), (3, 8), (3, 9), (4, 2),
   (3, 10), (5, 0), (3, 7), (4, 3), (3, 6), (3, 8), (3, 9), (4, 5), (3, 10), (4, 4), (3, 7), (4, 1), (3, 6), (3, 8), (3, 9), (4, 2),
   (3, 10), (7, 13), (3, 7), (4, 3), (3, 6), (3, 8), (3, 9), (4, 5), (3, 10), (4, 4), (3, 7), (4, 1), (3, 6), (3, 8), (3, 9), (4, 2),
   (3, 10), (5, 0), (3, 7), (4, 3), (3, 6), (3, 8), (3, 9), (4, 5), (3, 10), (4, 4), (3, 7), (4, 1), (3, 6), (3, 8), (3, 9), (4, 2),
   (3, 10), (6, 11), (3, 7), (4, 3), (3, 6), (3, 8), (3, 9), (4, 5), (3, 10), (4, 4), (3, 7), (4, 1), (3, 6), (3, 8), (3, 9), (4, 2),
   (3, 10), (5, 0), (3, 7), (4, 3), (3, 6), (3, 8), (3, 9), (4, 5), (3, 10), (4, 4), (3, 7), (4, 1), (3, 6), (3, 8), (3, 9), (4, 2)]

/-! ## Encoder -/

/-- `ANSEncodingHistogram` (enc_ans.cc:80-540), the fields `Encode` uses.  `method` 0 is flat, otherwise the shift plus 1. -/
structure Hist where
  method : Nat
  omitPos : Nat
  size : Nat
  numSymbols : Nat
  sym0 : Nat
  sym1 : Nat
  counts : List Nat
deriving DecidableEq

/-- The run lengths of equal counts (enc_ans.cc:254-273): `k` iterations left, at `i`; `same` has 8-bit elements. -/
def sameLoop (counts : List Nat) (size om : Nat) : Nat → Nat → Nat → List Nat → List Nat
  | 0, _, _, same => same
  | k + 1, i, last, same =>
    if i = size ∨ i = om ∨ i = om + 1 ∨ counts.getD i 0 ≠ counts.getD last 0 then
      sameLoop counts size om k (i + 1) i (same.set last ((i - last) % 256))
    else sameLoop counts size om k (i + 1) last same

def sameOf (h : Hist) : List Nat := sameLoop h.counts h.size h.omitPos h.size 1 0 (List.replicate 256 0)

/-- Number of bits of a count (enc_ans.cc:281-286). -/
def bitWidth (c : Nat) : Nat := if c > 0 then c.log2 + 1 else 0

/-- `omit_width` (enc_ans.cc:276-286). -/
def omitWidth (h : Hist) : Nat :=
  (List.range h.size).foldl (fun w i =>
    if i ≠ h.omitPos ∧ h.counts.getD i 0 > 0 then max w (bitWidth (h.counts.getD i 0) + if i < h.omitPos then 1 else 0) else w) 10

/-- `bit_width[i]` (enc_ans.cc:275-287). -/
def widthAt (h : Hist) (i : Nat) : Nat := if i = h.omitPos then omitWidth h else bitWidth (h.counts.getD i 0)

/-- A code of `kBitWidthSymbols`. -/
def widthBits (w : Nat) : List Bool := bitsOf (widthLengths.getD w 0) (widthSymbols.getD w 0)

/-- The loop writing the widths (enc_ans.cc:299-309). -/
def writeWidths (h : Hist) (same : List Nat) : Nat → Nat → List Bool
  | 0, _ => []
  | k + 1, i =>
    if i < h.size then
      if same.getD i 0 ≥ 5 then
        widthBits (widthAt h i) ++ (widthBits 13 ++ (storeVarLen8 (same.getD i 0 - 5) ++ writeWidths h same k (i + same.getD i 0)))
      else widthBits (widthAt h i) ++ writeWidths h same k (i + 1)
    else []

/-- The extra bits of one count (enc_ans.cc:314-319). -/
def extraBits (h : Hist) (shift i : Nat) : List Bool :=
  if widthAt h i > 1 ∧ i ≠ h.omitPos then
    bitsOf (precision (widthAt h i - 1) shift)
      (h.counts.getD i 0 / 2 ^ (widthAt h i - 1 - precision (widthAt h i - 1) shift) - 2 ^ precision (widthAt h i - 1) shift)
  else []

/-- The loop writing the extra bits (enc_ans.cc:310-326). -/
def writeExtra (h : Hist) (shift : Nat) (same : List Nat) : Nat → Nat → List Bool
  | 0, _ => []
  | k + 1, i =>
    if i < h.size then
      extraBits h shift i ++
        (if same.getD i 0 ≥ 5 then writeExtra h shift same k (i + same.getD i 0) else writeExtra h shift same k (i + 1))
    else []

/-- The Elias-gamma-like code of the method (enc_ans.cc:241-248); the upper bound on the logarithm is 3. -/
def writeMethod (m : Nat) : List Bool :=
  bitsOf m.log2 (2 ^ m.log2 - 1) ++ (if m.log2 ≠ 3 then bitsOf 1 0 else []) ++ bitsOf m.log2 (m % 2 ^ m.log2)

/-- `ANSEncodingHistogram::Encode` (enc_ans.cc:199-328). -/
def encode (h : Hist) : Option (List Bool) :=
  if h.size > 256 then none
  else if h.method = 0 then
    if h.size = 0 then none else some (bitsOf 1 0 ++ bitsOf 1 1 ++ storeVarLen8 (h.size - 1))
  else if h.numSymbols = 0 then some (bitsOf 1 1 ++ bitsOf 1 0 ++ storeVarLen8 0)
  else if h.numSymbols = 1 then some (bitsOf 1 1 ++ bitsOf 1 0 ++ storeVarLen8 h.sym0)
  else if h.numSymbols = 2 then
    some (bitsOf 1 1 ++ bitsOf 1 1 ++ storeVarLen8 h.sym0 ++ storeVarLen8 h.sym1 ++ bitsOf 12 (h.counts.getD h.sym0 0))
  else
    some (bitsOf 1 0 ++ bitsOf 1 0 ++ writeMethod h.method ++ storeVarLen8 (h.size - 3) ++
      writeWidths h (sameOf h) h.size 0 ++ (if h.method - 1 ≠ 0 then writeExtra h (h.method - 1) (sameOf h) h.size 0 else []))

/-! ## Decoder -/

/-- The unary part of the shift (dec_ans.cc:94-97): at most `k` more ones. -/
def readLog : Nat → Nat → List Bool → Nat × List Bool
  | 0, log, s => (log, s)
  | k + 1, log, s =>
    match rd 1 s with
    | (b, s) => if b = 0 then (log, s) else readLog k (log + 1) s

/-- The shift (dec_ans.cc:90-102); `none` is "Invalid shift value". -/
def readShift (s : List Bool) : Option (Nat × List Bool) :=
  match readLog 3 0 s with
  | (log, s) =>
    match rd log s with
    | (v, s) => if (v ||| 2 ^ log) - 1 > 13 then none else some ((v ||| 2 ^ log) - 1, s)

/-- What the first loop collects; `logs` holds `logcounts[i] + 1`, `omitLog` is `omit_log + 1`. -/
structure Logs where
  logs : List Nat
  same : List Nat
  omitLog : Nat
  omitPos : Option Nat

/-- The loop reading the widths (dec_ans.cc:131-150). -/
def readLogs (length : Nat) : Nat → Nat → Logs → List Bool → Logs × List Bool
  | 0, _, L, s => (L, s)
  | k + 1, i, L, s =>
    if i < length then
      match huff.getD (rd 7 s).1 (0, 0) with
      | (n, v) =>
        if v = 13 then
          match readVarLen8 (s.drop n) with
          | (r, s) => readLogs length k (i + r + 4) { L with logs := L.logs.set i v, same := L.same.set i (r + 5) } s
        else if v > L.omitLog then
          readLogs length k (i + 1) { L with logs := L.logs.set i v, omitLog := v, omitPos := some i } (s.drop n)
        else readLogs length k (i + 1) { L with logs := L.logs.set i v } (s.drop n)
    else (L, s)

/-- The state of the second loop. -/
structure Acc where
  counts : List Nat
  prev : Nat
  numsame : Nat
  total : Nat

/-- The start of a run (dec_ans.cc:160-165). -/
def startRun (L : Logs) (i : Nat) (a : Acc) : Acc :=
  if L.same.getD i 0 ≠ 0 then
    { a with numsame := L.same.getD i 0 - 1, prev := if i > 0 then a.counts.getD (i - 1) 0 else 0 }
  else a

/-- Storing a count. -/
def put (a : Acc) (i c : Nat) : Acc := { a with counts := a.counts.set i c, total := a.total + c }

/-- One iteration of the second loop (dec_ans.cc:159-184). -/
def fillStep (L : Logs) (shift om i : Nat) (a : Acc) (s : List Bool) : Acc × List Bool :=
  let a := startRun L i a
  if a.numsame > 0 then ({ put a i a.prev with numsame := a.numsame - 1 }, s)
  else
    let v := L.logs.getD i 0
    if i = om ∨ v = 0 then (a, s)
    else if shift = 0 ∨ v = 1 then (put a i (2 ^ (v - 1)), s)
    else
      match rd (precision (v - 1) shift) s with
      | (x, s) => (put a i (2 ^ (v - 1) + x * 2 ^ (v - 1 - precision (v - 1) shift)), s)

def fill (L : Logs) (shift om : Nat) : Nat → Nat → Acc → List Bool → Acc × List Bool
  | 0, _, a, s => (a, s)
  | k + 1, i, a, s =>
    match fillStep L shift om i a s with
    | (a, s) => fill L shift om k (i + 1) a s

/-- The general histogram (dec_ans.cc:104-195). -/
def readGeneral (shift : Nat) (s : List Bool) : Option (List Nat × List Bool) :=
  match readVarLen8 s with
  | (n, s) =>
    match readLogs (n + 3) (n + 3) 0 { logs := List.replicate (n + 3) 1, same := List.replicate (n + 3) 0, omitLog := 0, omitPos := none } s with
    | (L, s) =>
      match L.omitPos with
      | none => none
      | some om =>
        if om + 1 < n + 3 ∧ L.logs.getD (om + 1) 0 = 13 then none
        else
          match fill L shift om (n + 3) 0 { counts := List.replicate (n + 3) 0, prev := 0, numsame := 0, total := 0 } s with
          | (a, s) => if 4096 ≤ a.total then none else some (a.counts.set om (4096 - a.total), s)

/-- The one- or two-symbol histogram (dec_ans.cc:63-80). -/
def readSmall (s : List Bool) : Option (List Nat × List Bool) :=
  match rd 1 s with
  | (two, s) =>
    match readVarLen8 s with
    | (a, s) =>
      if two = 0 then some ((List.replicate (a + 1) 0).set a 4096, s)
      else
        match readVarLen8 s with
        | (b, s) =>
          if a = b then none
          else
            match rd 12 s with
            | (c, s) => some (((List.replicate (max a b + 1) 0).set a c).set b (4096 - c), s)

/-- `ReadHistogram` (dec_ans.cc:58-197) with `precision_bits` 12; `none` is failure. -/
def read (s : List Bool) : Option (List Nat × List Bool) :=
  match rd 1 s with
  | (simple, s) =>
    if simple = 1 then readSmall s
    else
      match rd 1 s with
      | (isFlat, s) =>
        if isFlat = 1 then
          match readVarLen8 s with
          | (n, s) => if n + 1 > 4096 then none else some (flat (n + 1) 4096, s)
        else (readShift s).bind fun (shift, s) => readGeneral shift s

end Jxl.Histo
