import Verif.Model.JpegBits
/-!
# The scan coder of JPEG reconstruction

`lib/jxl/jpeg/dec_jpeg_data_writer.cc:190-278` (`WriteSymbol`, `Flush`, `BufferEndOfBand`), `:527-730`
(`EncodeDCTBlockSequential`, `EncodeDCTBlockProgressive`, `EncodeRefinementBits`) and `:732-898`
(`DoEncodeScan`).

Simplifications.  A block is the list of its 64 coefficients already in zigzag order (`kJPEGNaturalOrder` is
applied).  `coeff_t` arithmetic is done in `Int` without wrap-around: `DecodeGroup` refuses coefficients outside
±4095 and clamps DC to ±2047 (dec_group.cc:204-205, 417-428), which also makes the tests of `litmus` and of
`-temp < 0` succeed.  The loops of `DoEncodeScan` over MCUs, components and blocks
are a list of steps.  `none` is undefined behaviour (of the bit writer, or an index outside a Huffman table).
-/
namespace Jxl.Jpeg

/-- `HuffmanCodeTable` (dec_jpeg_serialization_state.h:21-28); symbols without a code have depth 127. -/
structure Huff where
  depth : Nat → Nat
  code : Nat → Nat

/-- `WriteSymbol` (dec_jpeg_data_writer.cc:197-200); tables have 256 entries. -/
def writeSymbol (sym : Nat) (h : Huff) (w : Writer) : Option Writer :=
  if sym < 256 then writeBits w (h.depth sym) (h.code sym) else none

/-- `WriteSymbolBits` (dec_jpeg_data_writer.cc:202-206). -/
def writeSymbolBits (sym : Nat) (h : Huff) (n bits : Nat) (w : Writer) : Option Writer :=
  if sym < 256 then writeBits w (n + h.depth sym) (bits ||| (h.code sym <<< n)) else none

/-- `DCTCodingState` (dec_jpeg_serialization_state.h:42-51). -/
structure Coding where
  eobRun : Nat
  huff : Huff
  /-- `refinement_bits_`: words of up to 16 bits, the last one first -/
  words : List Nat
  /-- `refinement_bits_count_` -/
  count : Nat

/-- Writing the full words, `kStride = 124` at a time (dec_jpeg_data_writer.cc:221-230). -/
def writeWords : Nat → List Nat → Writer → Option Writer
  | _, [], w => some w
  | i, x :: xs, w =>
    (writeBits (if i % 124 = 0 then reserve w 512 else w) 16 x).bind (writeWords (i + 1) xs)

/-- The end-of-band run (dec_jpeg_data_writer.cc:211-220). -/
def flushRun (s : Coding) (w : Writer) : Option Writer :=
  if s.eobRun > 0 then
    let nbits := Nat.log2 s.eobRun
    (writeSymbol (nbits <<< 4) s.huff (reserve w 16)).bind fun w =>
      if nbits > 0 then writeBits w nbits (s.eobRun &&& (2 ^ nbits - 1)) else some w
  else some w

/-- The last, incomplete word (dec_jpeg_data_writer.cc:231-235). -/
def flushTail (s : Coding) (w : Writer) : Option Writer :=
  if s.count % 16 = 0 then some (reserve w 16)
  else
    match s.words with
    | [] => none
    | x :: _ => writeBits (reserve w 16) (s.count % 16) x

/-- `Flush` (dec_jpeg_data_writer.cc:210-238). -/
def flush (s : Coding) (w : Writer) : Option (Coding × Writer) :=
  (flushRun s w).bind fun w => (writeWords 0 (s.words.reverse.take (s.count / 16)) w).bind fun w =>
    (flushTail s w).bind fun w => some ({ s with eobRun := 0, words := [], count := 0 }, w)

/-- The bits of an array as a number (dec_jpeg_data_writer.cc:250-253). -/
def packNew (bits : List Nat) : Nat := bits.foldl (fun a b => (a <<< 1) ||| b) 0

/-- Pushing 16 bits at a time (dec_jpeg_data_writer.cc:264-272); at most 63 bits are new. -/
def pushWords (nb : Nat) : Nat → Nat → List Nat → Nat → List Nat × Nat
  | 0, _, words, count => (words, count)
  | k + 1, n, words, count =>
    if n ≥ 16 then pushWords nb k (n - 16) (((nb >>> (n - 16)) % 2 ^ 16) :: words) (count + 16)
    else if n > 0 then ((nb &&& (2 ^ n - 1)) :: words, count + n)
    else (words, count)

/-- Appending `m` bits to the last word (dec_jpeg_data_writer.cc:259-260). -/
def orLast (m x : Nat) : List Nat → List Nat
  | [] => []
  | y :: ys => (((y <<< m) ||| x) % 2 ^ 16) :: ys

/-- Filling up the incomplete word (dec_jpeg_data_writer.cc:254-263). -/
def stuffTail (s : Coding) (nb n : Nat) : List Nat × Nat × Nat :=
  let tail := s.count % 16
  if tail = 0 then (s.words, s.count, n)
  else
    let m := min (16 - tail) n
    let x := ((nb >>> (n - m)) % 2 ^ 16) &&& (2 ^ m - 1)
    (orLast m x s.words, s.count + m, n - m)

/-- `BufferEndOfBand` (dec_jpeg_data_writer.cc:242-278). -/
def bufferEndOfBand (s : Coding) (ac : Huff) (bits : List Nat) (w : Writer) : Option (Coding × Writer) :=
  let s := if s.eobRun = 0 then { s with huff := ac } else s
  let s := { s with eobRun := s.eobRun + 1 }
  let s :=
    if bits.length = 0 then s
    else
      let nb := packNew bits
      let t := stuffTail s nb bits.length
      let u := pushWords nb 5 t.2.2 t.1 t.2.1
      { s with words := u.1, count := u.2 }
  if s.eobRun = 0x7FFF then flush s w else some (s, w)

/-- Number of bits of a magnitude: `FloorLog2Nonzero(a) + 1`, or 0. -/
def magBits (a : Nat) : Nat := if a = 0 then 0 else Nat.log2 a + 1

/-- The extra bits of a value: the value itself, or the value minus one when it is negative, in two's
complement (dec_jpeg_data_writer.cc:536-538, 550). -/
def extraBits (v : Int) (n : Nat) : Nat := ((if v < 0 then v - 1 else v) % (2 ^ n : Nat)).toNat

/-- `n` symbols 0xF0 (runs of 16 zeros). -/
def writeZrl (ac : Huff) : Nat → Writer → Option Writer
  | 0, w => some w
  | n + 1, w => (writeSymbol 0xF0 ac w).bind (writeZrl ac n)

/-- The DC coefficient (dec_jpeg_data_writer.cc:533-551 and 604-616). -/
def writeDc (diff : Int) (dc : Huff) (w : Writer) : Option Writer :=
  let n := magBits diff.natAbs
  (writeSymbol n dc w).bind fun w => if n = 0 then some w else writeBits w n (extraBits diff n)

/-- The AC coefficients of a sequential block (dec_jpeg_data_writer.cc:552-582): pending zeros and writer. -/
def seqAc (ac : Huff) : List Int → Nat → Writer → Option (Nat × Writer)
  | [], r, w => some (r, w)
  | c :: cs, r, w =>
    if c = 0 then seqAc ac cs (r + 1) w
    else
      (writeZrl ac (min 3 (r / 16)) w).bind fun w =>
        let r := r - 16 * min 3 (r / 16)
        let n := magBits c.natAbs
        (writeSymbolBits ((r <<< 4) + n) ac n (extraBits c n) w).bind (seqAc ac cs 0)

/-- `EncodeDCTBlockSequential` (dec_jpeg_data_writer.cc:527-592): the new last DC value and the writer. -/
def encodeSequential (coeffs : List Int) (dc ac : Huff) (zeroRuns : Nat) (lastDc : Int) (w : Writer) :
    Option (Int × Writer) :=
  match coeffs with
  | [] => none
  | c0 :: cs =>
    (writeDc (c0 - lastDc) dc w).bind fun w => (seqAc ac cs 0 w).bind fun p =>
      (writeZrl ac zeroRuns p.2).bind fun w =>
        (if 16 * zeroRuns < p.1 then writeSymbol 0 ac w else some w).bind fun w => some (c0, w)

/-- The AC coefficients of a progressive block (dec_jpeg_data_writer.cc:622-652). -/
def progAc (ac : Huff) (al : Nat) : List Int → Nat → Coding → Writer → Option (Nat × Coding × Writer)
  | [], r, s, w => some (r, s, w)
  | c :: cs, r, s, w =>
    let a := c.natAbs >>> al
    if a = 0 then progAc ac al cs (r + 1) s w
    else
      (flush s w).bind fun p => (writeZrl ac (r / 16) p.2).bind fun w =>
        let n := magBits a
        let v : Int := if c < 0 then -(a : Int) else a
        (writeSymbol (((r % 16) <<< 4) + n) ac w).bind fun w =>
          (writeBits w n (extraBits v n)).bind (progAc ac al cs 0 p.1)

/-- `EncodeDCTBlockProgressive` (dec_jpeg_data_writer.cc:594-667), first scans. -/
def encodeProgressive (coeffs : List Int) (dc ac : Huff) (ss se al zeroRuns : Nat) (s : Coding) (lastDc : Int)
    (w : Writer) : Option (Int × Coding × Writer) :=
  let d := (coeffs.headD 0) / (2 ^ al : Nat)
  (if ss = 0 then (writeDc (d - lastDc) dc w).bind fun w => some (d, w) else some (lastDc, w)).bind fun q =>
    let ss' := if ss = 0 then 1 else ss
    if ss' > se then some (q.1, s, q.2)
    else
      (progAc ac al ((coeffs.take (se + 1)).drop ss') 0 s q.2).bind fun p =>
        (if zeroRuns > 0 then
            (flush p.2.1 p.2.2).bind fun f => (writeZrl ac zeroRuns f.2).bind fun w => some (f.1, w)
          else some (p.2.1, p.2.2)).bind fun z =>
          if 16 * zeroRuns < p.1 then
            (bufferEndOfBand z.1 ac [] z.2).bind fun b =>
              (if ss = 0 then flush b.1 b.2 else some b).bind fun b => some (q.1, b.1, b.2)
          else some (q.1, z.1, z.2)

/-- Writing refinement bits one by one (dec_jpeg_data_writer.cc:702-704 and 716-718). -/
def writeOnes : List Nat → Writer → Option Writer
  | [], w => some w
  | b :: bs, w => (writeBits w 1 b).bind (writeOnes bs)

/-- Runs of 16 zeros inside a refinement scan (dec_jpeg_data_writer.cc:698-706). -/
def refZrl (ac : Huff) : Nat → List Nat → Coding → Writer → Option (List Nat × Coding × Writer)
  | 0, bits, s, w => some (bits, s, w)
  | n + 1, bits, s, w =>
    (flush s w).bind fun p => (writeSymbol 0xF0 ac p.2).bind fun w => (writeOnes bits.reverse w).bind fun w =>
      refZrl ac n [] p.1 w

/-- The coefficients of a refinement block (dec_jpeg_data_writer.cc:690-721).  `eob` is the number of coefficients
up to and including the last newly nonzero one; `bits` are the buffered refinement bits, last first. -/
def refAc (ac : Huff) (al : Nat) :
    List Int → Nat → Nat → List Nat → Coding → Writer → Option (Nat × List Nat × Coding × Writer)
  | [], _, r, bits, s, w => some (r, bits, s, w)
  | c :: cs, eob, r, bits, s, w =>
    let a := c.natAbs >>> al
    if a = 0 then refAc ac al cs (eob - 1) (r + 1) bits s w
    else
      (refZrl ac (if eob > 0 then r / 16 else 0) bits s w).bind fun q =>
        let r := if eob > 0 then r % 16 else r
        if a > 1 then refAc ac al cs (eob - 1) r ((a &&& 1) :: q.1) q.2.1 q.2.2
        else
          (flush q.2.1 q.2.2).bind fun p =>
            (writeSymbol ((r <<< 4) + 1) ac p.2).bind fun w =>
              (writeBits w 1 (if c < 0 then 0 else 1)).bind fun w =>
                (writeOnes q.1.reverse w).bind fun w => refAc ac al cs (eob - 1) 0 [] p.1 w

/-- Number of coefficients up to and including the last newly nonzero one (dec_jpeg_data_writer.cc:682-689). -/
def lastNew (al : Nat) : List Int → Nat
  | [] => 0
  | c :: cs =>
    let n := lastNew al cs
    if n > 0 then n + 1 else if c.natAbs >>> al = 1 then 1 else 0

/-- `EncodeRefinementBits` (dec_jpeg_data_writer.cc:669-730). -/
def encodeRefinement (coeffs : List Int) (ac : Huff) (ss se al : Nat) (s : Coding) (w : Writer) :
    Option (Coding × Writer) :=
  (if ss = 0 then writeBits w 1 (((coeffs.headD 0) / (2 ^ al : Nat)) % 2).toNat else some w).bind fun w =>
    let ss' := if ss = 0 then 1 else ss
    if ss' > se then some (s, w)
    else
      let cs := (coeffs.take (se + 1)).drop ss'
      (refAc ac al cs (lastNew al cs) 0 [] s w).bind fun p =>
        if p.1 > 0 ∨ p.2.1 ≠ [] then
          (bufferEndOfBand p.2.2.1 ac p.2.1.reverse p.2.2.2).bind fun b =>
            if ss = 0 then flush b.1 b.2 else some b
        else some (p.2.2.1, p.2.2.2)

/-- What a scan codes: `kMode` with the spectral band and the bit position. -/
inductive Mode
  | sequential
  | first (ss se al : Nat)
  | refine (ss se al : Nat)
deriving Repr, DecidableEq

/-- One step of `DoEncodeScan` (dec_jpeg_data_writer.cc:812-875): a restart, a reset point, or a block of component
`comp` with its tables and extra zero runs. -/
inductive Step
  | restart
  | reset
  | block (comp : Nat) (dc ac : Huff) (coeffs : List Int) (zeroRuns : Nat)

/-- State of the scan: coding state, last DC value of each component, restart marker counter, padding bits. -/
structure Scan where
  coding : Coding
  lastDc : Nat → Int
  next : Nat
  pads : Option (List Nat)
  w : Writer

/-- A block, after `Reserve(512)` (dec_jpeg_data_writer.cc:862-875). -/
def encodeBlock (mode : Mode) (comp : Nat) (dc ac : Huff) (coeffs : List Int) (zeroRuns : Nat) (st : Scan) :
    Option Scan :=
  let w := reserve st.w 512
  match mode with
  | .sequential =>
    (encodeSequential coeffs dc ac zeroRuns (st.lastDc comp) w).bind fun p =>
      some { st with lastDc := fun i => if i = comp then p.1 else st.lastDc i, w := p.2 }
  | .first ss se al =>
    (encodeProgressive coeffs dc ac ss se al zeroRuns st.coding (st.lastDc comp) w).bind fun p =>
      some { st with lastDc := fun i => if i = comp then p.1 else st.lastDc i, coding := p.2.1, w := p.2.2 }
  | .refine ss se al =>
    (encodeRefinement coeffs ac ss se al st.coding w).bind fun p => some { st with coding := p.1, w := p.2 }

/-- One step; the inner `none` is a refusal (padding bits run out). -/
def stepScan (mode : Mode) (st : Scan) : Step → Option (Option Scan)
  | .restart =>
    (flush st.coding st.w).bind fun p => (jump p.2 st.pads).bind fun q =>
      match q with
      | none => some none
      | some (w, pads) =>
        (emitMarker w (0xD0 + st.next % 8)).bind fun w =>
          some (some { coding := p.1, lastDc := fun _ => 0, next := st.next + 1, pads := pads, w := w })
  | .reset => (flush st.coding st.w).bind fun p => some (some { st with coding := p.1, w := p.2 })
  | .block comp dc ac coeffs zeroRuns => (encodeBlock mode comp dc ac coeffs zeroRuns st).bind fun st => some (some st)

/-- The steps in order. -/
def runSteps (mode : Mode) : List Step → Scan → Option (Option Scan)
  | [], st => some (some st)
  | x :: xs, st =>
    (stepScan mode st x).bind fun r =>
      match r with
      | none => some none
      | some st => runSteps mode xs st

/-- The start of a scan (dec_jpeg_data_writer.cc:756-771). -/
def Scan.init (pads : Option (List Nat)) (ac : Huff) : Scan :=
  { coding := { eobRun := 0, huff := ac, words := [], count := 0 }, lastDc := fun _ => 0, next := 0, pads := pads,
    w := Writer.init }

/-- A whole scan: the steps, `Flush`, and the byte boundary (dec_jpeg_data_writer.cc:888-895). -/
def encodeScan (mode : Mode) (xs : List Step) (pads : Option (List Nat)) (ac : Huff) : Option (Option Scan) :=
  (runSteps mode xs (Scan.init pads ac)).bind fun r =>
    match r with
    | none => some none
    | some st =>
      (flush st.coding st.w).bind fun p => (jump p.2 st.pads).bind fun q =>
        match q with
        | none => some none
        | some (w, pads) => some (some { st with coding := p.1, pads := pads, w := w })

end Jxl.Jpeg
