import Verif.Model.JpegHuff
/-!
# The scan parser of JPEG recompression

`lib/jxl/jpeg/enc_jpeg_data_reader.cc:493-880` (`HuffExtend`, `DecodeDCTBlock`, `RefineDCTBlock`, `ProcessRestart`,
`ProcessScan`), and the part of `DoEncodeScan` (dec_jpeg_data_writer.cc:805-875) that turns what the parser recorded
back into steps of the writer.

Results are `Option (Option _)`: the outer `none` is undefined behaviour (a load outside the input), the inner one a
file that is refused.  Simplifications.  A block is the list of its 64 coefficients in zigzag order; the loops over
the band `k = Ss..Se` walk down the list of the coefficients of the band that are still to come.  Coefficients are
`Int`: the range checks of the code (`s + Al < 12`, the DC check against `int16_t`, `Al <= 10`) keep them inside
`coeff_t`.  The loops over MCUs, components and blocks are a list of units which parser and writer share (they
compute it from the same frame and scan headers); a unit names the component, the block and the Huffman tables.
-/
namespace Jxl.Jpeg

/-- Continue unless undefined or refused. -/
def andThen (x : Option (Option α)) (f : α → Option (Option β)) : Option (Option β) :=
  x.bind fun y => match y with
    | none => some none
    | some a => f a

/-- A value that is never refused. -/
def always (x : Option α) : Option (Option α) := x.bind fun a => some (some a)

/-- `HuffExtend` (enc_jpeg_data_reader.cc:522-531). -/
def huffExtend (x s : Nat) : Int := if x ≥ 2 ^ (s - 1) then x else (x : Int) - (2 ^ s : Nat) + 1

/-- The DC coefficient of a first scan (enc_jpeg_data_reader.cc:542-563), before the shift: symbol, extra bits,
prediction, and the check that the shifted value is an `int16_t`. -/
def parseDc (d : List Nat) (dc : List LutEntry) (al : Nat) (last : Int) (r : Reader) : Option (Option (Int × Reader)) :=
  andThen (always (readSymbol d dc r)) fun p =>
    if p.1 ≥ 12 then some none
    else
      andThen (if p.1 > 0 then always ((readBits d p.2 p.1).bind fun q => some (huffExtend q.1 p.1, q.2))
          else some (some (0, p.2))) fun q =>
        let c := q.1 + last
        if c * (2 ^ al : Nat) < -32768 ∨ 32767 < c * (2 ^ al : Nat) then some none else some (some (c, q.2))

/-- What reading the band of a block changes: `*eobrun`, `*reset_state`, `*num_zero_runs`, the bit reader. -/
structure AcState where
  eob : Int
  reset : Bool
  runs : Nat
  r : Reader

/-- An end-of-band symbol with run exponent `run` (enc_jpeg_data_reader.cc:600-613 and 666-679). -/
def parseEob (d : List Nat) (allowed first : Bool) (run : Nat) (s : AcState) : Option (Option AcState) :=
  let reset := s.reset || (allowed && first && s.eob == 0)
  if run > 0 then
    if allowed then
      always ((readBits d s.r run).bind fun q => some { s with reset := reset, eob := 2 ^ run + q.1, r := q.2 })
    else some none
  else some (some { s with reset := reset, eob := 1 })

/-- The loop over the band of a first scan (enc_jpeg_data_reader.cc:573-615).  `first`: nothing of the band has been
passed (`k == Ss`); the list holds the coefficients `k..Se`. -/
def parseAc (d : List Nat) (t : List LutEntry) (al : Nat) (allowed : Bool) :
    Nat → Bool → List Int → AcState → Option (Option (List Int × AcState))
  | 0, _, cs, s => if cs = [] then some (some ([], s)) else none
  | n + 1, first, cs, s =>
    if cs = [] then some (some ([], s))
    else
      andThen (always (readSymbol d t s.r)) fun p =>
        if p.1 ≥ 256 then some none
        else
          let run := p.1 / 16
          let b := p.1 % 16
          if b > 0 then
            if run ≥ cs.length then some none
            else if b + al ≥ 12 then some none
            else
              andThen (always (readBits d p.2 b)) fun q =>
                andThen (parseAc d t al allowed n false (cs.drop (run + 1)) { s with runs := 0, r := q.2 }) fun z =>
                  some (some (cs.take run ++ huffExtend q.1 b * (2 ^ al : Nat) :: z.1, z.2))
          else if run = 15 then
            andThen (parseAc d t al allowed n false (cs.drop 16) { s with runs := s.runs + 1, r := p.2 }) fun z =>
              some (some (cs.take 16 ++ z.1, z.2))
          else andThen (parseEob d allowed first run { s with r := p.2 }) fun s => some (some (cs, s))

/-- The band of a block in a first scan (enc_jpeg_data_reader.cc:565-617). -/
def parseBand (d : List Nat) (t : List LutEntry) (al : Nat) (allowed : Bool) (cs : List Int) (eob : Int) (r : Reader) :
    Option (Option (List Int × AcState)) :=
  if eob > 0 then some (some (cs, { eob := eob - 1, reset := false, runs := 0, r := r }))
  else
    andThen (parseAc d t al allowed 64 true cs { eob := eob, reset := false, runs := 0, r := r }) fun z =>
      some (some (z.1, { z.2 with eob := z.2.eob - 1 }))

/-- One more bit of a DC coefficient (enc_jpeg_data_reader.cc:628-633). -/
def refineDc (al bit : Nat) (c : Int) : Int :=
  if bit = 1 ∧ (c / (2 ^ al : Nat)) % 2 = 0 then c + (2 ^ al : Nat) else c

/-- One more bit of a coefficient that is not zero (enc_jpeg_data_reader.cc:689-698). -/
def refineCoeff (al bit : Nat) (c : Int) : Int :=
  if bit ≠ 0 ∧ (c / (2 ^ al : Nat)) % 2 = 0 then if c ≥ 0 then c + (2 ^ al : Nat) else c - (2 ^ al : Nat) else c

/-- The loop that passes `run` zeros and refines the coefficients in between (enc_jpeg_data_reader.cc:686-706): the
coefficients passed, and the ones from where it stops. -/
def refSkip (d : List Nat) (al : Nat) : List Int → Nat → Reader → Option (List Int × List Int × Reader)
  | [], _, r => some ([], [], r)
  | c :: cs, run, r =>
    if c ≠ 0 then
      (readBits d r 1).bind fun q => (refSkip d al cs run q.2).bind fun z =>
        some (refineCoeff al q.1 c :: z.1, z.2)
    else if run = 0 then some ([], c :: cs, r)
    else (refSkip d al cs (run - 1) r).bind fun z => some (c :: z.1, z.2)

/-- The coefficients after the last new one (enc_jpeg_data_reader.cc:720-735). -/
def refRest (d : List Nat) (al : Nat) : List Int → Reader → Option (List Int × Reader)
  | [], r => some ([], r)
  | c :: cs, r =>
    if c ≠ 0 then
      (readBits d r 1).bind fun q => (refRest d al cs q.2).bind fun z => some (refineCoeff al q.1 c :: z.1, z.2)
    else (refRest d al cs r).bind fun z => some (c :: z.1, z.2)

/-- The loop over the band of a refinement scan (enc_jpeg_data_reader.cc:648-714), with `in_zero_run` (`zero`): the
coefficients passed, and those from where it stops. -/
def refLoop (d : List Nat) (t : List LutEntry) (al : Nat) (allowed : Bool) :
    Nat → Bool → Bool → List Int → AcState → Option (Option (List Int × List Int × AcState))
  | 0, _, zero, cs, s => if cs = [] then (if zero then some none else some (some ([], [], s))) else none
  | n + 1, first, zero, cs, s =>
    if cs = [] then (if zero then some none else some (some ([], [], s)))
    else
      andThen (always (readSymbol d t s.r)) fun p =>
        if p.1 ≥ 256 then some none
        else
          let run := p.1 / 16
          let b := p.1 % 16
          if b > 0 then
            if b ≠ 1 then some none
            else
              andThen (always (readBits d p.2 1)) fun q =>
                andThen (always (refSkip d al cs run q.2)) fun k =>
                  match k.2.1 with
                  | [] => some none
                  | _ :: rest =>
                    andThen (refLoop d t al allowed n false false rest { s with r := k.2.2 }) fun z =>
                      some (some (k.1 ++ (if q.1 ≠ 0 then ((2 ^ al : Nat) : Int) else -((2 ^ al : Nat) : Int)) :: z.1, z.2))
          else if run = 15 then
            andThen (always (refSkip d al cs 15 p.2)) fun k =>
              match k.2.1 with
              | [] => refLoop d t al allowed n false true [] { s with r := k.2.2 }
              | c :: rest =>
                andThen (refLoop d t al allowed n false true rest { s with r := k.2.2 }) fun z =>
                  some (some (k.1 ++ c :: z.1, z.2))
          else
            andThen (parseEob d allowed first run { s with r := p.2 }) fun s =>
              if zero then some none else some (some ([], cs, s))

/-- The end of a refinement block: the rest of the band if a run of ends of band is on (enc_jpeg_data_reader.cc:719-737). -/
def refEnd (d : List Nat) (al : Nat) (done rest : List Int) (s : AcState) : Option (Option (List Int × AcState)) :=
  if s.eob > 0 then
    andThen (always (refRest d al rest s.r)) fun z => some (some (done ++ z.1, { s with eob := s.eob - 1, r := z.2 }))
  else some (some (done ++ rest, { s with eob := s.eob - 1 }))

/-- The band of a block in a refinement scan (enc_jpeg_data_reader.cc:638-738). -/
def refineBand (d : List Nat) (t : List LutEntry) (al : Nat) (allowed : Bool) (cs : List Int) (eob : Int) (r : Reader) :
    Option (Option (List Int × AcState)) :=
  if eob > 0 then refEnd d al [] cs { eob := eob, reset := false, runs := 0, r := r }
  else
    andThen (refLoop d t al allowed 64 true false cs { eob := eob, reset := false, runs := 0, r := r }) fun z =>
      refEnd d al z.1 z.2.1 z.2.2

/-- Replacing the coefficients `ss..se` of a block. -/
def putBand (ss se : Nat) (coeffs new : List Int) : List Int := coeffs.take ss ++ new ++ coeffs.drop (se + 1)

/-- What reading a block gives: coefficients, last DC value, and the state. -/
structure BlockOut where
  coeffs : List Int
  last : Int
  ac : AcState

/-- The band part of a block, after its DC part (enc_jpeg_data_reader.cc:564-567 and 635-637): nothing if the band is
empty. -/
def withBand (ss se : Nat) (coeffs : List Int) (last : Int) (eob : Int) (r : Reader)
    (f : List Int → Int → Reader → Option (Option (List Int × AcState))) : Option (Option BlockOut) :=
  if max 1 ss > se then some (some ⟨coeffs, last, ⟨eob, false, 0, r⟩⟩)
  else
    andThen (f ((coeffs.take (se + 1)).drop (max 1 ss)) eob r) fun z =>
      some (some ⟨putBand (max 1 ss) se coeffs z.1, last, z.2⟩)

/-- `DecodeDCTBlock` (enc_jpeg_data_reader.cc:534-618). -/
def decodeBlock (d : List Nat) (dc ac : List LutEntry) (ss se al : Nat) (eob last : Int) (coeffs : List Int) (r : Reader) :
    Option (Option BlockOut) :=
  if ss = 0 then
    andThen (parseDc d dc al last r) fun p =>
      withBand ss se (coeffs.set 0 (p.1 * (2 ^ al : Nat))) p.1 eob p.2 (parseBand d ac al false)
  else withBand ss se coeffs last eob r (parseBand d ac al true)

/-- `RefineDCTBlock` (enc_jpeg_data_reader.cc:620-739). -/
def refineBlock (d : List Nat) (ac : List LutEntry) (ss se al : Nat) (eob last : Int) (coeffs : List Int) (r : Reader) :
    Option (Option BlockOut) :=
  if ss = 0 then
    andThen (always (readBits d r 1)) fun p =>
      withBand ss se (coeffs.set 0 (refineDc al p.1 (coeffs.headD 0))) last eob p.2 (refineBand d ac al false)
  else withBand ss se coeffs last eob r (refineBand d ac al true)

/-- A block in a scan of the given mode; a sequential scan is read as a first scan of everything
(enc_jpeg_data_reader.cc:774-777, 841-848). -/
def parseBlock (mode : Mode) (d : List Nat) (dc ac : List LutEntry) (eob last : Int) (coeffs : List Int) (r : Reader) :
    Option (Option BlockOut) :=
  match mode with
  | .sequential => decodeBlock d dc ac 0 63 0 eob last coeffs r
  | .first ss se al => decodeBlock d dc ac ss se al eob last coeffs r
  | .refine ss se al => refineBlock d ac ss se al eob last coeffs r

/-- A Huffman table: the codes of the file, and the lookup table built from them. -/
abbrev Table := List Code × List LutEntry

/-- One step of the loops of a scan: a restart, or the block `idx` of component `comp`. -/
inductive ScanUnit
  | restart
  | block (comp idx : Nat) (dc ac : Table)

/-- The coefficients of all components. -/
abbrev Store := Nat → Nat → List Int

def Store.put (st : Store) (comp idx : Nat) (cs : List Int) : Store :=
  fun i j => if i = comp ∧ j = idx then cs else st i j

/-- State of `ProcessScan`, with what it records in `JPEGScanInfo` and in `padding_bits`. -/
structure ParseState where
  store : Store
  eob : Int
  lastDc : Nat → Int
  next : Nat
  /-- `block_scan_index` -/
  index : Nat
  /-- `reset_points`, in order -/
  points : List Nat
  /-- `extra_zero_runs`, in order -/
  runs : List (Nat × Nat)
  pads : List Nat
  r : Reader

/-- A restart (enc_jpeg_data_reader.cc:741-758 and 806-821). -/
def parseRestart (d : List Nat) (st : ParseState) : Option (Option ParseState) :=
  andThen (finishStream d st.r) fun f =>
    andThen (always (restartAt d f.2 st.next)) fun ok =>
      if ok then
        andThen (always (Reader.reset d (f.2 + 2))) fun r =>
          if st.eob > 0 then some none
          else
            some (some { st with eob := -1, lastDc := fun _ => 0, next := st.next + 1, pads := st.pads ++ f.1, r := r })
      else some none

/-- A block (enc_jpeg_data_reader.cc:832-863). -/
def parseUnit (mode : Mode) (d : List Nat) (st : ParseState) : ScanUnit → Option (Option ParseState)
  | .restart => parseRestart d st
  | .block comp idx dc ac =>
    andThen (parseBlock mode d dc.2 ac.2 st.eob (st.lastDc comp) (st.store comp idx) st.r) fun b =>
      some (some { st with
        store := st.store.put comp idx b.coeffs, eob := b.ac.eob,
        lastDc := fun i => if i = comp then b.last else st.lastDc i, index := st.index + 1,
        points := if b.ac.reset then st.points ++ [st.index] else st.points,
        runs := if b.ac.runs > 0 then st.runs ++ [(st.index, b.ac.runs)] else st.runs, r := b.ac.r })

def parseUnits (mode : Mode) (d : List Nat) : List ScanUnit → ParseState → Option (Option ParseState)
  | [], st => some (some st)
  | u :: us, st => andThen (parseUnit mode d st u) (parseUnits mode d us)

/-- What a scan leaves behind: coefficients, records, padding bits, position after the scan. -/
structure ParsedScan where
  store : Store
  points : List Nat
  runs : List (Nat × Nat)
  pads : List Nat
  pos : Nat

/-- `ProcessScan` from the first entropy-coded byte (enc_jpeg_data_reader.cc:768-880). -/
def parseScan (mode : Mode) (d : List Nat) (us : List ScanUnit) (store : Store) (pos : Nat) :
    Option (Option ParsedScan) :=
  andThen (always (Reader.reset d pos)) fun r =>
    andThen (parseUnits mode d us
        { store := store, eob := -1, lastDc := fun _ => 0, next := 0, index := 0, points := [], runs := [], pads := [],
          r := r }) fun st =>
      if st.eob > 0 then some none
      else
        andThen (finishStream d st.r) fun f =>
          if f.2 > d.length then some none
          else some (some ⟨st.store, st.points, st.runs, st.pads ++ f.1, f.2⟩)

/-! ## What the writer is given -/

/-- The block at `index`: a flush if it is the next reset point, and its extra zero runs
(dec_jpeg_data_writer.cc:845-861); the lists that are left. -/
def takePoint (index : Nat) : List Nat → Bool × List Nat
  | p :: ps => if index = p then (true, ps) else (false, p :: ps)
  | [] => (false, [])

def takeRun (index : Nat) : List (Nat × Nat) → Nat × List (Nat × Nat)
  | p :: ps => if index = p.1 then (p.2, ps) else (0, p :: ps)
  | [] => (0, [])

/-- The steps of the writer for the units of a scan, the records and the coefficients (dec_jpeg_data_writer.cc:805-886). -/
def writerSteps (store : Store) : List ScanUnit → Nat → List Nat → List (Nat × Nat) → List Step
  | [], _, _, _ => []
  | .restart :: us, i, ps, zs => .restart :: writerSteps store us i ps zs
  | .block comp idx dc ac :: us, i, ps, zs =>
    (if (takePoint i ps).1 then [Step.reset] else []) ++
      .block comp (codeTable dc.1) (codeTable ac.1) (store comp idx) (takeRun i zs).1 ::
        writerSteps store us (i + 1) (takePoint i ps).2 (takeRun i zs).2

/-! ## All scans of a file -/

/-- Spectral band and bit position of a scan; a sequential scan codes everything (enc_jpeg_data_reader.cc:774-777). -/
def Mode.ss : Mode → Nat
  | .sequential => 0
  | .first ss _ _ => ss
  | .refine ss _ _ => ss
def Mode.se : Mode → Nat
  | .sequential => 63
  | .first _ se _ => se
  | .refine _ se _ => se
def Mode.al : Mode → Nat
  | .sequential => 0
  | .first _ _ al => al
  | .refine _ _ al => al
def Mode.refining : Mode → Bool
  | .refine _ _ _ => true
  | _ => false

/-- What the headers say about a scan: its mode, its components, its units, and where its data begins. -/
structure ScanIn where
  mode : Mode
  comps : List Nat
  units : List ScanUnit
  pos : Nat

/-- `scan_progression`: for a component and a coefficient the bits that have been coded. -/
abbrev Progress := Nat → Nat → Nat

/-- `scan_bitmask` and `refinement_bitmask`, both `uint16_t` (enc_jpeg_data_reader.cc:778-779). -/
def scanMask (m : Mode) : Nat := if m.refining then (1 <<< m.al) % 65536 else (0xffff <<< m.al) % 65536
def finerMask (m : Mode) : Nat := ((1 <<< m.al) - 1) % 65536

/-- The loop over `n` coefficients from `k` (enc_jpeg_data_reader.cc:782-795); `none`: refused. -/
def markBand (m : Mode) (comp : Nat) : Nat → Nat → Progress → Option Progress
  | 0, _, p => some p
  | n + 1, k, p =>
    if p comp k &&& scanMask m ≠ 0 then none
    else if p comp k &&& finerMask m ≠ 0 then none
    else markBand m comp n (k + 1) (fun i j => if i = comp ∧ j = k then p i j ||| scanMask m else p i j)

/-- The loop over the components (enc_jpeg_data_reader.cc:780-796). -/
def markScan (m : Mode) : List Nat → Progress → Option Progress
  | [], p => some p
  | c :: cs, p => (markBand m c (m.se + 1 - m.ss) m.ss p).bind (markScan m cs)

/-- The scans of a file in order (`ReadJpeg`, enc_jpeg_data_reader.cc:994-1000, and `ProcessScan` from line 778): what
each leaves behind, and the coefficients at the end. -/
def parseFile (d : List Nat) : List ScanIn → Progress → Store → Option (Option (List ParsedScan × Store))
  | [], _, store => some (some ([], store))
  | s :: ss, p, store =>
    match markScan s.mode s.comps p with
    | none => some none
    | some p =>
      if s.mode.al > 10 then some none
      else
        andThen (parseScan s.mode d s.units store s.pos) fun o =>
          andThen (parseFile d ss p o.store) fun z => some (some (o :: z.1, z.2))

/-- Coefficients before the first scan (enc_jpeg_data_reader.cc:801-807). -/
def Store.empty : Store := fun _ _ => List.replicate 64 0

/-- The padding bits given to the writer (dec_jpeg_data_writer.cc:1017-1023): only if one of them is zero
(`has_zero_padding_bit`, enc_jpeg_data_reader.cc:442-445). -/
def padSource (pads : List Nat) : Option (List Nat) := if 0 ∈ pads then some pads else none

/-- The scans of the file as the writer produces them from the coefficients and the records (dec_jpeg_data_writer.cc:731-901);
a writer that is not healthy fails. -/
def writeFile (store : Store) (ac : Huff) :
    List (ScanIn × ParsedScan) → Option (List Nat) → Option (Option (List (List Nat)))
  | [], _ => some (some [])
  | x :: xs, pads =>
    andThen (encodeScan x.1.mode (writerSteps store x.1.units 0 x.2.points x.2.runs) pads ac) fun ws =>
      if ws.w.healthy then andThen (writeFile store ac xs ws.pads) fun os => some (some (ws.w.out.reverse :: os))
      else some none

end Jxl.Jpeg
