import Verif.Model.JpegParse
/-!
# JPEG files: marker segments, `ReadJpeg` and `WriteJpeg`

`lib/jxl/jpeg/enc_jpeg_data_reader.cc:62-380` (the `Process*` functions) and `:885-1062` (`FixupIndexes`,
`FindNextMarker`, `ReadJpeg` in the mode `kReadAll`), `lib/jxl/jpeg/dec_jpeg_data_writer.cc:321-526` (the `Encode*`
functions) and `:731-1075` (`DoEncodeScan`, `SerializeSection`, `WriteJpegInternal`).

Results are `Option (Option _)`: the outer `none` is undefined behaviour (a load or store outside an array), the inner
one a file (or data) that is refused.  Simplifications.  The functions that read a marker segment are handed the bytes
from the segment's length field on, and return what they read and the length of the segment.  The writer's indices
into the lists of the file (`dht_index`, `app_index`, ...) are the parts of these lists still to be written.  Whether
the tables of a scan are initialised is checked once per scan and not once per MCU.  Coefficients are addressed by
component and block.  Output is never refused by its receiver, memory never runs out.
-/
namespace Jxl.Jpeg

/-! ## What is known about a file -/

/-- `JPEGQuantTable` (jpeg_data.h:66-76); the values by their place in the block. -/
structure QuantTable where
  index : Nat
  precision : Nat
  values : Nat → Nat
  isLast : Bool

/-- `JPEGHuffmanCode` (jpeg_data.h:79-89): the counts for the lengths 1 to 16 (`counts[0]` is always 0) and the
values in use. -/
structure HuffCode where
  slot : Nat
  counts : List Nat
  values : List Nat
  isLast : Bool
deriving DecidableEq, Repr

/-- `JPEGComponent` (jpeg_data.h:133-156) without coefficients. -/
structure Comp where
  id : Nat
  h : Nat
  v : Nat
  quant : Nat
deriving DecidableEq, Repr

/-- `JPEGComponentScanInfo` (jpeg_data.h:92-96). -/
structure ScanComp where
  comp : Nat
  dc : Nat
  ac : Nat
deriving DecidableEq, Repr

/-- `JPEGScanInfo` (jpeg_data.h:99-130). -/
structure ScanInfo where
  ss : Nat
  se : Nat
  ah : Nat
  al : Nat
  comps : List ScanComp
  points : List Nat
  runs : List (Nat × Nat)
deriving DecidableEq, Repr

/-- `JPEGData` (jpeg_data.h:158-226), as far as `ReadJpeg` fills it. -/
structure Jpg where
  width : Nat
  height : Nat
  restart : Nat
  comps : List Comp
  quant : List QuantTable
  huff : List HuffCode
  scans : List ScanInfo
  app : List (List Nat)
  com : List (List Nat)
  inter : List (List Nat)
  markers : List Nat
  pads : List Nat
  store : Store
  tail : List Nat

/-! ## Geometry of a scan -/

def divCeil (a b : Nat) : Nat := (a + b - 1) / b

/-- The largest sampling factors (enc_jpeg_data_reader.cc:766-771, jpeg_data.cc:464-469). -/
def maxH (cs : List Comp) : Nat := cs.foldl (fun m c => max m c.h) 1
def maxV (cs : List Comp) : Nat := cs.foldl (fun m c => max m c.v) 1

/-- `width_in_blocks` (enc_jpeg_data_reader.cc:114-125). -/
def blocksWide (width : Nat) (cs : List Comp) (c : Comp) : Nat := divCeil width (maxH cs * 8) * c.h
def blocksHigh (height : Nat) (cs : List Comp) (c : Comp) : Nat := divCeil height (maxV cs * 8) * c.v

/-- The component of a scan and its tables. -/
structure Member where
  idx : Nat
  comp : Comp
  dc : Table
  ac : Table

/-- The blocks of one component in the MCU `(y, x)` (enc_jpeg_data_reader.cc:828-843, dec_jpeg_data_writer.cc:829-851). -/
def memberUnits (width : Nat) (cs : List Comp) (inter : Bool) (y x : Nat) (m : Member) : List ScanUnit :=
  let ny := if inter then m.comp.v else 1
  let nx := if inter then m.comp.h else 1
  (List.range ny).flatMap fun iy => (List.range nx).map fun ix =>
    .block m.idx ((y * ny + iy) * blocksWide width cs m.comp + (x * nx + ix)) m.dc m.ac

def mcuUnits (width : Nat) (cs : List Comp) (ms : List Member) (yx : Nat × Nat) : List ScanUnit :=
  ms.flatMap (memberUnits width cs (1 < ms.length) yx.1 yx.2)

/-- The MCUs of a scan in order. -/
def mcus (rows cols : Nat) : List (Nat × Nat) :=
  (List.range rows).flatMap fun y => (List.range cols).map fun x => (y, x)

/-- `MCU_rows` and `MCUs_per_row` of the parser (enc_jpeg_data_reader.cc:773-779). -/
def readerMcus (width height : Nat) (cs : List Comp) (ms : List Member) : Nat × Nat :=
  match ms with
  | [m] => (divCeil (height * m.comp.v) (8 * maxV cs), divCeil (width * m.comp.h) (8 * maxH cs))
  | _ => (divCeil height (maxV cs * 8), divCeil width (maxH cs * 8))

/-- `CalculateMcuSize` (jpeg_data.cc:453-472). -/
def writerMcus (width height : Nat) (cs : List Comp) (ms : List Member) : Nat × Nat :=
  let hg := if 1 < ms.length then 1 else match ms with | m :: _ => m.comp.h | [] => 1
  let vg := if 1 < ms.length then 1 else match ms with | m :: _ => m.comp.v | [] => 1
  (divCeil (height * vg) (8 * maxV cs), divCeil (width * hg) (8 * maxH cs))

/-- The restarts of the parser (enc_jpeg_data_reader.cc:811-827), with `restarts_to_go`. -/
def readerWalk (restart : Nat) (f : Nat × Nat → List ScanUnit) : List (Nat × Nat) → Nat → List ScanUnit
  | [], _ => []
  | yx :: rest, go =>
    if restart > 0 then
      if go = 0 then .restart :: (f yx ++ readerWalk restart f rest (restart - 1))
      else f yx ++ readerWalk restart f rest (go - 1)
    else f yx ++ readerWalk restart f rest go

/-- The restarts of the writer (dec_jpeg_data_writer.cc:810-822 and 882), with `restarts_to_go`. -/
def writerWalk (restart : Nat) (f : Nat × Nat → List ScanUnit) : List (Nat × Nat) → Int → List ScanUnit
  | [], _ => []
  | yx :: rest, go =>
    if restart > 0 ∧ go = 0 then .restart :: (f yx ++ writerWalk restart f rest ((restart : Int) - 1))
    else f yx ++ writerWalk restart f rest (go - 1)

def readerUnits (width height restart : Nat) (cs : List Comp) (ms : List Member) : List ScanUnit :=
  let n := readerMcus width height cs ms
  readerWalk restart (mcuUnits width cs ms) (mcus n.1 n.2) restart

def writerUnits (width height restart : Nat) (cs : List Comp) (ms : List Member) : List ScanUnit :=
  let n := writerMcus width height cs ms
  writerWalk restart (mcuUnits width cs ms) (mcus n.1 n.2) restart

/-! ## Reading marker segments -/

/-- `JXL_JPEG_VERIFY_LEN` (enc_jpeg_data_reader.cc:27-32). -/
def need (n : Nat) (l : List Nat) (k : Option (Option α)) : Option (Option α) := if l.length < n then some none else k

/-- Refuse unless. -/
def check (c : Prop) [Decidable c] (k : Option (Option α)) : Option (Option α) := if c then k else some none

def word (hi lo : Nat) : Nat := hi * 256 + lo

/-- The components of a frame (enc_jpeg_data_reader.cc:90-112); `seen` are the identifiers so far. -/
def readComps : Nat → List Nat → List Nat → Option (Option (List Comp))
  | 0, _, _ => some (some [])
  | n + 1, seen, id :: f :: q :: l =>
    check (id ∉ seen) <| check (1 ≤ f / 16 ∧ f / 16 ≤ 15) <| check (1 ≤ f % 16 ∧ f % 16 ≤ 15) <|
      andThen (readComps n (id :: seen) l) fun cs => some (some (⟨id, f / 16, f % 16, q⟩ :: cs))
  | _ + 1, _, _ => none

/-- What a frame header says. -/
structure Frame where
  width : Nat
  height : Nat
  comps : List Comp

/-- `ProcessSOF` (enc_jpeg_data_reader.cc:66-128), the frame and the length of the segment. -/
def readSof (l : List Nat) : Option (Option (Frame × Nat)) :=
  need 8 l <|
    match l with
    | l1 :: l0 :: prec :: h1 :: h0 :: w1 :: w0 :: n :: l =>
      check (prec = 8) <| check (1 ≤ word h1 h0 ∧ word h1 h0 ≤ 65535) <| check (1 ≤ word w1 w0 ∧ word w1 w0 ≤ 65535) <|
        check (1 ≤ n ∧ n ≤ 4) <| need (3 * n) l <|
          andThen (readComps n [] l) fun cs =>
            check (∀ c ∈ cs, maxH cs % c.h = 0 ∧ maxV cs % c.v = 0) <|
              check (word l1 l0 = 8 + 3 * n) <| some (some (⟨word w1 w0, word h1 h0, cs⟩, 8 + 3 * n))
    | _ => none

/-- The last component with an identifier (enc_jpeg_data_reader.cc:151-157). -/
def lastWith (id : Nat) : List Comp → Nat → Option Nat
  | [], _ => none
  | c :: cs, j =>
    match lastWith id cs (j + 1) with
    | some k => some k
    | none => if c.id = id then some j else none

/-- The components of a scan (enc_jpeg_data_reader.cc:144-168). -/
def readScanComps (cs : List Comp) : Nat → List Nat → List Nat → Option (Option (List ScanComp × List Nat))
  | 0, _, l => some (some ([], l))
  | n + 1, seen, id :: t :: l =>
    check (id ∉ seen) <|
      match lastWith id cs 0 with
      | none => some none
      | some j =>
        check (t / 16 ≤ 3) <| check (t % 16 ≤ 3) <|
          andThen (readScanComps cs n (id :: seen) l) fun r => some (some (⟨j, t / 16, t % 16⟩ :: r.1, r.2))
  | _ + 1, _, _ => none

/-- Are the tables of a scan defined (enc_jpeg_data_reader.cc:183-205)? -/
def tablesFound (hs : List HuffCode) (ss se : Nat) (c : ScanComp) : Bool :=
  (ss != 0 || hs.any fun h => h.slot == c.dc) && (se == 0 || hs.any fun h => h.slot != c.dc && h.slot == c.ac + 16)

/-- `ProcessSOS` (enc_jpeg_data_reader.cc:132-209). -/
def readSos (cs : List Comp) (hs : List HuffCode) (l : List Nat) : Option (Option (ScanInfo × Nat)) :=
  need 3 l <|
    match l with
    | l1 :: l0 :: n :: l =>
      check (1 ≤ n ∧ n ≤ cs.length) <| need (2 * n) l <|
        andThen (readScanComps cs n [] l) fun r => need 3 r.2 <|
          match r.2 with
          | ss :: se :: a :: _ =>
            check (ss ≤ 63) <| check (ss ≤ se ∧ se ≤ 63) <| check (r.1.all (tablesFound hs ss se) = true) <|
              check (word l1 l0 = 6 + 2 * n) <| some (some (⟨ss, se, a / 16, a % 16, r.1, [], []⟩, 6 + 2 * n))
          | _ => none
    | _ => none

/-- `++huff.counts[max_depth]` (enc_jpeg_data_reader.cc:266): one more code of the last length in use, or of length 1;
the argument holds the counts from one length on, the result is `none` if all are zero. -/
def bumpLast : List Nat → Option (List Nat)
  | [] => none
  | n :: ns =>
    match bumpLast ns with
    | some ns => some (n :: ns)
    | none => if n = 0 then none else some ((n + 1) :: ns)

def bump (counts : List Nat) : List Nat :=
  match bumpLast counts with
  | some cs => cs
  | none => 1 :: counts.drop 1

/-- The lookup tables of the parser and the codes they were built from, one per slot. -/
structure Slots where
  dc : Nat → Table
  ac : Nat → Table

/-- A slot nothing was read into (enc_jpeg_data_reader.cc:958-959). -/
def Table.fresh : Table := ([], List.replicate lutSize LutEntry.fresh)

def Slots.fresh : Slots := ⟨fun _ => Table.fresh, fun _ => Table.fresh⟩

def Slots.get (s : Slots) (isAc : Bool) (i : Nat) : Table := if isAc then s.ac i else s.dc i
def Slots.put (s : Slots) (isAc : Bool) (i : Nat) (t : Table) : Slots :=
  if isAc then { s with ac := fun j => if j = i then t else s.ac j } else { s with dc := fun j => if j = i then t else s.dc j }

/-- The tables of a segment (enc_jpeg_data_reader.cc:229-284): `used` bytes of `len` have been read.  At most `n`
tables. -/
def readCodes : Nat → Nat → Nat → List Nat → Slots → Option (Option (List HuffCode × Nat × Slots))
  | n, len, used, l, s =>
    if used < len then
      match n with
      | 0 => none
      | n + 1 =>
        need 17 l <|
          match l with
          | slot :: l =>
            let isAc := slot / 16 % 2 = 1
            let index := if isAc then slot - 16 else slot
            check (index ≤ 3) <|
              let counts := l.take 16
              let total := counts.sum
              -- `JXL_JPEG_VERIFY_LEN(total_count)` follows the check of the count, as in `readTable`
              check (total ≤ if isAc then 256 else 12) <| need total (l.drop 16) <|
                let values := (l.drop 16).take total
                andThen (readTable isAc counts values (s.get isAc index).2) fun t =>
                  let used := used + 17 + total
                  andThen (readCodes n len used ((l.drop 16).drop total) (s.put isAc index t)) fun r =>
                    some (some (⟨slot, bump counts, values ++ [256], used == len⟩ :: r.1, r.2))
          | [] => none
    else some (some ([], used, s))

/-- `ProcessDHT` (enc_jpeg_data_reader.cc:214-287). -/
def readDht (l : List Nat) (s : Slots) : Option (Option (List HuffCode × Nat × Slots)) :=
  need 2 l <|
    match l with
    | l1 :: l0 :: rest =>
      if word l1 l0 = 2 then some (some ([⟨0, List.replicate 16 0, [], true⟩], 2, s))
      else
        andThen (readCodes l.length (word l1 l0) 2 rest s) fun r =>
          check (word l1 l0 = r.2.1) <| some (some r)
    | _ => none

/-- `kJPEGNaturalOrder` (jpeg_data.h:40-52) without its last 16 entries, which no loop here reaches. -/
def naturalOrder : List Nat :=
  [0, 1, 8, 16, 9, 2, 3, 10, 17, 24, 32, 25, 18, 11, 4, 5, 12, 19, 26, 33, 40, 48, 41, 34, 27, 20, 13, 6, 7, 14, 21, 28,
    35, 42, 49, 56, 57, 50, 43, 36, 29, 22, 15, 23, 30, 37, 44, 51, 58, 59, 52, 45, 38, 31, 39, 46, 53, 60, 61, 54, 47, 55, 62, 63]

/-- The values of a quantization table (enc_jpeg_data_reader.cc:317-322), for the given places. -/
def readQuant (wide : Bool) : List Nat → List Nat → (Nat → Nat) → Option (Option ((Nat → Nat) × List Nat))
  | [], l, vs => some (some (vs, l))
  | k :: ks, a :: l, vs =>
    if wide then
      match l with
      | b :: l => check (1 ≤ word a b ∧ word a b ≤ 65535) <| readQuant wide ks l fun j => if j = k then word a b else vs j
      | [] => none
    else check (1 ≤ a ∧ a ≤ 65535) <| readQuant wide ks l fun j => if j = k then a else vs j
  | _ :: _, [], _ => none

/-- The tables of a segment (enc_jpeg_data_reader.cc:302-325); `have_` tables were read before. -/
def readQuants : Nat → Nat → Nat → Nat → List Nat → Option (Option (List QuantTable × Nat))
  | n, have_, len, used, l =>
    if used < len ∧ have_ < 4 then
      match n with
      | 0 => none
      | n + 1 =>
        need 1 l <|
          match l with
          | b :: l =>
            check (b / 16 ≤ 1) <| check (b % 16 ≤ 3) <| need ((b / 16 + 1) * 64) l <|
              andThen (readQuant (b / 16 = 1) naturalOrder l fun _ => 0) fun r =>
                let used := used + 1 + (b / 16 + 1) * 64
                andThen (readQuants n (have_ + 1) len used r.2) fun z =>
                  some (some (⟨b % 16, b / 16, r.1, used == len⟩ :: z.1, z.2))
          | [] => none
    else some (some ([], used))

/-- `ProcessDQT` (enc_jpeg_data_reader.cc:291-328). -/
def readDqt (have_ : Nat) (l : List Nat) : Option (Option (List QuantTable × Nat)) :=
  need 2 l <|
    match l with
    | l1 :: l0 :: rest =>
      check (word l1 l0 ≠ 2) <|
        andThen (readQuants 4 have_ (word l1 l0) 2 rest) fun r => check (word l1 l0 = r.2) <| some (some r)
    | _ => none

/-- `ProcessDRI` (enc_jpeg_data_reader.cc:331-345): the restart interval. -/
def readDri (l : List Nat) : Option (Option Nat) :=
  need 4 l <|
    match l with
    | l1 :: l0 :: r1 :: r0 :: _ => check (word l1 l0 = 4) <| some (some (word r1 r0))
    | _ => none

/-- `ProcessAPP` and `ProcessCOM` (enc_jpeg_data_reader.cc:348-380): the marker and the segment. -/
def readApp (marker : Nat) (l : List Nat) : Option (Option (List Nat)) :=
  need 2 l <|
    match l with
    | l1 :: l0 :: rest =>
      check (2 ≤ word l1 l0 ∧ word l1 l0 ≤ 65535) <| need (word l1 l0 - 2) rest <|
        some (some (marker :: l.take (word l1 l0)))
    | _ => none

/-! ## `ReadJpeg` -/

/-- State of `ReadJpeg` (enc_jpeg_data_reader.cc:956-967). -/
structure ReadState where
  jpg : Jpg
  slots : Slots
  progress : Progress
  progressive : Bool
  sof : Bool
  sos : Bool
  dri : Bool

/-- What a scan codes (enc_jpeg_data_reader.cc:774-777 and 846, dec_jpeg_data_writer.cc:904-919). -/
def scanMode (progressive : Bool) (i : ScanInfo) : Mode :=
  if progressive then
    if i.ah = 0 then (if i.al = 0 ∧ i.ss = 0 ∧ i.se = 63 then .sequential else .first i.ss i.se i.al)
    else .refine i.ss i.se i.al
  else .sequential

/-- The components of a scan with the tables in their slots. -/
def members (cs : List Comp) (s : Slots) (i : ScanInfo) : Option (List Member) :=
  i.comps.mapM fun c => (cs[c.comp]?).bind fun k => some ⟨c.comp, k, s.dc c.dc, s.ac c.ac⟩

/-- `ProcessScan` (enc_jpeg_data_reader.cc:760-882). -/
def readScan (d : List Nat) (st : ReadState) (pos : Nat) : Option (Option (ReadState × Nat)) :=
  andThen (readSos st.jpg.comps st.jpg.huff (d.drop pos)) fun r =>
    andThen (always (members st.jpg.comps st.slots r.1)) fun ms =>
      let mode := scanMode st.progressive r.1
      match markScan mode (r.1.comps.map (·.comp)) st.progress with
      | none => some none
      | some progress =>
        check (mode.al ≤ 10) <|
          andThen (parseScan mode d (readerUnits st.jpg.width st.jpg.height st.jpg.restart st.jpg.comps ms) st.jpg.store
              (pos + r.2)) fun o =>
            some (some ({ st with
              progress := progress, sos := true,
              jpg := { st.jpg with
                scans := st.jpg.scans ++ [{ r.1 with points := o.points, runs := o.runs }], store := o.store,
                pads := st.jpg.pads ++ o.pads } }, o.pos))

/-- One marker with its segment (enc_jpeg_data_reader.cc:982-1043). -/
def readMarker (d : List Nat) (m : Nat) (st : ReadState) (pos : Nat) : Option (Option (ReadState × Nat)) :=
  let j := st.jpg
  if m = 0xc0 ∨ m = 0xc1 ∨ m = 0xc2 then
    check (j.width = 0) <| andThen (readSof (d.drop pos)) fun r =>
      some (some ({ st with
        progressive := m == 0xc2, sof := true,
        jpg := { j with width := r.1.width, height := r.1.height, comps := r.1.comps } }, pos + r.2))
  else if m = 0xc4 then
    andThen (readDht (d.drop pos) st.slots) fun r =>
      some (some ({ st with slots := r.2.2, jpg := { j with huff := j.huff ++ r.1 } }, pos + r.2.1))
  else if 0xd0 ≤ m ∧ m ≤ 0xd7 then some (some (st, pos))
  else if m = 0xd9 then some (some (st, pos))
  else if m = 0xda then readScan d st pos
  else if m = 0xdb then
    andThen (readDqt j.quant.length (d.drop pos)) fun r =>
      some (some ({ st with jpg := { j with quant := j.quant ++ r.1 } }, pos + r.2))
  else if m = 0xdd then
    check (st.dri = false) <| andThen (readDri (d.drop pos)) fun r =>
      some (some ({ st with dri := true, jpg := { j with restart := r } }, pos + 4))
  else if 0xe0 ≤ m ∧ m ≤ 0xef then
    andThen (readApp m (d.drop pos)) fun r =>
      some (some ({ st with jpg := { j with app := j.app ++ [r] } }, pos + (r.length - 1)))
  else if m = 0xfe then
    andThen (readApp m (d.drop pos)) fun r =>
      some (some ({ st with jpg := { j with com := j.com ++ [r] } }, pos + (r.length - 1)))
  else some none

/-- `kIsValidMarker` (enc_jpeg_data_reader.cc:908-912), for the second byte of a marker. -/
def validMarker (m : Nat) : Bool :=
  m == 0xc0 || m == 0xc1 || m == 0xc2 || m == 0xc4 || (0xd0 ≤ m && m ≤ 0xd7) || m == 0xd9 || m == 0xda || m == 0xdb ||
    m == 0xdd || (0xe0 ≤ m && m ≤ 0xef) || m == 0xfe

/-- `FindNextMarker` (enc_jpeg_data_reader.cc:906-922): the number of bytes skipped. -/
def skipTo : List Nat → Nat
  | a :: b :: l => if a ≠ 255 ∨ b < 0xc0 ∨ ¬ validMarker b then 1 + skipTo (b :: l) else 0
  | _ => 0

/-- Bytes before a marker (enc_jpeg_data_reader.cc:971-978). -/
def noteSkipped (st : ReadState) (bytes : List Nat) : ReadState :=
  if bytes = [] then st
  else { st with jpg := { st.jpg with markers := st.jpg.markers ++ [0xff], inter := st.jpg.inter ++ [bytes] } }

/-- `marker_order.push_back` (enc_jpeg_data_reader.cc:1044). -/
def noteMarker (st : ReadState) (m : Nat) : ReadState := { st with jpg := { st.jpg with markers := st.jpg.markers ++ [m] } }

/-- The loop of `ReadJpeg` (enc_jpeg_data_reader.cc:969-1048): the state and the position after the end marker.  Every
round passes at least one marker, so there are fewer rounds than bytes. -/
def readLoop (d : List Nat) : Nat → ReadState → Nat → Option (Option (ReadState × Nat))
  | 0, _, _ => none
  | n + 1, st, pos =>
    let k := skipTo (d.drop pos)
    let st := noteSkipped st ((d.drop pos).take k)
    match d.drop (pos + k) with
    | a :: m :: _ =>
      check (a = 255) <|
        andThen (readMarker d m st (pos + k + 2)) fun r =>
          if m = 0xd9 then some (some (noteMarker r.1 m, r.2)) else readLoop d n (noteMarker r.1 m) r.2
    | _ => some none

/-- The first table with an index (enc_jpeg_data_reader.cc:889-895). -/
def quantWith (index : Nat) : List QuantTable → Nat → Option Nat
  | [], _ => none
  | t :: ts, j => if t.index = index then some j else quantWith index ts (j + 1)

/-- `FixupIndexes` (enc_jpeg_data_reader.cc:885-904). -/
def fixup (ts : List QuantTable) (cs : List Comp) : Option (List Comp) :=
  cs.mapM fun c => (quantWith c.quant ts 0).bind fun j => some { c with quant := j }

def Jpg.empty : Jpg :=
  { width := 0, height := 0, restart := 0, comps := [], quant := [], huff := [], scans := [], app := [], com := [],
    inter := [], markers := [], pads := [], store := Store.empty, tail := [] }

def ReadState.start : ReadState :=
  { jpg := Jpg.empty, slots := Slots.fresh, progress := fun _ _ => 0, progressive := false, sof := false, sos := false,
    dri := false }

/-- After the loop (enc_jpeg_data_reader.cc:1050-1077). -/
def readEnd (d : List Nat) (st : ReadState) (pos : Nat) : Option (Option Jpg) :=
  check (st.sof = true) <| check (st.sos = true) <|
    match fixup st.jpg.quant st.jpg.comps with
    | none => some none
    | some cs =>
      check (st.jpg.huff ≠ []) <| check (st.jpg.huff.length < 512) <|
        some (some { st.jpg with comps := cs, tail := d.drop pos })

/-- `ReadJpeg` with `JpegReadMode::kReadAll` (enc_jpeg_data_reader.cc:926-1080). -/
def readJpeg (d : List Nat) : Option (Option Jpg) :=
  match d with
  | a :: b :: _ =>
    check (a = 255) <| check (b = 0xd8) <|
      andThen (readLoop d d.length ReadState.start 2) fun r => readEnd d r.1 r.2
  | _ => some none

/-! ## Writing marker segments -/

def byte (n : Nat) : Nat := n % 256

/-- A chunk of `size` bytes into which the given bytes are stored (`OutputChunk(size)`, zeroed). -/
def chunk (size : Nat) (bytes : List Nat) : Option (List Nat) :=
  if bytes.length ≤ size then some (bytes ++ List.replicate (size - bytes.length) 0) else none

/-- The components of a frame (dec_jpeg_data_writer.cc:350-358). -/
def writeComps (qs : List QuantTable) : List Comp → Option (List Nat)
  | [] => some []
  | c :: cs => (qs[c.quant]?).bind fun q => (writeComps qs cs).bind fun l =>
      some (byte c.id :: byte ((c.h <<< 4) ||| c.v) :: byte q.index :: l)

/-- `EncodeSOF` (dec_jpeg_data_writer.cc:332-360). -/
def writeSof (j : Jpg) (m : Nat) : Option (Option (List Nat)) :=
  let len := 8 + 3 * j.comps.length
  match writeComps j.quant j.comps with
  | none => some none
  | some l =>
    always (chunk (len + 2)
      ([255, m, byte (len >>> 8), byte len, 8, byte (j.height >>> 8), byte j.height, byte (j.width >>> 8), byte j.width,
        byte j.comps.length] ++ l))

/-- The components of a scan (dec_jpeg_data_writer.cc:374-379). -/
def writeScanComps (cs : List Comp) : List ScanComp → Option (List Nat)
  | [] => some []
  | c :: l => (cs[c.comp]?).bind fun k => (writeScanComps cs l).bind fun r =>
      some (byte k.id :: byte ((c.dc <<< 4) + c.ac) :: r)

/-- `EncodeSOS` (dec_jpeg_data_writer.cc:362-384). -/
def writeSos (cs : List Comp) (i : ScanInfo) : Option (Option (List Nat)) :=
  let len := 6 + 2 * i.comps.length
  match writeScanComps cs i.comps with
  | none => some none
  | some l =>
    always (chunk (len + 2)
      ([255, 0xda, byte (len >>> 8), byte len, byte i.comps.length] ++ l ++ [byte i.ss, byte i.se, byte ((i.ah <<< 4) ||| i.al)]))

/-- `marker_len` (dec_jpeg_data_writer.cc:389-399). -/
def dhtLen : List HuffCode → Nat → Nat
  | [], n => n
  | h :: hs, n =>
    let n := n + h.counts.sum
    if n = 2 then n else if h.isLast then n + 16 else dhtLen hs (n + 16)

/-- `max_length` (dec_jpeg_data_writer.cc:417-423) of the counts for the lengths from `l` on. -/
def maxLength : List Nat → Nat → Nat
  | [], _ => 0
  | n :: ns, l => if maxLength ns (l + 1) ≠ 0 then maxLength ns (l + 1) else if n ≠ 0 then l else 0

/-- The counts without the code added by the parser (dec_jpeg_data_writer.cc:444-446). -/
def writeCounts (top : Nat) : List Nat → Nat → List Nat
  | [], _ => []
  | n :: ns, l => byte (if l = top then n - 1 else n) :: writeCounts top ns (l + 1)

/-- The tables of the writer, one per slot, if initialised: the codes they were made from (`codeTable` of these is
what is looked up). -/
structure WriterSlots where
  dc : Nat → Option (List Code)
  ac : Nat → Option (List Code)

def WriterSlots.put (s : WriterSlots) (isAc : Bool) (i : Nat) (t : List Code) : WriterSlots :=
  if isAc then { s with ac := fun j => if j = i then some t else s.ac j }
  else { s with dc := fun j => if j = i then some t else s.dc j }

/-- The tables of a segment (dec_jpeg_data_writer.cc:406-452): the bytes, the tables left over, the slots.  There are
four tables of each kind (`kMaxHuffmanTables`); `BuildHuffmanCodeTable` fails if there are more than 257 codes. -/
def writeCodes : List HuffCode → WriterSlots → Option (Option (List Nat × List HuffCode × WriterSlots))
  | [], _ => some none
  | h :: hs, s =>
    if h.counts.sum = 0 then some (some ([], hs, s))
    else
      let isAc := h.slot / 16 % 2 = 1
      let index := if isAc then h.slot - 16 else h.slot
      if 4 ≤ index then none
      else if 257 < h.counts.sum then some none
      else
        let s := s.put isAc index ((expand 1 h.counts).zip h.values)
        let bytes := byte h.slot :: writeCounts (maxLength h.counts 1) h.counts 1 ++ (h.values.take (h.counts.sum - 1)).map byte
        if h.isLast then some (some (bytes, hs, s))
        else andThen (writeCodes hs s) fun r => some (some (bytes ++ r.1, r.2))

/-- `EncodeDHT` (dec_jpeg_data_writer.cc:386-454). -/
def writeDht (hs : List HuffCode) (s : WriterSlots) : Option (Option (List Nat × List HuffCode × WriterSlots)) :=
  let len := dhtLen hs 2
  andThen (writeCodes hs s) fun r =>
    andThen (always (chunk (len + 2) ([255, 0xc4, byte (len >>> 8), byte len] ++ r.1))) fun l => some (some (l, r.2))

/-- `marker_len` (dec_jpeg_data_writer.cc:457-462). -/
def dqtLen : List QuantTable → Nat → Nat
  | [], n => n
  | t :: ts, n =>
    let n := n + (1 + (if t.precision ≠ 0 then 2 else 1) * 64)
    if t.isLast then n else dqtLen ts n

/-- A table (dec_jpeg_data_writer.cc:475-483). -/
def writeQuant (t : QuantTable) : List Nat :=
  byte ((t.precision <<< 4) + t.index) :: naturalOrder.flatMap fun k =>
    if t.precision ≠ 0 then [byte (t.values k >>> 8), byte (t.values k)] else [byte (t.values k)]

def writeQuants : List QuantTable → Option (List Nat × List QuantTable)
  | [] => none
  | t :: ts => if t.isLast then some (writeQuant t, ts) else (writeQuants ts).bind fun r => some (writeQuant t ++ r.1, r.2)

/-- `EncodeDQT` (dec_jpeg_data_writer.cc:456-487). -/
def writeDqt (ts : List QuantTable) : Option (Option (List Nat × List QuantTable)) :=
  let len := dqtLen ts 2
  match writeQuants ts with
  | none => some none
  | some r => andThen (always (chunk (len + 2) ([255, 0xdb, byte (len >>> 8), byte len] ++ r.1))) fun l => some (some (l, r.2))

/-! ## `WriteJpeg` -/

/-- `SerializationState` (dec_jpeg_data_writer.cc / jpeg_data.h): what is still to be written. -/
structure WriteState where
  huff : List HuffCode
  quant : List QuantTable
  scans : List ScanInfo
  app : List (List Nat)
  com : List (List Nat)
  inter : List (List Nat)
  slots : WriterSlots
  progressive : Bool
  dri : Bool
  pads : Option (List Nat)

/-- A component of a scan with its tables; a table that is not initialised has no codes. -/
def writeMembers (cs : List Comp) (s : WriterSlots) (i : ScanInfo) : Option (List Member) :=
  i.comps.mapM fun c => (cs[c.comp]?).bind fun k =>
    some ⟨c.comp, k, ((s.dc c.dc).getD [], []), ((s.ac c.ac).getD [], [])⟩

/-- The tables a scan wants are initialised (dec_jpeg_data_writer.cc:785-787 and 832-837). -/
def tablesReady (m : Mode) (s : WriterSlots) (c : ScanComp) : Bool :=
  (m.ss != 0 || (s.dc c.dc).isSome) && ((m.ss == 0 && m.se == 0) || (s.ac c.ac).isSome)

/-- `EncodeScan` (dec_jpeg_data_writer.cc:731-922). -/
def writeScan (j : Jpg) (s : WriteState) : Option (Option (List Nat × WriteState)) :=
  match s.scans with
  | [] => none
  | i :: is =>
    andThen (writeSos j.comps i) fun head =>
      andThen (always (writeMembers j.comps s.slots i)) fun ms =>
        let mode := scanMode s.progressive i
        check (i.comps.all (tablesReady mode s.slots) = true) <|
          andThen (encodeScan mode
              (writerSteps j.store (writerUnits j.width j.height (if s.dri then j.restart else 0) j.comps ms) 0 i.points i.runs)
              s.pads (codeTable [])) fun ws =>
            check (ws.w.healthy = true) <| some (some (head ++ ws.w.out.reverse, { s with scans := is, pads := ws.pads }))

/-- The next of a list of byte strings, after `0xFF` if it is a segment (dec_jpeg_data_writer.cc:505-526). -/
def writeNext (mark : List Nat) (l : List (List Nat)) : Option (List Nat × List (List Nat)) :=
  match l with
  | [] => none
  | x :: xs => some (mark ++ x, xs)

/-- `SerializeSection` (dec_jpeg_data_writer.cc:924-989). -/
def writeSection (j : Jpg) (m : Nat) (s : WriteState) : Option (Option (List Nat × WriteState)) :=
  if m = 0xc0 ∨ m = 0xc1 ∨ m = 0xc2 ∨ m = 0xc9 ∨ m = 0xca then
    andThen (writeSof j m) fun l =>
      some (some (l, { s with progressive := if m ≤ 0xc2 then m == 0xc2 else s.progressive }))
  else if m = 0xc4 then
    andThen (writeDht s.huff s.slots) fun r => some (some (r.1, { s with huff := r.2.1, slots := r.2.2 }))
  else if 0xd0 ≤ m ∧ m ≤ 0xd7 then some (some ([255, m], s))
  else if m = 0xd9 then some (some ([255, 0xd9] ++ j.tail, s))
  else if m = 0xda then writeScan j s
  else if m = 0xdb then andThen (writeDqt s.quant) fun r => some (some (r.1, { s with quant := r.2 }))
  else if m = 0xdd then
    some (some ([255, 0xdd, 0, 4, byte (j.restart >>> 8), byte j.restart], { s with dri := true }))
  else if 0xe0 ≤ m ∧ m ≤ 0xef then
    match writeNext [255] s.app with
    | none => some none
    | some r => some (some (r.1, { s with app := r.2 }))
  else if m = 0xfe then
    match writeNext [255] s.com with
    | none => some none
    | some r => some (some (r.1, { s with com := r.2 }))
  else if m = 0xff then
    match writeNext [] s.inter with
    | none => some none
    | some r => some (some (r.1, { s with inter := r.2 }))
  else some none

/-- `STAGE_SERIALIZE_SECTION` (dec_jpeg_data_writer.cc:1033-1056): the bytes of all sections, and the padding bits
that are left. -/
def writeSections (j : Jpg) : List Nat → WriteState → Option (Option (List Nat × Option (List Nat)))
  | [], s => some (some ([], s.pads))
  | m :: ms, s =>
    andThen (writeSection j m s) fun r => andThen (writeSections j ms r.2) fun z => some (some (r.1 ++ z.1, z.2))

/-- `STAGE_INIT` (dec_jpeg_data_writer.cc:1012-1031). -/
def WriteState.start (j : Jpg) : WriteState :=
  { huff := j.huff, quant := j.quant, scans := j.scans, app := j.app, com := j.com, inter := j.inter,
    slots := ⟨fun _ => none, fun _ => none⟩, progressive := false, dri := false, pads := padSource j.pads }

/-- `WriteJpeg` (dec_jpeg_data_writer.cc:993-1075). -/
def writeJpeg (j : Jpg) : Option (Option (List Nat)) :=
  check (j.markers ≠ []) <|
    andThen (writeSections j j.markers (WriteState.start j)) fun r =>
      check (r.2 = none ∨ r.2 = some []) <| some (some ([255, 0xd8] ++ r.1))

end Jxl.Jpeg
