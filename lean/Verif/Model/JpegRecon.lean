import Verif.Model.JpegMarkers
import Verif.Model.Coders
/-!
# JPEG reconstruction data: the bundle (`JPEGData::VisitFields`, lib/jxl/jpeg/jpeg_data.cc:69-446)

The same function is run by the writing visitors and by the reading one; here it is written twice, once for each, and the
checks that both make are shared.  `Recon` holds what the bundle carries: of application data, comments, bytes between
markers and bytes after the end only the sizes (the contents follow as a Brotli stream), of quantization tables, components
and scans what is not in the codestream.

Results are `Option (Option _)` where an array is accessed: the outer `none` is an access out of bounds, the inner one a
refusal; elsewhere `none` is a refusal.  Simplifications.  As in `Model/Bundle.lean` the writer stops at the first value
that cannot be written (the code goes on and discards the bits at the end).  Bits missing at the end of the input are a
refusal.  `last_needed_pass` is kept although nothing uses it.
-/
namespace Jxl.Jpeg

/-- `JPEGQuantTable` (jpeg_data.h:66-76) without the values. -/
structure QuantHead where
  precision : Nat
  index : Nat
  isLast : Bool
deriving DecidableEq, Repr

/-- `JPEGHuffmanCode` (jpeg_data.h:79-89): all 17 counts, and the values in use. -/
structure ReconHuff where
  slot : Nat
  isLast : Bool
  counts : List Nat
  values : List Nat
deriving DecidableEq, Repr

/-- `JPEGScanInfo` (jpeg_data.h:99-130): the header. -/
structure ScanHead where
  ss : Nat
  se : Nat
  al : Nat
  ah : Nat
  comps : List ScanComp
  last : Nat
deriving DecidableEq, Repr

/-- `JPEGScanInfo`: header, reset points and extra zero runs. -/
structure ReconScan where
  head : ScanHead
  points : List Nat
  runs : List (Nat × Nat)
deriving DecidableEq, Repr

/-- What the bundle carries.  Application segments: type and size; components: identifier and quantization table; `pads`
are the padding bits if `has_zero_padding_bit`. -/
structure Recon where
  markers : List Nat
  app : List (Nat × Nat)
  com : List Nat
  quant : List QuantHead
  comps : List (Nat × Nat)
  huff : List ReconHuff
  scans : List ReconScan
  restart : Nat
  inter : List Nat
  tail : Nat
  pads : Option (List Nat)
deriving DecidableEq, Repr

/-! ## Distributions -/

def appTypeEnc : U32.Enc := ⟨U32.val 0, U32.val 1, U32.bitsOffset 1 2, U32.bitsOffset 2 4⟩
def oneToFourEnc : U32.Enc := ⟨U32.val 1, U32.val 2, U32.val 3, U32.val 4⟩
def numHuffEnc : U32.Enc := ⟨U32.val 4, U32.bitsOffset 3 2, U32.bitsOffset 4 10, U32.bitsOffset 6 26⟩
def countEnc : U32.Enc := ⟨U32.val 0, U32.val 1, U32.bitsOffset 3 2, U32.bitsOffset 8 0⟩
def symbolEnc : U32.Enc := ⟨U32.bitsOffset 2 0, U32.bitsOffset 2 4, U32.bitsOffset 4 8, U32.bitsOffset 8 1⟩
def passEnc : U32.Enc := ⟨U32.val 0, U32.val 1, U32.val 2, U32.bitsOffset 3 3⟩
def numPointsEnc : U32.Enc := ⟨U32.val 0, U32.bitsOffset 2 1, U32.bitsOffset 4 4, U32.bitsOffset 16 20⟩
def blockEnc : U32.Enc := ⟨U32.val 0, U32.bitsOffset 3 1, U32.bitsOffset 5 9, U32.bitsOffset 28 41⟩
def runEnc : U32.Enc := ⟨U32.val 1, U32.bitsOffset 2 2, U32.bitsOffset 4 5, U32.bitsOffset 8 20⟩
def tailEnc : U32.Enc := ⟨U32.val 0, U32.bitsOffset 8 1, U32.bitsOffset 16 257, U32.bitsOffset 22 65793⟩

/-! ## Checks made when writing and when reading -/

/-- A conversion to `uint32_t`. -/
def u32 (n : Nat) : Nat := n % 2 ^ 32

/-- `JPEGInfo` (jpeg_data.cc:37-66): which markers are counted. -/
def isApp (m : Nat) : Bool := m &&& 0xf0 == 0xe0
def numApp (ms : List Nat) : Nat := ms.countP isApp
def numCom (ms : List Nat) : Nat := ms.count 0xfe
def numScans (ms : List Nat) : Nat := ms.count 0xda
def numInter (ms : List Nat) : Nat := ms.count 0xff

/-- The bits set in `value_slots` (jpeg_data.cc:246-253): five words of 64 bits. -/
def noteSymbol (slots : List Nat) (v : Nat) : Option (List Nat) :=
  (slots[v >>> 6]?).bind fun w => some (slots.set (v >>> 6) (w ||| 1 <<< (v &&& 0x3F)))

def noteSymbols : List Nat → List Nat → Option (List Nat)
  | slots, [] => some slots
  | slots, v :: vs => (noteSymbol slots v).bind fun slots => noteSymbols slots vs

/-- `PopCount` of a word of 64 bits. -/
def popCount (w : Nat) : Nat := (List.range 64).countP fun i => w.testBit i

/-- The end of the loop over the tables (jpeg_data.cc:254-268), for a table with symbols. -/
def symbolsOk (isAc : Bool) (values : List Nat) : Option Bool :=
  (noteSymbols (List.replicate 5 0) values).bind fun slots =>
    (values.getLast?).bind fun last =>
      match slots with
      | [a, b, c, d, e] =>
        some (last == 256 && e == 1 && 1 + popCount a + popCount b + popCount c + popCount d == values.length &&
          (isAc || (a >>> 12) ||| b ||| c ||| d == 0))
      | _ => none

/-- Which tables are defined (jpeg_data.cc:394-395). -/
structure Defined where
  ac : List Bool
  dc : List Bool

/-- `ac_ok[index] = true` and `dc_ok[index] = true` (jpeg_data.cc:401-409). -/
def define (d : Defined) (slot : Nat) : Option Defined :=
  if slot &&& 0x10 ≠ 0 then
    if slot - 0x10 < d.ac.length then some { d with ac := d.ac.set (slot - 0x10) true } else none
  else if slot < d.dc.length then some { d with dc := d.dc.set slot true } else none

/-- The tables of a segment (jpeg_data.cc:399-411): what is defined, the tables left. -/
def defineSegment : List ReconHuff → Defined → Option (Defined × List ReconHuff)
  | [], d => some (d, [])
  | h :: hs, d => (define d h.slot).bind fun d => if h.isLast then some (d, hs) else defineSegment hs d

/-- The tables a component of a scan uses are defined (jpeg_data.cc:414-426). -/
def compDefined (d : Defined) (progressive : Bool) (h : ScanHead) (c : ScanComp) : Option Bool :=
  (d.dc[c.dc]?).bind fun dc => (d.ac[c.ac]?).bind fun ac =>
    some ((!(!progressive || h.ss == 0) || dc) && (!(!progressive || h.ss != 0 || h.se != 0) || ac))

def compsDefined (d : Defined) (progressive : Bool) (h : ScanHead) : List ScanComp → Option Bool
  | [] => some true
  | c :: cs => (compDefined d progressive h c).bind fun b => if b then compsDefined d progressive h cs else some false

/-- No table is used before it is defined (jpeg_data.cc:390-430). -/
def tablesDefined : List Nat → List ReconHuff → List ReconScan → Bool → Defined → Option Bool
  | [], _, _, _, _ => some true
  | m :: ms, hs, ss, p, d =>
    if m = 0xc2 then tablesDefined ms hs ss true d
    else if m = 0xc4 then (defineSegment hs d).bind fun r => tablesDefined ms r.2 ss p r.1
    else if m = 0xda then
      match ss with
      | [] => none
      | s :: ss => (compsDefined d p s.head s.head.comps).bind fun b => if b then tablesDefined ms hs ss p d else some false
    else tablesDefined ms hs ss p d

def allDefined (r : Recon) : Option Bool :=
  tablesDefined r.markers r.huff r.scans false ⟨List.replicate 4 false, List.replicate 4 false⟩

/-- The type of the components (jpeg_data.cc:157-167). -/
def compType (ids : List Nat) : Nat :=
  if ids = [1] then 0 else if ids = [1, 2, 3] then 1 else if ids = [82, 71, 66] then 2 else 3

/-- Every quantization table but those in use is a copy of the one before it (jpeg_data.cc:208-218); `same i` says that
table `i` has the values of table `i - 1`. -/
def quantOk (same : Nat → Bool) (used : List Nat) (n : Nat) : Bool :=
  (List.range n).all fun i => decide (i ∈ used) || (i != 0 && same i)

/-! ## Writing -/

/-- Refuse unless. -/
def only (b : Bool) : Option (List Bool) := if b then some [] else none

/-- One after the other. -/
def writeAll (f : α → Option (List Bool)) : List α → Option (List Bool)
  | [] => some []
  | x :: xs => (f x).bind fun a => (writeAll f xs).bind fun b => some (a ++ b)

def both (a b : Option (List Bool)) : Option (List Bool) := a.bind fun a => b.bind fun b => some (a ++ b)

def writeBool (b : Bool) : Option (List Bool) := some (bitsOf 1 b.toNat)

/-- `VisitMarker` (jpeg_data.cc:45-66). -/
def putMarker (m : Nat) : Option (List Bool) := writeBitsField 6 (u32 (m + 2 ^ 32 - 0xc0))

/-- The markers (jpeg_data.cc:87-99). -/
def putMarkers (ms : List Nat) : Option (List Bool) :=
  both (only (ms.length ≤ 16384)) (both (writeAll putMarker ms) (only (ms == [] || ms.getLast? == some 0xd9)))

/-- The size of a segment (jpeg_data.cc:125-130 and 133-138). -/
def putSize (n : Nat) : Option (List Bool) := both (writeBitsField 16 (u32 (n + 2 ^ 32 - 1))) (only (3 ≤ n))

/-- An application segment (jpeg_data.cc:112-130). -/
def putApp (a : Nat × Nat) : Option (List Bool) := both (U32.write appTypeEnc a.1) (both (only (a.1 ≤ 3)) (putSize a.2))

/-- A quantization table (jpeg_data.cc:149-156). -/
def putQuant (q : QuantHead) : Option (List Bool) :=
  both (only (q.precision ≤ 1)) (both (writeBitsField 1 q.precision) (both (writeBitsField 2 q.index) (writeBool q.isLast)))

/-- The quantization tables (jpeg_data.cc:141-156). -/
def putQuants (qs : List QuantHead) : Option (List Bool) :=
  both (U32.write oneToFourEnc (u32 qs.length)) (both (only (u32 qs.length ≠ 4)) (writeAll putQuant qs))

/-- The identifiers of the components (jpeg_data.cc:157-200). -/
def putIds (ids : List Nat) : Option (List Bool) :=
  both (writeBitsField 2 (compType ids))
    (if compType ids = 3 then
      both (U32.write oneToFourEnc (u32 ids.length)) (both (only (u32 ids.length = 1 ∨ u32 ids.length = 3)) (writeAll (writeBitsField 8) ids))
    else some [])

/-- The quantization tables of the components (jpeg_data.cc:201-207). -/
def putQuantIdx (n : Nat) (q : Nat) : Option (List Bool) := both (writeBitsField 2 q) (only (q < n))

/-- A Huffman table (jpeg_data.cc:226-270). -/
def putHuffBits (h : ReconHuff) : Option (List Bool) :=
  both (writeBool (h.slot >>> 4 != 0))
    (both (writeBitsField 2 (h.slot &&& 0xF))
      (both (writeBool h.isLast)
        (both (writeAll (U32.write countEnc) h.counts)
          (if h.counts.sum = 0 then some []
          else both (only (h.counts.sum ≤ 257)) (writeAll (U32.write symbolEnc) h.values)))))

def huffOk (h : ReconHuff) : Option Bool :=
  if h.counts.sum = 0 then some true else symbolsOk (h.slot >>> 4 != 0) h.values

def putHuff (h : ReconHuff) : Option (Option (List Bool)) :=
  andThen (some (putHuffBits h)) fun b => andThen (always (huffOk h)) fun c => if c then some (some b) else some none

def putHuffs : List ReconHuff → Option (Option (List Bool))
  | [] => some (some [])
  | h :: hs => andThen (putHuff h) fun a => andThen (putHuffs hs) fun b => some (some (a ++ b))

/-- A component of a scan (jpeg_data.cc:283-290). -/
def putScanComp (n : Nat) (c : ScanComp) : Option (List Bool) :=
  both (writeBitsField 2 c.comp) (both (only (c.comp < n)) (both (writeBitsField 2 c.ac) (writeBitsField 2 c.dc)))

/-- The header of a scan (jpeg_data.cc:272-296). -/
def putScanHead (n : Nat) (h : ScanHead) : Option (List Bool) :=
  both (U32.write oneToFourEnc h.comps.length)
    (both (only (h.comps.length < 4))
      (both (writeBitsField 6 h.ss)
        (both (writeBitsField 6 h.se)
          (both (writeBitsField 4 h.al)
            (both (writeBitsField 4 h.ah) (both (writeAll (putScanComp n) h.comps) (U32.write passEnc h.last)))))))

/-- A block index (jpeg_data.cc:314-318 and 345-349), `next` is `last_block_idx + 1`. -/
def putBlock (next b : Nat) : Option (List Bool) := U32.write blockEnc (u32 (b + 2 ^ 32 - next))

/-- The reset points (jpeg_data.cc:312-326). -/
def putPoints : Nat → List Nat → Option (List Bool)
  | _, [] => some []
  | next, b :: bs => both (putBlock next b) (both (only (b < 3 <<< 26)) (putPoints (b + 1) bs))

/-- The extra zero runs (jpeg_data.cc:335-360): block and number. -/
def putRuns : Nat → List (Nat × Nat) → Option (List Bool)
  | _, [] => some []
  | next, r :: rs =>
    both (U32.write runEnc r.2)
      (both (putBlock next r.1) (both (only (r.2 ≤ 4 ∧ r.1 ≤ 3 <<< 26)) (putRuns (r.1 + 1) rs)))

/-- Reset points and extra zero runs of a scan (jpeg_data.cc:304-361). -/
def putScanTail (s : ReconScan) : Option (List Bool) :=
  both (U32.write numPointsEnc (u32 s.points.length))
    (both (putPoints 0 s.points) (both (U32.write numPointsEnc (u32 s.runs.length)) (putRuns 0 s.runs)))

/-- The size of bytes between markers (jpeg_data.cc:364-368). -/
def putInter (n : Nat) : Option (List Bool) := writeBitsField 16 (u32 n)

/-- The size of what follows the end marker (jpeg_data.cc:369-376). -/
def putTail (n : Nat) : Option (List Bool) := both (only (u32 n ≤ 4260096)) (U32.write tailEnc (u32 n))

/-- The padding bits (jpeg_data.cc:378-398). -/
def putPads : Option (List Nat) → Option (List Bool)
  | none => writeBool false
  | some bs => both (writeBool true) (both (writeBitsField 24 (u32 bs.length)) (writeAll (fun b => writeBool (b != 0)) bs))

/-- The numbers of things (jpeg_data.cc:100-116). -/
def countsOk (r : Recon) : Bool :=
  numScans r.markers != 0 && r.app.length == numApp r.markers && r.com.length == numCom r.markers &&
    r.scans.length == numScans r.markers

/-- Up to the quantization tables of the components (jpeg_data.cc:70-218). -/
def putFront (same : Nat → Bool) (r : Recon) : Option (List Bool) :=
  both (writeBool (r.comps.length == 1))
    (both (putMarkers r.markers)
      (both (only (countsOk r))
        (both (writeAll putApp r.app)
          (both (writeAll putSize r.com)
            (both (putQuants r.quant)
              (both (putIds (r.comps.map (·.1)))
                (both (writeAll (putQuantIdx r.quant.length) (r.comps.map (·.2)))
                  (only (quantOk same (r.comps.map (·.2)) r.quant.length)))))))))

/-- After the Huffman tables (jpeg_data.cc:272-398).  `inter_marker_data[i]` exists for every marker that stands for one
(`numInter`): otherwise the loop reads past the end of the vector. -/
def putBack (r : Recon) : Option (List Bool) :=
  both (writeAll (fun s => putScanHead r.comps.length s.head) r.scans)
    (both (if 0xdd ∈ r.markers then writeBitsField 16 r.restart else some [])
      (both (writeAll putScanTail r.scans)
        (both (writeAll putInter (r.inter.take (numInter r.markers)))
          (both (putTail r.tail) (putPads r.pads)))))

/-- `Bundle::Write` of the data. -/
def putRecon (same : Nat → Bool) (r : Recon) : Option (Option (List Bool)) :=
  if r.inter.length < numInter r.markers then none
  else
    andThen (some (putFront same r)) fun a =>
      andThen (some (U32.write numHuffEnc (u32 r.huff.length))) fun b =>
        andThen (putHuffs r.huff) fun c =>
          andThen (some (putBack r)) fun d =>
            andThen (always (allDefined r)) fun ok => if ok then some (some (a ++ (b ++ (c ++ d)))) else some none

/-! ## Reading -/

/-- `n` things, one after the other. -/
def getN (f : List Bool → Option (α × List Bool)) : Nat → List Bool → Option (List α × List Bool)
  | 0, s => some ([], s)
  | n + 1, s => (f s).bind fun x => (getN f n x.2).bind fun y => some (x.1 :: y.1, y.2)

def getBool (s : List Bool) : Option (Bool × List Bool) := (rdBits 1 s).map fun x => (x.1 == 1, x.2)

/-- The markers up to the end marker (jpeg_data.cc:76-86); at most `n` more. -/
def getMarkers : Nat → List Bool → Option (List Nat × List Bool)
  | 0, _ => none
  | n + 1, s =>
    (rdBits 6 s).bind fun x =>
      if x.1 + 0xc0 = 0xd9 then some ([0xd9], x.2)
      else (getMarkers n x.2).bind fun y => some ((x.1 + 0xc0) :: y.1, y.2)

def getSize (s : List Bool) : Option (Nat × List Bool) :=
  (rdBits 16 s).bind fun x => if x.1 + 1 < 3 then none else some (x.1 + 1, x.2)

def getApp (s : List Bool) : Option ((Nat × Nat) × List Bool) :=
  (U32.read appTypeEnc s).bind fun t => if 3 < t.1 then none else (getSize t.2).bind fun x => some ((t.1, x.1), x.2)

def getQuant (s : List Bool) : Option (QuantHead × List Bool) :=
  (rdBits 1 s).bind fun p => (rdBits 2 p.2).bind fun i => (getBool i.2).bind fun l => some (⟨p.1, i.1, l.1⟩, l.2)

def getQuants (s : List Bool) : Option (List QuantHead × List Bool) :=
  (U32.read oneToFourEnc s).bind fun n => if n.1 = 4 then none else getN getQuant n.1 n.2

/-- The identifiers (jpeg_data.cc:168-200). -/
def getIds (s : List Bool) : Option (List Nat × List Bool) :=
  (rdBits 2 s).bind fun t =>
    if t.1 = 0 then some ([1], t.2)
    else if t.1 = 1 then some ([1, 2, 3], t.2)
    else if t.1 = 2 then some ([82, 71, 66], t.2)
    else (U32.read oneToFourEnc t.2).bind fun n => if n.1 ≠ 1 ∧ n.1 ≠ 3 then none else getN (rdBits 8) n.1 n.2

def getQuantIdx (n : Nat) (s : List Bool) : Option (Nat × List Bool) :=
  (rdBits 2 s).bind fun q => if n ≤ q.1 then none else some q

def getHuffBits (s : List Bool) : Option (ReconHuff × List Bool) :=
  (getBool s).bind fun ac => (rdBits 2 ac.2).bind fun id => (getBool id.2).bind fun last =>
    (getN (U32.read countEnc) 17 last.2).bind fun c =>
      let slot := (ac.1.toNat <<< 4) ||| id.1
      if c.1.sum = 0 then some (⟨slot, last.1, c.1, []⟩, c.2)
      else if 257 < c.1.sum then none
      else (getN (U32.read symbolEnc) c.1.sum c.2).bind fun v => some (⟨slot, last.1, c.1, v.1⟩, v.2)

def getHuff (s : List Bool) : Option (Option (ReconHuff × List Bool)) :=
  andThen (some (getHuffBits s)) fun x => andThen (always (huffOk x.1)) fun c => if c then some (some x) else some none

def getHuffs : Nat → List Bool → Option (Option (List ReconHuff × List Bool))
  | 0, s => some (some ([], s))
  | n + 1, s => andThen (getHuff s) fun x => andThen (getHuffs n x.2) fun y => some (some (x.1 :: y.1, y.2))

def getScanComp (n : Nat) (s : List Bool) : Option (ScanComp × List Bool) :=
  (rdBits 2 s).bind fun c => if n ≤ c.1 then none
    else (rdBits 2 c.2).bind fun ac => (rdBits 2 ac.2).bind fun dc => some (⟨c.1, dc.1, ac.1⟩, dc.2)

def getScanHead (n : Nat) (s : List Bool) : Option (ScanHead × List Bool) :=
  (U32.read oneToFourEnc s).bind fun k => if 4 ≤ k.1 then none
    else (rdBits 6 k.2).bind fun ss => (rdBits 6 ss.2).bind fun se => (rdBits 4 se.2).bind fun al => (rdBits 4 al.2).bind fun ah =>
      (getN (getScanComp n) k.1 ah.2).bind fun cs => (U32.read passEnc cs.2).bind fun last =>
        some (⟨ss.1, se.1, al.1, ah.1, cs.1, last.1⟩, last.2)

/-- A block index; the addition is one of `uint32_t`. -/
def getBlock (next : Nat) (s : List Bool) : Option (Nat × List Bool) := (U32.read blockEnc s).map fun x => (u32 (x.1 + next), x.2)

def getPoints : Nat → Nat → List Bool → Option (List Nat × List Bool)
  | 0, _, s => some ([], s)
  | n + 1, next, s =>
    (getBlock next s).bind fun b => if 3 <<< 26 ≤ b.1 then none
      else (getPoints n (b.1 + 1) b.2).bind fun y => some (b.1 :: y.1, y.2)

def getRuns : Nat → Nat → List Bool → Option (List (Nat × Nat) × List Bool)
  | 0, _, s => some ([], s)
  | n + 1, next, s =>
    (U32.read runEnc s).bind fun k => (getBlock next k.2).bind fun b => if 4 < k.1 ∨ 3 <<< 26 < b.1 then none
      else (getRuns n (b.1 + 1) b.2).bind fun y => some ((b.1, k.1) :: y.1, y.2)

def getScanTail (s : List Bool) : Option ((List Nat × List (Nat × Nat)) × List Bool) :=
  (U32.read numPointsEnc s).bind fun n => (getPoints n.1 0 n.2).bind fun p =>
    (U32.read numPointsEnc p.2).bind fun m => (getRuns m.1 0 m.2).bind fun r => some ((p.1, r.1), r.2)

def getPads (s : List Bool) : Option (Option (List Nat) × List Bool) :=
  (getBool s).bind fun z =>
    if z.1 then (rdBits 24 z.2).bind fun n => (getN getBool n.1 n.2).bind fun b => some (some (b.1.map Bool.toNat), b.2)
    else some (none, z.2)

/-- What comes before the Huffman tables. -/
structure Front where
  markers : List Nat
  app : List (Nat × Nat)
  com : List Nat
  quant : List QuantHead
  comps : List (Nat × Nat)

/-- When reading, all values of the quantization tables are zero: `same` always holds. -/
def getFront (s : List Bool) : Option (Front × List Bool) :=
  (getBool s).bind fun g => (getMarkers 16384 g.2).bind fun ms => if numScans ms.1 = 0 then none
    else (getN getApp (numApp ms.1) ms.2).bind fun app => (getN getSize (numCom ms.1) app.2).bind fun com =>
      (getQuants com.2).bind fun q => (getIds q.2).bind fun ids => (getN (getQuantIdx q.1.length) ids.1.length ids.2).bind fun qi =>
        if quantOk (fun _ => true) qi.1 q.1.length then some (⟨ms.1, app.1, com.1, q.1, ids.1.zip qi.1⟩, qi.2) else none

/-- What comes after the Huffman tables. -/
structure Back where
  scans : List ReconScan
  restart : Nat
  inter : List Nat
  tail : Nat
  pads : Option (List Nat)

def joinScan (h : ScanHead) (t : List Nat × List (Nat × Nat)) : ReconScan := ⟨h, t.1, t.2⟩

def getBack (f : Front) (s : List Bool) : Option (Back × List Bool) :=
  (getN (getScanHead f.comps.length) (numScans f.markers) s).bind fun h =>
    (if 0xdd ∈ f.markers then rdBits 16 h.2 else some (0, h.2)).bind fun ri =>
      (getN getScanTail (numScans f.markers) ri.2).bind fun t => (getN (rdBits 16) (numInter f.markers) t.2).bind fun inter =>
        (U32.read tailEnc inter.2).bind fun tail => (getPads tail.2).bind fun p =>
          some (⟨List.zipWith joinScan h.1 t.1, ri.1, inter.1, tail.1, p.1⟩, p.2)

def assemble (f : Front) (hs : List ReconHuff) (b : Back) : Recon :=
  { markers := f.markers, app := f.app, com := f.com, quant := f.quant, comps := f.comps, huff := hs, scans := b.scans,
    restart := b.restart, inter := b.inter, tail := b.tail, pads := b.pads }

/-- `Bundle::Read` of the data. -/
def getRecon (s : List Bool) : Option (Option (Recon × List Bool)) :=
  andThen (some (getFront s)) fun f =>
    andThen (some (U32.read numHuffEnc f.2)) fun n =>
      andThen (getHuffs n.1 n.2) fun hs =>
        andThen (some (getBack f.1 hs.2)) fun b =>
          let r := assemble f.1 hs.1 b.1
          andThen (always (allDefined r)) fun ok => if ok then some (some (r, b.2)) else some none

end Jxl.Jpeg
