import Verif.Model.VarInt
import Verif.Spec.VarInt
/-!
# Model of ICC profile prediction (lib/jxl/enc_icc_codec.cc, lib/jxl/icc_codec.cc, lib/jxl/icc_codec_common.cc)

Buffers are lists of bytes; allocation failure is not modelled.  Every direct subscript of the code is a checked read whose failure is
the outcome `ub`; `fail` is an error status.  Loops that are not counted carry a fuel, and running out of it is `ub` as well, so that
freedom from `ub` includes termination.  `EncodeVarInt` appends the bytes `varint v` (theorem C35_encode_icc_partial; all values are
below `2 ^ 34` here).
-/
namespace Jxl.Icc

open VarInt.Spec (varint)

abbrev Bytes := List UInt8

/-- Outcome of a function: undefined behaviour (or no end), an error status, or a value. -/
inductive R (α : Type) where
  | ub
  | fail
  | ok (a : α)
deriving DecidableEq

def R.bind {α β : Type} (x : R α) (f : α → R β) : R β :=
  match x with
  | .ub => .ub
  | .fail => .fail
  | .ok a => f a

instance : Monad R where
  pure := R.ok
  bind := R.bind

/-- `p[i]`. -/
def rd (l : Bytes) (i : Nat) : R UInt8 :=
  match l[i]? with
  | some x => .ok x
  | none => .ub

/-- The bytes `p[pos]`, …, `p[pos + num - 1]`. -/
def slice (l : Bytes) (pos num : Nat) : R Bytes :=
  if pos + num ≤ l.length then .ok ((l.drop pos).take num) else .ub

/-- `a - b` used as an index. -/
def sub (a b : Nat) : R Nat := if b ≤ a then .ok (a - b) else .ub

/-! ## Common functions -/

/-! Tags (icc_codec_common.h:24-53). -/
def kBkpt : Bytes := [98, 107, 112, 116]
def kBtrc : Bytes := [98, 84, 82, 67]
def kBxyz : Bytes := [98, 88, 89, 90]
def kChad : Bytes := [99, 104, 97, 100]
def kChrm : Bytes := [99, 104, 114, 109]
def kCprt : Bytes := [99, 112, 114, 116]
def kCurv : Bytes := [99, 117, 114, 118]
def kDesc : Bytes := [100, 101, 115, 99]
def kDmdd : Bytes := [100, 109, 100, 100]
def kDmnd : Bytes := [100, 109, 110, 100]
def kGbd : Bytes := [103, 98, 100, 32]
def kGtrc : Bytes := [103, 84, 82, 67]
def kGxyz : Bytes := [103, 88, 89, 90]
def kKtrc : Bytes := [107, 84, 82, 67]
def kKxyz : Bytes := [107, 88, 89, 90]
def kLumi : Bytes := [108, 117, 109, 105]
def kMab : Bytes := [109, 65, 66, 32]
def kMba : Bytes := [109, 66, 65, 32]
def kMluc : Bytes := [109, 108, 117, 99]
def kPara : Bytes := [112, 97, 114, 97]
def kRtrc : Bytes := [114, 84, 82, 67]
def kRxyz : Bytes := [114, 88, 89, 90]
def kSf32 : Bytes := [115, 102, 51, 50]
def kText : Bytes := [116, 101, 120, 116]
def kVcgt : Bytes := [118, 99, 103, 116]
def kWtpt : Bytes := [119, 116, 112, 116]
def kXyz : Bytes := [88, 89, 90, 32]

/-- `kTagStrings` (icc_codec_common.h:57-60). -/
def tagStrings : List Bytes :=
  [kCprt, kWtpt, kBkpt, kRxyz, kGxyz, kBxyz, kKxyz, kRtrc, kGtrc, kBtrc, kKtrc, kChad, kDesc, kChrm, kDmnd, kDmdd, kLumi]

/-- `kTypeStrings` (icc_codec_common.h:69-71). -/
def typeStrings : List Bytes := [kXyz, kDesc, kText, kMluc, kPara, kCurv, kSf32, kGbd]

/-- `StoreBE32` / `AppendUint32` (icc_codec_common.cc:55-60). -/
def put32 (x : Nat) : Bytes :=
  [UInt8.ofNat (x / 2 ^ 24), UInt8.ofNat (x / 2 ^ 16), UInt8.ofNat (x / 2 ^ 8), UInt8.ofNat x]

/-- `LoadBE32`. -/
def get32 (l : Bytes) : Nat :=
  match l with
  | [a, b, c, d] => a.toNat * 2 ^ 24 + b.toNat * 2 ^ 16 + c.toNat * 2 ^ 8 + d.toNat
  | _ => 0

/-- `DecodeUint32(data, size, pos)` where `size` is the size of `data` (icc_codec_common.cc:51-53). -/
def u32 (l : Bytes) (pos : Nat) : Nat := if pos + 4 > l.length then 0 else get32 ((l.drop pos).take 4)

/-- `DecodeUint32(data, size, pos)` with any `size`. -/
def u32R (l : Bytes) (size pos : Nat) : R Nat :=
  if pos + 4 > size then .ok 0 else do
    let s ← slice l pos 4
    .ok (get32 s)

/-- `DecodeKeyword(data, size, pos)` where `size` is the size of `data` (icc_codec_common.cc:62-65). -/
def kw (l : Bytes) (pos : Nat) : Bytes := if pos + 4 > l.length then [32, 32, 32, 32] else (l.drop pos).take 4

/-- `CheckOutOfBounds` (icc_codec_common.cc:78-83). -/
def checkOob (a b size : Nat) : R Unit :=
  if (a + b) % 2 ^ 64 > size then .fail
  else if (a + b) % 2 ^ 64 < a then .fail
  else .ok ()

/-- `CheckIs32Bit` (icc_codec_common.cc:85-89). -/
def check32 (v : Nat) : R Unit := if v % 2 ^ 64 ≥ 2 ^ 32 then .fail else .ok ()

/-- `kIccInitialHeaderPrediction` from the fourth byte on (icc_codec_common.cc:91-100). -/
def headerTail : Bytes :=
  [0, 0, 0, 0, 4, 0, 0, 0, 109, 110, 116, 114, 82, 71, 66, 32, 88, 89, 90, 32, 0, 0, 0, 0, 0, 0, 0, 0, 0, 0, 0, 0, 97, 99, 115, 112, 0, 0, 0, 0, 0, 0, 0, 0, 0, 0, 0, 0, 0, 0, 0, 0, 0, 0, 0, 0, 0, 0, 0, 0, 0, 0, 0, 0, 0, 0, 246, 214, 0, 1, 0, 0, 0, 0, 211, 45, 0, 0, 0, 0, 0, 0, 0, 0, 0, 0, 0, 0, 0, 0, 0, 0, 0, 0, 0, 0, 0, 0, 0, 0, 0, 0, 0, 0, 0, 0, 0, 0, 0, 0, 0, 0, 0, 0, 0, 0, 0, 0, 0, 0, 0, 0, 0, 0]

/-- `ICCInitialHeaderPrediction` (icc_codec_common.cc:102-106). -/
def initHeader (size : Nat) : Bytes := put32 size ++ headerTail

/-- `ICCPredictHeader` (icc_codec_common.cc:108-137); the three positions exclude each other. -/
def predictHeader (icc : Bytes) (size : Nat) (h : Bytes) (pos : Nat) : R Bytes :=
  if pos = 8 ∧ size ≥ 8 then do
    let a ← rd icc 4
    let b ← rd icc 5
    let c ← rd icc 6
    let d ← rd icc 7
    .ok ((((h.set 80 a).set 81 b).set 82 c).set 83 d)
  else if pos = 41 ∧ size ≥ 41 then do
    let a ← rd icc 40
    .ok (if a = 65 then ((h.set 41 80).set 42 80).set 43 76
      else if a = 77 then ((h.set 41 83).set 42 70).set 43 84
      else h)
  else if pos = 42 ∧ size ≥ 42 then do
    let a ← rd icc 40
    let b ← rd icc 41
    .ok (if a = 83 ∧ b = 71 then (h.set 42 73).set 43 32
      else if a = 83 ∧ b = 85 then (h.set 42 78).set 43 87
      else h)
  else .ok h

/-- `PredictValue<uint8_t>` (icc_codec_common.cc:43-48). -/
def pv8 (p1 p2 p3 : UInt8) (order : Nat) : UInt8 :=
  if order = 0 then p1 else if order = 1 then 2 * p1 - p2 else if order = 2 then 3 * p1 - 3 * p2 + p3 else 0

/-- `PredictValue` for the unsigned type of `w` values. -/
def pvN (w p1 p2 p3 order : Nat) : Nat :=
  if order = 0 then p1
  else if order = 1 then (2 * p1 + (w - p2)) % w
  else if order = 2 then (3 * p1 + 3 * (w - p2) + p3) % w
  else 0

/-- A big-endian `uint16_t` (icc_codec_common.cc:153-155). -/
def u16R (l : Bytes) (p off : Nat) : R Nat := do
  let q ← sub p off
  let a ← rd l q
  let b ← rd l (q + 1)
  .ok (a.toNat * 256 + b.toNat)

/-- `LinearPredictICCValue` (icc_codec_common.cc:144-168). -/
def linPred (data : Bytes) (start i stride width order : Nat) : R UInt8 :=
  if width = 1 then do
    let a ← sub (start + i) stride
    let b ← sub (start + i) (stride * 2)
    let c ← sub (start + i) (stride * 3)
    let p1 ← rd data a
    let p2 ← rd data b
    let p3 ← rd data c
    .ok (pv8 p1 p2 p3 order)
  else if width = 2 then do
    let p1 ← u16R data (start + i / 2 * 2) stride
    let p2 ← u16R data (start + i / 2 * 2) (stride * 2)
    let p3 ← u16R data (start + i / 2 * 2) (stride * 3)
    let pred := pvN 65536 p1 p2 p3 order
    .ok (if i % 2 = 1 then UInt8.ofNat pred else UInt8.ofNat (pred / 256))
  else do
    let a ← sub (start + i / 4 * 4) stride
    let b ← sub (start + i / 4 * 4) (stride * 2)
    let c ← sub (start + i / 4 * 4) (stride * 3)
    let p1 ← u32R data (start + i) a
    let p2 ← u32R data (start + i) b
    let p3 ← u32R data (start + i) c
    let pred := pvN (2 ^ 32) p1 p2 p3 order
    .ok (UInt8.ofNat (pred / 256 ^ (3 - i % 4)))

/-- Step of the index pair `(s, j)` shared by `Shuffle` and `Unshuffle` (icc_codec.cc:42-46, enc_icc_codec.cc:48-54). -/
def nxt (size height : Nat) (p : Nat × Nat) : Nat × Nat :=
  if p.2 + height ≥ size then (p.1 + 1, p.1 + 1) else (p.1, p.2 + height)

/-! ## Encoder -/

/-- Loop of `Unshuffle` (enc_icc_codec.cc:50-54). -/
def unshuffleLoop (size height : Nat) : Bytes → Nat × Nat → Bytes → R Bytes
  | [], _, buf => .ok buf
  | x :: xs, p, buf => if p.2 < buf.length then unshuffleLoop size height xs (nxt size height p) (buf.set p.2 x) else .ub

/-- `Unshuffle` (enc_icc_codec.cc:39-60). -/
def unshuffle (d : Bytes) (width : Nat) : R Bytes :=
  unshuffleLoop d.length ((d.length + width - 1) / width) d (0, 0) (List.replicate d.length 0)

/-- Loop of `PredictAndShuffle` (enc_icc_codec.cc:77-81), `n` bytes left. -/
def encPred (icc : Bytes) (start stride width order : Nat) : Nat → Nat → R Bytes
  | 0, _ => .ok []
  | n + 1, i => do
    let p ← linPred icc start i stride width order
    let x ← rd icc (start + i)
    let t ← encPred icc start stride width order n (i + 1)
    .ok ((x - p) :: t)

/-- `PredictAndShuffle` (enc_icc_codec.cc:65-88): the bytes it appends; the position advances by `num`. -/
def predictAndShuffle (stride width order num : Nat) (icc : Bytes) (pos : Nat) : R Bytes := do
  checkOob pos num icc.length
  if pos = 0 ∨ (pos - 1) / 4 < stride then .fail
  else if pos < stride * 4 then .fail
  else do
    let r ← encPred icc pos stride width order num 0
    if width > 1 then unshuffle r width else .ok r

/-- Header loop of `PredictICC` (enc_icc_codec.cc:136-139), `n` bytes left. -/
def encHeader (icc : Bytes) : Nat → Nat → Bytes → R Bytes
  | 0, _, _ => .ok []
  | n + 1, i, h => do
    let h ← predictHeader icc icc.length h i
    let x ← rd icc i
    let y ← rd h i
    let t ← encHeader icc n (i + 1) h
    .ok ((x - y) :: t)

/-- Index in `kTagStrings` plus `kCommandTagStringFirst`, or `kCommandTagUnknown` (enc_icc_codec.cc:174-180). -/
def tagCode (tag : Bytes) : Nat :=
  match tagStrings.findIdx? (· == tag) with
  | some j => j + 4
  | none => 1

/-- The three-curves case (enc_icc_codec.cc:182-198); `pos` is after the first entry. -/
def isTrc (icc : Bytes) (tag : Bytes) (pos : Nat) : R Bool :=
  if tag = kRtrc ∧ pos + 24 < icc.length then
    if kw icc pos = kGtrc ∧ kw icc (pos + 12) = kBtrc then do
      let q ← sub pos 8
      let a ← slice icc q 8
      let b ← slice icc (pos + 4) 8
      let c ← slice icc (pos + 16) 8
      .ok (decide (a = b ∧ a = c))
    else .ok false
  else .ok false

/-- The three-colours case (enc_icc_codec.cc:200-221), in `uint32_t`. -/
def isXyz (icc : Bytes) (tag : Bytes) (tagstart tagsize pos : Nat) : Bool :=
  decide (tag = kRxyz ∧ pos + 24 < icc.length ∧ kw icc pos = kGxyz ∧ kw icc (pos + 12) = kBxyz ∧
    tagsize = 20 ∧ u32 icc (pos + 8) = 20 ∧ u32 icc (pos + 20) = 20 ∧
    u32 icc (pos + 4) = (tagstart + 20) % 2 ^ 32 ∧ u32 icc (pos + 16) = (tagstart + 40) % 2 ^ 32)

/-- Tags whose size is predicted as 20 (enc_icc_codec.cc:227-231, icc_codec.cc:189-193). -/
def isTwenty (tag : Bytes) : Bool :=
  decide (tag = kRxyz ∨ tag = kGxyz ∨ tag = kBxyz ∨ tag = kKxyz ∨ tag = kWtpt ∨ tag = kBkpt ∨ tag = kLumi)

/-- Commands and data of one entry (enc_icc_codec.cc:223-239). -/
def tagOut (tag : Bytes) (tagcode tagstart tagsize prevStart prevSize : Nat) : Bytes × Bytes :=
  let offFlag := prevStart + prevSize ≠ tagstart
  let sizeFlag := (if isTwenty tag then 20 else prevSize) ≠ tagsize
  (UInt8.ofNat (tagcode + (if offFlag then 64 else 0) + (if sizeFlag then 128 else 0)) ::
      ((if offFlag then varint tagstart else []) ++ (if sizeFlag then varint tagsize else [])),
    if tagcode = 1 then tag else [])

/-- What the loop over the tag list leaves behind: the position, the table entries and the bytes emitted. -/
structure TagsOut where
  pos : Nat
  tags : List (Nat × Nat)
  cmds : Bytes
  data : Bytes
deriving DecidableEq

/-- Loop over the tag list (enc_icc_codec.cc:160-243). -/
def tagLoop (icc : Bytes) (numtags : Nat) : Nat → Nat → Nat → Nat → Nat → R TagsOut
  | 0, _, _, _, _ => .ub
  | fuel + 1, i, pos, prevStart, prevSize =>
    if ¬ i < numtags ∨ pos + 12 > icc.length then .ok ⟨pos, [], [], []⟩
    else do
      let tag := kw icc pos
      let tagstart := u32 icc (pos + 4)
      let tagsize := u32 icc (pos + 8)
      let trc ← isTrc icc tag (pos + 12)
      let xyz := isXyz icc tag tagstart tagsize (pos + 12)
      let tagcode := if trc then 2 else if xyz then 3 else tagCode tag
      let o := tagOut tag tagcode tagstart tagsize prevStart prevSize
      let extra := if trc ∨ xyz then 2 else 0
      let rest ← tagLoop icc numtags fuel (i + 1 + extra) (pos + 12 + 12 * extra) tagstart tagsize
      .ok ⟨rest.pos, (tagstart, tagsize) :: rest.tags, o.1 ++ rest.cmds, o.2 ++ rest.data⟩

/-- `tagmap[pos]` followed by `tagsizes[...]`: the size of the last entry starting at `pos` (enc_icc_codec.cc:172, 285-290). -/
def tagFind (tags : List (Nat × Nat)) (pos : Nat) : Option Nat :=
  (tags.reverse.find? (fun e => e.1 == pos)).map (·.2)

/-- `kSizeLimit` (enc_icc_codec.cc:113). -/
def sizeLimit : Nat := (2 ^ 32 - 1) / 4

/-- Variables of one iteration of the main loop (enc_icc_codec.cc:253-281). -/
structure It where
  pos : Nat
  last1 : Nat
  ca : Bytes := []
  da : Bytes := []
  tag : Bytes
  tagstart : Nat := 0
  tagsize : Nat := 0
  clut : Nat := 0
deriving DecidableEq

def It.sane (t : It) : Prop := 8 < t.tagsize ∧ t.tagsize < sizeLimit

instance (t : It) : Decidable t.sane := inferInstanceAs (Decidable (_ ∧ _))

/-- The tag is forgotten beyond its end (enc_icc_codec.cc:279-281). -/
def blkEnd (t : It) : It :=
  if t.pos > t.tagstart + t.tagsize ∧ t.tagsize < sizeLimit then { t with tag := [0, 0, 0, 0] } else t

/-- Start of a tagged element (enc_icc_codec.cc:283-288). -/
def blkTag (icc : Bytes) (tags : List (Nat × Nat)) (t : It) : Option It :=
  match tagFind tags t.pos with
  | some sz => if t.pos + 4 ≤ icc.length then some { t with tag := kw icc t.pos, tagstart := t.pos, tagsize := sz } else none
  | none => none

/-- `icc[pos + 4] == 0 && … && icc[pos + 7] == 0`. -/
def zero4 (icc : Bytes) (pos : Nat) : R Bool := do
  let s ← slice icc (pos + 4) 4
  .ok (decide (s = [0, 0, 0, 0]))

/-- `mluc` element (enc_icc_codec.cc:290-306). -/
def blkMluc (icc : Bytes) (t : It) : R It :=
  if t.tag = kMluc ∧ t.sane ∧ t.pos + t.tagsize ≤ icc.length then do
    let z ← zero4 icc t.pos
    if z then do
      let d ← slice icc (t.pos + 8) (t.tagsize - 8)
      let u ← unshuffle d 2
      .ok { t with ca := t.ca ++ [19, 2] ++ varint (t.tagsize - 8), da := t.da ++ u, pos := t.pos + 8 + (t.tagsize - 8) }
    else .ok t
  else .ok t

/-- A prediction command (enc_icc_codec.cc:316-325 and alike): flags, stride if it differs from the width, number of bytes, data. -/
def blkPredict (icc : Bytes) (stride width order num : Nat) (t : It) : R It := do
  let d ← predictAndShuffle stride width order num icc t.pos
  .ok { t with
    ca := t.ca ++ [4, UInt8.ofNat (4 * order + (width - 1) + (if stride = width then 0 else 16))] ++
      (if stride = width then [] else varint stride) ++ varint num
    da := t.da ++ d
    pos := t.pos + num }

/-- `curv` element (enc_icc_codec.cc:308-327). -/
def blkCurv (icc : Bytes) (t : It) : R It :=
  if t.tag = kCurv ∧ t.sane ∧ t.pos + t.tagsize ≤ icc.length then do
    let z ← zero4 icc t.pos
    if z ∧ 16 < t.tagsize - 8 ∧ t.tagsize - 8 < 2 ^ 28 ∧ t.pos + (t.tagsize - 8) ≤ icc.length ∧ 0 < t.pos then
      blkPredict icc 2 2 1 (t.tagsize - 8) { t with ca := t.ca ++ [21], pos := t.pos + 8 }
    else .ok t
  else .ok t

/-- Curves inside `mAB ` and `mBA ` (enc_icc_codec.cc:331-350); `num` is a `uint32_t`. -/
def mabCurv (icc : Bytes) (t : It) : R It :=
  if t.pos + 12 < icc.length ∧ (kw icc t.pos = kCurv ∨ kw icc t.pos = kVcgt) ∧ u32 icc (t.pos + 4) = 0 then
    let num := u32 icc (t.pos + 8) * 2 % 2 ^ 32
    if 16 < num ∧ num < 2 ^ 28 ∧ t.pos + 12 + num ≤ icc.length then
      blkPredict icc 2 2 1 num { t with pos := t.pos + 12, last1 := t.pos + 12 }
    else .ok t
  else .ok t

/-- Position of the colour table (enc_icc_codec.cc:352-357). -/
def mabSet (icc : Bytes) (t : It) : It :=
  if t.pos = t.tagstart + 24 ∧ t.pos + 4 < icc.length then { t with clut := t.tagstart + u32 icc t.pos } else t

/-- The product of the grid sizes, in `size_t` (enc_icc_codec.cc:365-367). -/
def clutNum (icc : Bytes) (clut : Nat) : Nat → Nat → Nat → R Nat
  | 0, _, num => .ok num
  | n + 1, i, num =>
    if clut + i < icc.length then do
      let g ← rd icc (clut + i)
      clutNum icc clut n (i + 1) (num * g.toNat % 2 ^ 64)
    else .ok num

/-- The colour table (enc_icc_codec.cc:359-383). -/
def mabClut (icc : Bytes) (t : It) : R It :=
  if t.pos = t.clut ∧ t.clut + 16 < icc.length then do
    let numi ← rd icc (t.tagstart + 8)
    let numo ← rd icc (t.tagstart + 9)
    let width ← rd icc (t.clut + 16)
    let stride := width.toNat * numo.toNat
    let num ← clutNum icc t.clut numi.toNat 0 stride
    if (width = 1 ∨ width = 2) ∧ 64 < num ∧ num < 2 ^ 28 ∧ t.pos + num ≤ icc.length ∧ t.pos > stride * 4 then
      blkPredict icc stride width.toNat 1 num t
    else .ok t
  else .ok t

/-- `mAB ` and `mBA ` (enc_icc_codec.cc:330-384). -/
def blkMab (icc : Bytes) (t : It) : R It :=
  if t.tag = kMab ∨ t.tag = kMba then do
    let t ← mabCurv icc t
    mabClut icc (mabSet icc t)
  else .ok t

/-- `commands_add.empty() && data_add.empty()`. -/
def It.idle (t : It) : Prop := t.ca = [] ∧ t.da = []

instance (t : It) : Decidable t.idle := inferInstanceAs (Decidable (_ ∧ _))

/-- Gamut boundary (enc_icc_codec.cc:386-403). -/
def blkGbd (icc : Bytes) (t : It) : R It :=
  if t.idle ∧ t.tag = kGbd ∧ t.sane ∧ t.pos = t.tagstart + 8 ∧ t.pos + t.tagsize - 8 ≤ icc.length ∧ 16 < t.pos then
    blkPredict icc 4 4 0 (t.tagsize - 8) t
  else .ok t

/-- `XYZ ` (enc_icc_codec.cc:405-414). -/
def blkXyz (icc : Bytes) (t : It) : R It :=
  if t.idle ∧ t.pos + 20 ≤ icc.length ∧ kw icc t.pos = kXyz ∧ u32 icc (t.pos + 4) = 0 then do
    let d ← slice icc (t.pos + 8) 12
    .ok { t with ca := t.ca ++ [10], da := t.da ++ d, pos := t.pos + 20 }
  else .ok t

/-- Known types (enc_icc_codec.cc:416-428). -/
def blkType (icc : Bytes) (t : It) : It :=
  if t.idle ∧ t.pos + 8 ≤ icc.length ∧ u32 icc (t.pos + 4) = 0 then
    match typeStrings.findIdx? (· == kw icc t.pos) with
    | some i => { t with ca := t.ca ++ [UInt8.ofNat (16 + i)], pos := t.pos + 8 }
    | none => t
  else t

/-- What is done at the start of an element (enc_icc_codec.cc:283-328). -/
def iterTag (icc : Bytes) (tags : List (Nat × Nat)) (t : It) : R It :=
  match blkTag icc tags t with
  | some t => do
    let t ← blkMluc icc t
    blkCurv icc t
  | none => .ok t

/-- Body of the main loop up to the flush (enc_icc_codec.cc:272-428). -/
def iter (icc : Bytes) (tags : List (Nat × Nat)) (t : It) : R It := do
  let t := blkEnd t
  let t ← iterTag icc tags t
  let t ← blkMab icc t
  let t ← blkGbd icc t
  let t ← blkXyz icc t
  .ok (blkType icc t)

/-- Commands and data of a flush (enc_icc_codec.cc:430-443). -/
def flush (icc : Bytes) (last0 : Nat) (t : It) : R (Bytes × Bytes) :=
  if last0 < t.last1 then do
    let d ← slice icc last0 (t.last1 - last0)
    .ok ([1] ++ varint (t.last1 - last0) ++ t.ca, d ++ t.da)
  else .ok (t.ca, t.da)

/-- The main loop (enc_icc_codec.cc:271-449): the commands and data it appends. -/
def mainLoop (icc : Bytes) (tags : List (Nat × Nat)) : Nat → Nat → It → R (Bytes × Bytes)
  | 0, _, _ => .ub
  | fuel + 1, last0, t =>
    if t.pos ≤ icc.length then do
      let t ← iter icc tags { t with last1 := t.pos, ca := [], da := [] }
      let idle := decide t.idle
      if ¬ idle ∨ t.pos = icc.length then do
        let o ← flush icc last0 t
        let r ← mainLoop icc tags fuel t.pos (if idle then { t with pos := t.pos + 1 } else t)
        .ok (o.1 ++ r.1, o.2 ++ r.2)
      else mainLoop icc tags fuel last0 { t with pos := t.pos + 1 }
    else .ok ([], [])

/-- The tag list with its length (enc_icc_codec.cc:154-245). -/
def encTags (icc : Bytes) : R TagsOut :=
  if 128 + 4 ≤ icc.length then do
    let numtags := u32 icc 128
    let o ← tagLoop icc numtags (icc.length + 1) 0 132 (128 + numtags * 12) 0
    .ok { o with cmds := varint (numtags + 1) ++ o.cmds ++ [0] }
  else .ok ⟨128, [], [0], []⟩

/-- `PredictICC` (enc_icc_codec.cc:121-458).  `junk` is the content of the variable `tag`, which the code does not initialise. -/
def predictIcc (junk : Bytes) (icc : Bytes) : R Bytes :=
  if icc.length > sizeLimit then .fail
  else do
    let hd ← encHeader icc (min 128 icc.length) 0 (initHeader icc.length)
    if icc.length ≤ 128 then .ok (varint icc.length ++ varint 0 ++ hd)
    else do
      let tg ← encTags icc
      let m ← mainLoop icc tg.tags (icc.length + 2) tg.pos { pos := tg.pos, last1 := tg.pos, tag := junk }
      .ok (varint icc.length ++ varint (tg.cmds.length + m.1.length) ++ (tg.cmds ++ m.1) ++ (hd ++ tg.data ++ m.2))

/-! ## Decoder -/

/-- `DecodeVarInt(enc, limit, &pos, ...)` (icc_codec.cc:62-91): the value and the new position. -/
def varIntAt (enc : Bytes) (limit pos : Nat) : R (Nat × Nat) :=
  match VarInt.decode (enc.take limit) pos with
  | some p => .ok p
  | none => .fail

/-- Loop of `Shuffle` (icc_codec.cc:42-46), `n` bytes left. -/
def shuffleLoop (d : Bytes) (size height : Nat) : Nat → Nat × Nat → R Bytes
  | 0, _ => .ok []
  | n + 1, p => do
    let x ← rd d p.2
    let t ← shuffleLoop d size height n (nxt size height p)
    .ok (x :: t)

/-- `Shuffle` (icc_codec.cc:34-52). -/
def shuffle (d : Bytes) (width : Nat) : R Bytes :=
  shuffleLoop d d.length ((d.length + width - 1) / width) d.length (0, 0)

/-- Header loop of `UnpredictICC` (icc_codec.cc:139-150) with `128 - i = n`; the flag says that the whole profile is complete. -/
def decHeader (enc : Bytes) (osize : Nat) : Nat → Nat → Bytes → Nat → Bytes → R (Bool × Nat × Bytes)
  | n, i, h, pos, res =>
    if res.length = osize then .ok (true, pos, res)
    else match n with
      | 0 => .ok (false, pos, res)
      | n + 1 => do
        let h ← predictHeader res res.length h i
        if pos ≥ enc.length then .fail
        else do
          let x ← rd enc pos
          let y ← rd h i
          decHeader enc osize n (i + 1) h (pos + 1) (res ++ [x + y])

/-- Positions in the commands and in the data, and the profile so far. -/
structure St where
  cpos : Nat
  pos : Nat
  res : Bytes
deriving DecidableEq

/-- The tag of a tag command and the position after its data (icc_codec.cc:169-184); `tagcode` is not 0. -/
def decTag (enc : Bytes) (tagcode pos : Nat) : R (Bytes × Nat) :=
  if tagcode = 1 then do
    checkOob pos 4 enc.length
    .ok (kw enc pos, pos + 4)
  else if tagcode = 2 then .ok (kRtrc, pos)
  else if tagcode = 3 then .ok (kRxyz, pos)
  else if tagcode - 4 ≥ 17 then .fail
  else match tagStrings[tagcode - 4]? with
    | some t => .ok (t, pos)
    | none => .ub

/-- Start of the element (icc_codec.cc:196-203). -/
def decStart (enc : Bytes) (cend command cpos prevStart prevSize : Nat) : R (Nat × Nat) :=
  if command / 64 % 2 = 1 then varIntAt enc cend cpos
  else do
    check32 prevStart
    .ok ((prevStart + prevSize) % 2 ^ 64, cpos)

/-- Size of the element (icc_codec.cc:187-193, 204-206). -/
def decSize (enc : Bytes) (cend command cpos : Nat) (tag : Bytes) (prevSize : Nat) : R (Nat × Nat) :=
  if command / 128 % 2 = 1 then varIntAt enc cend cpos
  else .ok (if isTwenty tag then 20 else prevSize, cpos)

/-- The further entries of the three-entry commands (icc_codec.cc:211-228). -/
def decExtra (tagcode tagstart tagsize : Nat) : R Bytes :=
  if tagcode = 2 then
    .ok (kGtrc ++ put32 tagstart ++ put32 tagsize ++ kBtrc ++ put32 tagstart ++ put32 tagsize)
  else if tagcode = 3 then do
    check32 (tagstart + tagsize * 2)
    .ok (kGxyz ++ put32 (tagstart + tagsize) ++ put32 tagsize ++ kBxyz ++ put32 (tagstart + tagsize * 2) ++ put32 tagsize)
  else .ok []

/-- One tag command other than the terminator (icc_codec.cc:166-229): the new state, start and size. -/
def decEntry (enc : Bytes) (cend command : Nat) (s : St) (prevStart prevSize : Nat) : R (St × Nat × Nat) := do
  let t ← decTag enc (command % 64) s.pos
  let a ← decStart enc cend command s.cpos prevStart prevSize
  check32 a.1
  let b ← decSize enc cend command a.2 t.1 prevSize
  check32 b.1
  let x ← decExtra (command % 64) a.1 b.1
  .ok (⟨b.2, t.2, s.res ++ (t.1 ++ put32 a.1 ++ put32 b.1 ++ x)⟩, a.1, b.1)

/-- Loop over the tag list (icc_codec.cc:161-230). -/
def decTagLoop (enc : Bytes) (cend osize : Nat) : Nat → St → Nat → Nat → R St
  | 0, _, _, _ => .ub
  | fuel + 1, s, prevStart, prevSize =>
    if s.res.length > osize then .fail
    else if s.cpos > cend then .fail
    else if s.cpos = cend then .ok s
    else do
      let c ← rd enc s.cpos
      if c.toNat % 64 = 0 then .ok { s with cpos := s.cpos + 1 }
      else do
        let r ← decEntry enc cend c.toNat { s with cpos := s.cpos + 1 } prevStart prevSize
        decTagLoop enc cend osize fuel r.1 r.2.1 r.2.2

/-- Loop that undoes the prediction (icc_codec.cc:307-312). -/
def decPred (start stride width order : Nat) : Bytes → Nat → Bytes → R Bytes
  | [], _, res => .ok res
  | x :: xs, i, res => do
    let p ← linPred res start i stride width order
    decPred start stride width order xs (i + 1) (res ++ [p + x])

/-- `kCommandInsert` (icc_codec.cc:239-245). -/
def cmdInsert (enc : Bytes) (cend : Nat) (s : St) : R St := do
  let v ← varIntAt enc cend s.cpos
  checkOob s.pos v.1 enc.length
  let d ← slice enc s.pos v.1
  .ok ⟨v.2, s.pos + v.1, s.res ++ d⟩

/-- `kCommandShuffle2`, `kCommandShuffle4` (icc_codec.cc:246-266). -/
def cmdShuffle (enc : Bytes) (cend width : Nat) (s : St) : R St := do
  let v ← varIntAt enc cend s.cpos
  checkOob s.pos v.1 enc.length
  let d ← slice enc s.pos v.1
  let d ← shuffle d width
  .ok ⟨v.2, s.pos + v.1, s.res ++ d⟩

/-- Stride of a prediction command (icc_codec.cc:277-284). -/
def decStride (enc : Bytes) (cend flags width cpos : Nat) : R (Nat × Nat) :=
  if flags / 16 % 2 = 1 then do
    let v ← varIntAt enc cend cpos
    if v.1 < width then .fail else .ok v
  else .ok (width, cpos)

/-- `if (width > 1) Shuffle(...)` (icc_codec.cc:302-305). -/
def unshuf (d : Bytes) (width : Nat) : R Bytes := if width > 1 then shuffle d width else .ok d

/-- `kCommandPredict` (icc_codec.cc:267-313). -/
def cmdPredict (enc : Bytes) (cend : Nat) (s : St) : R St := do
  checkOob s.cpos 2 cend
  let f ← rd enc s.cpos
  let width := f.toNat % 4 + 1
  if width = 3 then .fail
  else
    let order := f.toNat / 4 % 4
    if order = 3 then .fail
    else do
      let st ← decStride enc cend f.toNat width (s.cpos + 1)
      if s.res.length = 0 ∨ (s.res.length - 1) / 4 < st.1 then .fail
      else do
        let v ← varIntAt enc cend st.2
        checkOob s.pos v.1 enc.length
        let d ← slice enc s.pos v.1
        let d ← unshuf d width
        let r ← decPred s.res.length st.1 width order d 0 s.res
        .ok ⟨v.2, s.pos + v.1, r⟩

/-- `kCommandXYZ` (icc_codec.cc:314-322). -/
def cmdXyz (enc : Bytes) (s : St) : R St := do
  checkOob s.pos 12 enc.length
  let d ← slice enc s.pos 12
  .ok ⟨s.cpos, s.pos + 12, s.res ++ (kXyz ++ [0, 0, 0, 0] ++ d)⟩

/-- One command of the main content; `s.cpos` is after the command byte (icc_codec.cc:238-333). -/
def command (enc : Bytes) (cend c : Nat) (s : St) : R St :=
  if c = 1 then cmdInsert enc cend s
  else if c = 2 then cmdShuffle enc cend 2 s
  else if c = 3 then cmdShuffle enc cend 4 s
  else if c = 4 then cmdPredict enc cend s
  else if c = 10 then cmdXyz enc s
  else if 16 ≤ c ∧ c < 24 then
    match typeStrings[c - 16]? with
    | some t => .ok { s with res := s.res ++ (t ++ [0, 0, 0, 0]) }
    | none => .ub
  else .fail

/-- Main content (icc_codec.cc:233-334). -/
def decMain (enc : Bytes) (cend osize : Nat) : Nat → St → R St
  | 0, _ => .ub
  | fuel + 1, s =>
    if s.res.length > osize then .fail
    else if s.cpos > cend then .fail
    else if s.cpos = cend then .ok s
    else do
      let c ← rd enc s.cpos
      let s ← command enc cend c.toNat { s with cpos := s.cpos + 1 }
      decMain enc cend osize fuel s

/-- The tag list with its length (icc_codec.cc:153-231). -/
def decTags (enc : Bytes) (cend osize : Nat) (s : St) : R St :=
  if s.cpos ≥ cend then .fail
  else do
    let v ← varIntAt enc cend s.cpos
    if v.1 = 0 then .ok { s with cpos := v.2 }
    else do
      check32 (v.1 - 1)
      decTagLoop enc cend osize (enc.length + 1) ⟨v.2, s.pos, s.res ++ put32 (v.1 - 1)⟩ (128 + (v.1 - 1) * 12) 0

/-- `UnpredictICC` (icc_codec.cc:122-340). -/
def unpredictIcc (enc : Bytes) : R Bytes := do
  let o ← varIntAt enc enc.length 0
  check32 o.1
  let c ← varIntAt enc enc.length o.2
  check32 c.1
  checkOob c.2 c.1 enc.length
  let cend := c.2 + c.1
  let h ← decHeader enc o.1 128 0 (initHeader o.1) cend []
  if h.1 then
    if c.2 ≠ cend then .fail
    else if h.2.1 ≠ enc.length then .fail
    else .ok h.2.2
  else do
    let s ← decTags enc cend o.1 ⟨c.2, h.2.1, h.2.2⟩
    let s ← decMain enc cend o.1 (enc.length + 1) s
    if s.pos ≠ enc.length then .fail
    else if s.res.length ≠ o.1 then .fail
    else .ok s.res

/-- `CheckPreamble` (icc_codec.cc:97-119). -/
def checkPreamble (d : Bytes) (encSize : Nat) : R Unit := do
  let o ← varIntAt d d.length 0
  check32 o.1
  let c ← varIntAt d d.length o.2
  check32 c.1
  checkOob c.2 c.1 d.length
  if o.1 + 65536 < encSize then .fail
  else if o.1 > 2 ^ 28 then .fail
  else .ok ()

/-- The check in `ICCReader::Init` (icc_codec.cc:362-370). -/
def readPre (rest : Nat → UInt8) (enc : Bytes) : R Unit :=
  if enc.length > 20 then checkPreamble (enc.take 20 ++ (List.range (min 1024 enc.length - 20)).map rest) enc.length else .ok ()

/-- The limit on the compression ratio, tested after each 65536 bytes (icc_codec.cc:400-404): `bits i` is the number of bits used up when `i`
bytes are decoded.  In the code the comparison is in `float`; both sides are then multiples of 65536 up to `2 ^ 28` and, below the limit, bit counts
under `2 ^ 23`, so it is exact. -/
def ratioOk (bits : Nat → Nat) (n : Nat) : Bool := (List.range n).all fun i => i == 0 || i % 65536 != 0 || decide (i ≤ 32 * bits i)

/-- `ICCReader::Init` and `Process` (icc_codec.cc:342-423) when the entropy coded bytes are `enc`: of the buffer that `CheckPreamble` sees,
the first twenty bytes are decoded and the rest, up to `0x400` bytes, are what the memory held (`rest`).  The end of the input (and resuming
after it) is not modelled. -/
def readIcc (rest : Nat → UInt8) (bits : Nat → Nat) (enc : Bytes) : R Bytes :=
  if enc.length > 268435456 then .fail
  else do
    readPre rest enc
    if ratioOk bits enc.length then unpredictIcc enc else .fail

end Jxl.Icc
