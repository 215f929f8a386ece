import Verif.Model.JpegRecon
/-!
# Metadata of a JPEG file on its way through a JPEG XL file

`lib/jxl/jpeg/enc_jpeg_data.cc:43-186` (`DetectIccProfile`, `GetMarkerPayload`, `DetectBlobs`, `ParseChunkedMarker`),
`:197-215` (`SetColorEncodingFromJpegData`), `:286-360` (`EncodeJPEGData`), `:374-412` (`SetBlobsFromJpegData`),
`lib/jxl/encode.cc:2235-2265` (the Exif and XMP boxes), `lib/jxl/jpeg/dec_jpeg_data.cc:24-158` (`DecodeJPEGData`),
`lib/jxl/jpeg/jpeg_data.cc:476-505` (`SetJPEGDataFromICC`), `lib/jxl/decode_to_jpeg.cc:82-181` (sizes of the boxes,
`SetExif`, `SetXmp`) and `lib/jxl/decode.cc:1761-1773`, `:2088-2112` (their calls).

An application segment that holds part of the colour profile, the Exif data or the XMP data is not stored: its type and
size are, and the decoder rebuilds it from the profile of the image and from the boxes.

Results are `Option (Option _)`: the outer `none` is a load or store outside an array, the inner one a refusal.
Simplifications.  Bytes are numbers.  The compressed part of the box is given by what it decompresses to.  The profile
that the encoder is asked to store (`SetICC`) is stored or the encoder stops; `ColorEncoding::SRGB` is an arbitrary
profile.  `ParseChunkedMarker` is modelled as it is called, without permutations: then the chunk with index `i` is the
`i`-th one met, so that the array of chunks is the list of the chunks met and all of them are present if there are as
many as the expected number.
-/
namespace Jxl.JpegMeta

/-- `kIccProfileTag`, `kExifTag`, `kXMPTag` (jpeg_data.h:35-37). -/
def iccTag : List Nat := [73, 67, 67, 95, 80, 82, 79, 70, 73, 76, 69, 0]
def exifTag : List Nat := [69, 120, 105, 102, 0, 0]
def xmpTag : List Nat :=
  [104, 116, 116, 112, 58, 47, 47, 110, 115, 46, 97, 100, 111, 98, 101, 46, 99, 111, 109, 47, 120, 97, 112, 47, 49, 46,
    48, 47, 0]

/-! ## The encoder -/

/-- A load. -/
def load (m : List Nat) (i : Nat) (k : Nat → Option (Option β)) : Option (Option β) :=
  match m[i]? with
  | none => none
  | some b => k b

/-- The body of the loop of `DetectIccProfile` (enc_jpeg_data.cc:47-70) from the check of the tag on, with `num_icc` and
`num_icc_jpeg`. -/
def iccChunk (app : List Nat) (n total : Nat) : Option (Option (Nat × Nat × Nat)) :=
  if app.length < 15 then none
  else if (app.drop 3).take 12 ≠ iccTag then some (some (0, n, total))
  else load app 15 fun id => load app 16 fun count =>
    if id ≠ n + 1 then some (some (0, n, total))
    else
      let total' := if total = 0 then count else total
      if total' ≠ count then some (some (0, n, total')) else some (some (1, n + 1, total'))

/-- The body of the loop of `DetectIccProfile` (enc_jpeg_data.cc:46-70): the type of the segment and the new numbers. -/
def iccStep (app : List Nat) (n total : Nat) : Option (Option (Nat × Nat × Nat)) :=
  if app.length < 3 then some none
  else load app 0 fun m => if m ≠ 0xE2 then some (some (0, n, total))
  else load app 1 fun hi => load app 2 fun lo =>
    if app.length ≠ hi * 256 + lo + 1 then some none
    else if hi * 256 + lo < 16 then some (some (0, n, total))
    else iccChunk app n total

/-- The loop of `DetectIccProfile` and its last check (enc_jpeg_data.cc:43-74). -/
def detectIcc : List (List Nat) → Nat → Nat → Option (Option (List Nat))
  | [], n, total => if n ≠ total then some none else some (some [])
  | app :: rest, n, total =>
    match iccStep app n total with
    | none => none
    | some none => some none
    | some (some (t, n', total')) =>
      match detectIcc rest n' total' with
      | none => none
      | some none => some none
      | some (some ts) => some (some (t :: ts))

/-- `GetMarkerPayload` (enc_jpeg_data.cc:76-92). -/
def payload : List Nat → Option (List Nat)
  | m :: hi :: lo :: data => if (hi <<< 8 ||| lo) ≠ (m :: hi :: lo :: data).length - 1 then none else some data
  | _ => none

/-- The payload of a segment with a given marker (the first checks of the loops of `DetectBlobs`,
`ParseChunkedMarker` and `SetBlobsFromJpegData`). -/
def payloadOf (marker : Nat) (app : List Nat) : Option (List Nat) :=
  if app.head? ≠ some marker then none else payload app

/-- `DetectBlobs` (enc_jpeg_data.cc:94-120): the types after it. -/
def detectBlobs : List (List Nat) → List Nat → Bool → Bool → List Nat
  | app :: apps, t :: ts, exif, xmp =>
    match payloadOf 0xE1 app with
    | none => t :: detectBlobs apps ts exif xmp
    | some p =>
      let isExif := !exif && decide (6 < p.length) && p.take 6 == exifTag
      let isXmp := !xmp && decide (29 ≤ p.length) && p.take 29 == xmpTag
      (if isXmp then 3 else if isExif then 2 else t) :: detectBlobs apps ts (exif || isExif) (xmp || isXmp)
  | _, ts, _, _ => ts

/-- The loop of `ParseChunkedMarker` (enc_jpeg_data.cc:131-175): the chunks, `none` is a failure.  `ordinal` chunks have
been met, `expected` is the number of parts from the first one on. -/
def chunks : List (List Nat) → Nat → Option Nat → Option (List (List Nat) × Option Nat)
  | [], _, expected => some ([], expected)
  | app :: rest, ordinal, expected =>
    match payloadOf 0xE2 app with
    | none => chunks rest ordinal expected
    | some p =>
      if p.length < 12 ∨ p.take 12 ≠ iccTag then chunks rest ordinal expected
      else match p.drop 12 with
        | index :: total :: chunk =>
          if index ≠ ordinal + 1 ∨ total = 0 ∨ expected.getD total ≠ total ∨ total < index then none
          else (chunks rest (ordinal + 1) (some total)).map fun r => (chunk :: r.1, r.2)
        | _ => none

/-- `ParseChunkedMarker` (enc_jpeg_data.cc:122-186). -/
def parseIcc (apps : List (List Nat)) : Option (List Nat) :=
  match chunks apps 0 none with
  | none => none
  | some (cs, expected) => if cs.length ≠ expected.getD 0 then none else some cs.flatten

/-- `SetColorEncodingFromJpegData` (enc_jpeg_data.cc:197-215): the profile of the image. -/
def storedIcc (builtin : List Nat) (apps : List (List Nat)) : List Nat :=
  match parseIcc apps with
  | none => builtin
  | some profile => if profile = [] then builtin else profile

/-- One of the two halves of `SetBlobsFromJpegData` (enc_jpeg_data.cc:374-412). -/
def blob (tag : List Nat) : List (List Nat) → List Nat → List Nat
  | [], b => b
  | app :: rest, b =>
    match payloadOf 0xE1 app with
    | none => blob tag rest b
    | some p =>
      if tag.length ≤ p.length ∧ p.take tag.length = tag ∧ b = [] then blob tag rest (p.drop tag.length)
      else blob tag rest b

/-- The Exif box (encode.cc:2239-2250): four zero bytes and the data. -/
def exifBox (apps : List (List Nat)) : Option (List Nat) :=
  let b := blob exifTag apps []
  if b = [] then none else some ([0, 0, 0, 0] ++ b)

/-- The XMP box (encode.cc:2251-2257). -/
def xmpBox (apps : List (List Nat)) : Option (List Nat) :=
  let b := blob xmpTag apps []
  if b = [] then none else some b

/-- The segments without type, in order (enc_jpeg_data.cc:341-346). -/
def untyped : List (List Nat) → List Nat → List (List Nat)
  | app :: apps, t :: ts => if t = 0 then app :: untyped apps ts else untyped apps ts
  | _, _ => []

/-- What `EncodeJPEGData` stores beside the other fields (enc_jpeg_data.cc:286-360): types and sizes, and the data
handed to the compressor. -/
structure Stored where
  app : List (Nat × Nat)
  com : List Nat
  inter : List Nat
  tail : Nat
  data : List Nat
deriving DecidableEq, Repr

/-- The metadata of a file. -/
structure Meta where
  app : List (List Nat)
  com : List (List Nat)
  inter : List (List Nat)
  tail : List Nat
deriving DecidableEq, Repr

def store (m : Meta) (types : List Nat) : Stored :=
  { app := List.zip types (m.app.map List.length)
    com := m.com.map List.length
    inter := m.inter.map List.length
    tail := m.tail.length
    data := (untyped m.app types).flatten ++ (m.com.flatten ++ (m.inter.flatten ++ m.tail)) }

/-- `EncodeJPEGData` (enc_jpeg_data.cc:286-360). -/
def encodeMeta (m : Meta) : Option (Option Stored) :=
  match detectIcc m.app 0 0 with
  | none => none
  | some none => some none
  | some (some ts) => some (some (store m (detectBlobs m.app ts false false)))

/-! ## The decoder -/

/-- `memcpy` to the bytes from `i` on. -/
def place (m : List Nat) (i : Nat) (xs : List Nat) (k : List Nat → Option (Option β)) : Option (Option β) :=
  if m.length < i + xs.length then none else k (m.take i ++ (xs ++ m.drop (i + xs.length)))

/-- `br_read` (dec_jpeg_data.cc:49-72). -/
def brRead (n : Nat) (data : List Nat) (k : List Nat → List Nat → Option (Option β)) : Option (Option β) :=
  if data.length < n then some none else k (data.take n) (data.drop n)

/-- The check of the length field of a segment that was read (dec_jpeg_data.cc:93-95, :121-123). -/
def sizeCheck (m : List Nat) (k : Option (Option β)) : Option (Option β) :=
  load m 1 fun hi => load m 2 fun lo => if hi * 256 + lo + 1 ≠ m.length then some none else k

/-- The first loop over the segments (dec_jpeg_data.cc:73-97): the segments, the number of parts of the profile and the
rest of the data. -/
def fill : List (Nat × Nat) → Nat → List Nat → (List (List Nat) → Nat → List Nat → Option (Option β)) → Option (Option β)
  | [], n, data, k => k [] n data
  | (t, size) :: rest, n, data, k =>
    if size < 3 then some none
    else if t ≠ 0 then
      place (List.replicate size 0) 1 [((size - 1) >>> 8) % 256, (size - 1) % 256] fun m =>
        if t = 1 then
          if size < 17 then some none
          else place m 0 [0xE2] fun m => place m 3 iccTag fun m => place m 15 [(n + 1) % 256] fun m =>
            fill rest (n + 1) data fun ms n data => k (m :: ms) n data
        else fill rest n data fun ms n data => k (m :: ms) n data
    else brRead size data fun m data => sizeCheck m (fill rest n data fun ms n data => k (m :: ms) n data)

/-- The second loop (dec_jpeg_data.cc:98-117) for one segment. -/
def finishOne (t n : Nat) (m : List Nat) (k : List Nat → Option (Option β)) : Option (Option β) :=
  if t = 1 then place m 16 [n % 256] k
  else if t = 2 then
    if m.length < 9 then some none else place m 0 [0xE1] fun m => place m 3 exifTag k
  else if t = 3 then
    if m.length < 32 then some none else place m 0 [0xE1] fun m => place m 3 xmpTag k
  else k m

def finish (n : Nat) : List Nat → List (List Nat) → (List (List Nat) → Option (Option β)) → Option (Option β)
  | t :: ts, m :: ms, k => finishOne t n m fun m => finish n ts ms fun ms => k (m :: ms)
  | _, _, k => k []

/-- The comments (dec_jpeg_data.cc:119-124). -/
def readComs : List Nat → List Nat → (List (List Nat) → List Nat → Option (Option β)) → Option (Option β)
  | [], data, k => k [] data
  | size :: rest, data, k =>
    brRead size data fun m data => sizeCheck m (readComs rest data fun ms data => k (m :: ms) data)

/-- The data between markers (dec_jpeg_data.cc:125-127). -/
def readPlain : List Nat → List Nat → (List (List Nat) → List Nat → Option (Option β)) → Option (Option β)
  | [], data, k => k [] data
  | size :: rest, data, k => brRead size data fun m data => readPlain rest data fun ms data => k (m :: ms) data

/-- `DecodeJPEGData` after the bundle (dec_jpeg_data.cc:73-158). -/
def decodeMeta (s : Stored) : Option (Option Meta) :=
  fill s.app 0 s.data fun ms n data =>
  finish n (s.app.map Prod.fst) ms fun app =>
  readComs s.com data fun com data =>
  readPlain s.inter data fun inter data =>
  brRead s.tail data fun tail data =>
  if data ≠ [] then some none else some (some { app, com, inter, tail })

/-- `SetJPEGDataFromICC` (jpeg_data.cc:476-505); `pos` is `icc_pos`.  The copy needs as many bytes as it copies. -/
def setIcc (icc : List Nat) : List Nat → List (List Nat) → Nat → (List (List Nat) → Option (Option β)) → Option (Option β)
  | t :: ts, m :: ms, pos, k =>
    if t ≠ 1 then setIcc icc ts ms pos fun ms => k (m :: ms)
    else if m.length < 17 then some none
    else if icc.length < pos + (m.length - 17) then some none
    else if icc.length < pos + (m.length - 17) then none
    else place m 17 ((icc.drop pos).take (m.length - 17)) fun m' =>
      setIcc icc ts ms (pos + (m.length - 17)) fun ms => k (m' :: ms)
  | _, _, pos, k => if pos ≠ icc.length ∧ pos ≠ 0 then some none else k []

/-- `SetExif` and `SetXmp` (decode_to_jpeg.cc:143-181): the first segment of type `t` is made of the tag and of the
bytes of the box without the first `skip` ones. -/
def setBox (t : Nat) (tag : List Nat) (skip : Nat) (box : List Nat) :
    List Nat → List (List Nat) → (List (List Nat) → Option (Option β)) → Option (Option β)
  | u :: us, m :: ms, k =>
    if u ≠ t then setBox t tag skip box us ms fun ms => k (m :: ms)
    else if m.length ≠ box.length + 3 + tag.length - skip then some none
    else if box.length < skip then none
    else place m 0 [0xE1] fun m => place m 3 tag fun m => place m (3 + tag.length) (box.drop skip) fun m => k (m :: ms)
  | _, _, _ => some none

/-- The sizes of the segments of a type. -/
def sizesOf (t : Nat) (app : List (Nat × Nat)) : List Nat := (app.filter fun a => a.1 == t).map Prod.snd

/-- The size of the box that is waited for, 0 for none; a second segment of the type is refused (decode.cc:2088-2112,
decode_to_jpeg.cc:82-141). -/
def boxSize (t tagLen skip : Nat) (app : List (Nat × Nat)) : Option Nat :=
  match sizesOf t app with
  | [] => some 0
  | [size] => if size < 3 + tagLen then none else some (size + skip - 3 - tagLen)
  | _ => none

/-- Injection of a box if it is waited for (decode.cc:1761-1773); without the box the decoder waits for ever. -/
def useBox (t : Nat) (tag : List Nat) (skip : Nat) (app : List (Nat × Nat)) (box : Option (List Nat))
    (ms : List (List Nat)) (k : List (List Nat) → Option (Option β)) : Option (Option β) :=
  match boxSize t tag.length skip app with
  | none => some none
  | some 0 => k ms
  | some _ => match box with
    | none => some none
    | some b => setBox t tag skip b (app.map Prod.fst) ms k

/-- The metadata the reconstructed file is written with. -/
def rebuild (s : Stored) (icc : List Nat) (exif xmp : Option (List Nat)) : Option (Option Meta) :=
  match decodeMeta s with
  | none => none
  | some none => some none
  | some (some m) =>
    setIcc icc (s.app.map Prod.fst) m.app 0 fun a =>
    useBox 2 exifTag 4 s.app exif a fun a =>
    useBox 3 xmpTag 0 s.app xmp a fun a =>
    some (some { m with app := a })

end Jxl.JpegMeta
