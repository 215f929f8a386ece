import Verif.Model.Coders
/-!
# Model of the table of contents (lib/jxl/toc.cc, toc.h, enc_toc.cc, parts of enc_frame.cc and dec_frame.cc)

The entropy-coded permutation is a parameter (its token form is the subject of C08).  A reader state is the list of
the bits that are left; `total` is the number of bits of the whole stream, so the position is `total - s.length`.
-/
namespace Jxl.Toc

/-- `kTocDist` (toc.h:23-24). -/
def tocDist : U32.Enc :=
  ⟨U32.bitsOffset 10 0, U32.bitsOffset 14 1024, U32.bitsOffset 22 17408, U32.bitsOffset 30 4211712⟩

/-- `ZeroPadToByte` (enc_bit_writer.h) at bit position `pos`. -/
def zeroPad (pos : Nat) : List Bool := List.replicate ((8 - pos % 8) % 8) false

/-- `WriteTocPermutation` (enc_toc.cc:22-38); `enc` stands for `EncodePermutation`. -/
def writePermutation (enc : List Nat → List Bool) (perm : List Nat) (pos : Nat) : List Bool :=
  let b := if perm ≠ [] then true :: enc perm else [false]
  b ++ zeroPad (pos + b.length)

/-- The loop of `WriteTocSizes` (enc_toc.cc:43-46). -/
def writeSizes : List Nat → Option (List Bool)
  | [] => some []
  | g :: gs => do
    let b ← U32.write tocDist g
    let bs ← writeSizes gs
    some (b ++ bs)

/-- `WriteTocSizes` (enc_toc.cc:40-51). -/
def writeTocSizes (sizes : List Nat) (pos : Nat) : Option (List Bool) :=
  (writeSizes sizes).map fun b => b ++ zeroPad (pos + b.length)

/-- `JumpToByteBoundary` (dec_bit_reader.h:206-213). -/
def jump (total : Nat) (s : List Bool) : Option (List Bool) :=
  let r := (total - s.length) % 8
  if r = 0 then some s
  else (rdBits (8 - r) s).bind fun (v, s) => if v ≠ 0 then none else some s

/-- `check_bit_budget` (toc.cc:45-55). -/
def budget (entries : Nat) (s : List Bool) : Option Unit := if entries * 12 ≤ s.length then some () else none

/-- Reading the sizes (toc.cc:66-68). -/
def readSizes : Nat → List Bool → Option (List Nat × List Bool)
  | 0, s => some ([], s)
  | n + 1, s => do
    let (v, s) ← U32.read tocDist s
    let (vs, s) ← readSizes n s
    some (v :: vs, s)

/-- `ReadToc` (toc.cc:27-72): sizes in file order, permutation (empty when absent), rest of the stream. -/
def readToc (dec : Nat → List Bool → Option (List Nat × List Bool)) (entries total : Nat) (s : List Bool) :
    Option (List Nat × List Nat × List Bool) := do
  if entries > 65536 then none
  else if s = [] then none
  else if entries = 0 then none
  else
    let (flag, s) ← rdBits 1 s
    let (perm, s) ← if flag = 1 then (budget entries s).bind fun _ => dec entries s else some ([], s)
    let s ← jump total s
    let _ ← budget entries s
    let (sizes, s) ← readSizes entries s
    let s ← jump total s
    some (sizes, perm, s)

/-- The prefix sums (toc.cc:87-94) with the 64-bit overflow test. -/
def prefixSums (offset : Nat) : List Nat → Option (List Nat × Nat)
  | [] => some ([], offset)
  | g :: gs =>
    if (offset + g) % 2 ^ 64 < offset then none
    else (prefixSums ((offset + g) % 2 ^ 64) gs).map fun (o, t) => (offset :: o, t)

/-- The loop reading through the permutation (toc.cc:104-107); an index outside the vector gives `none`. -/
def gather (xs : List Nat) : List Nat → Option (List Nat)
  | [] => some []
  | i :: is => do
    let x ← xs[i]?
    let r ← gather xs is
    some (x :: r)

/-- `ReadGroupOffsets` after `ReadToc` (toc.cc:80-113): offsets and sizes by logical index, total size. -/
def groupOffsets (sizes perm : List Nat) : Option (List Nat × List Nat × Nat) := do
  let (offsets, total) ← prefixSums 0 sizes
  if perm ≠ [] then
    let o ← gather offsets perm
    let s ← gather sizes perm
    some (o, s, total)
  else some (offsets, sizes, total)

/-- The loop filling in the logical ids (dec_frame.cc:180-188): `toc_[permutation[i]].id = i`. -/
def fillIds : List Nat → Nat → List Nat → List Nat
  | [], _, ids => ids
  | p :: ps, i, ids => fillIds ps (i + 1) (ids.set p i)

/-- `FrameDecoder`'s table of contents (dec_frame.cc:174-195): logical id and size of the sections in file order. -/
def frameToc (sizes perm : List Nat) : List (Nat × Nat) :=
  let ids := fillIds (if perm ≠ [] then perm else List.range sizes.length) 0 (List.replicate sizes.length 0)
  ids.zip sizes

/-- `new_group_codes[permutation[i]] = group_codes[i]` (enc_frame.cc:1792-1796); also enc_frame.cc:2287-2290. -/
def scatter {α : Type} : List Nat → List α → List α → List α
  | p :: ps, c :: cs, out => scatter ps cs (out.set p c)
  | _, _, out => out

/-- The end of `PermuteGroups` (enc_frame.cc:1791-1797): the sections in file order. -/
def fileOrder (perm : List Nat) (codes : List (List UInt8)) : List (List UInt8) :=
  if perm ≠ [] then scatter perm codes (List.replicate codes.length []) else codes

/-- The end of `EncodeFrameOneShot` (enc_frame.cc:2336-2352): permutation, sizes, sections, after `pre` bits of frame header.
The result is the table of contents (bits) and the section bytes. -/
def writeFrame (enc : List Nat → List Bool) (perm : List Nat) (codes : List (List UInt8)) (pre : Nat) :
    Option (List Bool × List UInt8) := do
  let f := fileOrder perm codes
  let b1 := writePermutation enc perm pre
  let b2 ← writeTocSizes (f.map List.length) (pre + b1.length)
  some (b1 ++ b2, f.flatten)

end Jxl.Toc
