import Verif.Model.FastCode
import Verif.Model.HuffmanEnc
/-!
# Prefix codes of the fast lossless encoder (`PrefixCode` of lib/jxl/enc_fast_lossless.cc)

`none` is undefined behaviour (an access out of bounds, an undefined shift).  Arrays are lists.  What is written is kept as a list
of calls of `BitWriter::Write`, because one of these calls has a value with more bits than it announces.
-/
namespace Jxl.FastCode

/-- `kNibbleLookup` (enc_fast_lossless.cc:409-412). -/
def nibbleLookup : List Nat := [0, 8, 4, 12, 2, 10, 6, 14, 1, 9, 5, 13, 3, 11, 7, 15]

/-- `BitReverse` (enc_fast_lossless.cc:408-418). -/
def bitReverse (nbits bits : Nat) : Nat :=
  (nibbleLookup.getD (bits % 16) 0 * 4096 + nibbleLookup.getD (bits / 16 % 16) 0 * 256 + nibbleLookup.getD (bits / 256 % 16) 0 * 16 +
    nibbleLookup.getD (bits / 4096 % 16) 0) / 2 ^ (16 - nbits)

/-- `next_code` (enc_fast_lossless.cc:429-447); the counters have 8 bits, the codes 16. -/
def nextOf (lens : List Nat) : Nat → Nat
  | 0 => 0
  | l + 1 => (nextOf lens l + lens.count l % 256) * 2 % 65536

/-- The loops that hand out codes (enc_fast_lossless.cc:449-456). -/
def assign : (Nat → Nat) → List Nat → List Nat
  | _, [] => []
  | next, l :: ls => bitReverse l (next l) :: assign (fun x => if x = l then (next l + 1) % 65536 else next x) ls

/-- `ComputeCanonicalCode` (enc_fast_lossless.cc:422-457); the bits of the first chunk are stored in 8 bits. -/
def canonical (a b : List Nat) : Option (List Nat × List Nat) :=
  if (a ++ b).any (fun l => decide (15 < l)) then none
  else
    let bits := assign (nextOf (a ++ b)) (a ++ b)
    some ((bits.take a.length).map (· % 256), bits.drop a.length)

/-- `PrefixCode` (enc_fast_lossless.cc:396-406) without the cache. -/
structure Code where
  raw : List Nat
  rawBits : List Nat
  lz : List Nat
  lzBits : List Nat
deriving DecidableEq

/-- The symbols of the first level: the raw symbols and one symbol for all of LZ77 (enc_fast_lossless.cc:574-587). -/
def level1 (lo hi raw lz : List Nat) (numraw : Nat) : List Sym :=
  (List.range (numraw + 1)).map fun i => ⟨if i < numraw then raw.getD i 0 else lz.sum % 2 ^ 64, lo.getD i 0, hi.getD i 0⟩

/-- The symbols of the second level, given the length of the symbol for LZ77 (enc_fast_lossless.cc:589-600). -/
def level2 (lz : List Nat) (l : Nat) : List Sym := (Huffman.dropZeros lz).map fun f => ⟨f, 0, 15 - l⟩

/-- The constructor (enc_fast_lossless.cc:571-612) from 19 and 33 counters; `lo` and `hi` are `kMinRawLength` and `kMaxRawLength`. -/
def prefixCode (lo hi raw lz : List Nat) : Option Code :=
  let numraw := (Huffman.dropZeros raw).length
  if lo.length ≤ numraw ∨ hi.length ≤ numraw then none
  else
    (lengths (level1 lo hi raw lz numraw)).bind fun l1 =>
      let l := l1.getD numraw 0
      (lengths (level2 lz l)).bind fun l2 =>
        let lzn := l2.map (fun x => if x ≠ 0 then l + x else 0) ++ List.replicate (33 - l2.length) 0
        (canonical (l1.take numraw) lzn).map fun c =>
          ⟨l1.take numraw ++ List.replicate (19 - numraw) 0, c.1 ++ List.replicate (19 - numraw) 0, lzn, c.2⟩

/-- The limits for images of up to 8 bits (enc_fast_lossless.cc:2688-2691). -/
def limits8 : List Nat × List Nat := (List.replicate 12 0, [7, 7, 7, 7, 7, 7, 7, 7, 7, 7, 7, 10])

/-- The limits for 9 to 13 bits (enc_fast_lossless.cc:2750-2753). -/
def limits13 : List Nat × List Nat := (List.replicate 17 0, [8, 8, 8, 8, 8, 8, 8, 8, 8, 8, 8, 8, 8, 8, 8, 8, 10])

/-- The limits for 14 bits (enc_fast_lossless.cc:2813-2818). -/
def limits14 : List Nat × List Nat :=
  ([0, 0, 0, 0, 0, 0, 0, 0, 0, 0, 0, 0, 0, 0, 0, 8, 8, 7], [7, 7, 7, 7, 7, 7, 7, 7, 7, 7, 7, 7, 7, 7, 7, 8, 8, 10])

/-- The limits for more bits (enc_fast_lossless.cc:2871-2876). -/
def limits16 : List Nat × List Nat :=
  ([0, 0, 0, 0, 0, 0, 0, 0, 0, 0, 0, 0, 0, 8, 8, 8, 8, 8, 8, 7], [7, 7, 7, 7, 7, 7, 7, 7, 7, 7, 7, 7, 7, 8, 8, 8, 8, 8, 8, 10])

/-- `base_raw_counts` (enc_fast_lossless.cc:3936-3938). -/
def baseRaw : List Nat := [3843, 852, 1270, 1214, 1014, 727, 481, 300, 159, 51, 5, 1, 1, 1, 1, 1, 1, 1, 1]

/-- `base_lz77_counts` (enc_fast_lossless.cc:3962-3965). -/
def baseLz : List Nat :=
  [29, 27, 25, 23, 21, 21, 19, 18, 21, 17, 16, 15, 15, 14, 13, 13, 137, 98, 61, 34, 1, 1, 1, 1, 1, 1, 1, 1, 0, 0, 0, 0, 0]

/-- The counters of a channel from those of the sampled rows (enc_fast_lossless.cc:3940-3951), without those of the palette; `n` is
`NumSymbols`. -/
def rawCounts (n : Nat) (sampled : List Nat) : List Nat :=
  (List.range 19).map fun i => (sampled.getD i 0 * 256 + if i < n then baseRaw.getD i 0 else 0) % 2 ^ 64

/-- The same for lengths of copies (enc_fast_lossless.cc:3967-3971). -/
def lzCounts (sampled : List Nat) : List Nat := (List.range 33).map fun i => (sampled.getD i 0 * 256 + baseLz.getD i 0) % 2 ^ 64

/-- `code_length_counts` (enc_fast_lossless.cc:626-633). -/
def clCounts (c : Code) : List Nat :=
  (List.range 18).map fun i => (if i = 17 then 67 else 0) + c.raw.count i + c.lz.count i

/-- `code_length_order` (enc_fast_lossless.cc:644-645). -/
def clOrder : List Nat := [1, 2, 3, 4, 0, 5, 17, 6, 16, 7, 8, 9, 10, 11, 12, 13, 14, 15]

/-- `code_length_length_nbits` (enc_fast_lossless.cc:646). -/
def clNbits : List Nat := [2, 4, 3, 2, 2, 4]

/-- `code_length_length_bits` (enc_fast_lossless.cc:647). -/
def clBits : List Nat := [0, 7, 3, 2, 1, 15]

/-- `PrefixCode::WriteTo` (enc_fast_lossless.cc:625-693): the calls of `Write`. -/
def writeTo (c : Code) : Option (List (Nat × Nat)) :=
  (lengths ((clCounts c).map fun f => ⟨f, 0, 5⟩)).bind fun cl =>
    let num := (Huffman.dropZeros (clOrder.map fun i => cl.getD i 0)).length
    let lz := Huffman.dropZeros c.lz
    if num = 0 ∨ lz = [] then none
    else
      (canonical [] cl).map fun b =>
        let w := fun l : Nat => (cl.getD l 0, b.2.getD l 0)
        (2, 0) :: (clOrder.take num).map (fun i => (clNbits.getD (cl.getD i 0) 0, clBits.getD (cl.getD i 0) 0)) ++
          c.raw.map w ++ [w 17, (3, 2), w 17, (3, 0), w 17, (3, 2)] ++ lz.map w

/-- `BitWriter::Write` (enc_fast_lossless.cc:242-250, 260-263): the value is added to the buffer with all its bits; those beyond the
announced number stay in the buffer.  The first argument is what is in the buffer beyond the bits counted.  The buffer is unbounded. -/
def emit : Nat → List (Nat × Nat) → List Bool
  | _, [] => []
  | k, (n, v) :: ws => bitsOf n (k ||| v) ++ emit ((k ||| v) / 2 ^ n) ws

end Jxl.FastCode
