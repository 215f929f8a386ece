import Verif.Model.JpegScan
/-!
# JPEG Huffman tables: the parser's lookup table and the writer's codes

`lib/jxl/jpeg/enc_jpeg_data_reader.cc:209-287` (`ProcessDHT`), `:475-491` (`ReadSymbol`),
`lib/jxl/jpeg/enc_jpeg_huffman_decode.cc` (`BuildJpegHuffmanTable`), and
`lib/jxl/jpeg/dec_jpeg_data_writer.cc:280-319` (`BuildHuffmanCodeTable`).

Simplifications: the two nested loops over the lengths and over `tmp_count[len]` are one loop over the codes in order
of length, and `tmp_count[len]` is the number of codes of that length still to place.  A store or load outside an
array is `none`.  The bytes of the marker segment are handed over already split into counts and values.
-/
namespace Jxl.Jpeg

/-- `HuffmanTableEntry` (enc_jpeg_huffman_decode.h:22-29); a fresh entry is invalid. -/
structure LutEntry where
  bits : Nat
  value : Nat
deriving DecidableEq, Repr, Inhabited

/-- The constructor (enc_jpeg_huffman_decode.h:25). -/
def LutEntry.fresh : LutEntry := ⟨0, 0xffff⟩

/-- `kJpegHuffmanLutSize` (enc_jpeg_huffman_decode.h:18). -/
def lutSize : Nat := 1024

/-- A code of a table: length and symbol. -/
abbrev Code := Nat × Nat

/-- `tmp_count[l]`: the codes of that length still to place. -/
def remaining (cs : List Code) (l : Nat) : Nat := cs.countP fun c => c.1 == l

/-- The loop of `NextTableBitSize` (enc_jpeg_huffman_decode.cc:20-26); the last argument is `16 - len`. -/
def nextLen (count : Nat → Nat) (left len : Nat) : Nat → Nat
  | 0 => len
  | f + 1 => if left ≤ count len then len else nextLen count ((left - count len) * 2) (len + 1) f

/-- `NextTableBitSize` (enc_jpeg_huffman_decode.cc:18-28). -/
def nextTableBits (count : Nat → Nat) (len : Nat) : Nat := nextLen count (2 ^ (len - 8)) len (16 - len) - 8

/-- `n` stores of the same entry from index `i` on (`while (reps--) table[key++] = code`). -/
def putRun (t : List LutEntry) (i n : Nat) (e : LutEntry) : Option (List LutEntry) :=
  if i + n ≤ t.length then some (t.take i ++ List.replicate n e ++ t.drop (i + n)) else none

/-- The root table (enc_jpeg_huffman_decode.cc:63-76): codes of up to 8 bits.  The codes left, the next key and the
table. -/
def rootLoop : List Code → Nat → List LutEntry → Option (List Code × Nat × List LutEntry)
  | [], key, t => some ([], key, t)
  | c :: cs, key, t =>
    if c.1 ≤ 8 then
      (putRun t key (2 ^ (8 - c.1)) ⟨c.1, c.2⟩).bind fun t => rootLoop cs (key + 2 ^ (8 - c.1)) t
    else some (c :: cs, key, t)

/-- The variables of the second loop: `table - lut`, `table_bits`, `table_size`, `low`, `key` and the table. -/
structure SubLut where
  base : Nat
  tbits : Nat
  size : Nat
  low : Nat
  key : Nat
  t : List LutEntry

/-- Starting a new second-level table (enc_jpeg_huffman_decode.cc:86-94).  The link is a `uint16_t`. -/
def openSub (cs : List Code) (len : Nat) (s : SubLut) : Option SubLut :=
  let base := s.base + s.size
  let tb := nextTableBits (remaining cs) len
  (putRun s.t s.key 1 ⟨tb + 8, (base - s.key) % 65536⟩).bind fun t =>
    some { base := base, tbits := tb, size := 2 ^ tb, low := 0, key := s.key + 1, t := t }

/-- enc_jpeg_huffman_decode.cc:85-94. -/
def ensureSub (cs : List Code) (len : Nat) (s : SubLut) : Option SubLut :=
  if s.low ≥ s.size then openSub cs len s else some s

/-- The second-level tables (enc_jpeg_huffman_decode.cc:78-102). -/
def subLoop : List Code → SubLut → Option SubLut
  | [], s => some s
  | c :: cs, s =>
    (ensureSub (c :: cs) c.1 s).bind fun s =>
      if s.tbits + 8 < c.1 then none
      else
        let reps := 2 ^ (s.tbits - (c.1 - 8))
        (putRun s.t (s.base + s.low) reps ⟨c.1 - 8, c.2⟩).bind fun t =>
          subLoop cs { s with low := s.low + reps, t := t }

/-- `BuildJpegHuffmanTable` (enc_jpeg_huffman_decode.cc:30-103). -/
def buildLut (cs : List Code) (t : List LutEntry) : Option (List LutEntry) :=
  match cs with
  | [c] => putRun t 0 256 ⟨0, c.2⟩
  | cs =>
    (rootLoop cs 0 t).bind fun r =>
      (subLoop r.1 { base := 256, tbits := 8, size := 0, low := 0, key := r.2.1, t := r.2.2 }).bind fun s => some s.t

/-- `kMaxHuffmanBits` codes in order: the lengths given by the counts for the lengths 1 to 16. -/
def expand : Nat → List Nat → List Nat
  | _, [] => []
  | l, n :: ns => List.replicate n l ++ expand (l + 1) ns

/-- `max_depth` (enc_jpeg_data_reader.cc:239-245): the last length with a code, at least 1. -/
def maxDepth (lens : List Nat) : Nat := lens.getLastD 1

/-- `ProcessDHT` for one table (enc_jpeg_data_reader.cc:235-283): the counts for the lengths 1 to 16, the values and
the table in that slot so far.  The result: the codes including the invalid symbol at the end, and the new table. -/
def readTable (isAc : Bool) (counts values : List Nat) (t : List LutEntry) : Option (Option (List Code × List LutEntry)) :=
  let lens := expand 1 counts
  let total := lens.length
  if total > (if isAc then 256 else 12) then some none
  else if values.length < total then some none
  else
    let vs := values.take total
    if (isAc = false ∧ ∃ v ∈ vs, v > 11) ∨ ¬ vs.Nodup then some none
    else
      let md := maxDepth lens
      let cs := (lens ++ [md]).zip (vs ++ [256])
      let used : Nat := (cs.map fun c => 2 ^ (16 - c.1)).sum
      if used > 2 ^ 16 then some none
      else
        let t := if used < 2 ^ 16 ∧ (t.headD LutEntry.fresh).value ≠ 0xffff then List.replicate lutSize LutEntry.fresh else t
        (buildLut cs t).bind fun t => some (some (cs, t))

/-- The bits in the window from the next one on. -/
def peek (r : Reader) (n : Nat) : Nat := (r.val >>> (r.left - n)) &&& (2 ^ n - 1)

/-- `ReadSymbol` (enc_jpeg_data_reader.cc:476-491). -/
def readSymbol (d : List Nat) (t : List LutEntry) (r : Reader) : Option (Nat × Reader) :=
  (fill d r).bind fun r =>
    let i := peek r 8
    (t[i]?).bind fun e =>
      if e.bits > 8 then
        let r := { r with left := r.left - 8 }
        (t[i + e.value + peek r (e.bits - 8)]?).bind fun e => some (e.value, { r with left := r.left - e.bits })
      else some (e.value, { r with left := r.left - e.bits })

/-- The loop assigning the codes (dec_jpeg_data_writer.cc:302-312): `si` is the length reached, `code` the next code of
that length; moving on to length `l` doubles the code once per length. -/
def assign : List Nat → Nat → Nat → List Nat
  | [], _, _ => []
  | l :: ls, si, code => code <<< (l - si) :: assign ls l ((code <<< (l - si)) + 1)

/-- `BuildHuffmanCodeTable` (dec_jpeg_data_writer.cc:280-319) after `InitDepths(127)`: the last code is left out, and
later entries overwrite earlier ones.  Codes are `uint16_t`. -/
def codeTable (cs : List Code) : Huff :=
  let cs' := cs.dropLast
  let codes := assign (cs'.map Prod.fst) ((cs.headD (1, 0)).1) 0
  ((cs'.zip codes)).foldl
    (fun h c => { depth := fun s => if s = c.1.2 then c.1.1 else h.depth s,
                  code := fun s => if s = c.1.2 then c.2 % 65536 else h.code s })
    { depth := fun _ => 127, code := fun _ => 0 }

end Jxl.Jpeg
