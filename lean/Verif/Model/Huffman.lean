import Verif.Spec.Bits
/-!
# Prefix-code tables

`lib/jxl/huffman_table.cc`, `lib/jxl/dec_huffman.cc`, `lib/jxl/dec_huffman.h`, and
`ConvertBitDepthsToSymbols` of `lib/jxl/enc_huffman_tree.cc`.  Reading or writing an array out of bounds is the
outcome `none`.  The 16-bit counters hold at most `2^15`, so they are natural numbers here; the 16-bit link to a
second-level table is truncated as in the code.
-/
namespace Jxl.Huffman

/-- `HuffmanCode` (huffman_table.h:14-17). -/
structure Entry where
  bits : Nat
  value : Nat
deriving DecidableEq, Repr, Inhabited

/-- `GetNextKey` (huffman_table.cc:18-24); the second argument counts the bits still to inspect, `step` being
`2^(b-1)`.  With no bit left `step` is 0 and `key & -1` is `key`. -/
def nextKey (key : Nat) : Nat → Nat
  | 0 => key
  | b + 1 => if key.testBit b then nextKey key b else key % 2 ^ b + 2 ^ b

/-- A checked array store. -/
def put (t : List Entry) (i : Nat) (c : Entry) : Option (List Entry) :=
  if i < t.length then some (t.set i c) else none

/-- The loop of `ReplicateValue` (huffman_table.cc:28-34): the last argument is `end / step`. -/
def replGo (t : List Entry) (base step : Nat) (c : Entry) : Nat → Option (List Entry)
  | 0 => some t
  | k + 1 => (put t (base + k * step) c).bind fun t => replGo t base step c k

/-- `ReplicateValue` (huffman_table.cc:28-34); an `end` that is not a positive multiple of `step` would store
below the array. -/
def repl (t : List Entry) (base step stop : Nat) (c : Entry) : Option (List Entry) :=
  if stop = 0 ∨ stop % step ≠ 0 then none else replGo t base step c (stop / step)

/-- The loop of `NextTableBitSize` (huffman_table.cc:42-47); the last argument is `15 - len`. -/
def nextLen (count : Nat → Nat) (left len : Nat) : Nat → Nat
  | 0 => len
  | f + 1 =>
    if left ≤ count len then len else nextLen count ((left - count len) * 2) (len + 1) f

/-- `NextTableBitSize` (huffman_table.cc:39-49). -/
def nextTableBits (count : Nat → Nat) (len root : Nat) : Nat :=
  nextLen count (2 ^ (len - root)) len (15 - len) - root

/-- The number of symbols of each length (dec_huffman.cc:233-236). -/
def hist (lens : List Nat) (l : Nat) : Nat := lens.count l

/-- The offsets into the sorted symbols (huffman_table.cc:75-85). -/
def offsets (count : Nat → Nat) : Nat → Nat
  | 0 => 0
  | l + 1 => offsets count l + if l = 0 then 0 else count l

/-- `max_length` (huffman_table.cc:67,82). -/
def maxLen (count : Nat → Nat) : Nat → Nat
  | 0 => 1
  | l + 1 => if count (l + 1) ≠ 0 then l + 1 else maxLen count l

/-- The counting sort (huffman_table.cc:88-92). -/
def sortGo (off : Nat → Nat) (sorted : List Nat) (i : Nat) : List Nat → Option ((Nat → Nat) × List Nat)
  | [] => some (off, sorted)
  | l :: ls =>
    if l = 0 then sortGo off sorted (i + 1) ls
    else if l ≤ 15 ∧ off l < sorted.length then
      sortGo (fun x => if x = l then off l + 1 else off x) (sorted.set (off l) i) (i + 1) ls
    else none

/-- Loop state while filling the root table. -/
structure Root where
  key : Nat
  sym : Nat
  t : List Entry

/-- The inner loop of the root fill (huffman_table.cc:121-125), for `count[len]` symbols. -/
def rootRun (sorted : List Nat) (size len : Nat) : Nat → Root → Option Root
  | 0, s => some s
  | k + 1, s =>
    (sorted[s.sym]?).bind fun v =>
      (repl s.t s.key (2 ^ len) size ⟨len, v⟩).bind fun t =>
        rootRun sorted size len k ⟨nextKey s.key len, s.sym + 1, t⟩

/-- The root fill (huffman_table.cc:116-127), `n` lengths from `len` on. -/
def rootFill (sorted : List Nat) (count : Nat → Nat) (size len : Nat) : Nat → Root → Option Root
  | 0, s => some s
  | n + 1, s => (rootRun sorted size len (count len) s).bind (rootFill sorted count size (len + 1) n)

/-- The doublings of the root table (huffman_table.cc:131-134). -/
def doubleUp (t : List Entry) (tb : Nat) : Nat → Option (List Entry)
  | 0 => some t
  | n + 1 =>
    if 2 ^ (tb + 1) ≤ t.length then
      doubleUp (t.take (2 ^ tb) ++ t.take (2 ^ tb) ++ t.drop (2 ^ (tb + 1))) (tb + 1) n
    else none

/-- Loop state while filling the second level; `low = none` is the initial `-1`. -/
structure Sub where
  key : Nat
  sym : Nat
  low : Option Nat
  start : Nat
  tbits : Nat
  total : Nat
  t : List Entry

/-- Opening a second-level table (huffman_table.cc:142-149). -/
def openTable (root : Nat) (count : Nat → Nat) (len : Nat) (s : Sub) : Option Sub :=
  (put s.t (s.key % 2 ^ root)
      ⟨nextTableBits count len root + root, (s.start + 2 ^ s.tbits - s.key % 2 ^ root) % 65536⟩).map fun t =>
    { s with
      start := s.start + 2 ^ s.tbits, tbits := nextTableBits count len root,
      total := s.total + 2 ^ nextTableBits count len root, low := some (s.key % 2 ^ root), t := t }

/-- huffman_table.cc:141-150. -/
def ensureTable (root : Nat) (count : Nat → Nat) (len : Nat) (s : Sub) : Option Sub :=
  if s.low = some (s.key % 2 ^ root) then some s else openTable root count len s

/-- The inner loop of the second level (huffman_table.cc:140-155); the counter is `count[len]`. -/
def subRun (sorted : List Nat) (root : Nat) (count : Nat → Nat) (len : Nat) : Nat → Sub → Option Sub
  | 0, s => some s
  | k + 1, s =>
    (ensureTable root (fun l => if l = len then k + 1 else count l) len s).bind fun s =>
      (sorted[s.sym]?).bind fun v =>
        (repl s.t (s.start + s.key / 2 ^ root) (2 ^ (len - root)) (2 ^ s.tbits) ⟨len - root, v⟩).bind fun t =>
          subRun sorted root count len k { s with key := nextKey s.key len, sym := s.sym + 1, t := t }

/-- The second level (huffman_table.cc:136-156), `n` lengths from `len` on. -/
def subFill (sorted : List Nat) (root : Nat) (count : Nat → Nat) (len : Nat) : Nat → Sub → Option Sub
  | 0, s => some s
  | n + 1, s => (subRun sorted root count len (count len) s).bind (subFill sorted root count (len + 1) n)

/-- `BuildHuffmanTable` (huffman_table.cc:51-159): the returned size and the table. -/
def build (t : List Entry) (root : Nat) (lens : List Nat) : Option (Nat × List Entry) :=
  if lens.length > 2 ^ 15 then some (0, t)
  else
    (sortGo (offsets (hist lens)) (List.replicate lens.length 0) 0 lens).bind fun os =>
      if os.1 15 = 1 then
        (os.2[0]?).bind fun v => (repl t 0 1 (2 ^ root) ⟨0, v⟩).map fun t => (2 ^ root, t)
      else
        let mx := maxLen (hist lens) 15
        (rootFill os.2 (hist lens) (2 ^ min root mx) 1 (min root mx) ⟨0, 0, t⟩).bind fun r =>
          (doubleUp r.t (min root mx) (root - min root mx)).bind fun t =>
            (subFill os.2 root (hist lens) (root + 1) (mx - root) ⟨r.key, r.sym, none, 0, root, 2 ^ root, t⟩).map
              fun s => (s.total, s.t)

/-- `HuffmanDecodingData::ReadSymbol` (dec_huffman.h:28-41) with `kHuffmanTableBits = 8`; the reader supplies
zeros past the end of the stream. -/
def readSymbol (t : List Entry) (s : List Bool) : Option (Nat × List Bool) :=
  (t[ofBits (s.take 8)]?).bind fun e =>
    if e.bits > 8 then
      (t[ofBits (s.take 8) + e.value + ofBits ((s.drop 8).take (e.bits - 8))]?).map fun e2 =>
        (e2.value, s.drop (8 + e2.bits))
    else some (e.value, s.drop e.bits)

/-- `kLut` of `ReverseBits` (enc_huffman_tree.cc:292-294). -/
def lut : List Nat := [0x0, 0x8, 0x4, 0xc, 0x2, 0xa, 0x6, 0xe, 0x1, 0x9, 0x5, 0xd, 0x3, 0xb, 0x7, 0xf]

/-- The loop of `ReverseBits` (enc_huffman_tree.cc:296-300), by number of further nibbles. -/
def revGo (ret bits : Nat) : Nat → Nat
  | 0 => ret
  | k + 1 => revGo (ret * 16 + lut.getD (bits / 16 % 16) 0) (bits / 16) k

/-- `ReverseBits` (enc_huffman_tree.cc:291-303): `(num_bits + 3) / 4` nibbles in all, then the surplus bits are
dropped. -/
def reverseBits (num bits : Nat) : Nat :=
  revGo (lut.getD (bits % 16) 0) bits ((num + 3) / 4 - 1) / 2 ^ ((4 - num % 4) % 4)

/-- `next_code` (enc_huffman_tree.cc:319-327). -/
def nextCode (count : Nat → Nat) : Nat → Nat
  | 0 => 0
  | l + 1 => (nextCode count l + if l = 0 then 0 else count l) * 2

/-- The last loop of `ConvertBitDepthsToSymbols` (enc_huffman_tree.cc:328-332). -/
def symbolsGo (next : Nat → Nat) : List Nat → List Nat
  | [] => []
  | 0 :: ls => 0 :: symbolsGo next ls
  | (l + 1) :: ls =>
    reverseBits (l + 1) (next (l + 1)) ::
      symbolsGo (fun x => if x = l + 1 then next (l + 1) + 1 else next x) ls

/-- `ConvertBitDepthsToSymbols` (enc_huffman_tree.cc:307-333): the bits to write for each symbol. -/
def symbols (lens : List Nat) : List Nat := symbolsGo (nextCode (hist lens)) lens

end Jxl.Huffman
