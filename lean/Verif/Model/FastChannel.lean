import Verif.Model.FastPrefix
/-!
# What the fast lossless encoder writes for a channel, and the header before it (lib/jxl/enc_fast_lossless.cc)

The code without vector instructions.  `none` is an access out of bounds.  Everything written is kept as a list of calls of
`BitWriter::Write` (number of bits, value).  The residuals of the predictor are given; chunks are `k` values long (`kChunkSize`).
-/
namespace Jxl.FastCode

/-- `FloorLog2` (enc_fast_lossless.cc:222-224). -/
def floorLog2 (v : Nat) : Nat := if v ≠ 0 then Nat.log2 v else 0

/-- `EncodeHybridUintLZ77` (enc_fast_lossless.cc:387-394): token, number of extra bits, extra bits. -/
def hybridLz (v : Nat) : Nat × Nat × Nat :=
  let n := floorLog2 v
  (if v < 16 then v else 16 + n - 4, if v < 16 then 0 else n, if v < 16 then 0 else v - 2 ^ n)

/-- `EncodeHybridUint000` (enc_fast_lossless.cc:2646-2652). -/
def hybrid000 (v : Nat) : Nat × Nat × Nat :=
  let n := floorLog2 v
  (if v ≠ 0 then n + 1 else 0, if v ≠ 0 then n else 0, if v ≠ 0 then v - 2 ^ n else 0)

/-- One value of a chunk (enc_fast_lossless.cc:2671-2673); the value is computed in 32 bits. -/
def writeRaw (c : Code) (v : Nat) : Option (Nat × Nat) :=
  match hybrid000 v with
  | (token, nbits, bits) => do
    let n ← c.raw[token]?
    let b ← c.rawBits[token]?
    some (n + nbits, b ||| (bits <<< n) % 2 ^ 32)

/-- An entry of the cache of a code (enc_fast_lossless.cc:611-620): number of bits in 8 bits, value computed in 32 bits. -/
def cacheEntry (c : Code) (count : Nat) : Option (Nat × Nat) :=
  match hybridLz count with
  | (token, nbits, bits) => do
    let l ← c.lz[token]?
    let lb ← c.lzBits[token]?
    let r ← c.raw[0]?
    let rb ← c.rawBits[0]?
    some ((l + nbits + r) % 256, (((bits <<< l) % 2 ^ 32 ||| lb) <<< r) % 2 ^ 32 ||| rb)

/-- A length that is not in the cache (enc_fast_lossless.cc:3043-3048); 64 bits. -/
def writeLong (c : Code) (count : Nat) : Option (Nat × Nat) :=
  match hybridLz (count % 2 ^ 32) with
  | (token, nbits, bits) => do
    let l ← c.lz[token]?
    let lb ← c.lzBits[token]?
    let r ← c.raw[0]?
    let rb ← c.rawBits[0]?
    some (l + nbits + r, (((bits <<< l) % 2 ^ 64 ||| lb) <<< r) % 2 ^ 64 ||| rb)

/-- `EncodeRle` (enc_fast_lossless.cc:3035-3050); the subtraction wraps around. -/
def writeRun (c : Code) (count : Nat) : Option (List (Nat × Nat)) :=
  if count = 0 then some []
  else
    let count := (count + 2 ^ 64 - 8) % 2 ^ 64
    (if count < 32 then cacheEntry c count else writeLong c count).map fun w => [w]

/-- `ChunkEncoder::Chunk` (enc_fast_lossless.cc:3052-3061, 2666-2676): a run, and the values from `skip` to `n`. -/
def writeChunk (c : Code) (run : Nat) (res : List Nat) (skip n : Nat) : Option (List (Nat × Nat)) := do
  let a ← writeRun c run
  let b ← ((res.take n).drop skip).mapM (writeRaw c)
  some (a ++ b)

/-- The number of zeros a chunk begins with (enc_fast_lossless.cc:3142-3145). -/
def zeroPrefix (res : List Nat) : Nat := (res.takeWhile (· = 0)).length

/-- `ProcessChunk` (enc_fast_lossless.cc:3109-3159) from the residuals on: the run afterwards, and what is written. -/
def processChunk (c : Code) (run : Nat) (res : List Nat) (n : Nat) : Option (Nat × List (Nat × Nat)) :=
  let p := min n (zeroPrefix res)
  if p = n ∧ (run > 0 ∨ p > 7) then some (run + p, [])
  else if p + run > 7 then (writeChunk c (run + p) res p n).map fun w => (0, w)
  else (writeChunk c 0 res 0 n).map fun w => (run, w)

/-- The chunks of a row (enc_fast_lossless.cc:3161-3168), `m` of them; `mem` are the residuals of the row and of what lies in memory behind
it, `xs` values remain. -/
def processChunks (k : Nat) (c : Code) : Nat → Nat → List Nat → Nat → Option (Nat × List (Nat × Nat))
  | 0, run, _, _ => some (run, [])
  | m + 1, run, mem, xs => do
    if mem.length < k then none
    else
      let (run, a) ← processChunk c run (mem.take k) (min k xs)
      let (run, b) ← processChunks k c m run (mem.drop k) (xs - k)
      some (run, a ++ b)

/-- `ProcessRow` (enc_fast_lossless.cc:3161-3168) for a row of residuals and what lies behind it. -/
def processRow (k : Nat) (c : Code) (run : Nat) (row : List Nat × List Nat) : Option (Nat × List (Nat × Nat)) :=
  processChunks k c ((row.1.length + (k - 1)) / k) run (row.1 ++ row.2) row.1.length

/-- The rows of a channel in turn. -/
def processRows (k : Nat) (c : Code) : Nat → List (List Nat × List Nat) → Option (Nat × List (Nat × Nat))
  | run, [] => some (run, [])
  | run, r :: rs => do
    let (run, a) ← processRow k c run r
    let (run, b) ← processRows k c run rs
    some (run, a ++ b)

/-- A channel (enc_fast_lossless.cc:3420-3508, 3170): all rows, then the run that is left. -/
def writeChannel (k : Nat) (c : Code) (rows : List (List Nat × List Nat)) : Option (List (Nat × Nat)) := do
  let (run, a) ← processRows k c 0 rows
  let b ← writeRun c run
  some (a ++ b)

/-- The channels of a section (enc_fast_lossless.cc:3531-3541), each with its own code and its own writer. -/
def writeChannels (k : Nat) : List Code → List (List (List Nat × List Nat)) → Option (List (List (Nat × Nat)))
  | _, [] => some []
  | [], _ :: _ => none
  | c :: cs, r :: rs => do
    let w ← writeChannel k c r
    let ws ← writeChannels k cs rs
    some (w :: ws)

/-- The beginning of the header of the pixel data (enc_fast_lossless.cc:2960-2995), up to the codes of values. -/
def streamStart : List (Nat × Nat) :=
  [(1, 1), (2, 0), (4, 10), (4, 4), (3, 0), (3, 0)] ++
  [(1, 1), (2, 3), (3, 4), (3, 3), (3, 2), (3, 1), (3, 0)] ++
  [(1, 1), (4, 0)] ++ List.replicate 4 (4, 0) ++
  [(5, 1)] ++ (List.replicate 4 [(1, 1), (4, 8), (8, 256)]).flatten ++
  [(2, 1), (2, 0), (1, 1)]

/-- The header of the pixel data (enc_fast_lossless.cc:2960-3000) with a code for each of four channels. -/
def writeStreamHeader (codes : List Code) : Option (List (Nat × Nat)) := do
  let ws ← codes.mapM writeTo
  some (streamStart ++ ws.flatten)

end Jxl.FastCode
