import Verif.Model.Lz77
/-!
# Model of the LZ77 encoders (lib/jxl/enc_lz77.cc)

The run-length encoder and the hash-map encoder.  Their cost estimates are floating-point heuristics that decide whether a found
match is used (`worth`) and whether the whole result is used: the first is a parameter here, any function, and the second is left
to the caller.  A copy is two tokens in the code, a length and a distance; here it is one `Op`.  Outcome `none` is undefined
behaviour.
-/
namespace Jxl.Lz77

/-! ## Run lengths (enc_lz77.cc:97-169) -/

/-- How many values from `i` on equal `v`. -/
def runFrom (v : Nat) : List Nat → Nat
  | [] => 0
  | x :: l => if x = v then runFrom v l + 1 else 0

/-- `num_to_copy` (enc_lz77.cc:126-132). -/
def runLen (prev : Option Nat) (l : List Nat) : Nat :=
  match prev with
  | none => 0
  | some v => runFrom v l

/-- The loop over a stream (enc_lz77.cc:119-160): `rest` is `in[i..]`, `prev` is `in[i - 1]` if `i > 0`. -/
def rleGo (minLen mult : Nat) (worth : Nat → Nat → Bool) : Nat → Nat → Option Nat → List Nat → List Op
  | 0, _, _, _ => []
  | _ + 1, _, _, [] => []
  | fuel + 1, i, prev, x :: rest =>
    let n := runLen prev (x :: rest)
    if n = 0 then .lit x :: rleGo minLen mult worth fuel (i + 1) (some x) rest
    else if n < minLen || !worth i n then
      ((x :: rest).take n).map .lit ++ rleGo minLen mult worth fuel (i + n) prev ((x :: rest).drop n)
    else .copy (n - minLen) (if mult = 0 then 0 else 1) :: rleGo minLen mult worth fuel (i + n) prev ((x :: rest).drop n)

/-- `ApplyLZ77_RLE` on one stream. -/
def rle (minLen mult : Nat) (worth : Nat → Nat → Bool) (data : List Nat) : List Op :=
  rleGo minLen mult worth data.length 0 none data

/-! ## Hash map (enc_lz77.cc:448-639) -/

/-- One step of the mix (enc_lz77.cc:178). -/
def mixStep (h d : Nat) : Nat := h ^^^ ((d + 0x9e3779b9 + (h <<< 6) % 2 ^ 32 + (h >>> 2)) % 2 ^ 32)

/-- The final mix (enc_lz77.cc:180-184). -/
def finish (h : Nat) : Nat :=
  let h := h ^^^ (h >>> 16)
  let h := (h * 0x85ebca6b) % 2 ^ 32
  let h := h ^^^ (h >>> 13)
  let h := (h * 0xc2b2ae35) % 2 ^ 32
  h ^^^ (h >>> 16)

/-- `GetHash<3>` (enc_lz77.cc:173-190). -/
def getHash (data : List Nat) (pos : Nat) : Nat :=
  if pos + 3 ≤ data.length then
    finish (mixStep (mixStep (mixStep 0 (data.getD pos 0)) (data.getD (pos + 1) 0)) (data.getD (pos + 2) 0))
  else 0

/-- The bucket of a position: `GetHash(pos) & hash_mask_`, 14 bits. -/
def bucketOf (data : List Nat) (pos : Nat) : Nat := getHash data pos &&& (2 ^ 14 - 1)

/-- `HashBucket` (enc_lz77.cc:526-530); `none` where the array was never written. -/
structure Bucket where
  data : List (Option Nat)
  idx : Nat
  size : Nat

/-- An empty bucket of capacity `B`. -/
def Bucket.empty (B : Nat) : Bucket := ⟨List.replicate B none, 0, 0⟩

/-- Insertion into a bucket (enc_lz77.cc:510-512, 518-520). -/
def Bucket.insert (B : Nat) (b : Bucket) (pos : Nat) : Option Bucket :=
  if b.idx < B then
    some { data := b.data.set b.idx (some pos), idx := if b.idx + 1 ≥ B then b.idx + 1 - B else b.idx + 1, size := min (b.size + 1) B }
  else none

/-- `MatchLength` (enc_lz77.cc:533-540): the first `f` steps of the loop. -/
def matchGo (data : List Nat) : Nat → Nat → Nat → Nat
  | 0, _, _ => 0
  | f + 1, a, b => if b < data.length ∧ data.getD a 0 = data.getD b 0 then matchGo data f (a + 1) (b + 1) + 1 else 0

/-- `MatchLength`, asserting `a < b`. -/
def matchLength (data : List Nat) (a b : Nat) : Option Nat := if a < b then some (matchGo data (data.length - b) a b) else none

/-- Filling `special_dist_table_` (enc_lz77.cc:463-466), from index `i` on. -/
def specialFill (mult : Nat) : Nat → Nat → List (Option Nat) → Option (List (Option Nat))
  | 0, _, t => some t
  | n + 1, i, t => if specialDistance i mult < t.length then specialFill mult n (i + 1) (t.set (specialDistance i mult) (some i)) else none

/-- `special_dist_table_` (enc_lz77.cc:459-467). -/
def specialTab (mult : Nat) : Option (List (Option Nat)) :=
  if mult = 0 then some [] else specialFill mult 120 0 (List.replicate (mult * 8 + 8) none)

/-- The symbol of a distance (enc_lz77.cc:488-494). -/
def distSymbol (mult : Nat) (tab : List (Option Nat)) (dist : Nat) : Nat :=
  match tab.getD dist none with
  | some i => i
  | none => numSpecial mult + dist - 1

/-- The scan of a bucket (enc_lz77.cc:477-507): from entry `i` on, `n` entries, with the best length and symbol so far. -/
def scan (data : List Nat) (mult : Nat) (tab : List (Option Nat)) (minLen pos : Nat) (b : Bucket) : Nat → Nat → Nat × Nat → Option (Nat × Nat)
  | 0, _, best => some best
  | n + 1, i, best =>
    match b.data[i]? with
    | some (some cand) =>
      (matchLength data cand pos).bind fun cur =>
        if cur < best.1 ∨ cur < minLen then scan data mult tab minLen pos b n (i + 1) best
        else
          let sym := distSymbol mult tab (pos - cand)
          if cur = best.1 ∧ sym ≥ best.2 then scan data mult tab minLen pos b n (i + 1) best
          else scan data mult tab minLen pos b n (i + 1) (cur, sym)
    | _ => none

/-- `Update` (enc_lz77.cc:516-521). -/
def update (data : List Nat) (B : Nat) (tbl : Nat → Bucket) (pos : Nat) : Option (Nat → Bucket) :=
  ((tbl (bucketOf data pos)).insert B pos).map fun b k => if k = bucketOf data pos then b else tbl k

/-- The updates for the places inside a match (enc_lz77.cc:626-629). -/
def updates (data : List Nat) (B : Nat) : Nat → Nat → (Nat → Bucket) → Option (Nat → Bucket)
  | 0, _, tbl => some tbl
  | n + 1, pos, tbl => (update data B tbl pos).bind (updates data B n (pos + 1))

/-- `FindMatch` (enc_lz77.cc:471-513): the best length and symbol, then the insertion of `pos`. -/
def findMatch (data : List Nat) (mult : Nat) (tab : List (Option Nat)) (minLen B : Nat) (tbl : Nat → Bucket) (pos : Nat) :
    Option ((Nat × Nat) × (Nat → Bucket)) :=
  (scan data mult tab minLen pos (tbl (bucketOf data pos)) (tbl (bucketOf data pos)).size 0 (0, 0)).bind fun best =>
    (update data B tbl pos).map fun tbl => (best, tbl)

/-- The loop over a stream (enc_lz77.cc:584-631).  `worth pos len sym` is the cost comparison (always true unless
`kRuntimeCostComparison`). -/
def hashGo (data : List Nat) (mult minLen B : Nat) (tab : List (Option Nat)) (worth : Nat → Nat → Nat → Bool) :
    Nat → Nat → (Nat → Bucket) → Option (List Op)
  | 0, _, _ => some []
  | fuel + 1, pos, tbl =>
    if pos ≥ data.length then some []
    else if pos + 3 ≥ data.length then (hashGo data mult minLen B tab worth fuel (pos + 1) tbl).map (.lit (data.getD pos 0) :: ·)
    else (findMatch data mult tab minLen B tbl pos).bind fun r =>
      if r.1.1 < minLen then (hashGo data mult minLen B tab worth fuel (pos + 1) r.2).map (.lit (data.getD pos 0) :: ·)
      else (updates data B (r.1.1 - 1) (pos + 1) r.2).bind fun tbl =>
        if worth pos r.1.1 r.1.2 then (hashGo data mult minLen B tab worth fuel (pos + r.1.1) tbl).map (.copy (r.1.1 - minLen) r.1.2 :: ·)
        else (hashGo data mult minLen B tab worth fuel (pos + r.1.1) tbl).map (((data.drop pos).take r.1.1).map .lit ++ ·)

/-- `ApplyLZ77_LZ77<B, 3, _>` on one stream. -/
def hashEncode (minLen mult B : Nat) (worth : Nat → Nat → Nat → Bool) (data : List Nat) : Option (List Op) :=
  (specialTab mult).bind fun tab => hashGo data mult minLen B tab worth data.length 0 (fun _ => Bucket.empty B)

end Jxl.Lz77
