import Verif.Model.HuffmanRead
/-!
# Building and writing prefix codes

`lib/jxl/enc_huffman_tree.cc` and `lib/jxl/enc_huffman.cc`.  The pool of tree nodes is a pair of queues of trees: an index into the pool is the
tree it leads to.  What the code does when it takes a sentinel for a node, runs out of rounds, or casts an index that
does not fit 16 bits, is the outcome `none`.  Arrays that are only appended to are lists whose final length is compared with the allocation.
-/
namespace Jxl.Huffman

/-- The trees of the pool (enc_huffman_tree.h:17-23). -/
inductive Tree where
  | leaf (sym : Nat)
  | node (l r : Tree)
deriving DecidableEq, Repr

/-- `HuffmanTree` (enc_huffman_tree.h:17-23) with the subtree its indices lead to. -/
structure Node where
  count : Nat
  tree : Tree
deriving DecidableEq, Repr

/-- The count of a sentinel (enc_huffman_tree.cc:87). -/
def sentinel : Nat := 2 ^ 32 - 1

/-- The leaves, from the last symbol to the first (enc_huffman_tree.cc:63-69); `lim` is `count_limit - 1`. -/
def leavesOf (lim : Nat) : Nat → List Nat → List Node
  | _, [] => []
  | i, d :: ds => leavesOf lim (i + 1) ds ++ (if d ≠ 0 then [⟨max d lim, .leaf i⟩] else [])

/-- `Compare` (enc_huffman_tree.cc:32-36) for leaves. -/
def before (a b : Node) : Bool :=
  if a.count ≠ b.count then a.count < b.count
  else match a.tree, b.tree with
    | .leaf x, .leaf y => x > y
    | _, _ => false

/-- Insertion into a sorted list. -/
def insertNode (a : Node) : List Node → List Node
  | [] => [a]
  | b :: bs => if before b a then b :: insertNode a bs else a :: b :: bs

/-- `std::sort` with `Compare` (enc_huffman_tree.cc:78); the order is total, so there is only one sorted list. -/
def sortNodes : List Node → List Node
  | [] => []
  | a :: as => insertNode a (sortNodes as)

/-- Choosing the next child (enc_huffman_tree.cc:94-109): the first remaining leaf or the first remaining parent; behind the last
of each there is a sentinel. -/
def takeNode (ls inner : List Node) : Option (Node × List Node × List Node) :=
  match ls, inner with
  | [], [] => none
  | a :: ls, [] => some (a, ls, [])
  | [], b :: inner => if sentinel ≤ b.count then none else some (b, [], inner)
  | a :: ls, b :: inner => if a.count ≤ b.count then some (a, ls, b :: inner) else some (b, a :: ls, inner)

/-- The merging loop (enc_huffman_tree.cc:91-120), `k` rounds. -/
def mergeGo : Nat → List Node → List Node → Option (List Node × List Node)
  | 0, ls, inner => some (ls, inner)
  | k + 1, ls, inner =>
    (takeNode ls inner).bind fun (a, ls, inner) =>
      (takeNode ls inner).bind fun (b, ls, inner) =>
        mergeGo k ls (inner ++ [⟨(a.count + b.count) % 2 ^ 32, .node a.tree b.tree⟩])

/-- `SetDepth` (enc_huffman_tree.cc:19-28), the level being an 8-bit counter. -/
def setDepth : Tree → Nat → List Nat → List Nat
  | .node l r, level, depth => setDepth r (level + 1) (setDepth l (level + 1) depth)
  | .leaf s, level, depth => depth.set s (level % 256)

/-- One round of the outer loop (enc_huffman_tree.cc:60-122): the new depths and whether there was a single symbol. -/
def treeRound (data : List Nat) (lim : Nat) (depth : List Nat) : Option (Bool × List Nat) :=
  let leaves := leavesOf lim 0 data
  if data.length > 2 ^ 15 ∨ leaves.length > 2 ^ 14 then none
  else
    match leaves with
    | [] => none
    | [a] => some (true, setDepth a.tree 1 depth)
    | _ =>
      (mergeGo (leaves.length - 1) (sortNodes leaves) []).bind fun r =>
        (r.2.getLast?).map fun root => (false, setDepth root.tree 0 depth)

/-- The outer loop of `CreateHuffmanTree` (enc_huffman_tree.cc:59-130); `f` bounds the rounds, `limit` is `count_limit`. -/
def createGo (data : List Nat) (treeLimit : Nat) : Nat → Nat → List Nat → Option (List Nat)
  | 0, _, _ => none
  | f + 1, limit, depth =>
    (treeRound data (limit - 1) depth).bind fun (single, depth) =>
      if single ∨ depth.foldl max 0 ≤ treeLimit then some depth else createGo data treeLimit f (limit * 2) depth

/-- `CreateHuffmanTree` (enc_huffman_tree.cc:53-131) on an array of zeros.  After 32 rounds `count_limit` would become 0. -/
def createTree (data : List Nat) (treeLimit : Nat) : Option (List Nat) :=
  createGo data treeLimit 32 1 (List.replicate data.length 0)

/-- The repeat codes of a run, last one first (enc_huffman_tree.cc:168-181, 200-213): `b` bits in each, the first argument bounds the rounds. -/
def repDigits (b : Nat) : Nat → Nat → List Nat
  | 0, _ => []
  | f + 1, r => r % 2 ^ b :: if r / 2 ^ b = 0 then [] else repDigits b f (r / 2 ^ b - 1)

/-- The codes of a run after the first exceptions (enc_huffman_tree.cc:161-182, 193-214): literals up to two, repeat codes otherwise. -/
def writeRun (code b v reps : Nat) : List (Nat × Nat) :=
  if reps < 3 then List.replicate reps (v, 0) else ((repDigits b (reps - 2) (reps - 3)).map fun x => (code, x)).reverse

/-- A literal and the rest of the run. -/
def literalFirst (c : Prop) [Decidable c] (v reps : Nat) (k : Nat → List (Nat × Nat)) : List (Nat × Nat) :=
  if c then (v, 0) :: k (reps - 1) else k reps

/-- `WriteHuffmanTreeRepetitions` (enc_huffman_tree.cc:144-183). -/
def writeReps (prev v reps : Nat) : List (Nat × Nat) :=
  literalFirst (prev ≠ v) v reps fun reps => literalFirst (reps = 7) v reps fun reps => writeRun 16 2 v reps

/-- `WriteHuffmanTreeRepetitionsZeros` (enc_huffman_tree.cc:185-215). -/
def writeZeros (reps : Nat) : List (Nat × Nat) :=
  literalFirst (reps = 11) 0 reps fun reps => writeRun 17 3 0 reps

/-- The length of a run (enc_huffman_tree.cc:226-229, 271-277). -/
def runLen (v : Nat) : List Nat → Nat
  | [] => 0
  | x :: xs => if x = v then runLen v xs + 1 else 0

/-- Counters of `DecideOverRleUse` (enc_huffman_tree.cc:220-223). -/
structure Stats where
  totalZero : Nat
  totalNonZero : Nat
  countZero : Nat
  countNonZero : Nat

/-- The loop of `DecideOverRleUse` (enc_huffman_tree.cc:224-239). -/
def statsGo : Nat → List Nat → Stats → Stats
  | 0, _, s => s
  | _, [], s => s
  | f + 1, v :: l, s =>
    let reps := runLen v l + 1
    let s := if reps ≥ 3 ∧ v = 0 then { s with totalZero := s.totalZero + reps, countZero := s.countZero + 1 } else s
    let s := if reps ≥ 4 ∧ v ≠ 0 then { s with totalNonZero := s.totalNonZero + reps, countNonZero := s.countNonZero + 1 } else s
    statsGo f (l.drop (reps - 1)) s

/-- `DecideOverRleUse` (enc_huffman_tree.cc:217-242): for non-zero lengths and for zeros. -/
def decideRle (l : List Nat) : Bool × Bool :=
  let s := statsGo l.length l ⟨0, 0, 1, 1⟩
  (s.totalNonZero > s.countNonZero * 2, s.totalZero > s.countZero * 2)

/-- Throwing away trailing zeros (enc_huffman_tree.cc:248-256). -/
def dropZeros (l : List Nat) : List Nat := (l.reverse.dropWhile (· = 0)).reverse

/-- The main loop of `WriteHuffmanTree` (enc_huffman_tree.cc:268-286). -/
def writeGo (rleNonZero rleZero : Bool) : Nat → Nat → List Nat → List (Nat × Nat)
  | 0, _, _ => []
  | _, _, [] => []
  | f + 1, prev, v :: l =>
    let reps := if (v ≠ 0 ∧ rleNonZero) ∨ (v = 0 ∧ rleZero) then runLen v l + 1 else 1
    if v = 0 then writeZeros reps ++ writeGo rleNonZero rleZero f prev (l.drop (reps - 1))
    else writeReps prev v reps ++ writeGo rleNonZero rleZero f v (l.drop (reps - 1))

/-- `WriteHuffmanTree` (enc_huffman_tree.cc:244-287): codes with their extra bits. -/
def writeTree (depth : List Nat) : List (Nat × Nat) :=
  let l := dropZeros depth
  let rle := if depth.length > 50 then decideRle l else (false, false)
  writeGo rle.1 rle.2 l.length 8 l

/-- `kHuffmanBitLengthHuffmanCodeSymbols` (enc_huffman.cc:38-39). -/
def lenSymbols : List Nat := [0, 7, 3, 2, 1, 15]

/-- `kHuffmanBitLengthHuffmanCodeBitLengths` (enc_huffman.cc:40-41). -/
def lenBits : List Nat := [2, 4, 3, 2, 2, 4]

/-- `codes_to_store` (enc_huffman.cc:43-51). -/
def codesToStore (numCodes : Nat) (cl : List Nat) : Nat :=
  if numCodes > 1 then (dropZeros (clOrder.map fun i => cl.getD i 0)).length else 18

/-- `skip_some` (enc_huffman.cc:52-59). -/
def skipSome (cl : List Nat) : Nat :=
  if cl.getD 1 0 = 0 ∧ cl.getD 2 0 = 0 then (if cl.getD 3 0 = 0 then 3 else 2) else 0

/-- `StoreHuffmanTreeOfHuffmanTreeToBitMask` (enc_huffman.cc:23-66). -/
def storeLens (numCodes : Nat) (cl : List Nat) : List Bool :=
  bitsOf 2 (skipSome cl) ++ ((clOrder.take (codesToStore numCodes cl)).drop (skipSome cl)).flatMap fun i =>
    bitsOf (lenBits.getD (cl.getD i 0) 0) (lenSymbols.getD (cl.getD i 0) 0)

/-- One code with its extra bits (enc_huffman.cc:74-90). -/
def storeCode (depth syms : List Nat) (c : Nat × Nat) : List Bool :=
  bitsOf (depth.getD c.1 0) (syms.getD c.1 0) ++ (if c.1 = 16 then bitsOf 2 c.2 else if c.1 = 17 then bitsOf 3 c.2 else [])

/-- The histogram of the codes (enc_huffman.cc:138-142). -/
def codeHist (codes : List (Nat × Nat)) : List Nat := (List.range 18).map fun i => (codes.map (·.1)).count i

/-- `StoreHuffmanTree` (enc_huffman.cc:129-180). -/
def storeTree (depth : List Nat) : Option (List Bool) :=
  let codes := writeTree depth
  if codes.length > depth.length then none
  else
    let used := (List.range 18).filter fun i => (codeHist codes).getD i 0 ≠ 0
    let numCodes := min used.length 2
    (createTree (codeHist codes) 5).map fun cl =>
      storeLens numCodes cl ++
        codes.flatMap (storeCode (if numCodes = 1 then cl.set (used.getD 0 0) 0 else cl) (symbols cl))

/-- The exchanges of the sorting loop of `StoreSimpleHuffmanTree` (enc_huffman.cc:101-108). -/
def sortStep (depth : List Nat) (l : List Nat) (p : Nat × Nat) : List Nat :=
  if depth.getD (l.getD p.2 0) 0 < depth.getD (l.getD p.1 0) 0 then (l.set p.2 (l.getD p.1 0)).set p.1 (l.getD p.2 0) else l

/-- The pairs of positions of the sorting loop. -/
def sortPairs (n : Nat) : List (Nat × Nat) := (List.range n).flatMap fun i => ((List.range n).filter fun j => i < j).map fun j => (i, j)

/-- `StoreSimpleHuffmanTree` (enc_huffman.cc:94-125) for two to four symbols. -/
def storeSimple (depth syms : List Nat) (w : Nat) : List Bool :=
  let s := (sortPairs syms.length).foldl (sortStep depth) syms
  bitsOf 2 1 ++ bitsOf 2 (syms.length - 1) ++ s.flatMap (bitsOf w) ++
    if syms.length = 4 then bitsOf 1 (if depth.getD (s.getD 0 0) 0 = 1 then 1 else 0) else []

/-- The symbols that occur (enc_huffman.cc:187-198; only the first four are ever looked at). -/
def usedSyms (data : List Nat) : List Nat := (List.range data.length).filter fun i => data.getD i 0 ≠ 0

/-- `max_bits` (enc_huffman.cc:200-205). -/
def bitWidth (x : Nat) : Nat := if x = 0 then 0 else Nat.log2 x + 1

/-- What the encoder keeps of a code: the header, and for each symbol the number of bits and the bits. -/
structure Built where
  header : List Bool
  depth : List Nat
  bits : List Nat

/-- `BuildAndStoreHuffmanTree` (enc_huffman.cc:184-223) for a nonempty alphabet; `depth` and `bits` arrive as zeros. -/
def buildStore (data : List Nat) : Option Built :=
  let used := usedSyms data
  let w := bitWidth (data.length - 1)
  if used.length ≤ 1 then
    some ⟨bitsOf 4 1 ++ bitsOf w (used.getD 0 0), List.replicate data.length 0, List.replicate data.length 0⟩
  else
    (createTree data 15).bind fun depth =>
      if used.length ≤ 4 then some ⟨storeSimple depth used w, depth, symbols depth⟩
      else (storeTree depth).map fun h => ⟨h, depth, symbols depth⟩

end Jxl.Huffman
