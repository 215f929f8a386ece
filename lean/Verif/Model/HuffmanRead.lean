import Verif.Model.Huffman
/-!
# Reading a prefix code from the stream

`lib/jxl/dec_huffman.cc`.  The outer `none` is an undefined outcome (an out-of-bounds access), the inner `none` a
refusal.  The reader supplies zeros past the end of the stream, which `Close` reports later.
-/
namespace Jxl.Huffman

/-- `kCodeLengthCodeOrder` (dec_huffman.cc:23-25). -/
def clOrder : List Nat := [1, 2, 3, 4, 0, 5, 17, 6, 16, 7, 8, 9, 10, 11, 12, 13, 14, 15]

/-- The static code of the code-length code lengths (dec_huffman.cc:209-212). -/
def clTable : List Entry :=
  [⟨2, 0⟩, ⟨2, 4⟩, ⟨2, 3⟩, ⟨3, 2⟩, ⟨2, 0⟩, ⟨2, 4⟩, ⟨2, 3⟩, ⟨4, 1⟩,
   ⟨2, 0⟩, ⟨2, 4⟩, ⟨2, 3⟩, ⟨3, 2⟩, ⟨2, 0⟩, ⟨2, 4⟩, ⟨2, 3⟩, ⟨4, 5⟩]

/-- Result of the loop over the code-length code. -/
structure Cl where
  cl : List Nat
  space : Int
  num : Nat
  rest : List Bool

/-- One round (dec_huffman.cc:214-225). -/
def clStep (i : Nat) (c : Cl) : Cl :=
  let e := clTable.getD (ofBits (c.rest.take 4)) ⟨0, 0⟩
  { cl := c.cl.set i e.value
    space := if e.value ≠ 0 then c.space - ((32 / 2 ^ e.value : Nat) : Int) else c.space
    num := if e.value ≠ 0 then c.num + 1 else c.num
    rest := c.rest.drop e.bits }

/-- The loop (dec_huffman.cc:213-226). -/
def clGo : List Nat → Cl → Cl
  | [], c => c
  | i :: is, c => if c.space > 0 then clGo is (clStep i c) else c

/-- State of the code-length loop (dec_huffman.cc:32-36). -/
structure Ls where
  lens : List Nat
  prev : Nat
  rep : Nat
  repLen : Nat
  space : Int

/-- A literal length (dec_huffman.cc:56-61). -/
def lit (v : Nat) (st : Ls) : Ls :=
  { st with
    rep := 0, lens := st.lens ++ [v], prev := if v ≠ 0 then v else st.prev
    space := if v ≠ 0 then st.space - ((32768 / 2 ^ v : Nat) : Int) else st.space }

/-- The length that is repeated (dec_huffman.cc:66-69). -/
def newLen (v : Nat) (st : Ls) : Nat := if v = 16 then st.prev else 0

/-- The run before this code (dec_huffman.cc:70-74). -/
def oldRep (v : Nat) (st : Ls) : Nat := if st.repLen ≠ newLen v st then 0 else st.rep

/-- The extended run (dec_huffman.cc:75-79). -/
def extend (old extra bits : Nat) : Nat := (if old > 0 then (old - 2) * 2 ^ extra else old) + (bits + 3)

/-- A repeat code (dec_huffman.cc:62-90), `bits` being the extra bits read. -/
def repeatCode (n v bits : Nat) (st : Ls) : Option Ls :=
  let old := oldRep v st
  let r := extend old (v - 14) bits
  let delta := r - old
  if st.lens.length + delta > n then none
  else some
    { st with
      rep := r, repLen := newLen v st, lens := st.lens ++ List.replicate delta (newLen v st)
      space := if newLen v st ≠ 0 then st.space - ((delta * 2 ^ (15 - newLen v st) : Nat) : Int) else st.space }

/-- One round of the code-length loop (dec_huffman.cc:49-90). -/
def lenStep (t : List Entry) (n : Nat) (st : Ls) (s : List Bool) : Option (Option (Ls × List Bool)) :=
  (t[ofBits (s.take 5)]?).map fun e =>
    if e.value < 16 then some (lit e.value st, s.drop e.bits)
    else
      (repeatCode n e.value (ofBits ((s.drop e.bits).take (e.value - 14))) st).map fun st' =>
        (st', s.drop (e.bits + (e.value - 14)))

/-- The code-length loop and the final check (dec_huffman.cc:48-96).  Every round adds a length, so `n` rounds are
enough. -/
def lenGo (t : List Entry) (n : Nat) : Nat → Ls → List Bool → Option (Option (List Nat × List Bool))
  | f, st, s =>
    if st.lens.length < n ∧ st.space > 0 then
      match f with
      | 0 => some none
      | f + 1 =>
        (lenStep t n st s).bind fun r =>
          match r with
          | none => some none
          | some (st', s') => lenGo t n f st' s'
    else if st.space ≠ 0 then some none
    else some (some (st.lens ++ List.replicate (n - st.lens.length) 0, s))

/-- `ReadHuffmanCodeLengths` (dec_huffman.cc:29-97); `t` is the uninitialised `table[32]`. -/
def readLens (t : List Entry) (cl : List Nat) (n : Nat) (s : List Bool) :
    Option (Option (List Nat × List Bool)) :=
  (build t 5 cl).bind fun b => if b.1 = 0 then some none else lenGo b.2 n n ⟨[], 8, 0, 0, 32768⟩ s

/-- The width of a symbol in a simple code (dec_huffman.cc:101-102). -/
def maxBits (n : Nat) : Nat := if n > 1 then Nat.log2 (n - 1) + 1 else 0

/-- The symbols of a simple code (dec_huffman.cc:106-113). -/
def readSyms (n : Nat) : Nat → List Bool → Option (List Nat × List Bool)
  | 0, s => some ([], s)
  | k + 1, s =>
    if ofBits (s.take (maxBits n)) ≥ n then none
    else (readSyms n k (s.drop (maxBits n))).map fun r => (ofBits (s.take (maxBits n)) :: r.1, r.2)

/-- Exchange if out of order (dec_huffman.cc:124-128 and its uses). -/
def swapIf (i j : Nat) (l : List Nat) : List Nat :=
  if l.getD i 0 > l.getD j 0 then (l.set j (l.getD i 0)).set i (l.getD j 0) else l

/-- The sorting loop of the four-symbol case (dec_huffman.cc:150-154). -/
def sort4 (l : List Nat) : List Nat :=
  swapIf 2 3 (swapIf 1 3 (swapIf 1 2 (swapIf 0 3 (swapIf 0 2 (swapIf 0 1 l)))))

/-- The first entries of the table of a simple code, with their base-2 logarithm (dec_huffman.cc:130-179);
`kind` is `num_symbols` after the extra bit. -/
def simpleEntries (kind : Nat) (l : List Nat) : Option (Nat × List Entry) :=
  match kind with
  | 1 => some (0, [⟨0, l.getD 0 0⟩])
  | 2 =>
    let l := swapIf 0 1 l
    some (1, [⟨1, l.getD 0 0⟩, ⟨1, l.getD 1 0⟩])
  | 3 =>
    let l := swapIf 1 2 l
    some (2, [⟨1, l.getD 0 0⟩, ⟨2, l.getD 1 0⟩, ⟨1, l.getD 0 0⟩, ⟨2, l.getD 2 0⟩])
  | 4 =>
    let l := sort4 l
    some (2, [⟨2, l.getD 0 0⟩, ⟨2, l.getD 2 0⟩, ⟨2, l.getD 1 0⟩, ⟨2, l.getD 3 0⟩])
  | 5 =>
    let l := swapIf 2 3 l
    some (3, [⟨1, l.getD 0 0⟩, ⟨2, l.getD 1 0⟩, ⟨1, l.getD 0 0⟩, ⟨3, l.getD 2 0⟩,
              ⟨1, l.getD 0 0⟩, ⟨2, l.getD 1 0⟩, ⟨1, l.getD 0 0⟩, ⟨3, l.getD 3 0⟩])
  | _ => none

/-- The extra bit of a four-symbol code (dec_huffman.cc:122). -/
def kindOf (num : Nat) (s : List Bool) : Nat × List Bool :=
  if num = 4 then (4 + ofBits (s.take 1), s.drop 1) else (num, s)

/-- `ReadSimpleCode` (dec_huffman.cc:99-189) on a table of 256 entries. -/
def readSimple (t : List Entry) (n : Nat) (s : List Bool) : Option (Option (List Entry × List Bool)) :=
  match readSyms n (ofBits (s.take 2) + 1) (s.drop 2) with
  | none => some none
  | some (syms, s1) =>
    if ¬ syms.Nodup then some none
    else
      let ks := kindOf syms.length s1
      match simpleEntries ks.1 syms with
      | none => some none
      | some (log, es) => (doubleUp (es ++ t.drop es.length) log (8 - log)).map fun t => some (t, ks.2)

/-- The general code (dec_huffman.cc:204-242); `t5` is the uninitialised `table[32]`. -/
def readGeneral (t5 : List Entry) (n skip : Nat) (s : List Bool) : Option (Option (List Entry × List Bool)) :=
  let c := clGo (clOrder.drop skip) ⟨List.replicate 18 0, 32, 0, s⟩
  if c.num = 1 ∨ c.space = 0 then
    (readLens t5 c.cl n c.rest).bind fun r =>
      match r with
      | none => some none
      | some (lens, s2) =>
        (build (List.replicate (n + 376) ⟨0, 0⟩) 8 lens).map fun b =>
          if b.1 > 0 then some (b.2.take b.1, s2) else none
  else some none

/-- `HuffmanDecodingData::ReadFromBitStream` (dec_huffman.cc:191-243). -/
def readCode (t5 : List Entry) (n : Nat) (s : List Bool) : Option (Option (List Entry × List Bool)) :=
  if n > 2 ^ 15 then some none
  else if ofBits (s.take 2) = 1 then readSimple (List.replicate 256 ⟨0, 0⟩) n (s.drop 2)
  else readGeneral t5 n (ofBits (s.take 2)) (s.drop 2)

end Jxl.Huffman
