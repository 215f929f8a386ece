/-!
# The codestream of a file, read as a whole

A reading of a complete byte string by the container format: it knows nothing of windows, pending
skips or arrival in pieces.  `codestreamOf F` is the codestream contained in `F`, `malformed F`
whether the boxes of `F` break a rule of the format.
-/
namespace Jxl.Container

/-- The bytes of an ASCII string. -/
def chars (s : String) : List UInt8 := s.toList.map (fun c => UInt8.ofNat c.toNat)

/-- Big-endian number. -/
def be : List UInt8 → Nat
  | [] => 0
  | b :: t => b.toNat * 256 ^ t.length + be t

/-- A partial codestream piece that arrived early. -/
structure Piece where
  idx : Nat
  payload : List UInt8
  isLast : Bool
deriving DecidableEq, Repr

/-- What has been assembled from the boxes so far. -/
structure Asm where
  version : Nat := 0
  next : Nat := 0
  early : List Piece := []
  last : Bool := false
  out : List UInt8 := []
deriving DecidableEq, Repr

/-- Append the pieces that have become due. -/
def drain : Nat → Asm → Asm
  | 0, a => a
  | f + 1, a => match a.early.find? (fun p => p.idx == a.next) with
    | none => a
    | some p => drain f { a with
        next := a.next + 1, early := a.early.eraseP (fun p => p.idx == a.next)
        last := a.last || p.isLast, out := a.out ++ p.payload }

/-- All due pieces. -/
def settle (a : Asm) : Asm := drain a.early.length a

/-- Result of reading: the assembly, and whether a rule was broken. -/
abbrev Out := Asm × Bool

/-- A box header at the start of `r`: `none` if incomplete; else type, header length, box size
(zero: until the end of the file). -/
def boxHeader (r : List UInt8) : Option (List UInt8 × Nat × Nat) :=
  if r.length < 8 then none
  else if be (r.take 4) = 1 then
    if r.length < 16 then none else some ((r.drop 4).take 4, 16, be ((r.drop 8).take 8))
  else some ((r.drop 4).take 4, 8, be (r.take 4))

/-- Codestream bytes: `len` bytes (all if `none`) of `r`; `k` goes on after the box. -/
def codeBody (len : Option Nat) (r : List UInt8) (a : Asm) (k : Asm → Out) : Out :=
  match len with
  | none => ({ a with out := a.out ++ r }, false)
  | some n =>
    if n ≤ r.length then k (settle { a with out := a.out ++ r.take n })
    else ({ a with out := a.out ++ r }, false)

/-- An early piece: kept if complete. -/
def earlyBody (len : Option Nat) (r : List UInt8) (p : List UInt8 → Piece) (a : Asm)
    (k : Asm → Out) : Out :=
  match len with
  | none => (a, false)
  | some n =>
    if n ≤ r.length then k { a with early := a.early ++ [p (r.take n)] } else (a, false)

/-- Too short for an index. -/
def tooShort : Option Nat → Bool
  | some n => decide (n < 4)
  | none => false

/-- A partial codestream box: four bytes with index and last-flag, then payload. -/
def partialBody (len : Option Nat) (r : List UInt8) (a : Asm) (k : Asm → Out) : Out :=
  if a.last then (a, true)
  else if r.length < 4 then (a, false)
  else if tooShort len then (a, true)
  else
    let idx := be (r.take 4) % 2 ^ 31
    let isLast := decide (2 ^ 31 ≤ be (r.take 4))
    let len' := len.map (· - 4)
    if idx < a.next then (a, true)
    else if idx = a.next then
      codeBody len' (r.drop 4) { a with next := a.next + 1, last := a.last || isLast } k
    else if a.version = 0 then (a, true)
    else if a.early.any (fun p => p.idx == idx) then (a, true)
    else earlyBody len' (r.drop 4) (fun l => ⟨idx, l, isLast⟩) a k

/-- The file type box. -/
def ftypBody (len : Option Nat) (r : List UInt8) (a : Asm) (k : Asm → Out) : Out :=
  if len.getD 0 < 12 then (a, true)
  else if r.length < 8 then (a, false)
  else if r.take 4 ≠ chars "jxl " then (a, true)
  else if 1 < be ((r.drop 4).take 4) then (a, true)
  else k { a with version := be ((r.drop 4).take 4) }

def boxBody (ty : List UInt8) (len : Option Nat) (r : List UInt8) (a : Asm) (k : Asm → Out) : Out :=
  if ty = chars "ftyp" then ftypBody len r a k
  else if ty = chars "jxlc" then
    if a.last then (a, true) else codeBody len r { a with last := true } k
  else if ty = chars "jxlp" then partialBody len r a k
  else match len with | none => (a, false) | some _ => k a

/-- Read the boxes of `r`, which starts at offset `at'` of the file with `n` boxes before. -/
def walk : Nat → Nat → Nat → Asm → List UInt8 → Out
  | 0, _, _, a, _ => (a, false)
  | f + 1, at', n, a, r =>
    match boxHeader r with
    | none => (a, false)
    | some (ty, h, sz) =>
      if 0 < sz ∧ sz < h ∨ 2 ^ 64 ≤ at' + sz then (a, true)
      else if ty = chars "brob" ∧ r.length < h + 4 then (a, false)
      else if (n = 1 ∧ ty ≠ chars "ftyp") ∨ (n ≠ 1 ∧ ty = chars "ftyp") then (a, true)
      else boxBody ty (if sz = 0 then none else some (sz - h)) (r.drop h) a
        (fun a' => if sz = 0 then (a', false) else walk f (at' + sz) (n + 1) a' (r.drop sz))

/-- First bytes of a bare codestream / of a container. -/
def bare (F : List UInt8) : Bool := F.take 2 == [0xff, 0x0a]
def boxed (F : List UInt8) : Bool :=
  F.take 12 == [0, 0, 0, 0xc, 0x4a, 0x58, 0x4c, 0x20, 0xd, 0xa, 0x87, 0xa]

def reading (F : List UInt8) : Out :=
  if bare F then ({ last := true, out := F }, false)
  else if boxed F then walk (F.length + 1) 0 0 {} F
  else ({}, false)

/-- The codestream contained in a file. -/
def codestreamOf (F : List UInt8) : List UInt8 := (reading F).1.out

/-- Too few bytes to tell the form of the file. -/
def undecided (F : List UInt8) : Bool :=
  F == [] || F == [0xff] || (decide (F.length < 12) && F.take 1 == [0])

/-- The boxes of the file break a rule of the container format, or its first bytes are those of
neither form. -/
def malformed (F : List UInt8) : Bool := (reading F).2 || (!bare F && !boxed F && !undecided F)

end Jxl.Container
