/-!
# Code lengths of the fast lossless encoder (`PrefixCode` of lib/jxl/enc_fast_lossless.cc)

Simplifications.  A row of the table of costs is a list; a row is filled cell by cell instead of length by length.
`none` is undefined behaviour (a shift by a negative amount) or a failed assertion that would be followed by it.
-/
namespace Jxl.FastCode

/-- A symbol: its frequency, and the shortest and the longest code word allowed. -/
structure Sym where
  freq : Nat
  lo : Nat
  hi : Nat
deriving DecidableEq

/-- What is known of the search: the modulus of the type of costs, the precision, and the value that stands for infinity. -/
structure Env where
  m : Nat
  prec : Nat
  inf : Nat

/-- The lengths allowed. -/
def Sym.lens (s : Sym) : List Nat := List.range' s.lo (s.hi + 1 - s.lo)

/-- `off_delta` (enc_fast_lossless.cc:474, 492). -/
def Env.delta (e : Env) (bits : Nat) : Nat := 2 ^ (e.prec - bits)

/-- One update of a cell (enc_fast_lossless.cc:475-479). -/
def relax (e : Env) (s : Sym) (row : List Nat) (off acc bits : Nat) : Nat :=
  if e.delta bits ≤ off then min ((row.getD (off - e.delta bits) 0 + s.freq % e.m * bits % e.m) % e.m) acc else acc

/-- The cell `d(sym + 1, off)` after the loops (enc_fast_lossless.cc:473-481). -/
def cell (e : Env) (s : Sym) (row : List Nat) (off : Nat) : Nat := s.lens.foldl (relax e s row off) e.inf

/-- The row of a symbol. -/
def nextRow (e : Env) (s : Sym) (row : List Nat) : List Nat := (List.range (2 ^ e.prec + 1)).map (cell e s row)

/-- The row `d(0, .)` (enc_fast_lossless.cc:467-471). -/
def startRow (e : Env) : List Nat := (List.range (2 ^ e.prec + 1)).map fun off => if off = 0 then 0 else e.inf

/-- The test of enc_fast_lossless.cc:493-494; the sums there have 64 bits. -/
def fits (s : Sym) (e : Env) (row next : List Nat) (off bits : Nat) : Bool :=
  decide (e.delta bits ≤ off) && next.getD off 0 == (row.getD (off - e.delta bits) 0 + s.freq * bits % 2 ^ 64) % 2 ^ 64

/-- `ComputeCodeLengthsNonZeroImpl` (enc_fast_lossless.cc:459-500), rows on the way down, lengths on the way back; also
the value of `off`. -/
def solve (e : Env) : List Sym → List Nat → Nat × List Nat
  | [], _ => (2 ^ e.prec, [])
  | s :: ss, row =>
    let next := nextRow e s row
    let r := solve e ss next
    match s.lens.find? (fits s e row next r.1) with
    | some bits => (r.1 - e.delta bits, bits :: r.2)
    | none => (r.1, 0 :: r.2)

/-- The value of `d(n, 1 << precision)` that is asserted not to be infinity (enc_fast_lossless.cc:486). -/
def finalCost (e : Env) (syms : List Sym) : Nat :=
  (syms.foldl (fun row s => nextRow e s row) (startRow e)).getD (2 ^ e.prec) 0

/-- The limits as they are used (enc_fast_lossless.cc:514). -/
def Sym.atLeastOne (s : Sym) : Sym := { s with lo := max 1 s.lo }

/-- `ComputeCodeLengthsNonZero` (enc_fast_lossless.cc:505-531). -/
def lengthsNonZero (syms : List Sym) : Option (List Nat) :=
  let syms := syms.map Sym.atLeastOne
  let prec := (syms.map (·.hi)).foldl max 0
  let shortest := (syms.map (·.lo)).foldl min 255
  let total := (syms.map (·.freq)).sum % 2 ^ 64
  let prec := prec - (shortest - 1)
  if syms.any (fun s => decide (prec < s.hi)) ∨ syms = [] then none
  else
    let inf := total * prec % 2 ^ 64
    some (solve ⟨if inf < 2147483647 then 2 ^ 32 else 2 ^ 64, prec, inf⟩ syms
      (startRow ⟨if inf < 2147483647 then 2 ^ 32 else 2 ^ 64, prec, inf⟩)).2

/-- The loop at the end of `ComputeCodeLengths` (enc_fast_lossless.cc:558-563). -/
def spread : List Nat → List Nat → List Nat
  | [], _ => []
  | f :: fs, ls => if f = 0 then 0 :: spread fs ls else ls.headD 0 :: spread fs (ls.drop 1)

/-- `ComputeCodeLengths` (enc_fast_lossless.cc:535-564) on symbols that need not occur. -/
def lengths (syms : List Sym) : Option (List Nat) :=
  (lengthsNonZero (syms.filter fun s => s.freq != 0)).map (spread (syms.map (·.freq)))

end Jxl.FastCode
