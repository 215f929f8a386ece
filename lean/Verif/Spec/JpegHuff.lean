import Verif.Model.JpegHuff
/-!
# Canonical Huffman codes of JPEG (specification vocabulary)

ITU-T T.81, Annex C: the codes, in order of length, are consecutive binary fractions.  A code of length `l` owns an
interval of width `2^(16-l)` among the words of 16 bits.
-/
namespace Jxl.Jpeg

/-- Words of 16 bits owned by the given codes together. -/
def width16 (cs : List Code) : Nat := (cs.map fun c => 2 ^ (16 - c.1)).sum

/-- Codes a table may consist of: sorted by length, of 1 to 16 bits, and not overfull. -/
structure Canonical (cs : List Code) : Prop where
  len : ∀ c ∈ cs, 1 ≤ c.1 ∧ c.1 ≤ 16
  sorted : cs.Pairwise fun a b => a.1 ≤ b.1
  fits : width16 cs ≤ 2 ^ 16

/-- The bits of the `i`-th code: the first `l` bits of the first word it owns. -/
def codeWord (cs : List Code) (i l : Nat) : List Bool := (msb 16 (width16 (cs.take i))).take l

/-- The tables a slot of the parser may hold: fresh, or left by the tables read into it so far. -/
inductive Slot : List LutEntry → Prop
  | fresh : Slot (List.replicate 1024 LutEntry.fresh)
  | built {t : List LutEntry} {isAc : Bool} {counts values : List Nat} {cs : List Code} {t' : List LutEntry} :
      Slot t → counts.length = 16 → (∀ v ∈ values, v < 256) → readTable isAc counts values t = some (some (cs, t')) → Slot t'

/-- A pair of codes and lookup table that comes from an accepted table. -/
def FromFile (x : List Code × List LutEntry) : Prop :=
  ∃ t isAc counts values, Slot t ∧ counts.length = 16 ∧ (∀ v ∈ values, v < 256) ∧
    readTable isAc counts values t = some (some x)

/-- Symbols read one after the other, each with its own table. -/
def readSymbols (d : List Nat) : List (List LutEntry) → Reader → Option (List Nat × Reader)
  | [], r => some ([], r)
  | t :: ts, r => (readSymbol d t r).bind fun x => (readSymbols d ts x.2).bind fun y => some (x.1 :: y.1, y.2)

/-- The bits the writer emits for symbols, each with its own table. -/
def symbolBits : List (List Code) → List Nat → List Bool
  | cs :: css, v :: vs => msb ((codeTable cs).depth v) ((codeTable cs).code v) ++ symbolBits css vs
  | _, _ => []

end Jxl.Jpeg
