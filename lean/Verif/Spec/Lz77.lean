/-!
# Specification of LZ77 expansion

What a sequence of literals and copies stands for: the history only ever grows, and a copy of distance `d` repeats, one value at
a time, the value `d` places before the end.  No window, no counters.
-/
namespace Jxl.Lz77

/-- One entry of an LZ77 stream: a literal, or a copy given by its length code and its distance code. -/
inductive Op where
  | lit (v : Nat)
  | copy (len dist : Nat)
  deriving DecidableEq, Repr

/-- The values of a 32-bit stream. -/
def Op.Ok : Op → Prop
  | .lit v => v < 2 ^ 32
  | .copy l d => l < 2 ^ 32 ∧ d < 2 ^ 32

/-- What the stream's header fixes: the shortest copy, and the distance that each distance code stands for. -/
structure Meaning where
  minLen : Nat
  distance : Nat → Nat

/-- The last distance that can be used. -/
def reach : Nat := 1048576

/-- The distance actually used after `n` values: no further back than the start, nor than `reach`. -/
def usable (d n : Nat) : Nat := min (min d n) reach

/-- `n` more values, each equal to the one `d` places back; zeros if there is nothing to go back to. -/
def copyFrom : Nat → Nat → List Nat → List Nat
  | 0, _, h => h
  | n + 1, d, h => copyFrom n d (h ++ [if d = 0 then 0 else h.getD (h.length - d) 0])

/-- The history after one entry. -/
def expandOp (m : Meaning) (h : List Nat) : Op → List Nat
  | .lit v => h ++ [v]
  | .copy l d => copyFrom (l + m.minLen) (usable (m.distance d) h.length) h

/-- The history after a sequence of entries. -/
def expand (m : Meaning) (h : List Nat) (ops : List Op) : List Nat := ops.foldl (expandOp m) h

/-- The first `k` entries of an endless stream. -/
def firstOps (ops : Nat → Op) (k : Nat) : List Op := (List.range k).map ops

/-! ## Distance codes (format constant) -/

/-- The special distances, as column and row offsets. -/
def specialTable : List (Int × Int) := [
  (0, 1), (1, 0), (1, 1), (-1, 1), (0, 2), (2, 0), (1, 2), (-1, 2),
  (2, 1), (-2, 1), (2, 2), (-2, 2), (0, 3), (3, 0), (1, 3), (-1, 3),
  (3, 1), (-3, 1), (2, 3), (-2, 3), (3, 2), (-3, 2), (0, 4), (4, 0),
  (1, 4), (-1, 4), (4, 1), (-4, 1), (3, 3), (-3, 3), (2, 4), (-2, 4),
  (4, 2), (-4, 2), (0, 5), (3, 4), (-3, 4), (4, 3), (-4, 3), (5, 0),
  (1, 5), (-1, 5), (5, 1), (-5, 1), (2, 5), (-2, 5), (5, 2), (-5, 2),
  (4, 4), (-4, 4), (3, 5), (-3, 5), (5, 3), (-5, 3), (0, 6), (6, 0),
  (1, 6), (-1, 6), (6, 1), (-6, 1), (2, 6), (-2, 6), (6, 2), (-6, 2),
  (4, 5), (-4, 5), (5, 4), (-5, 4), (3, 6), (-3, 6), (6, 3), (-6, 3),
  (0, 7), (7, 0), (1, 7), (-1, 7), (5, 5), (-5, 5), (7, 1), (-7, 1),
  (4, 6), (-4, 6), (6, 4), (-6, 4), (2, 7), (-2, 7), (7, 2), (-7, 2),
  (3, 7), (-3, 7), (7, 3), (-7, 3), (5, 6), (-5, 6), (6, 5), (-6, 5),
  (8, 0), (4, 7), (-4, 7), (7, 4), (-7, 4), (8, 1), (8, 2), (6, 6),
  (-6, 6), (8, 3), (5, 7), (-5, 7), (7, 5), (-7, 5), (8, 4), (6, 7),
  (-6, 7), (7, 6), (-7, 6), (8, 5), (7, 7), (-7, 7), (8, 6), (8, 7)]

/-- The distance a code stands for, with rows `width` values long (`0`: the stream is not an image, no special codes). -/
def codeDistance (width code : Nat) : Nat :=
  if width = 0 then code + 1
  else match specialTable[code]? with
    | some (dx, dy) => (max 1 (dx + width * dy)).toNat
    | none => code - 119

/-- The meaning of a stream's entries. -/
def meaning (minLen width : Nat) : Meaning := ⟨minLen, codeDistance width⟩

end Jxl.Lz77
