import Verif.Model.FastPixels
/-!
# The sections of the fast lossless encoder (lib/jxl/enc_fast_lossless.cc)

Frames without palette.  A section is what its writers hold, one after the other; the first one goes on with what it has.
-/
namespace Jxl.FastCode

/-- The code of the tree's values and the tree (enc_fast_lossless.cc:2936-2958). -/
def treeSymbols : List (Nat × Nat) := [(2, 0b00), (2, 0b10), (3, 0b001), (3, 0b101), (4, 0b0011), (4, 0b0111)]
@[inherit_doc treeSymbols] def treeValues : List Nat := [1, 2, 1, 4, 1, 0, 0, 5, 0, 0, 0, 0, 5, 0, 0, 0, 0, 5, 0, 0, 0, 0, 5, 0, 0, 0]
@[inherit_doc treeSymbols] def treeWrites : List (Nat × Nat) :=
  [(1, 0), (1, 1), (2, 0), (1, 1), (4, 0), (6, 0b100011), (2, 1), (2, 3), (2, 0), (2, 1), (2, 2), (2, 3), (1, 0)] ++
  treeValues.map fun v => treeSymbols.getD v (0, 0)

/-- `PrepareDCGlobal` (enc_fast_lossless.cc:3008-3022) with `PrepareDCGlobalCommon` (2925-3006); `hs` is the header of the pixel data (2960-3000). -/
def globalWrites (nb : Nat) (hs : List (Nat × Nat)) : List (Nat × Nat) :=
  [(1, 1), (1, 1)] ++ (treeWrites ++ (hs ++ ([(1, 1), (1, 1)] ++ (if nb > 2 then [(2, 0b01), (2, 0b00), (5, 0b00000), (2, 0b00)] else [(2, 0b00)]))))

/-- The header of a group (enc_fast_lossless.cc:3525-3527). -/
def groupWrites : List (Nat × Nat) := [(1, 1), (1, 1), (2, 0b00)]

/-- The first writer already holds something. -/
def continueFirst (ws : List (Nat × Nat)) : List (List (Nat × Nat)) → List (List (Nat × Nat))
  | [] => [ws]
  | w :: wss => (ws ++ w) :: wss

/-- The only section of a small image (enc_fast_lossless.cc:4001-4004, 4094-4097). -/
def writeSingle (k n : Nat) (codes : List Code) (a : Area) (buf : List Nat) (pad : Nat → Nat → List Nat) : Option (List Bool) := do
  let hs ← writeStreamHeader codes
  let wss ← writeArea k n codes a buf pad
  some ((continueFirst (globalWrites a.nbChans hs) wss).flatMap (emit 0))

/-- The first section of a large image (enc_fast_lossless.cc:4001-4004), filled up to a byte (3023-3025). -/
def writeGlobal (nb : Nat) (codes : List Code) : Option (List Bool) := do
  let hs ← writeStreamHeader codes
  let s := emit 0 (globalWrites nb hs)
  some (s ++ List.replicate ((8 - s.length % 8) % 8) false)

/-- The section of a group of a large image (enc_fast_lossless.cc:4094-4097, 3510-3543). -/
def writeGroup (k n : Nat) (codes : List Code) (a : Area) (buf : List Nat) (pad : Nat → Nat → List Nat) : Option (List Bool) := do
  let wss ← writeArea k n codes a buf pad
  some ((continueFirst groupWrites wss).flatMap (emit 0))

end Jxl.FastCode
