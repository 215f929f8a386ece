import Verif.Model.Coders
import Verif.Model.Rct
import Verif.Model.SqueezeImage
import Verif.Model.WeightedPred
/-! The header in front of every coded modular image: whether the tree of the frame is used, the
parameters of the weighted predictor, and the list of transforms (encoding.h:32-56).

Left out: the limit on the number of bits a bundle may take, and the sticky error after the end of
the stream (reading past the end fails here at once). -/
namespace Jxl.Modular.GroupHeader
open Jxl Jxl.Modular Jxl.Modular.Squeeze

/-- `Transform` (transform.h:37-60): the fields that are coded for each kind. -/
inductive Tr
  | rct (beginC type : Nat)
  | palette (beginC numC nbColors nbDeltas predictor : Nat)
  | squeeze (params : List Params)
deriving DecidableEq

/-- `GroupHeader` (encoding.h:51-55). -/
structure Header where
  globalTree : Bool
  wp : Wp.Header
  transforms : List Tr
deriving DecidableEq

/-- Coding of the kind of a transform (transform.cc:37-43). -/
def idEnc : U32.Enc := ⟨U32.val 0, U32.val 1, U32.val 2, U32.val 3⟩
/-- Coding of `begin_c` (transform.cc:49-51, squeeze_params.cc:18-20). -/
def beginEnc : U32.Enc := ⟨U32.bitsOffset 3 0, U32.bitsOffset 6 8, U32.bitsOffset 10 72, U32.bitsOffset 13 1096⟩
/-- Coding of `num_c` of a palette (transform.cc:62-63). -/
def numEnc : U32.Enc := ⟨U32.val 1, U32.val 3, U32.val 4, U32.bitsOffset 13 1⟩
/-- Coding of `nb_colors` (transform.cc:64-66). -/
def colorsEnc : U32.Enc := ⟨U32.bitsOffset 8 0, U32.bitsOffset 10 256, U32.bitsOffset 12 1280, U32.bitsOffset 16 5376⟩
/-- Coding of `nb_deltas` (transform.cc:67-69). -/
def deltasEnc : U32.Enc := ⟨U32.val 0, U32.bitsOffset 8 1, U32.bitsOffset 10 257, U32.bitsOffset 16 1281⟩
/-- Coding of the number of squeezes (transform.cc:80-82). -/
def squeezesEnc : U32.Enc := ⟨U32.val 0, U32.bitsOffset 4 1, U32.bitsOffset 6 9, U32.bitsOffset 8 41⟩
/-- Coding of `num_c` of a squeeze (squeeze_params.cc:21-22). -/
def squeezeNumEnc : U32.Enc := ⟨U32.val 1, U32.val 2, U32.val 3, U32.bitsOffset 4 4⟩
/-- Coding of the number of transforms (encoding.h:41-43). -/
def transformsEnc : U32.Enc := ⟨U32.val 0, U32.val 1, U32.bitsOffset 4 2, U32.bitsOffset 8 18⟩

/-- One flag (`VisitorBase::Bool`, fields.cc). -/
def writeBool (b : Bool) : Option (List Bool) := some [b]
/-- One flag. -/
def readBool : List Bool → Option (Bool × List Bool)
  | [] => none
  | b :: s => some (b, s)

/-- Items one after the other. -/
def writeAll {α : Type} (w : α → Option (List Bool)) : List α → Option (List Bool)
  | [] => some []
  | a :: l => do
    let x ← w a
    let y ← writeAll w l
    some (x ++ y)
/-- `n` items one after the other. -/
def readAll {α : Type} (r : List Bool → Option (α × List Bool)) : Nat → List Bool → Option (List α × List Bool)
  | 0, s => some ([], s)
  | n + 1, s => do
    let (a, s) ← r s
    let (l, s) ← readAll r n s
    some (a :: l, s)

/-- A counted list (the loops of encoding.h:40-47 and transform.cc:79-87). -/
def writeList {α : Type} (e : U32.Enc) (w : α → Option (List Bool)) (l : List α) : Option (List Bool) := do
  let n ← U32.write e l.length
  let b ← writeAll w l
  some (n ++ b)
/-- A counted list. -/
def readList {α : Type} (e : U32.Enc) (r : List Bool → Option (α × List Bool)) (s : List Bool) : Option (List α × List Bool) := do
  let (n, s) ← U32.read e s
  readAll r n s

/-- `SqueezeParams::VisitFields` (squeeze_params.cc:15-24), writing. -/
def writeSqueeze (p : Params) : Option (List Bool) := do
  let h ← writeBool p.horizontal
  let i ← writeBool p.inPlace
  let b ← U32.write beginEnc p.beginC
  let n ← U32.write squeezeNumEnc p.numC
  some (h ++ (i ++ (b ++ n)))
/-- `SqueezeParams::VisitFields`, reading. -/
def readSqueeze (s : List Bool) : Option (Params × List Bool) := do
  let (h, s) ← readBool s
  let (i, s) ← readBool s
  let (b, s) ← U32.read beginEnc s
  let (n, s) ← U32.read squeezeNumEnc s
  some (⟨h, i, b, n⟩, s)

/-- The numbers of a colour transform (transform.cc:47-60), writing. -/
def writeRct (b t : Nat) : Option (List Bool) := do
  let x ← U32.write beginEnc b
  let y ← U32.write Rct.typeEnc t
  if t ≥ 42 then none else some (x ++ y)
/-- The numbers of a colour transform, reading. -/
def readRct (s : List Bool) : Option (Tr × List Bool) := do
  let (b, s) ← U32.read beginEnc s
  let (t, s) ← U32.read Rct.typeEnc s
  if t ≥ 42 then none else some (.rct b t, s)

/-- The numbers of a palette (transform.cc:47-52 and 61-77), writing. -/
def writePalette (b n c d p : Nat) : Option (List Bool) := do
  let x ← U32.write beginEnc b
  let y ← U32.write numEnc n
  let z ← U32.write colorsEnc c
  let u ← U32.write deltasEnc d
  let v ← writeBitsField 4 p
  if p ≥ 14 then none else some (x ++ (y ++ (z ++ (u ++ v))))
/-- The numbers of a palette, reading. -/
def readPalette (s : List Bool) : Option (Tr × List Bool) := do
  let (b, s) ← U32.read beginEnc s
  let (n, s) ← U32.read numEnc s
  let (c, s) ← U32.read colorsEnc s
  let (d, s) ← U32.read deltasEnc s
  let (p, s) ← rdBits 4 s
  if p ≥ 14 then none else some (.palette b n c d p, s)

/-- `Transform::VisitFields` (transform.cc:36-89), writing. -/
def writeTr : Tr → Option (List Bool)
  | .rct b t => do
    let x ← U32.write idEnc 0
    let y ← writeRct b t
    some (x ++ y)
  | .palette b n c d p => do
    let x ← U32.write idEnc 1
    let y ← writePalette b n c d p
    some (x ++ y)
  | .squeeze ps => do
    let x ← U32.write idEnc 2
    let y ← writeList squeezesEnc writeSqueeze ps
    some (x ++ y)

/-- The rest of a transform once its kind is known (transform.cc:44-89). -/
def readKind (id : Nat) (s : List Bool) : Option (Tr × List Bool) :=
  if id = 0 then readRct s
  else if id = 1 then readPalette s
  else if id = 2 then do
    let (ps, s) ← readList squeezesEnc readSqueeze s
    some (.squeeze ps, s)
  else none

/-- `Transform::VisitFields`, reading. -/
def readTr (s : List Bool) : Option (Tr × List Bool) := do
  let (id, s) ← U32.read idEnc s
  readKind id s

/-- The numbers of the weighted predictor that are not default (context_predict.h:45-60), writing. -/
def writeWpNumbers (h : Wp.Header) : Option (List Bool) := do
  let a ← writeAll (writeBitsField 5) [h.p1C, h.p2C, h.p3Ca, h.p3Cb, h.p3Cc, h.p3Cd, h.p3Ce]
  let b ← writeAll (writeBitsField 4) [h.w0, h.w1, h.w2, h.w3]
  some (a ++ b)
/-- The numbers put into the header. -/
def wpOf : List Nat → List Nat → Option Wp.Header
  | [a, b, c, d, e, f, g], [w, x, y, z] => some ⟨a, b, c, d, e, f, g, w, x, y, z⟩
  | _, _ => none
/-- The numbers of the weighted predictor, reading. -/
def readWpNumbers (s : List Bool) : Option (Wp.Header × List Bool) := do
  let (a, s) ← readAll (rdBits 5) 7 s
  let (b, s) ← readAll (rdBits 4) 4 s
  let h ← wpOf a b
  some (h, s)

/-- `weighted::Header::VisitFields` (context_predict.h:38-62), writing: one set bit for the defaults. -/
def writeWp (h : Wp.Header) : Option (List Bool) :=
  if h = Wp.defaultHeader then some [true]
  else (writeWpNumbers h).map (fun b => false :: b)
/-- `weighted::Header::VisitFields`, reading. -/
def readWp (s : List Bool) : Option (Wp.Header × List Bool) := do
  let (d, s) ← readBool s
  if d then some (Wp.defaultHeader, s) else readWpNumbers s

/-- `GroupHeader::VisitFields` (encoding.h:37-49), writing. -/
def write (h : Header) : Option (List Bool) := do
  let a ← writeBool h.globalTree
  let b ← writeWp h.wp
  let c ← writeList transformsEnc writeTr h.transforms
  some (a ++ (b ++ c))
/-- `GroupHeader::VisitFields`, reading. -/
def read (s : List Bool) : Option (Header × List Bool) := do
  let (a, s) ← readBool s
  let (b, s) ← readWp s
  let (c, s) ← readList transformsEnc readTr s
  some (⟨a, b, c⟩, s)

end Jxl.Modular.GroupHeader
