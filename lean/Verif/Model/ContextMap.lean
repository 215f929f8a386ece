import Verif.Model.BitParser
import Verif.Model.PaddedBytes
import Verif.Model.Lehmer
/-!
# Model of context maps and move-to-front (lib/jxl/enc_context_map.cc, inverse_mtf-inl.h, dec_context_map.cc)

Bytes are natural numbers below 256.  `none` is a failure, an access outside an array, or a violated assertion.  The entropy coder that
stores the symbols of the non-simple form is a parameter (its round trip is C12).
-/
namespace Jxl.CtxMap

/-- `IndexOf` (enc_context_map.cc:32-38). -/
def indexOf (v : List Nat) (value : Nat) : Nat := v.findIdx (· == value)

/-- The shifting loop of `MoveToFront` (enc_context_map.cc:42-44): `v[i] = v[i-1]` for `i` down to 1. -/
def shiftDown (v : List Nat) : Nat → List Nat
  | 0 => v
  | i + 1 => shiftDown (v.set (i + 1) (v.getD i 0)) i

/-- `MoveToFront` (enc_context_map.cc:40-46), and the short branch of the decoder's (inverse_mtf-inl.h:36-37, 53). -/
def moveToFront (v : List Nat) (index : Nat) : Option (List Nat) :=
  (v[index]?).map fun value => (shiftDown v index).set 0 value

/-- The loop of `MoveToFrontTransform` (enc_context_map.cc:54-59). -/
def mtfLoop (mtf : List Nat) : List Nat → Option (List Nat)
  | [] => some []
  | x :: xs =>
    let index := indexOf mtf x
    if index < mtf.length then do
      let mtf ← moveToFront mtf index
      let r ← mtfLoop mtf xs
      some (index % 256 :: r)
    else none

/-- `std::max_element` -/
def maxElem (v : List Nat) : Nat := v.foldl max 0

/-- `MoveToFrontTransform` (enc_context_map.cc:48-61). -/
def mtfTransform (v : List Nat) : Option (List Nat) :=
  if v = [] then some v else mtfLoop (List.range (maxElem v + 1)) v

/-- Vector load of `L` bytes at `i`. -/
def loadV (L : Nat) (v : List Nat) (i : Nat) : Option (List Nat) :=
  if i + L ≤ v.length then some ((v.drop i).take L) else none

/-- Vector store at `i`. -/
def storeV (v : List Nat) (i : Nat) (d : List Nat) : Option (List Nat) :=
  if i + d.length ≤ v.length then some (v.take i ++ d ++ v.drop (i + d.length)) else none

/-- The `while (i)` loop (inverse_mtf-inl.h:47-51). -/
def blockLoop (L : Nat) : Nat → List Nat → Nat → Option (List Nat)
  | 0, v, i => if i = 0 then some v else none
  | fuel + 1, v, i =>
    if i = 0 then some v
    else do
      let vec ← loadV L v (i - L)
      let v ← storeV v (i - L + 1) vec
      blockLoop L fuel v (i - L)

/-- The partial block (inverse_mtf-inl.h:41-46). -/
def tailBlock (L : Nat) (v : List Nat) (i tail : Nat) : Option (List Nat) :=
  if tail = 0 then some v
  else do
    let vec ← loadV L v (i - tail)
    let prev ← loadV L v (i - tail + 1)
    storeV v (i - tail + 1) (vec.take tail ++ prev.drop tail)

/-- `MoveToFront` of the decoder (inverse_mtf-inl.h:33-54) with vectors of `L` bytes. -/
def moveToFrontVec (L : Nat) (v : List Nat) (index : Nat) : Option (List Nat) :=
  if index < 4 then moveToFront v index
  else do
    let value ← v[index]?
    let tail := index &&& (L - 1)
    let v ← tailBlock L v index tail
    let v ← blockLoop L 256 v (index - tail)
    some (v.set 0 value)

/-- `if (index) MoveToFront(mtf, index)` -/
def moveUnlessFirst (L : Nat) (mtf : List Nat) (index : Nat) : Option (List Nat) :=
  if index ≠ 0 then moveToFrontVec L mtf index else some mtf

/-- The loop of `InverseMoveToFrontTransform` (inverse_mtf-inl.h:67-71). -/
def invLoop (L : Nat) (mtf : List Nat) : List Nat → Option (List Nat)
  | [] => some []
  | index :: xs => do
    let value ← mtf[index]?
    let mtf ← moveUnlessFirst L mtf index
    let r ← invLoop L mtf xs
    some (value :: r)

/-- `InverseMoveToFrontTransform` (inverse_mtf-inl.h:56-72): the table has 64 more bytes, not initialised (`pad`). -/
def inverseMtf (L : Nat) (pad v : List Nat) : Option (List Nat) := invLoop L (List.range 256 ++ pad) v

/-- The loop of `VerifyContextMap` (dec_context_map.cc:31-39): number of clusters found. -/
def verifyLoop (n : Nat) : List Bool → Nat → List Nat → Option Nat
  | _, found, [] => some found
  | have_, found, h :: hs =>
    if h ≥ n then none
    else if have_.getD h false then verifyLoop n have_ found hs
    else verifyLoop n (have_.set h true) (found + 1) hs

/-- `VerifyContextMap` (dec_context_map.cc:27-44). -/
def verify (map : List Nat) (n : Nat) : Bool := verifyLoop n (List.replicate n false) 0 map == some n

/-- Reading `n` entries of `k` bits. -/
def readEntries (k : Nat) : Nat → List Bool → Option (List Nat × List Bool)
  | 0, s => some ([], s)
  | n + 1, s => do
    let (x, s) ← rdBits k s
    let (xs, s) ← readEntries k n s
    some (x :: xs, s)

/-- The simple form (dec_context_map.cc:52-60). -/
def readSimple (n : Nat) (s : List Bool) : Option (List Nat × List Bool) := do
  let (k, s) ← rdBits 2 s
  if k ≠ 0 then readEntries k n s else some (List.replicate n 0, s)

/-- The entropy-coded form (dec_context_map.cc:61-92); `dec n s` decodes `n` integers (`uint32_t`). -/
def readCoded (L : Nat) (pad : List Nat) (dec : Nat → List Bool → Option (List Nat × List Bool)) (n : Nat) (s : List Bool) :
    Option (List Nat × List Bool) := do
  let (useMtf, s) ← rdBits 1 s
  let (syms, s) ← dec n s
  if maxElem syms ≥ 256 then none
  else if useMtf = 1 then
    let m ← inverseMtf L pad syms
    some (m, s)
  else some (syms, s)

/-- First part of `DecodeContextMap`: which form. -/
def readForm (L : Nat) (pad : List Nat) (dec : Nat → List Bool → Option (List Nat × List Bool)) (n : Nat) (s : List Bool) :
    Option (List Nat × List Bool) := do
  let (simple, s) ← rdBits 1 s
  if simple = 1 then readSimple n s else readCoded L pad dec n s

/-- `DecodeContextMap` (dec_context_map.cc:48-95) for a map of `n` entries: map, number of clusters, remaining bits.  An empty map is
undefined behaviour (`max_element` of nothing). -/
def decode (L : Nat) (pad : List Nat) (dec : Nat → List Bool → Option (List Nat × List Bool)) (n : Nat) (s : List Bool) :
    Option (List Nat × Nat × List Bool) := do
  let (map, s) ← readForm L pad dec n s
  if map = [] then none
  else if verify map (maxElem map + 1) then some (map, maxElem map + 1, s)
  else none

/-- `EncodeContextMap` (enc_context_map.cc:65-137).  The cost comparisons are the arguments `useMtf` and `simpleCheaper`;
`enc` stands for `BuildAndEncodeHistograms` followed by `WriteTokens`. -/
def encode (useMtf simpleCheaper : Bool) (enc : List Nat → List Bool) (map : List Nat) (numHistograms : Nat) : Option (List Bool) :=
  if numHistograms = 1 then some (bitsOf 1 1 ++ bitsOf 2 0)
  else
    (mtfTransform map).map fun transformed =>
      let bits := Lehmer.ceilLog2 numHistograms
      if bits < 4 ∧ simpleCheaper then bitsOf 1 1 ++ bitsOf 2 bits ++ map.flatMap (bitsOf bits)
      else bitsOf 1 0 ++ bitsOf 1 (if useMtf then 1 else 0) ++ enc (if useMtf then transformed else map)

end Jxl.CtxMap
