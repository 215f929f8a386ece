import Verif.Model.AcTokens
import Verif.Model.EntropyStream
import Verif.Model.Splines
/-!
# The map of block contexts (lib/jxl/entropy_coder.cc, lib/jxl/enc_context_map.cc, lib/jxl/compressed_dc.cc)

How the map is coded, and how the DC values of a block choose among its entries.  `Context` itself is `AcTokens.BlockCtxMap.context`.  The choices of
`EncodeContextMap` (form of the map, nested streams) are given, as for `Stream.writeHeader`.  Writing a size that does not fit its four bits is not
defined in the code and is refused here.
-/
namespace Jxl.BlockCtx
open Jxl.Stream (Out chk)
open Jxl.AcTokens (BlockCtxMap)

/-- `BlockCtxMap` (ac_context.h:85-89) with the thresholds of the DC values; the other fields are those of `AcTokens.BlockCtxMap`. -/
structure Ctx where
  x : List Int
  y : List Int
  b : List Int
  map : BlockCtxMap

/-- `kDCThresholdDist` (entropy_coder.h:37-39). -/
def dcEnc : U32.Enc := ⟨U32.bitsOffset 4 0, U32.bitsOffset 8 16, U32.bitsOffset 16 272, U32.bitsOffset 32 65808⟩

/-- `kQFThresholdDist` (entropy_coder.h:41-42). -/
def qfEnc : U32.Enc := ⟨U32.bitsOffset 2 0, U32.bitsOffset 3 4, U32.bitsOffset 5 12, U32.bitsOffset 8 44⟩

/-- `kDefaultCtxMap` (ac_context.h:91-96). -/
def defaultMap : List Nat :=
  [0, 1, 2, 2, 3, 3, 4, 5, 6, 6, 6, 6, 6,
   7, 8, 9, 9, 10, 11, 12, 13, 14, 14, 14, 14, 14,
   7, 8, 9, 9, 10, 11, 12, 13, 14, 14, 14, 14, 14]

/-- The constructor `BlockCtxMap()` (ac_context.h:145-149). -/
def default : Ctx := ⟨[], [], [], ⟨[], defaultMap, CtxMap.maxElem defaultMap + 1, 1⟩⟩

/-- The thresholds of one channel (entropy_coder.cc:38-40), for the remaining `n`. -/
def readDc : Nat → List Bool → Option (List Int × List Bool)
  | 0, s => some ([], s)
  | n + 1, s => do
    let (v, s) ← U32.read dcEnc s
    let (vs, s) ← readDc n s
    some (MaTree.unpack v :: vs, s)

/-- The thresholds of the quantisation (entropy_coder.cc:43-45), for the remaining `n`. -/
def readQf : Nat → List Bool → Option (List Nat × List Bool)
  | 0, s => some ([], s)
  | n + 1, s => do
    let (v, s) ← U32.read qfEnc s
    let (vs, s) ← readQf n s
    some ((v + 1) % 2 ^ 32 :: vs, s)

/-- A list of thresholds with its size (entropy_coder.cc:36-40). -/
def readDcs (s : List Bool) : Option (List Int × List Bool) := do
  let (n, s) ← rdBits 4 s
  readDc n s

/-- All the thresholds (entropy_coder.cc:35-45). -/
def readThresholds (s : List Bool) : Option ((List Int × List Int × List Int × List Nat) × List Bool) := do
  let (x, s) ← readDcs s
  let (y, s) ← readDcs s
  let (b, s) ← readDcs s
  let (n, s) ← rdBits 4 s
  let (q, s) ← readQf n s
  some ((x, y, b, q), s)

/-- `DecodeBlockCtxMap` (entropy_coder.cc:25-60). -/
def read (env : Stream.Env) (s : List Bool) : Out (Ctx × List Bool) := do
  let (isDefault, s) ← chk (rdBits 1 s)
  if isDefault = 1 then .ok (default, s)
  else do
    let ((x, y, b, q), s) ← chk (readThresholds s)
    let numDc := (x.length + 1) * (y.length + 1) * (b.length + 1)
    if numDc * (q.length + 1) > 64 then .bad
    else do
      let (map, n, s) ← Stream.readMap env (Stream.readMapSymbols (Stream.readHeader env 1)) (3 * 13 * numDc * (q.length + 1)) s
      if n > 16 then .bad else .ok (⟨x, y, b, ⟨q, map, n, numDc⟩⟩, s)

/-- A list of DC thresholds (enc_context_map.cc:159-163). -/
def writeDcs (l : List Int) : Option (List Bool) := do
  let n ← writeBitsField 4 l.length
  let bs ← l.mapM fun t => U32.write dcEnc (Splines.pack t)
  some (n ++ bs.flatten)

/-- The thresholds of the quantisation (enc_context_map.cc:165-168). -/
def writeQfs (l : List Nat) : Option (List Bool) := do
  let n ← writeBitsField 4 l.length
  let bs ← l.mapM fun t => U32.write qfEnc ((t + (2 ^ 32 - 1)) % 2 ^ 32)
  some (n ++ bs.flatten)

/-- The test for the default map (enc_context_map.cc:150-153). -/
def isDefault (m : Ctx) : Bool :=
  m.x.isEmpty && m.y.isEmpty && m.b.isEmpty && m.map.qfThresholds.isEmpty && m.map.ctxMap.length == 21 &&
    m.map.ctxMap == defaultMap.take m.map.ctxMap.length

/-- The stream of a context map in entropy-coded form (enc_context_map.cc:96-128); the first layer is that stream, the others are inside it. -/
def nested (mem : Nat → List Alias.Entry) : List Stream.Layer → Option (List Bool)
  | [] => none
  | l :: ls => do
    let (b, i) ← Stream.writeHeader mem ls l.plan
    let t ← Stream.writeTokens l.plan i 0 l.tokens
    some (b ++ t)

/-- The form `EncodeContextMap` chooses for the map, as a plan of which only the map, its number of clusters and its form are used. -/
def plan (useMtf simple : Bool) (m : BlockCtxMap) : Stream.Plan :=
  ⟨none, m.ctxMap, List.replicate m.numCtxs ⟨0, 0, 0⟩, .huff (List.replicate m.numCtxs []), useMtf, simple⟩

/-- `EncodeBlockCtxMap` (enc_context_map.cc:141-178). -/
def write (mem : Nat → List Alias.Entry) (layers : List Stream.Layer) (useMtf simple : Bool) (m : Ctx) : Option (List Bool) :=
  if isDefault m then some (bitsOf 1 1)
  else do
    let x ← writeDcs m.x
    let y ← writeDcs m.y
    let b ← writeDcs m.b
    let q ← writeQfs m.map.qfThresholds
    let c ← Stream.writeMap (nested mem layers) (plan useMtf simple m.map)
    some (bitsOf 1 0 ++ (x ++ (y ++ (b ++ (q ++ c)))))

/-- Number of thresholds that a value exceeds (compressed_dc.cc:275-283). -/
def above (ts : List Int) (v : Int) : Nat := ts.foldl (fun n t => if v > t then n + 1 else n) 0

/-- What is stored for a block with the given quantised DC values (compressed_dc.cc:251-291), an eight-bit value. -/
def bucket (m : Ctx) (x y b : Int) : Nat :=
  if m.map.numDcCtxs ≤ 1 then 0
  else
    let k := above m.x x
    let k := k * (m.b.length + 1)
    let k := k + above m.b b
    let k := k * (m.y.length + 1)
    let k := k + above m.y y
    k % 2 ^ 8

end Jxl.BlockCtx
