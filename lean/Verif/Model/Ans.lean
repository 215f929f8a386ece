import Verif.Model.Alias
import Verif.Model.HybridUint
/-!
# Model of the ANS coder (lib/jxl/enc_ans.h, enc_ans.cc, dec_ans.h, dec_ans.cc)

`ANS_LOG_TAB_SIZE` = 12, `ANS_SIGNATURE` = 0x13, `RECIPROCAL_PRECISION` = 44.  `uint32_t`/`uint64_t` arithmetic is reduced explicitly.
An out of bounds access is `none`.  The bit reader is a bit string (C02); reading past its end is `none` here.
The prefix code variant is in `Model/Huffman`.  The number of tokens is assumed to fit in an `int` (enc_ans.cc:1281).
-/
namespace Jxl.Ans
open Alias (Entry u16 sub32)

/-- `ANSEncSymbolInfo` (enc_ans.h:36-47), the ANS part. -/
structure Info where
  freq : Nat
  ifreq : Nat
  rmap : List Nat
deriving DecidableEq

/-- First loop of `ANSBuildInfoTable` (enc_ans.cc:332-345). -/
def initInfo (counts : List Nat) : List Info :=
  (List.range (max 1 counts.length)).map fun s =>
    let freq := if s = counts.length then 4096 else counts.getD s 0
    ⟨u16 freq, if freq ≠ 0 then ((2 ^ 44 + u16 freq - 1) % 2 ^ 64) / u16 freq else 1, List.replicate freq 0⟩

/-- `info[s].reverse_map_[o] = v` -/
def setMap (info : List Info) (s o v : Nat) : Option (List Info) := do
  let t ← info[s]?
  if o < t.rmap.length then some (info.set s { t with rmap := t.rmap.set o (u16 v) }) else none

/-- Second loop of `ANSBuildInfoTable` (enc_ans.cc:346-352), the first `n` iterations. -/
def fillMap (table : List Entry) (logAlpha : Nat) : Nat → List Info → Option (List Info)
  | 0, info => some info
  | n + 1, info => do
    let info ← fillMap table logAlpha n info
    let (s, o, _) ← Alias.lookup table logAlpha n
    setMap info s o n

/-- `ANSBuildInfoTable` (enc_ans.cc:329-353). -/
def buildInfo (counts : List Nat) (table : List Entry) (logAlpha : Nat) : Option (List Info) :=
  fillMap table logAlpha 4096 (initInfo counts)

/-- The state after renormalisation in `PutSymbol` (enc_ans.h:54-60): emitted bits, their number, new state. -/
def renorm (state freq : Nat) : Nat × Nat × Nat :=
  if state >>> 20 ≥ freq then (state &&& 0xffff, 16, state >>> 16) else (0, 0, state)

/-- The division by multiplication (enc_ans.h:63). -/
def recip (state ifreq : Nat) : Nat := (((state * ifreq) % 2 ^ 64) >>> 44) % 2 ^ 32

/-- `ANSCoder::PutSymbol` (enc_ans.h:53-72): emitted bits, their number, new state. -/
def putSymbol (state : Nat) (t : Info) : Option (Nat × Nat × Nat) :=
  match renorm state t.freq with
  | (bits, nbits, st) =>
    let v := recip st t.ifreq
    (t.rmap[sub32 st (v * t.freq % 2 ^ 32)]?).map fun offset => (bits, nbits, ((v <<< 12) % 2 ^ 32 + offset) % 2 ^ 32)

/-- `Token` (enc_ans.h:83-90). -/
structure Token where
  isLen : Bool := false
  ctx : Nat
  value : Nat
deriving DecidableEq

/-- What both sides know: LZ77 parameters (enabled, smallest length symbol, coding of lengths), the codings of the clusters and the
context map. -/
structure Params where
  lz77 : Bool
  minSymbol : Nat
  lengthConfig : Hybrid.Config
  config : List Hybrid.Config
  contextMap : List Nat

/-- The buffer of `WriteTokens`: `allbits`, `numallbits`, and the pairs pushed to `out`/`out_nbits`, last pushed first. -/
structure Buf where
  all : Nat := 0
  num : Nat := 0
  out : List (Nat × Nat) := []

/-- `addbits` (enc_ans.cc:1269-1281). -/
def addbits (w : Buf) (bits nbits : Nat) : Buf :=
  if nbits = 0 then w
  else
    let w := if w.num + nbits > 56 then ⟨0, 0, (w.num, w.all) :: w.out⟩ else w
    ⟨((w.all <<< nbits) % 2 ^ 64) ||| bits, w.num + nbits, w.out⟩

/-- The coding that applies to a token (enc_ans.cc:1288-1290). -/
def tokenConfig (p : Params) (histo : Nat) (t : Token) : Option Hybrid.Config :=
  if t.isLen then some p.lengthConfig else p.config[histo]?

/-- The token, extra bits and symbol table entry of one token (enc_ans.cc:1286-1295, and 1304-1307 without context map). -/
def encodeToken (p : Params) (infos : List (List Info)) (ctxOffset : Nat) (t : Token) : Option (Nat × Nat × Info) :=
  if p.lz77 ∨ p.contextMap.length > 1 then do
    let histo ← p.contextMap[ctxOffset + t.ctx]?
    let cfg ← tokenConfig p histo t
    let (tok, nbits, bits) := Hybrid.encode cfg t.value
    let tok := (tok + if t.isLen then p.minSymbol else 0) % 2 ^ 32
    let info ← infos[histo]?
    let i ← info[tok]?
    some (nbits, bits, i)
  else do
    let cfg ← p.config[0]?
    let (tok, nbits, bits) := Hybrid.encode cfg t.value
    let info ← infos[0]?
    let i ← info[tok]?
    some (nbits, bits, i)

/-- The reversed loop of `WriteTokens` (enc_ans.cc:1284-1313). -/
def putAll (p : Params) (infos : List (List Info)) (ctxOffset : Nat) : List Token → Option (Buf × Nat)
  | [] => some ({}, 0x13 <<< 16)
  | t :: ts => do
    let (w, state) ← putAll p infos ctxOffset ts
    let (nbits, bits, i) ← encodeToken p infos ctxOffset t
    let w := addbits w bits nbits
    let (abits, anbits, state) ← putSymbol state i
    some (addbits w abits anbits, state)

/-- `WriteTokens` (enc_ans.cc:1238-1321), ANS branch: the bits written. -/
def writeTokens (p : Params) (infos : List (List Info)) (ctxOffset : Nat) (ts : List Token) : Option (List Bool) := do
  let (w, state) ← putAll p infos ctxOffset ts
  some (bitsOf 32 state ++ (bitsOf w.num w.all ++ w.out.flatMap fun (n, b) => bitsOf n b))

/-- `ReadSymbolANSWithoutRefill` (dec_ans.h:163-193): symbol, new state, remaining bits. -/
def readSymbol (table : List Entry) (logAlpha state : Nat) (s : List Bool) : Option (Nat × Nat × List Bool) := do
  let (sym, off, freq) ← Alias.lookup table logAlpha (state &&& 4095)
  let state := (freq * (state >>> 12) + off) % 2 ^ 32
  if state < 2 ^ 16 then do
    let (b, s) ← rdBits 16 s
    some (sym, (state <<< 16) % 2 ^ 32 ||| b, s)
  else some (sym, state, s)

/-- The reading of one token (dec_ans.h:283-305, without the copy): whether it is a length, its value, state, remaining bits. -/
def readToken (p : Params) (tables : List (List Entry)) (logAlpha ctx state : Nat) (s : List Bool) :
    Option ((Bool × Nat) × Nat × List Bool) := do
  let histo ← p.contextMap[ctx]?
  let table ← tables[histo]?
  let (sym, state, s) ← readSymbol table logAlpha state s
  if p.lz77 ∧ sym ≥ p.minSymbol then do
    let (v, s) ← Hybrid.read p.lengthConfig (sym - p.minSymbol) s
    some ((true, v), state, s)
  else do
    let cfg ← p.config[histo]?
    let (v, s) ← Hybrid.read cfg sym s
    some ((false, v), state, s)

/-- Reading a token in each of the given contexts. -/
def readAll (p : Params) (tables : List (List Entry)) (logAlpha : Nat) : List Nat → Nat → List Bool →
    Option (List (Bool × Nat) × Nat × List Bool)
  | [], state, s => some ([], state, s)
  | c :: cs, state, s => do
    let (t, state, s) ← readToken p tables logAlpha c state s
    let (ts, state, s) ← readAll p tables logAlpha cs state s
    some (t :: ts, state, s)

/-- A reader is created by reading the state (dec_ans.cc:401-402), and `CheckANSFinalState` (dec_ans.h:222) is the last answer. -/
def decodeAll (p : Params) (tables : List (List Entry)) (logAlpha : Nat) (ctxs : List Nat) (s : List Bool) :
    Option (List (Bool × Nat) × Bool × List Bool) := do
  let (state, s) ← rdBits 32 s
  let (ts, state, s) ← readAll p tables logAlpha ctxs state s
  some (ts, state == 0x13 <<< 16, s)

end Jxl.Ans
