import Verif.Model.Ans
import Verif.Model.ContextMap
import Verif.Model.Histogram
import Verif.Model.HuffmanRead
import Verif.Model.HuffmanEnc
import Verif.Model.Lz77
import Verif.Model.Coders
/-!
# Model of a whole entropy-coded stream: header, context map, codes, tokens (lib/jxl/dec_ans.cc, dec_ans.h, dec_context_map.cc,
enc_ans.cc, enc_context_map.cc)

The parts (`Histo`, `Huffman`, `Hybrid`, `Ans`, `CtxMap`, `Lz77`) are modelled elsewhere; here they are put together the way
`DecodeHistograms`, `ANSSymbolReader`, `BuildAndEncodeHistograms` and `WriteTokens` do.  The bit reader supplies zeros past the end of the
stream; where a part's model refuses instead, so does this one (append zeros to the stream for the other behaviour).

Not modelled: that a bit reader marked unhealthy (`Lz77.State.bad`) while a context map is decoded remains so afterwards; `max_num_bits` and `degenerate_symbols`, which only feed checks and shortcuts of the callers; allocation failure.
-/
namespace Jxl.Stream

/-! ## Outcomes -/

/-- An undefined outcome, too deep a recursion, a refusal, or a result. -/
inductive Out (α : Type) where
  | ub
  | deep
  | bad
  | ok (a : α)

/-- Sequencing. -/
def Out.bind {α β : Type} (x : Out α) (f : α → Out β) : Out β :=
  match x with
  | .ub => .ub
  | .deep => .deep
  | .bad => .bad
  | .ok a => f a

instance : Monad Out where
  pure := Out.ok
  bind := Out.bind

/-- `none` is an access out of bounds. -/
def req {α : Type} : Option α → Out α
  | none => .ub
  | some a => .ok a

/-- `none` is a refusal. -/
def chk {α : Type} : Option α → Out α
  | none => .bad
  | some a => .ok a

/-- Memory that is used before anything was stored to it: a table of the prefix code reader (`t5`), the alias tables, the end of the
move-to-front table; and the size `2 ^ k` of a vector in bytes. -/
structure Env where
  t5 : List Huffman.Entry
  alias : Nat → Nat → List Alias.Entry
  pad : List Nat
  k : Nat

/-! ## Decoder -/

/-- `LZ77Params` (dec_ans.h:52-63) when enabled. -/
structure Lz where
  minSymbol : Nat
  minLength : Nat
  lengthConfig : Hybrid.Config
deriving DecidableEq

/-- The tables of the codes (`alias_tables` with `log_alpha_size`, or `huffman_data`). -/
inductive Tables where
  | ans (la : Nat) (tables : List (List Alias.Entry))
  | huff (tables : List (List Huffman.Entry))

/-- `ANSCode` (dec_ans.h:148-161) together with the context map. -/
structure Code where
  lz : Option Lz
  map : List Nat
  config : List Hybrid.Config
  tables : Tables

/-- Distributions of `min_symbol` and `min_length` (dec_ans.cc:310-313). -/
def minSymbolEnc : U32.Enc := ⟨U32.val 224, U32.val 512, U32.val 4096, U32.bitsOffset 15 8⟩
@[inherit_doc minSymbolEnc] def minLengthEnc : U32.Enc := ⟨U32.val 3, U32.val 4, U32.bitsOffset 2 5, U32.bitsOffset 8 9⟩

/-- `LZ77Params::VisitFields` (dec_ans.cc:307-315) and the coding of the lengths (dec_ans.cc:345-349). -/
def readLz (s : List Bool) : Option (Option Lz × List Bool) := do
  let (enabled, s) ← rdBits 1 s
  if enabled = 1 then
    let (minSymbol, s) ← U32.read minSymbolEnc s
    let (minLength, s) ← U32.read minLengthEnc s
    let (lengthConfig, s) ← Hybrid.readConfig 8 s
    some (some ⟨minSymbol, minLength, lengthConfig⟩, s)
  else some (none, s)

/-- `DecodeVarLenUint16` (dec_ans.cc:46-56). -/
def readVarLen16 (s : List Bool) : Nat × List Bool :=
  match Histo.rd 1 s with
  | (b, s) =>
    if b = 1 then
      match Histo.rd 4 s with
      | (n, s) => if n = 0 then (1, s) else match Histo.rd n s with | (v, s) => (v + 2 ^ n, s)
    else (0, s)

/-- `DecodeUintConfigs` (dec_ans.cc:297-305) for `n` clusters. -/
def readConfigs (la : Nat) : Nat → List Bool → Option (List Hybrid.Config × List Bool)
  | 0, s => some ([], s)
  | n + 1, s => do
    let (c, s) ← Hybrid.readConfig la s
    let (cs, s) ← readConfigs la n s
    some (c :: cs, s)

/-- The ANS branch of `DecodeANSCodes` (dec_ans.cc:233-268): `n` tables, the first of them number `i`. -/
def readAnsTables (env : Env) (la : Nat) : Nat → Nat → List Bool → Out (List (List Alias.Entry) × List Bool)
  | 0, _, s => .ok ([], s)
  | n + 1, i, s => do
    let (counts, s) ← chk (Histo.read s)
    if counts.length > 2 ^ la then .bad
    else do
      let t ← req (Alias.initTable counts la (env.alias la i))
      let (ts, s) ← readAnsTables env la n (i + 1) s
      .ok (t :: ts, s)

/-- The alphabet sizes of prefix codes (dec_ans.cc:204-210).  `alphabet_sizes` has 16-bit elements. -/
def readSizes : Nat → List Bool → Option (List Nat × List Bool)
  | 0, s => some ([], s)
  | n + 1, s =>
    match readVarLen16 s with
    | (v, s) =>
      let size := (v + 1) % 2 ^ 16
      if size > 2 ^ 15 then none
      else (readSizes n s).map fun (zs, s) => (size :: zs, s)

/-- One prefix code (dec_ans.cc:212-226). -/
def readHuffTable (env : Env) (size : Nat) (s : List Bool) : Out (List Huffman.Entry × List Bool) :=
  if size > 1 then (req (Huffman.readCode env.t5 size s)).bind chk
  else .ok (List.replicate 256 ⟨0, 0⟩, s)

/-- The prefix codes (dec_ans.cc:211-232). -/
def readHuffTables (env : Env) : List Nat → List Bool → Out (List (List Huffman.Entry) × List Bool)
  | [], s => .ok ([], s)
  | z :: zs, s => do
    let (t, s) ← readHuffTable env z s
    let (ts, s) ← readHuffTables env zs s
    .ok (t :: ts, s)

/-- The second half of `DecodeHistograms` (dec_ans.cc:362-374): kind of code, codings of integers, codes of `n` clusters. -/
def readCodes (env : Env) (n : Nat) (s : List Bool) : Out (List Hybrid.Config × Tables × List Bool) := do
  let (prefixCode, s) ← chk (rdBits 1 s)
  if prefixCode = 1 then do
    let (cs, s) ← chk (readConfigs 15 n s)
    let (zs, s) ← chk (readSizes n s)
    let (ts, s) ← readHuffTables env zs s
    .ok (cs, .huff ts, s)
  else do
    let (l, s) ← chk (rdBits 2 s)
    let (cs, s) ← chk (readConfigs (l + 5) n s)
    let (ts, s) ← readAnsTables env (l + 5) n 0 s
    .ok (cs, .ans (l + 5) ts, s)

/-- The entries of a context map (dec_context_map.cc:51-92); `dec` decodes the symbols of the entropy-coded form. -/
def readEntries (env : Env) (dec : Nat → List Bool → Out (List Nat × List Bool)) (n : Nat) (s : List Bool) : Out (List Nat × List Bool) := do
  let (simple, s) ← chk (rdBits 1 s)
  if simple = 1 then chk (CtxMap.readSimple n s)
  else do
    let (useMtf, s) ← chk (rdBits 1 s)
    let (syms, s) ← dec n s
    if CtxMap.maxElem syms ≥ 256 then .bad
    else if useMtf = 1 then do
      let m ← req (CtxMap.inverseMtf (2 ^ env.k) env.pad syms)
      .ok (m, s)
    else .ok (syms, s)

/-- `DecodeContextMap` (dec_context_map.cc:48-95) for a map of `n` entries: map, number of clusters, remaining bits. -/
def readMap (env : Env) (dec : Nat → List Bool → Out (List Nat × List Bool)) (n : Nat) (s : List Bool) : Out (List Nat × Nat × List Bool) := do
  let (map, s) ← readEntries env dec n s
  if map = [] then .ub
  else if CtxMap.verify map (CtxMap.maxElem map + 1) then .ok (map, CtxMap.maxElem map + 1, s)
  else .bad

/-- `ReadSymbolANSWithoutRefill` (dec_ans.h:163-193). -/
def readAns (table : List Alias.Entry) (la state : Nat) (s : List Bool) : Out (Nat × Nat × List Bool) := do
  let (sym, off, freq) ← req (Alias.lookup table la (state &&& 4095))
  let state := (freq * (state >>> 12) + off) % 2 ^ 32
  if state < 2 ^ 16 then do
    let (b, s) ← chk (rdBits 16 s)
    .ok (sym, (state <<< 16) % 2 ^ 32 ||| b, s)
  else .ok (sym, state, s)

/-- `ReadSymbol` (dec_ans.h:195-213) in cluster `h`: symbol, state, remaining bits. -/
def readSym (t : Tables) (h state : Nat) (s : List Bool) : Out (Nat × Nat × List Bool) :=
  match t with
  | .ans la ts => do
    let t ← req ts[h]?
    readAns t la state s
  | .huff ts => do
    let t ← req ts[h]?
    let (sym, s) ← req (Huffman.readSymbol t s)
    .ok (sym, state, s)

/-- `ANSSymbolReader` (dec_ans.h:460-490) and the position in the stream. -/
structure St where
  ans : Nat
  lz : Lz77.State
  bits : List Bool

/-- A symbol of cluster `h` and the integer it begins (dec_ans.h:297-304, 305-306, 349). -/
def readInt (c : Code) (h state : Nat) (s : List Bool) : Out (Nat × Nat × List Bool) := do
  let (sym, state, s) ← readSym c.tables h state s
  let cfg ← req c.config[h]?
  let (v, s) ← chk (Hybrid.read cfg sym s)
  .ok (v, state, s)

/-- One value of a copy (dec_ans.h:290-295, 340-343). -/
def copyOne (st : St) : Out (Nat × St) := do
  let (v, l) ← req (Lz77.copyStep st.lz)
  .ok (v, { st with lz := l })

/-- A length was read: the distance, and the first value (dec_ans.h:299-344). -/
def readCopy (c : Code) (z : Lz) (mult sym state : Nat) (lz : Lz77.State) (s : List Bool) : Out (Nat × St) := do
  let (len, s) ← chk (Hybrid.read z.lengthConfig (sym - z.minSymbol) s)
  let d ← req c.map.getLast?
  let (dist, state, s) ← readInt c d state s
  let t ← req (Lz77.startCopy ⟨z.minLength, mult⟩ lz len dist)
  if t.toCopy < z.minLength then .ok (0, ⟨state, { t with toCopy := 0, bad := true }, s⟩)
  else copyOne ⟨state, t, s⟩

/-- A literal of a stream with copies (dec_ans.h:349-352). -/
def readLit (c : Code) (h sym state : Nat) (lz : Lz77.State) (s : List Bool) : Out (Nat × St) := do
  let cfg ← req c.config[h]?
  let (v, s) ← chk (Hybrid.read cfg sym s)
  let t ← req (Lz77.push lz v)
  .ok (v, ⟨state, t, s⟩)

/-- `ReadHybridUintClustered` (dec_ans.h:285-353) in cluster `h`. -/
def readValue (c : Code) (mult h : Nat) (st : St) : Out (Nat × St) :=
  match c.lz with
  | none => do
    let (v, state, s) ← readInt c h st.ans st.bits
    .ok (v, ⟨state, st.lz, s⟩)
  | some z =>
    if st.lz.toCopy > 0 then copyOne st
    else do
      let (sym, state, s) ← readSym c.tables h st.ans st.bits
      if sym ≥ z.minSymbol then readCopy c z mult sym state st.lz s
      else readLit c h sym state st.lz s

/-- `ReadHybridUint` (dec_ans.h:381-384) in each of the given contexts. -/
def readValues (c : Code) (mult : Nat) : List Nat → St → Out (List Nat × St)
  | [], st => .ok ([], st)
  | x :: xs, st => do
    let h ← req c.map[x]?
    let (v, st) ← readValue c mult h st
    let (vs, st) ← readValues c mult xs st
    .ok (v :: vs, st)

/-- The constructor of `ANSSymbolReader` (dec_ans.cc:392-420). -/
def start (t : Tables) (s : List Bool) : Out St :=
  match t with
  | .ans _ _ => do
    let (x, s) ← chk (rdBits 32 s)
    .ok ⟨x, Lz77.start, s⟩
  | .huff _ => .ok ⟨0x13 <<< 16, Lz77.start, s⟩

/-- A reader is created and values are read in the given contexts. -/
def decode (c : Code) (mult : Nat) (ctxs : List Nat) (s : List Bool) : Out (List Nat × St) := do
  let st ← start c.tables s
  readValues c mult ctxs st

/-- `CheckANSFinalState` (dec_ans.h:222). -/
def finalOk (st : St) : Bool := st.ans == 0x13 <<< 16

/-- The context map if there is one (dec_ans.cc:350-360). -/
def readMapIf (env : Env) (dec : Nat → List Bool → Out (List Nat × List Bool)) (n : Nat) (s : List Bool) : Out (List Nat × Nat × List Bool) :=
  if n > 1 then readMap env dec n s else .ok (List.replicate n 0, 1, s)

/-- `DecodeHistograms` (dec_ans.cc:341-375) for `n` contexts; `dec` decodes the symbols of an entropy-coded context map. -/
def readHeaderWith (env : Env) (dec : Nat → List Bool → Out (List Nat × List Bool)) (disallow : Bool) (n : Nat) (s : List Bool) :
    Out (Code × List Bool) := do
  let (lz, s) ← chk (readLz s)
  if lz.isSome ∧ disallow then .bad
  else do
    let (map, k, s) ← readMapIf env dec (if lz.isSome then n + 1 else n) s
    let (config, tables, s) ← readCodes env k s
    .ok (⟨lz, map, config, tables⟩, s)

/-- The symbols of an entropy-coded context map of `n` entries (dec_context_map.cc:62-84); `header` is the nested `DecodeHistograms`. -/
def readMapSymbols (header : Bool → Nat → List Bool → Out (Code × List Bool)) (n : Nat) (s : List Bool) : Out (List Nat × List Bool) := do
  let (c, s) ← header (n ≤ 2) 1 s
  let (vs, st) ← decode c 0 (List.replicate n 0) s
  if finalOk st then .ok (vs, st.bits) else .bad

/-- `DecodeHistograms` with at most `fuel` nested calls. -/
def readHeader (env : Env) : Nat → Bool → Nat → List Bool → Out (Code × List Bool)
  | 0 => readHeaderWith env fun _ _ => .deep
  | fuel + 1 => readHeaderWith env (readMapSymbols (readHeader env fuel))

/-- `DecodeHistograms` as its callers use it. -/
def decodeHistograms (env : Env) (n : Nat) (s : List Bool) : Out (Code × List Bool) := readHeader env 2 false n s

/-! ## Encoder

What the encoder chooses by cost (clusters, codings of integers, normalised counts, the form of the context map, LZ77 copies) is given. -/

open Ans (Token)

/-- The statistics of the clusters: normalised histograms with the logarithm of the alphabet, or plain counts. -/
inductive Stats where
  | ans (la : Nat) (hists : List Histo.Hist)
  | huff (counts : List (List Nat))

/-- `EntropyEncodingData` (enc_ans.h:107-137), before the tables are made. -/
structure Plan where
  lz : Option Lz
  map : List Nat
  config : List Hybrid.Config
  stats : Stats
  useMtf : Bool
  simpleCheaper : Bool

/-- The tables of the encoder (`encoding_info`): for ANS, or number of bits and bits of each symbol. -/
inductive Infos where
  | ans (infos : List (List Ans.Info))
  | huff (infos : List (List (Nat × Nat)))

/-- `StoreVarLenUint16` (enc_ans.cc:66-77). -/
def storeVarLen16 (n : Nat) : List Bool :=
  if n = 0 then bitsOf 1 0 else bitsOf 1 1 ++ bitsOf 4 n.log2 ++ bitsOf n.log2 (n - 2 ^ n.log2)

/-- Writing `LZ77Params` and the coding of the lengths (enc_ans.cc:1102-1113). -/
def writeLz : Option Lz → Option (List Bool)
  | none => some (bitsOf 1 0)
  | some z => do
    let a ← U32.write minSymbolEnc z.minSymbol
    let b ← U32.write minLengthEnc z.minLength
    some (bitsOf 1 1 ++ a ++ b ++ Hybrid.writeConfig 8 z.lengthConfig)

/-- One histogram (enc_ans.cc:670-686): the bits and the table of symbols; `mem` is the uninitialised alias table. -/
def storeAns (mem : List Alias.Entry) (la : Nat) (h : Histo.Hist) : Option (List Bool × List Ans.Info) := do
  let t ← Alias.initTable (h.counts.take h.size) la mem
  let i ← Ans.buildInfo (h.counts.take h.size) t la
  let b ← Histo.encode h
  some (b, i)

/-- One prefix code (enc_ans.cc:638-669): the bits, and number of bits and bits of each symbol. -/
def storeHuff (counts : List Nat) : Option (List Bool × List (Nat × Nat)) :=
  if counts.length ≤ 1 then some ([], List.replicate counts.length (0, 0))
  else
    (Huffman.buildStore counts).map fun b =>
      (b.header, (List.range counts.length).map fun i => (b.depth.getD i 0, if b.depth.getD i 0 = 0 then 0 else b.bits.getD i 0))

/-- All clusters in turn. -/
def storeAll {α β : Type} (f : α → Option (List Bool × β)) : List α → Option (List Bool × List β)
  | [] => some ([], [])
  | x :: xs => do
    let (b, i) ← f x
    let (bs, is) ← storeAll f xs
    some (b ++ bs, i :: is)

/-- The end of `BuildAndStoreEntropyCodes` (enc_ans.cc:968-1017): bits and tables; `mem` is the uninitialised alias table, by
logarithm of its size. -/
def storeCodes (mem : Nat → List Alias.Entry) (p : Plan) : Option (List Bool × Infos) :=
  match p.stats with
  | .ans la hs =>
    (storeAll (storeAns (mem la) la) hs).map fun (b, i) =>
      (bitsOf 1 0 ++ bitsOf 2 (la - 5) ++ p.config.flatMap (Hybrid.writeConfig la) ++ b, .ans i)
  | .huff cs =>
    (storeAll storeHuff cs).map fun (b, i) =>
      (bitsOf 1 1 ++ p.config.flatMap (Hybrid.writeConfig 15) ++ cs.flatMap (fun c => storeVarLen16 (max 1 c.length - 1)) ++ b, .huff i)

/-- What `WriteTokens` knows of the stream, in the form of the ANS model. -/
def Plan.params (p : Plan) : Ans.Params where
  lz77 := p.lz.isSome
  minSymbol := (p.lz.map (·.minSymbol)).getD 0
  lengthConfig := (p.lz.map (·.lengthConfig)).getD ⟨0, 0, 0⟩
  config := p.config
  contextMap := p.map

/-- One token with prefix codes (enc_ans.cc:1244-1260). -/
def huffToken (p : Ans.Params) (infos : List (List (Nat × Nat))) (off : Nat) (t : Token) : Option (List Bool) := do
  let histo ← p.contextMap[off + t.ctx]?
  let cfg ← Ans.tokenConfig p histo t
  let (tok, nbits, bits) := Hybrid.encode cfg t.value
  let tok := (tok + if t.isLen then p.minSymbol else 0) % 2 ^ 32
  let info ← infos[histo]?
  let (depth, word) ← info[tok]?
  some (bitsOf (depth + nbits) ((word ||| (bits <<< depth)) % 2 ^ 64))

/-- The prefix code branch of `WriteTokens` (enc_ans.cc:1242-1262). -/
def huffTokens (p : Ans.Params) (infos : List (List (Nat × Nat))) (off : Nat) : List Token → Option (List Bool)
  | [] => some []
  | t :: ts => do
    let b ← huffToken p infos off t
    let bs ← huffTokens p infos off ts
    some (b ++ bs)

/-- `WriteTokens` (enc_ans.cc:1238-1321). -/
def writeTokens (p : Plan) (i : Infos) (off : Nat) (ts : List Token) : Option (List Bool) :=
  match i with
  | .ans infos => Ans.writeTokens p.params infos off ts
  | .huff infos => huffTokens p.params infos off ts

/-- A stream inside the stream: what the encoder chose for the symbols of a context map, and the tokens after LZ77. -/
structure Layer where
  plan : Plan
  tokens : List Token

/-- Number of clusters. -/
def Plan.clusters (p : Plan) : Nat :=
  match p.stats with
  | .ans _ hs => hs.length
  | .huff cs => cs.length

/-- The context map is written as an entropy-coded stream (enc_context_map.cc:68-74, 110-113). -/
def Plan.coded (p : Plan) : Prop :=
  p.map.length > 1 ∧ p.clusters ≠ 1 ∧ ¬ (Lehmer.ceilLog2 p.clusters < 4 ∧ p.simpleCheaper = true)

instance (p : Plan) : Decidable p.coded := inferInstanceAs (Decidable (_ ∧ _ ∧ ¬ (_ ∧ _)))

/-- The entropy-coded symbols of a context map (enc_context_map.cc:102-108). -/
def Plan.symbols (p : Plan) : Option (List Nat) := if p.useMtf then CtxMap.mtfTransform p.map else some p.map

/-- The context map if there is one (enc_ans.cc:1196-1201, `EncodeContextMap` enc_context_map.cc:65-137); `nested` are the bits of its
entropy-coded form. -/
def writeMap (nested : Option (List Bool)) (p : Plan) : Option (List Bool) :=
  if p.map.length > 1 then
    if p.coded then do
      let b ← nested
      CtxMap.encode p.useMtf p.simpleCheaper (fun _ => b) p.map p.clusters
    else CtxMap.encode p.useMtf p.simpleCheaper (fun _ => []) p.map p.clusters
  else some []

/-- The header of a stream, `BuildAndEncodeHistograms` (enc_ans.cc:1080-1236): bits and tables. -/
def writeHeaderWith (mem : Nat → List Alias.Entry) (nested : Option (List Bool)) (p : Plan) : Option (List Bool × Infos) := do
  let a ← writeLz p.lz
  let m ← writeMap nested p
  let (b, i) ← storeCodes mem p
  some (a ++ (m ++ b), i)

/-- The header of a stream; the first layer is the stream of its context map, and so on inwards (enc_context_map.cc:96-128). -/
def writeHeader (mem : Nat → List Alias.Entry) : List Layer → Plan → Option (List Bool × Infos)
  | [], p => writeHeaderWith mem none p
  | l :: ls, p => writeHeaderWith mem (do
      let (b, i) ← writeHeader mem ls l.plan
      let t ← writeTokens l.plan i 0 l.tokens
      some (b ++ t)) p

end Jxl.Stream
