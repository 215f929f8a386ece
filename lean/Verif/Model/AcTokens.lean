import Verif.Spec.CoeffOrder
import Verif.Model.HybridUint
/-!
# Coding of quantized coefficients

`lib/jxl/ac_context.h:27-156` (contexts), `lib/jxl/entropy_coder.h:25-35` (`PredictFromTopAndLeft`),
`lib/jxl/enc_entropy_coder.cc:44-248` (`NumNonZeroExceptLLF`, `NumNonZero8x8ExceptDC`, `TokenizeCoefficients`),
`lib/jxl/dec_group.cc:470-600` (`DecodeACVarBlock`, `GetBlockFromBitstream`), `lib/jxl/enc_progressive_split.cc:20-75`
(`SplitACCoefficients`).

Simplifications: the entropy coder is a list of pairs of context and value, and reading in a context other than the one
written is the outcome `fail` (the entropy coder itself: C10-C16).  Vector loops are loops over all the coefficients.
Images are functions of column and row.  The list of transforms of a group is the one that encoder and decoder visit
(C48).  A table index outside a table is the outcome `ub`.  The 64-bit products of the decoder cannot overflow (values
below 2^32, shifts at most 3), so they are integers; the stored sums wrap around at 16 or 32 bits.
-/
namespace Jxl.AcTokens
open CoeffOrder

/-- Result of an operation that may be refused or may leave a table. -/
inductive Out (α : Type) where
  | ok (a : α)
  | fail
  | ub
  deriving DecidableEq

/-- Sequencing. -/
def Out.bind {α β : Type} : Out α → (α → Out β) → Out β
  | .ok a, f => f a
  | .fail, _ => .fail
  | .ub, _ => .ub

/-- A table access. -/
def get {α : Type} (l : List α) (i : Nat) : Out α :=
  match l[i]? with
  | some a => .ok a
  | none => .ub

/-- `kCoeffFreqContext` (ac_context.h:29-34). -/
def coeffFreq : List Nat :=
  [0xBAD, 0, 1, 2, 3, 4, 5, 6, 7, 8, 9, 10, 11, 12, 13, 14,
   15, 15, 16, 16, 17, 17, 18, 18, 19, 19, 20, 20, 21, 21, 22, 22,
   23, 23, 23, 23, 24, 24, 24, 24, 25, 25, 25, 25, 26, 26, 26, 26,
   27, 27, 27, 27, 28, 28, 28, 28, 29, 29, 29, 29, 30, 30, 30, 30]

/-- `kCoeffNumNonzeroContext` (ac_context.h:36-42). -/
def coeffNumNonzero : List Nat :=
  [0xBAD, 0, 31, 62, 62, 93, 93, 93, 93, 123, 123, 123, 123,
   152, 152, 152, 152, 152, 152, 152, 152, 180, 180, 180, 180, 180,
   180, 180, 180, 180, 180, 180, 180, 206, 206, 206, 206, 206, 206,
   206, 206, 206, 206, 206, 206, 206, 206, 206, 206, 206, 206, 206,
   206, 206, 206, 206, 206, 206, 206, 206, 206, 206, 206, 206]

/-- `ZeroDensityContext` (ac_context.h:66-88). -/
def zeroDensityContext (left k covered log2 prev : Nat) : Out Nat :=
  (get coeffNumNonzero ((left + covered - 1) >>> log2)).bind fun a =>
    (get coeffFreq (k >>> log2)).bind fun b => .ok ((a + b) * 2 + prev)

/-- `BlockCtxMap` (ac_context.h:90-94), without the DC thresholds, which are used elsewhere. -/
structure BlockCtxMap where
  qfThresholds : List Nat
  ctxMap : List Nat
  numCtxs : Nat
  numDcCtxs : Nat

/-- `BlockCtxMap::Context` (ac_context.h:106-116); `kNumOrders` is 13. -/
def BlockCtxMap.context (m : BlockCtxMap) (dcIdx qf ord c : Nat) : Out Nat :=
  let qfIdx := (m.qfThresholds.filter fun t => decide (qf > t)).length
  let idx := if c < 2 then c ^^^ 1 else 2
  let idx := idx * 13 + ord
  let idx := idx * (m.qfThresholds.length + 1) + qfIdx
  let idx := idx * m.numDcCtxs + dcIdx
  get m.ctxMap idx

/-- `ZeroDensityContextsOffset` (ac_context.h:119-122). -/
def BlockCtxMap.zeroDensityOffset (m : BlockCtxMap) (b : Nat) : Nat := m.numCtxs * 37 + 458 * b

/-- `NumACContexts` (ac_context.h:132-135). -/
def BlockCtxMap.numACContexts (m : BlockCtxMap) : Nat := m.numCtxs * (37 + 458)

/-- `NonZeroContext` (ac_context.h:139-148). -/
def BlockCtxMap.nonZeroContext (m : BlockCtxMap) (n b : Nat) : Nat :=
  let n := if n ≥ 64 then 64 else n
  (if n < 8 then n else 4 + n / 2) * m.numCtxs + b

/-- The image of the numbers of nonzero coefficients per block, one for each channel. -/
abbrev NzImage := Nat → Nat → Nat

/-- `PredictFromTopAndLeft` (entropy_coder.h:25-35) with default 32; row 0 has no row above
(enc_entropy_coder.cc:172-176, dec_group.cc:562-565). -/
def predict (nz : NzImage) (x y : Nat) : Nat :=
  if x = 0 then (if y = 0 then 32 else nz x (y - 1))
  else if y = 0 then nz (x - 1) y
  else (nz x (y - 1) + nz (x - 1) y + 1) / 2

/-- Writing the number into all the blocks of the transform (enc_entropy_coder.cc:93-97, dec_group.cc:502-507). -/
def fill (nz : NzImage) (x y cx cy v : Nat) : NzImage := fun a b =>
  if x ≤ a ∧ a < x + cx ∧ y ≤ b ∧ b < y + cy then v else nz a b

/-- What both sides know: subsampling shifts per channel, DC contexts per block, quantizers, coefficient orders and
the context map. -/
structure Env where
  hs : Nat → Nat
  vs : Nat → Nat
  qdc : Nat → Nat → Nat
  qf : Nat → Nat → Nat
  cm : BlockCtxMap

/-- A transform of the group: first block and kind. -/
structure Visit where
  bx : Nat
  by' : Nat
  t : Nat

def Visit.covered (v : Visit) : Nat := coveredX.getD v.t 0 * coveredY.getD v.t 0
/-- `log2_covered_blocks` (ac_strategy.h:161-169). -/
def log2Covered : List Nat :=
  [0, 0, 0, 0, 2, 4, 1, 1, 2, 2, 3, 3, 0, 0, 0, 0, 0, 0, 6, 5, 5, 8, 7, 7, 10, 9, 9]
def Visit.log2 (v : Visit) : Nat := log2Covered.getD v.t 0
def Visit.size (v : Visit) : Nat := v.covered * 64

/-- Whether the channel has this block (enc_entropy_coder.cc:199-200, dec_group.cc:577-581). -/
def Env.has (e : Env) (v : Visit) (c : Nat) : Bool :=
  (v.bx >>> e.hs c) <<< e.hs c == v.bx && (v.by' >>> e.vs c) <<< e.vs c == v.by'

/-- A value and the context it is coded in. -/
abbrev Token := Nat × Nat

/-- `PackSigned` on the values (C07). -/
def zigzag (v : Int) : Nat := if 0 ≤ v then (2 * v).toNat else (-2 * v - 1).toNat

/-- The decoder's inverse (dec_group.cc:520-524), before the shift. -/
def unzigzag (u : Nat) : Int := if u % 2 = 0 then ((u / 2 : Nat) : Int) else -((u / 2 : Nat) : Int) - 1

/-! ## Encoder -/

/-- `NumNonZero8x8ExceptDC` (enc_entropy_coder.cc:105-142). -/
def countSmall (block : Nat → Int) : Nat :=
  (List.range 64).countP fun i => decide (i ≠ 0 ∧ block i ≠ 0)

/-- `NumNonZeroExceptLLF` (enc_entropy_coder.cc:49-90): coefficients `8 cx` wide and `8 cy` high.  The mask has -1 in its
first four lanes and is read from lane `32 - cx` on. -/
def countLarge (cx cy : Nat) (block : Nat → Int) : Nat :=
  (List.range (cx * cy * 64)).countP fun i =>
    decide (¬ (i / (cx * 8) < cy ∧ 32 - cx + i % (cx * 8) < 4) ∧ block i ≠ 0)

/-- The loop over the coefficients (enc_entropy_coder.cc:228-237); `ps` are the positions from index `k` on. -/
def encLoop (covered log2 histo : Nat) (block : Nat → Int) :
    List Nat → Nat → Nat → Nat → Out (List Token × Nat)
  | [], _, nz, _ => .ok ([], nz)
  | p :: ps, k, nz, prev =>
    if nz = 0 then .ok ([], nz)
    else
      (zeroDensityContext nz k covered log2 prev).bind fun ctx =>
        let now := if block p ≠ 0 then 1 else 0
        (encLoop covered log2 histo block ps (k + 1) (nz - now) now).bind fun r =>
          .ok ((histo + ctx, zigzag (block p)) :: r.1, r.2)

/-- One channel of one transform (enc_entropy_coder.cc:198-240). -/
def encBlock (e : Env) (order : List Nat) (v : Visit) (c : Nat) (block : Nat → Int) (nz : NzImage) :
    Out (List Token × NzImage) :=
  let sx := v.bx >>> e.hs c
  let sy := v.by' >>> e.vs c
  let n := if v.covered = 1 then countSmall block else countLarge (cxOf v.t) (cyOf v.t) block
  let stored := if v.covered = 1 then n else (n + v.covered - 1) >>> v.log2
  let nz' := fill nz sx sy (coveredX.getD v.t 0) (coveredY.getD v.t 0) stored
  (e.cm.context (e.qdc v.bx v.by') (e.qf sx v.by') (ordOf v.t) c).bind fun b =>
    (encLoop v.covered v.log2 (e.cm.zeroDensityOffset b) block ((order.take v.size).drop v.covered) v.covered n
        (if n > v.size / 16 then 0 else 1)).bind fun r =>
      if r.2 = 0 then .ok ((e.cm.nonZeroContext (predict nz' sx sy) b, n) :: r.1, nz') else .fail

/-- State of the encoder: numbers of nonzeros and position in the coefficients, per channel. -/
structure EncState where
  nz : Nat → NzImage
  off : Nat → Nat

/-- A change in one component. -/
def set1 {α : Type} (f : Nat → α) (i : Nat) (v : α) : Nat → α := fun j => if j = i then v else f j

/-- The channels of one transform (enc_entropy_coder.cc:198-240). -/
def encChans (e : Env) (order : Nat → Nat → List Nat) (ac : Nat → Nat → Int) (v : Visit) :
    List Nat → EncState → Out (List Token × EncState)
  | [], s => .ok ([], s)
  | c :: cs, s =>
    if e.has v c then
      (encBlock e (order (ordOf v.t) c) v c (fun i => ac c (s.off c + i)) (s.nz c)).bind fun p =>
        (encChans e order ac v cs ⟨set1 s.nz c p.2, set1 s.off c (s.off c + v.size)⟩).bind fun q =>
          .ok (p.1 ++ q.1, q.2)
    else encChans e order ac v cs s

/-- `TokenizeCoefficients` (enc_entropy_coder.cc:150-245) over the transforms of a group. -/
def encGroup (e : Env) (order : Nat → Nat → List Nat) (ac : Nat → Nat → Int) :
    List Visit → EncState → Out (List Token)
  | [], _ => .ok []
  | v :: vs, s =>
    (encChans e order ac v [1, 0, 2] s).bind fun p => (encGroup e order ac vs p.2).bind fun ts => .ok (p.1 ++ ts)

/-! ## Decoder -/

/-- What the decoder knows about a pass: shift, first context of the set of histograms in use, size of the context
map (dec_frame.cc:403-404: that of all sets, and 16 more), orders. -/
structure Pass where
  shift : Nat
  ctxOffset : Nat
  mapSize : Nat
  order : Nat → Nat → List Nat

/-- Reading a value in a context. -/
def next (q : Pass) (ctx : Nat) (ts : List Token) : Out (Nat × List Token) :=
  if q.mapSize ≤ ctx then .ub
  else
    match ts with
    | [] => .fail
    | (c, v) :: ts => if q.ctxOffset + c = ctx then .ok (v, ts) else .fail

/-- Wrapping to `n` bits, signed. -/
def wrap (n : Nat) (v : Int) : Int := v.bmod (2 ^ n)

/-- The loop over the coefficients (dec_group.cc:513-535); `base` is the place of the block in the array. -/
def decLoop (bits : Nat) (q : Pass) (covered log2 histo base : Nat) :
    List Nat → Nat → Nat → Nat → List Token → (Nat → Int) → Out (Nat × List Token × (Nat → Int))
  | [], _, nz, _, ts, co => .ok (nz, ts, co)
  | p :: ps, k, nz, prev, ts, co =>
    if nz = 0 then .ok (nz, ts, co)
    else
      (zeroDensityContext nz k covered log2 prev).bind fun ctx =>
        (next q (histo + ctx) ts).bind fun r =>
          let now := if r.1 ≠ 0 then 1 else 0
          if p < covered * 64 then
            decLoop bits q covered log2 histo base ps (k + 1) (nz - now) now r.2
              (set1 co (base + p) (wrap bits (co (base + p) + unzigzag r.1 * 2 ^ q.shift)))
          else .ub

/-- `DecodeACVarBlock` (dec_group.cc:470-548). -/
def decBlock (bits : Nat) (e : Env) (q : Pass) (v : Visit) (c base : Nat) (nz : NzImage) (ts : List Token)
    (co : Nat → Int) : Out (NzImage × List Token × (Nat → Int)) :=
  let sx := v.bx >>> e.hs c
  let sy := v.by' >>> e.vs c
  let covered := 1 <<< v.log2
  (e.cm.context (e.qdc v.bx v.by') (e.qf sx v.by') (ordOf v.t) c).bind fun b =>
    (next q (e.cm.nonZeroContext (predict nz sx sy) b + q.ctxOffset) ts).bind fun r =>
      if r.1 > covered * 64 - covered then .fail
      else
        let nz' := fill nz sx sy (coveredX.getD v.t 0) (coveredY.getD v.t 0) ((r.1 + covered - 1) >>> v.log2)
        (decLoop bits q covered v.log2 (q.ctxOffset + e.cm.zeroDensityOffset b) base
            (((q.order (ordOf v.t) c).take (covered * 64)).drop covered) covered r.1
            (if r.1 > covered * 64 / 16 then 0 else 1) r.2 co).bind fun d =>
          if d.1 ≠ 0 then .fail else .ok (nz', d.2)

/-- State of the decoder: per pass the numbers of nonzeros and the tokens to come; per channel the coefficients. -/
structure DecState where
  nz : Nat → Nat → NzImage
  ts : Nat → List Token
  co : Nat → Nat → Int

/-- The passes of one channel (dec_group.cc:583-597); `i` is the number of the pass. -/
def decPasses (bits : Nat) (e : Env) (v : Visit) (c base : Nat) : List Pass → Nat → DecState → Out DecState
  | [], _, s => .ok s
  | q :: qs, i, s =>
    (decBlock bits e q v c base (s.nz i c) (s.ts i) (s.co c)).bind fun d =>
      decPasses bits e v c base qs (i + 1)
        ⟨set1 s.nz i (set1 (s.nz i) c d.1), set1 s.ts i d.2.1, set1 s.co c d.2.2⟩

/-- `LoadBlock` (dec_group.cc:572-600). -/
def decChans (bits : Nat) (e : Env) (qs : List Pass) (v : Visit) (base : Nat) : List Nat → DecState → Out DecState
  | [], s => .ok s
  | c :: cs, s =>
    if e.has v c then
      (decPasses bits e v c base qs 0 s).bind fun s => decChans bits e qs v base cs s
    else decChans bits e qs v base cs s

/-- The loop over the transforms (dec_group.cc:333-359): the place advances by the size of each transform. -/
def decGroup (bits : Nat) (e : Env) (qs : List Pass) : List Visit → Nat → DecState → Out DecState
  | [], _, s => .ok s
  | v :: vs, off, s =>
    (decChans bits e qs v off [1, 0, 2] s).bind fun s => decGroup bits e qs vs (off + v.size) s

/-! ## Progressive splitting -/

/-- `shift_right_round0` (enc_progressive_split.cc:25-29) on values of at most 32 bits. -/
def shiftRound0 (v : Int) (s : Nat) : Int := (v + (if v < 0 then 2 ^ s - 1 else 0)) / 2 ^ s

/-- `PassDefinition` (enc_progressive_split.h:28-39). -/
structure PassDef where
  ncoeffs : Nat
  shift : Nat

/-- The loop over the passes (enc_progressive_split.cc:36-69) for one coefficient at column `x` and row `y` of a
transform with `cx` × `cy` blocks, whose value is `v`. -/
def splitLoop (cx cy x y : Nat) (v : Int) : List PassDef → Nat → Nat → List Int
  | [], _, _ => []
  | p :: ps, done, prevShift =>
    let out :=
      if x < cx * p.ncoeffs ∧ y < cy * p.ncoeffs then
        if x < cx * done ∧ y < cy * done then 0
        else
          let w := if prevShift ≠ 0 then v - shiftRound0 v prevShift * 2 ^ prevShift else v
          shiftRound0 w p.shift
      else 0
    out :: splitLoop cx cy x y v ps (if p.shift = 0 then p.ncoeffs else done) p.shift

/-- `SplitACCoefficients` (enc_progressive_split.cc:20-75) for one coefficient: its value in each pass. -/
def split (cx cy x y : Nat) (v : Int) (ps : List PassDef) : List Int :=
  if ps.length = 1 then [v] else splitLoop cx cy x y v ps 1 0

/-! ## Width of the stored coefficients -/

/-- `ANSCode::UpdateMaxNumBits` (dec_ans.cc:318-339) for one symbol that is not an LZ77 length. -/
def symbolBits (c : Hybrid.Config) (symbol : Nat) : Nat :=
  if symbol < c.splitToken then c.splitExp
  else
    let extra := c.splitExp - (c.msb + c.lsb) + ((symbol - c.splitToken) >>> (c.msb + c.lsb))
    c.msb + c.lsb + extra + 1

/-- The width of the stored coefficients (dec_frame.cc:407-415), when not decoding to JPEG. -/
def width (maxBits numPasses : Nat) : Nat := if maxBits + Lehmer.ceilLog2 numPasses < 16 then 16 else 32

end Jxl.AcTokens
