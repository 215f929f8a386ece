import Verif.Model.Histogram
/-!
# Model of the normalisation of histograms (lib/jxl/enc_ans.cc: `ANSEncodingHistogram::RebalanceHistogram`)

Floating point stays abstract: the rounding of `freq * norm`, the comparison `target > 1.0` and the fixed-point logarithms are parameters.
An index outside the filled part of `allowed_counts` is the outcome `outside`: the code would use values that were never stored.
Frequencies and counts are naturals, the height of the balancing bin is an integer; 64-bit products cannot overflow and are not bounded.
-/
namespace Jxl.Histo

/-- The floating-point results: `round` is `round(freq * norm)`, `big` is `target > 1.0`, `lg2` is the table of logarithms, and
`ratio prev curr` is the rounded logarithm of `prev / curr` (enc_ans.cc:457-480, 572-615). -/
structure Float64 where
  round : Nat → Nat
  big : Nat → Bool
  lg2 : Nat → Int
  ratio : Nat → Nat → Int

/-- `SmallestIncrementLog` (enc_ans.cc:399-404). -/
def smallestIncLog (count shift : Nat) : Nat := if count = 0 then 0 else count.log2 - precision count.log2 shift

/-- Rounding down to an allowed count, `count & ~(inc - 1)` (enc_ans.cc:473-475, 594). -/
def allow (shift count : Nat) : Nat := count / 2 ^ smallestIncLog count shift * 2 ^ smallestIncLog count shift

/-- The counts of `allowed_counts.array[shift]` from `i - 1` down to 0, after a previous count (enc_ans.cc:592-614). -/
def allowedFrom (shift : Nat) : Nat → Option Nat → List Nat
  | 0, _ => []
  | i + 1, last => if last = some (allow shift i) then allowedFrom shift i last else allow shift i :: allowedFrom shift i (some (allow shift i))

/-- `allowed_counts.array[shift]`: decreasing from at most 4095 to 0 (enc_ans.cc:581-618). -/
def allowed (shift : Nat) : List Nat := allowedFrom shift 4096 none

/-- `step_log` of a slot (enc_ans.cc:591, 603, 608). -/
def stepLog (ac : List Nat) (slot : Nat) : Nat :=
  if slot = 0 ∨ ac.getD slot 0 = 0 then 0 else (ac.getD (slot - 1) 0 - ac.getD slot 0).log2

/-- `delta_lg2` of a slot (enc_ans.cc:590, 602, 606-607). -/
def deltaLg2 (F : Float64) (ac : List Nat) (slot : Nat) : Int :=
  if slot = 0 then 0 else if ac.getD slot 0 = 0 then 2 ^ 31 - 1 else F.ratio (ac.getD (slot - 1) 0) (ac.getD slot 0)

/-- `EntropyDelta` (enc_ans.cc:420-424). -/
structure Bin where
  freq : Nat
  ind : Nat
  pos : Nat
deriving DecidableEq

/-- The largest 64-bit integer. -/
def int64Max : Int := 2 ^ 63 - 1

/-- `balance_inc[log]` (enc_ans.cc:496-520). -/
def balanceInc (F : Float64) (maxFreq : Nat) (rest : Int) (log : Nat) : Int :=
  if rest ≥ 4096 then 0
  else if rest > 1 then
    if rest > 2 ^ log then maxFreq * (F.lg2 rest.toNat - F.lg2 (rest - 2 ^ log).toNat) else int64Max
  else int64Max

/-- `balance_dec[log]` (enc_ans.cc:496-520). -/
def balanceDec (F : Float64) (maxFreq : Nat) (rest : Int) (log : Nat) : Int :=
  if rest ≥ 4096 then 0
  else if rest > 1 then
    if rest + 2 ^ log < 4096 then maxFreq * (F.lg2 (rest + 2 ^ log).toNat - F.lg2 rest.toNat) else 0
  else int64Max

/-- The fixed data of one call. -/
structure Ctx where
  F : Float64
  ac : List Nat
  maxFreq : Nat

/-- `delta_entropy_inc` (enc_ans.cc:436-439). -/
def deltaInc (c : Ctx) (rest : Int) (a : Bin) : Int := a.freq * deltaLg2 c.F c.ac a.ind - balanceInc c.F c.maxFreq rest (stepLog c.ac a.ind)

/-- `delta_entropy_dec` (enc_ans.cc:440-443). -/
def deltaDec (c : Ctx) (rest : Int) (a : Bin) : Int :=
  a.freq * deltaLg2 c.F c.ac (a.ind + 1) - balanceDec c.F c.maxFreq rest (stepLog c.ac (a.ind + 1))

/-- The comparison keys of `IncLess` and `DecLess` (enc_ans.cc:446-453). -/
def incKey (c : Ctx) (rest : Int) (a : Bin) : Int := deltaInc c rest a / 2 ^ stepLog c.ac a.ind
def decKey (c : Ctx) (rest : Int) (a : Bin) : Int := deltaDec c rest a / 2 ^ stepLog c.ac (a.ind + 1)

/-- `std::max_element` by a key: the index of the first largest. -/
def maxIdx (key : Bin → Int) : List Bin → Nat → Nat → Int → Nat
  | [], _, best, _ => best
  | b :: bs, i, best, k => if k < key b then maxIdx key bs (i + 1) i (key b) else maxIdx key bs (i + 1) best k

/-- `std::min_element` by a key: the index of the first smallest. -/
def minIdx (key : Bin → Int) : List Bin → Nat → Nat → Int → Nat
  | [], _, best, _ => best
  | b :: bs, i, best, k => if key b < k then minIdx key bs (i + 1) i (key b) else minIdx key bs (i + 1) best k

/-- What one iteration does. -/
inductive Outcome where
  | outside
  | done
  | next (bins : List Bin) (rest : Int)
deriving DecidableEq

/-- The position of `std::max_element(bins, IncLess)`. -/
def bestInc (c : Ctx) (rest : Int) (bins : List Bin) : Nat :=
  match bins with
  | [] => 0
  | b :: bs => maxIdx (incKey c rest) bs 1 0 (incKey c rest b)

/-- The position of `std::min_element(bins, DecLess)`. -/
def bestDec (c : Ctx) (rest : Int) (bins : List Bin) : Nat :=
  match bins with
  | [] => 0
  | b :: bs => minIdx (decKey c rest) bs 1 0 (decKey c rest b)

/-- The decreasing half of an iteration (enc_ans.cc:526-536); looking below the smallest allowed count is `outside`. -/
def decStep (c : Ctx) (bins : List Bin) (rest : Int) : Outcome :=
  if bins.any (fun a => decide (c.ac.length ≤ a.ind + 1)) then .outside
  else
    match bins[bestDec c rest bins]? with
    | none => .outside
    | some b =>
      if deltaDec c rest b ≥ 0 then .done
      else .next (bins.set (bestDec c rest bins) { b with ind := b.ind + 1 }) (rest + 2 ^ stepLog c.ac (b.ind + 1))

/-- One iteration of the loop (enc_ans.cc:495-538); growing past the largest allowed count is `outside`. -/
def iterate (c : Ctx) (bins : List Bin) (rest : Int) : Outcome :=
  if bins.any (fun a => decide (c.ac.length ≤ a.ind)) then .outside
  else
    match bins[bestInc c rest bins]? with
    | none => .outside
    | some b =>
      if deltaInc c rest b > 0 then
        if b.ind = 0 then .outside
        else .next (bins.set (bestInc c rest bins) { b with ind := b.ind - 1 }) (rest - 2 ^ stepLog c.ac b.ind)
      else decStep c bins rest

/-- The loop, at most `k` iterations: `none` if it leaves the table or does not finish in time. -/
def rebalanceLoop (c : Ctx) : Nat → List Bin → Int → Option (List Bin × Int)
  | 0, _, _ => none
  | k + 1, bins, rest =>
    match iterate c bins rest with
    | .outside => none
    | .done => some (bins, rest)
    | .next bins rest => rebalanceLoop c k bins rest

/-- The first allowed approximation of a count (enc_ans.cc:469-475). -/
def startCount (F : Float64) (shift freq : Nat) : Nat := allow shift (min (max (F.round freq) (if freq > 0 then 1 else 0)) 4095)

/-- The first approximation (enc_ans.cc:459-483): counts, adjustable bins, balancing position and largest frequency, from position `n`. -/
structure Start where
  counts : List Nat
  bins : List Bin
  pos : Nat
  maxFreq : Nat

def start (F : Float64) (shift : Nat) (ac : List Nat) : List Nat → Nat → Start → Start
  | [], _, s => s
  | f :: fs, n, s =>
    start F shift ac fs (n + 1)
      { counts := s.counts ++ [startCount F shift f],
        bins := if F.big f then s.bins ++ [⟨f, ac.idxOf (startCount F shift f), n⟩] else s.bins,
        pos := if f > s.maxFreq then n else s.pos,
        maxFreq := max s.maxFreq f }

/-- The bins the loop adjusts: all but the balancing one (enc_ans.cc:485-488). -/
def Start.loopBins (s : Start) : List Bin := s.bins.filter fun b => b.pos != s.pos

/-- The height of the balancing bin before the loop (enc_ans.cc:489-491). -/
def Start.rest (s : Start) : Int := 4096 - s.counts.sum + s.counts.getD s.pos 0

/-- Storing the adjusted counts (enc_ans.cc:539). -/
def applyBins (ac : List Nat) : List Bin → List Nat → List Nat
  | [], cs => cs
  | b :: bs, cs => applyBins ac bs (cs.set b.pos (ac.getD b.ind 0))

/-- The first position before `pos` whose count needs 12 bits (enc_ans.cc:546-552). -/
def findBig (cs : List Nat) (pos : Nat) : Option Nat := (List.range pos).find? fun n => decide (cs.getD n 0 ≥ 2048)

/-- The exchange of the balancing bin and the final store (enc_ans.cc:546-556): counts and `omit_pos_`. -/
def finish (cs : List Nat) (pos : Nat) (rest : Nat) : List Nat × Nat :=
  match findBig cs pos with
  | some n => ((cs.set pos (cs.getD n 0)).set n rest, n)
  | none => (cs.set pos rest, pos)

/-- `RebalanceHistogram` (enc_ans.cc:415-559) on the first `alphabet_size_` counts: the normalised counts and `omit_pos_`. -/
def rebalance (F : Float64) (shift : Nat) (freqs : List Nat) (k : Nat) : Option (List Nat × Nat) :=
  let ac := allowed shift
  let s := start F shift ac freqs 0 ⟨[], [], 0, 0⟩
  if s.bins.all (fun b => b.pos != s.pos) then none  -- erasing the end of the vector
  else if s.loopBins.isEmpty then
    if s.rest > 0 then some (s.counts.set s.pos s.rest.toNat, s.pos) else none
  else
    (rebalanceLoop ⟨F, ac, s.maxFreq⟩ k s.loopBins s.rest).bind fun (bins, rest) =>
      if rest > 0 then some (finish (applyBins ac bins s.counts) s.pos rest.toNat) else none

end Jxl.Histo
