/-!
# Model of lib/jxl/lehmer_code.h and the permutation tokens (coeff_order.cc, enc_coeff_order.cc)

Arrays are lists; an access outside the array gives `none`.  `while` loops take fuel; running out of it gives `none`.
-/
namespace Jxl.Lehmer

/-- `ValueOfLowest1Bit` (lehmer_code.h:22-25) on a `w`-bit unsigned type: `t & -t`. -/
def lowest1 (w t : Nat) : Nat := t &&& ((2 ^ w - t) % 2 ^ w)

/-- "Compute sum in Fenwick tree" (lehmer_code.h:40-45). -/
def fenSum : Nat → List Nat → Nat → Nat → Option Nat
  | 0, _, _, _ => none
  | fuel + 1, t, i, penalty =>
    if i ≠ 0 then t[i]?.bind fun v => fenSum fuel t (i &&& (i - 1)) (penalty + v)
    else some penalty

/-- "Add operation in Fenwick tree" (lehmer_code.h:48-53). -/
def fenAdd (n : Nat) : Nat → List Nat → Nat → Option (List Nat)
  | 0, _, _ => none
  | fuel + 1, t, i =>
    if i < n + 1 then t[i]?.bind fun v => fenAdd n fuel (t.set i (v + 1)) (i + lowest1 32 i)
    else some t

/-- Main loop of `ComputeLehmerCode` (lehmer_code.h:36-54) over the rest of the permutation; `none` is a failing
`JXL_ENSURE` (or an access outside `temp`). -/
def computeLoop (n : Nat) (t : List Nat) : List Nat → Option (List Nat)
  | [] => some []
  | s :: ps => do
    let penalty ← fenSum (s + 2) t (s + 1) 0
    if s ≥ penalty then
      let t ← fenAdd n (n + 2) t (s + 1)
      let codes ← computeLoop n t ps
      some ((s - penalty) :: codes)
    else none

/-- `ComputeLehmerCode` (lehmer_code.h:31-56). -/
def computeLehmer (p : List Nat) : Option (List Nat) :=
  computeLoop p.length (List.replicate (p.length + 1) 0) p

/-- `CeilLog2Nonzero` (base/bits.h:140-144). -/
def ceilLog2 (x : Nat) : Nat := if x &&& (x - 1) = 0 then Nat.log2 x else Nat.log2 x + 1

/-- Descent in the order-statistics tree (lehmer_code.h:78-88): `cnt` iterations left. -/
def search (t : List Nat) : Nat → Nat → Nat → Nat → Option Nat
  | 0, _, next, _ => some next
  | cnt + 1, bit, next, rank =>
    let cand := next + bit
    if cand ≥ 1 then
      t[cand - 1]?.bind fun v =>
        if v < rank then search t cnt (bit / 2) cand (rank - v) else search t cnt (bit / 2) next rank
    else none

/-- "Mark as used" (lehmer_code.h:93-97), `temp` holds `uint32_t`. -/
def markUsed (padded : Nat) : Nat → List Nat → Nat → Option (List Nat)
  | 0, _, _ => none
  | fuel + 1, t, next =>
    if next ≤ padded then
      t[next - 1]?.bind fun v => markUsed padded fuel (t.set (next - 1) ((v + 2 ^ 32 - 1) % 2 ^ 32)) (next + lowest1 64 next)
    else some t

/-- Main loop of `DecodeLehmerCode` (lehmer_code.h:73-98) at index `i`. -/
def decodeLoop (n log2n : Nat) (t : List Nat) (i : Nat) : List Nat → Option (List Nat)
  | [] => some []
  | c :: cs => do
    if c + i < n then
      let next ← search t (log2n + 1) (2 ^ log2n) 0 (c + 1)
      let t ← markUsed (2 ^ log2n) (2 ^ log2n + 2) t (next + 1)
      let rest ← decodeLoop n log2n t (i + 1) cs
      some (next :: rest)
    else none

/-- `DecodeLehmerCode` (lehmer_code.h:61-100); the code has `n` entries and `temp` has `padded_n` entries. -/
def decodeLehmer (code : List Nat) : Option (List Nat) :=
  let n := code.length
  if n ≠ 0 then
    let log2n := ceilLog2 n
    decodeLoop n log2n ((List.range (2 ^ log2n)).map fun i => lowest1 32 (i + 1)) 0 code
  else none

/-- The `while (end > skip && lehmer[end - 1] == 0) --end` loop (enc_coeff_order.cc:247-250). -/
def trimEnd (lehmer : List Nat) (skip : Nat) : Nat → Nat
  | 0 => 0
  | e + 1 => if e + 1 > skip ∧ lehmer[e]? = some 0 then trimEnd lehmer skip e else e + 1

/-- `TokenizePermutation` (enc_coeff_order.cc:241-259): the token values (their contexts are a function of the values). -/
def tokenize (order : List Nat) (skip : Nat) : Option (List Nat) := do
  let lehmer ← computeLehmer order
  let e := trimEnd lehmer skip order.length
  some ((e - skip) :: (lehmer.take e).drop skip)

/-- The loop of `ReadPermutation` reading `cnt` codes (coeff_order.cc:50-57) from index `i`. -/
def readCodes (size : Nat) : Nat → Nat → List Nat → Option (List Nat × List Nat)
  | 0, _, ts => some ([], ts)
  | _ + 1, _, [] => none
  | cnt + 1, i, c :: ts =>
    if c ≥ size - i then none
    else (readCodes size cnt (i + 1) ts).map fun (cs, ts) => (c :: cs, ts)

/-- `ReadPermutation` (coeff_order.cc:37-62) on a stream of decoded integers (`uint32_t`); `end` is a `uint32_t`. -/
def readPermutation (skip size : Nat) : List Nat → Option (List Nat × List Nat)
  | [] => none
  | v :: ts =>
    let e := (v + skip) % 2 ^ 32
    if e > size then none
    else
      (readCodes size (e - skip) skip ts).bind fun (cs, ts) =>
        (decodeLehmer (List.replicate (min skip size) 0 ++ cs ++ List.replicate (size - min skip size - cs.length) 0)).map (·, ts)

end Jxl.Lehmer
