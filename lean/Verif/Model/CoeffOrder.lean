import Verif.Model.Lehmer
/-!
# Coefficient orders

`lib/jxl/ac_strategy.cc:24-86` (`CoeffOrderAndLut`), `lib/jxl/ac_strategy.h:141-163` (covered blocks),
`lib/jxl/coeff_order.h:24-46` (tables), `lib/jxl/coeff_order.cc:37-63, 84-172` (`ReadPermutation`,
`DecodeCoeffOrder`, `DecodeCoeffOrders`), `lib/jxl/enc_coeff_order.cc:277-288` (`EncodeCoeffOrder`).

Simplifications: the nested loops over diagonals are a loop over the list of the coordinates they visit, in the
same order; entropy coding is left out (the decoder reads a list of integers, C08 and C10-C16).  An access outside
an array is the outcome `none`; a refused stream is the inner `none`.
-/
namespace Jxl.CoeffOrder

/-- One diagonal of the first half (ac_strategy.cc:41-44). -/
def diagOne (i : Nat) : List (Nat × Nat) :=
  (List.range (i + 1)).map fun j => if i % 2 ≠ 0 then (i - j, j) else (j, i - j)

/-- One diagonal of the second half (ac_strategy.cc:62-65), in a block of `n` × `n` coefficients. -/
def diagTwo (n i : Nat) : List (Nat × Nat) :=
  (List.range (i + 1)).map fun j =>
    if i % 2 ≠ 0 then (n - 1 - j, n - 1 - (i - j)) else (n - 1 - (i - j), n - 1 - j)

/-- The coordinates of the first half (ac_strategy.cc:40-41). -/
def halfOne (n : Nat) : List (Nat × Nat) := (List.range n).flatMap diagOne

/-- The coordinates of the second half (ac_strategy.cc:60-62): `i` from `n - 2` down to 0. -/
def halfTwo (n : Nat) : List (Nat × Nat) := (List.range (n - 1)).reverse.flatMap (diagTwo n)

/-- A store into an array. -/
def store (out : List Nat) (i v : Nat) : Option (List Nat) := if i < out.length then some (out.set i v) else none

/-- The loop body (ac_strategy.cc:45-57 and 66-75); only the first half tests for the low frequencies. -/
def orderLoop (lut first : Bool) (cx cy : Nat) : List (Nat × Nat) → List Nat → Nat → Option (List Nat × Nat)
  | [], out, cur => some (out, cur)
  | (x, y) :: cs, out, cur =>
    let xs := cx / cy
    if (y &&& (xs - 1)) ≠ 0 then orderLoop lut first cx cy cs out cur
    else
      let y := y >>> Lehmer.ceilLog2 xs
      let low := first && decide (x < cx ∧ y < cy)
      let val := if low then y * cx + x else cur
      let pos := y * cx * 8 + x
      (if lut then store out pos val else store out val pos).bind fun out =>
        orderLoop lut first cx cy cs out (if low then cur else cur + 1)

/-- `CoeffOrderAndLut` (ac_strategy.cc:28-79) into the array `out`; `bx`, `by` are the covered blocks. -/
def coeffOrderAndLut (lut : Bool) (bx by' : Nat) (out : List Nat) : Option (List Nat) :=
  let cy := min by' bx
  let cx := max by' bx
  (orderLoop lut true cx cy (halfOne (cx * 8)) out (cx * cy)).bind fun p =>
    (orderLoop lut false cx cy (halfTwo (cx * 8)) p.1 p.2).map Prod.fst

/-- `AcStrategy::covered_blocks_x` (ac_strategy.h:141-149). -/
def coveredX : List Nat :=
  [1, 1, 1, 1, 2, 4, 1, 2, 1, 4, 2, 4, 1, 1, 1, 1, 1, 1, 8, 4, 8, 16, 8, 16, 32, 16, 32]

/-- `AcStrategy::covered_blocks_y` (ac_strategy.h:151-159). -/
def coveredY : List Nat :=
  [1, 1, 1, 1, 2, 4, 2, 1, 4, 1, 4, 2, 1, 1, 1, 1, 1, 1, 8, 8, 4, 16, 16, 8, 32, 32, 16]

/-- `kStrategyOrder` (coeff_order.h:43-46). -/
def strategyOrder : List Nat :=
  [0, 1, 1, 1, 2, 3, 4, 4, 5, 5, 6, 6, 1, 1, 1, 1, 1, 1, 7, 8, 8, 9, 10, 10, 11, 12, 12]

/-- `kCoeffOrderOffset` (coeff_order.h:28-33). -/
def orderOffset : List Nat :=
  [0, 1, 2, 3, 4, 5, 6, 10, 14, 18, 34, 50, 66, 68, 70, 72, 76, 80, 84, 92, 100, 108, 172, 236, 300, 332, 364, 396,
    652, 908, 1164, 1292, 1420, 1548, 2572, 3596, 4620, 5132, 5644, 6156]

/-- `CoeffOrderOffset` (coeff_order.h:36-37). -/
def offsetOf (ord c : Nat) : Nat := orderOffset.getD (3 * ord + c) 0 * 64

/-- `order[k] = natural_order[order[k]]` (coeff_order.cc:97-99). -/
def compose (natural : List Nat) : List Nat → Option (List Nat)
  | [] => some []
  | k :: ks => (natural[k]?).bind fun v => (compose natural ks).map (v :: ·)

/-- Copying `vs` to position `at` of an array. -/
def copyTo (out vs : List Nat) (pos : Nat) : Option (List Nat) :=
  if pos + vs.length ≤ out.length then some (out.take pos ++ vs ++ out.drop (pos + vs.length)) else none

/-- `ReadPermutation` without a destination (coeff_order.cc:37-58): the integers are read and checked. -/
def skipPermutation (skip size : Nat) : List Nat → Option (List Nat)
  | [] => none
  | v :: ts =>
    let e := (v + skip) % 2 ^ 32
    if e > size then none else (Lehmer.readCodes size (e - skip) skip ts).map Prod.snd

/-- Bit `i` of a mask. -/
def bit (m i : Nat) : Bool := (m &&& (1 <<< i)) != 0

/-- The three channels of one order (coeff_order.cc:152-164). -/
def channels (used custom : Bool) (ord llf : Nat) (natural : List Nat) :
    List Nat → List Nat → List Nat → Option (Option (List Nat × List Nat))
  | [], order, ts => some (some (order, ts))
  | c :: cs, order, ts =>
    if custom then
      if used then
        match Lehmer.readPermutation llf (64 * llf) ts with
        | none => some none
        | some (p, ts) =>
          (compose natural p).bind fun vs => (copyTo order vs (offsetOf ord c)).bind fun order =>
            channels used custom ord llf natural cs order ts
      else
        match skipPermutation llf (64 * llf) ts with
        | none => some none
        | some ts => channels used custom ord llf natural cs order ts
    else if used then
      (copyTo order (natural.take (64 * llf)) (offsetOf ord c)).bind fun order =>
        channels used custom ord llf natural cs order ts
    else channels used custom ord llf natural cs order ts

/-- `acs_mask` (coeff_order.cc:126-130). -/
def acsMask (usedAcs : Nat) : Nat :=
  (List.range 27).foldl (fun m o => if bit usedAcs o then m ||| (1 <<< strategyOrder.getD o 0) else m) 0

/-- The natural order for strategy `o`, when it is needed (coeff_order.cc:142-145); a larger buffer of an earlier
strategy is kept. -/
def fillNatural (need : Bool) (o : Nat) (natural : List Nat) : Option (List Nat) :=
  if need then
    let size := 64 * (coveredX.getD o 0 * coveredY.getD o 0)
    coeffOrderAndLut false (coveredX.getD o 0) (coveredY.getD o 0)
      (natural ++ List.replicate (size - natural.length) 0)
  else some natural

/-- The loop of `DecodeCoeffOrders` (coeff_order.cc:131-166). -/
def ordersLoop (usedOrders mask : Nat) :
    List Nat → Nat → List Nat → List Nat → List Nat → Option (Option (List Nat × List Nat))
  | [], _, _, order, ts => some (some (order, ts))
  | o :: os, computed, natural, order, ts =>
    let ord := strategyOrder.getD o 0
    if bit computed ord then ordersLoop usedOrders mask os computed natural order ts
    else
      (fillNatural (bit mask ord || bit usedOrders ord) o natural).bind fun natural =>
        (channels (bit mask ord) (bit usedOrders ord) ord (coveredX.getD o 0 * coveredY.getD o 0) natural [0, 1, 2]
            order ts).bind fun r =>
          match r with
          | none => some none
          | some p => ordersLoop usedOrders mask os (computed ||| (1 <<< ord)) natural p.1 p.2

/-- `DecodeCoeffOrders` (coeff_order.cc:106-172) into the array `order`; the integers read are `ts`. -/
def decodeCoeffOrders (usedOrders usedAcs : Nat) (order ts : List Nat) : Option (Option (List Nat × List Nat)) :=
  ordersLoop usedOrders (acsMask usedAcs) (List.range 27) 0 [] order ts

/-- `EncodeCoeffOrder` (enc_coeff_order.cc:277-288). -/
def encodeCoeffOrder (llf : Nat) (lut order : List Nat) : Option (List Nat) :=
  (compose lut order).bind fun z => Lehmer.tokenize z llf

end Jxl.CoeffOrder
