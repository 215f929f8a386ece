import Verif.Model.ModularImage
/-!
# Model of the squeeze transform (lib/jxl/modular/transform/squeeze.h, squeeze.cc, enc_squeeze.cc)

`pixel_type` is `int32_t`; arithmetic on it that overflows is undefined, the outcome `none` of the forward direction.  The
inverse computes with 64 bits (no overflow possible from 32-bit operands) and stores modulo 2^32; its vector version wraps at
every operation.

`FwdHSqueeze` and `FwdVSqueeze` are one loop, over the pixels of a row and over the rows of a channel: the loop is written once
(`fwdSeq`), over any kind of element, and used with pixels and with rows.  Likewise for the inverse.
-/
namespace Jxl.Modular.Squeeze

def minPx : Int := -2147483648
def maxPx : Int := 2147483647

/-- The result of an `int32_t` operation: undefined unless it is representable. -/
def fit (x : Int) : Option Int := if minPx ≤ x ∧ x ≤ maxPx then some x else none

/-- Storing a wider integer as `pixel_type`. -/
def store (x : Int) : Px := BitVec.ofInt 32 x

/-- `SmoothTendency` (squeeze.h:58-78).  `/` truncates, `& 1` is the remainder modulo 2. -/
def tendency (B a n : Int) : Int :=
  if B ≥ a ∧ a ≥ n then
    let diff := (4 * B - 3 * n - a + 6).tdiv 12
    let diff := if diff - diff % 2 > 2 * (B - a) then 2 * (B - a) + 1 else diff
    if diff + diff % 2 > 2 * (a - n) then 2 * (a - n) else diff
  else if B ≤ a ∧ a ≤ n then
    let diff := (4 * B - 3 * n - a - 6).tdiv 12
    let diff := if diff + diff % 2 < 2 * (B - a) then 2 * (B - a) - 1 else diff
    if diff - diff % 2 < 2 * (a - n) then 2 * (a - n) else diff
  else 0

/-- `AVERAGE` (enc_squeeze.cc:25). -/
def average (x y : Px) : Option Px := do
  let s ← fit (x.toInt + y.toInt)
  let s ← fit (s + if x.toInt > y.toInt then 1 else 0)
  some (store (s / 2))

/-- The residual of a pair (enc_squeeze.cc:54-69, 110-125): `diff - tendency`, both `pixel_type`. -/
def residual (A B m n left : Px) : Option Px := do
  let diff ← fit (A.toInt - B.toInt)
  let t := (store (tendency left.toInt m.toInt n.toInt)).toInt
  let r ← fit (diff - t)
  some (store r)

/-- The pair of samples from average and residual (squeeze.cc:160-171, 293-304). -/
def unpair (r m n left : Px) : Px × Px :=
  let diff := r.toInt + tendency left.toInt m.toInt n.toInt
  let A := m.toInt + diff.tdiv 2
  (store A, store (A - diff))

/-! ## The loops -/

/-- What the forward loop does to a pair. -/
structure FwdOps (α : Type) where
  avg : α → α → Option α
  res : α → α → α → α → α → Option α

/-- The next average (enc_squeeze.cc:56-63, 111-118). -/
def fwdNext {α : Type} (o : FwdOps α) (p : List α) (x : Nat) (m : α) : Option α :=
  if x + 1 < p.length - (p.length + 1) / 2 then
    (match p[2 * x + 2]?, p[2 * x + 3]? with
      | some C, some D => o.avg C D
      | _, _ => none)
  else if p.length % 2 = 1 then p[2 * x + 2]? else some m

/-- The sample before the pair, the average at the start (enc_squeeze.cc:64, 119-120). -/
def fwdLeft {α : Type} (p : List α) (x : Nat) (m : α) : Option α := if x > 0 then p[2 * x - 1]? else some m

/-- One iteration of the loops of `FwdHSqueeze` (enc_squeeze.cc:47-70) and `FwdVSqueeze` (enc_squeeze.cc:98-127). -/
def fwdStep {α : Type} (o : FwdOps α) (p : List α) (x : Nat) : Option (α × α) := do
  let A ← p[2 * x]?
  let B ← p[2 * x + 1]?
  let m ← o.avg A B
  let n ← fwdNext o p x m
  let left ← fwdLeft p x m
  let r ← o.res A B m n left
  some (m, r)

/-- The loop over the pairs, from the last `k` on. -/
def fwdLoop {α : Type} (o : FwdOps α) (p : List α) : Nat → Nat → Option (List α × List α)
  | 0, _ => some ([], [])
  | k + 1, x => do
    let (m, r) ← fwdStep o p x
    let (ms, rs) ← fwdLoop o p k (x + 1)
    some (m :: ms, r :: rs)

/-- A row or column of `FwdHSqueeze` (enc_squeeze.cc:43-74), `FwdVSqueeze` (enc_squeeze.cc:93-136): averages and residuals. -/
def fwdSeq {α : Type} (o : FwdOps α) (p : List α) : Option (List α × List α) := do
  let (ms, rs) ← fwdLoop o p (p.length - (p.length + 1) / 2) 0
  if p.length % 2 = 1 then
    let l ← p[2 * ((p.length + 1) / 2 - 1)]?
    some (ms ++ [l], rs)
  else some (ms, rs)

/-- The next average (squeeze.cc:162, 280-281). -/
def invNext {α : Type} (avg : List α) (x : Nat) (m : α) : Option α := if x + 1 < avg.length then avg[x + 1]? else some m

/-- The sample before the pair (squeeze.cc:163, 284). -/
def invLeft {α : Type} (out : List α) (x : Nat) (m : α) : Option α := if x ≠ 0 then out[2 * x - 1]? else some m

/-- The loop of `unsqueeze_row` (squeeze.cc:156-173) and of `unsqueeze_slice` (squeeze.cc:277-305): `k` residuals left, the next
one is `x`; `out` are the `2 x` samples written so far. -/
def invLoop {α : Type} (f : α → α → α → α → Option (α × α)) (avg res : List α) : Nat → Nat → List α → Option (List α)
  | 0, _, out => some out
  | k + 1, x, out => do
    let r ← res[x]?
    let m ← avg[x]?
    let n ← invNext avg x m
    let left ← invLeft out x m
    let (A, B) ← f r m n left
    invLoop f avg res k (x + 1) (out ++ [A, B])

/-- The last sample of an odd sequence (squeeze.cc:174, 312-319). -/
def finish {α : Type} (avg res out : List α) : Option (List α) :=
  if (avg.length + res.length) % 2 = 1 then do
    let l ← avg[avg.length - 1]?
    some (out ++ [l])
  else some out

def invSeq {α : Type} (f : α → α → α → α → Option (α × α)) (avg res : List α) : Option (List α) := do
  let out ← invLoop f avg res res.length 0 []
  finish avg res out

/-! ## Rows: the loop over pixels -/

def pxOps : FwdOps Px := { avg := average, res := residual }

def fwdRow (p : List Px) : Option (List Px × List Px) := fwdSeq pxOps p

def invRow (avg res : List Px) : Option (List Px) := invSeq (fun r m n l => some (unpair r m n l)) avg res

/-! ## Columns: the loop over rows -/

/-- Element by element on two rows. -/
def zipM2 {α β γ : Type} (f : α → β → Option γ) : List α → List β → Option (List γ)
  | a :: as, b :: bs => do
    let c ← f a b
    let cs ← zipM2 f as bs
    some (c :: cs)
  | [], [] => some []
  | _, _ => none

/-- The inner loop over `x` of `FwdVSqueeze` (enc_squeeze.cc:102-126). -/
def rowRes : List Px → List Px → List Px → List Px → List Px → Option (List Px)
  | a :: as, b :: bs, m :: ms, n :: ns, l :: ls => do
    let r ← residual a b m n l
    let rs ← rowRes as bs ms ns ls
    some (r :: rs)
  | [], [], [], [], [] => some []
  | _, _, _, _, _ => none

def rowOps : FwdOps (List Px) := { avg := zipM2 average, res := rowRes }

/-- Four rows side by side: residual, average, next average, previous sample. -/
def zip4 : List Px → List Px → List Px → List Px → Option (List (Px × Px × Px × Px))
  | r :: rs, m :: ms, n :: ns, l :: ls => do
    let t ← zip4 rs ms ns ls
    some ((r, m, n, l) :: t)
  | [], [], [], [] => some []
  | _, _, _, _ => none

/-- The scalar inner loop (squeeze.cc:292-304). -/
def unpairAll (l : List (Px × Px × Px × Px)) : List (Px × Px) := l.map fun (r, m, n, t) => unpair r m n t

/-- One row of pairs of `unsqueeze_slice`, computed by `g` on all columns. -/
def rowStep (g : List (Px × Px × Px × Px) → List (Px × Px)) (r m n l : List Px) : Option (List Px × List Px) := do
  let t ← zip4 r m n l
  some ((g t).map (·.1), (g t).map (·.2))

/-! ## Channels -/

/-- Rows one by one. -/
def mapRows2 (f : List Px → Option (List Px × List Px)) : List (List Px) → Option (List (List Px) × List (List Px))
  | [] => some ([], [])
  | r :: rs => do
    let (a, b) ← f r
    let (as, bs) ← mapRows2 f rs
    some (a :: as, b :: bs)

/-- `FwdHSqueeze` (enc_squeeze.cc:27-77). -/
def fwdH (c : Channel) : Option (Channel × Channel) := do
  let (a, r) ← mapRows2 fwdRow c.rows
  let w := (c.w + 1) / 2
  some ({ w := w, h := c.h, hshift := c.hshift + 1, vshift := c.vshift, rows := a },
    { w := c.w - w, h := c.h, hshift := c.hshift + 1, vshift := c.vshift, rows := r })

/-- `FwdVSqueeze` (enc_squeeze.cc:79-141). -/
def fwdV (c : Channel) : Option (Channel × Channel) := do
  let (a, r) ← fwdSeq rowOps c.rows
  let h := (c.h + 1) / 2
  some ({ w := c.w, h := h, hshift := c.hshift, vshift := c.vshift + 1, rows := a },
    { w := c.w, h := c.h - h, hshift := c.hshift, vshift := c.vshift + 1, rows := r })

/-- `InvHSqueeze` (squeeze.cc:128-235) with `rows8` for the spans of rows; `none` is failure. -/
def invH (rows : List (List Px) → List (List Px) → Option (List (List Px))) (c r : Channel) : Option Channel :=
  if c.w ≠ (c.w + r.w + 1) / 2 ∨ c.h ≠ r.h then none
  else if r.w = 0 then some { c with hshift := c.hshift - 1 }
  else if r.h = 0 then some { w := c.w + r.w, h := c.h, hshift := c.hshift - 1, vshift := c.vshift, rows := [] }
  else do
    let o ← rows c.rows r.rows
    some { w := c.w + r.w, h := c.h, hshift := c.hshift - 1, vshift := c.vshift, rows := o }

/-- `InvVSqueeze` (squeeze.cc:237-322) with the loop over columns `f`.  The code runs the columns in slices of 64, all rows of one slice
before the next slice; no column depends on another one, so the rows are run here with all slices together (`f` knows them).
A channel without columns (`chin_residual.w == 0`) becomes a fresh channel of that height. -/
def invV (f : List Px → List Px → List Px → List Px → Option (List Px × List Px)) (c r : Channel) : Option Channel :=
  if c.h ≠ (c.h + r.h + 1) / 2 ∨ c.w ≠ r.w then none
  else if r.h = 0 then some { c with vshift := c.vshift - 1 }
  else if r.w = 0 then
    some { w := c.w, h := c.h + r.h, hshift := c.hshift, vshift := c.vshift - 1, rows := List.replicate (c.h + r.h) [] }
  else do
    let o ← invSeq f c.rows r.rows
    some { w := c.w, h := c.h + r.h, hshift := c.hshift, vshift := c.vshift - 1, rows := o }

/-! ## The vector code -/

/-- Wrapping 32-bit arithmetic. -/
def w32 (x : Int) : Int := (x + 2147483648) % 4294967296 - 2147483648

/-- The high half of the 64-bit product with `0x55555556` (squeeze.cc:80-101). -/
def third (x : Int) : Int := x * 0x55555556 / 4294967296

def one (x : Int) : Int := x % 2

/-- The tendency in `FastUnsqueeze` (squeeze.cc:72-117), one lane. -/
def laneTendency (top avg navg : Int) : Int :=
  let Ba := w32 (top - avg)
  let an := w32 (avg - navg)
  let absBa := w32 Ba.natAbs
  let absan := w32 an.natAbs
  let absBn := w32 (w32 (top - navg)).natAbs
  let a3 := w32 (third absBa + w32 (absBn + 2))
  let absdiff := a3 / 4
  let skip := Ba ≠ 0 ∧ an ≠ 0 ∧ (BitVec.ofInt 32 Ba ^^^ BitVec.ofInt 32 an).msb = true
  let absBa2 := w32 (w32 (2 * absBa) + one absdiff)
  let absdiff := if absdiff > absBa2 then w32 (w32 (2 * absBa) + 1) else absdiff
  let absan2 := w32 (2 * absan)
  let absdiff := if w32 (absdiff + one absdiff) > absan2 then absan2 else absdiff
  let diff1 := if top < navg then w32 (-absdiff) else absdiff
  if skip then 0 else diff1

/-- `FastUnsqueeze` (squeeze.cc:62-124), one lane. -/
def lane (r m n top : Px) : Px × Px :=
  let diff := w32 (r.toInt + laneTendency top.toInt m.toInt n.toInt)
  let half := w32 (diff + if diff < 0 then 1 else 0) / 2
  let out := w32 (m.toInt + half)
  (store out, store (out - diff))

/-- `p_pout` of the block loop (squeeze.cc:210). -/
def blockLeft (odd : List Px) (x : Nat) (m : Px) : Option Px := if x ≠ 0 then odd[(x - 1) % 8]? else some m

/-- One row of a full block of eight rows in `unsqueeze_span` (squeeze.cc:195-221): columns `x + i .. x + 7`, `odd` is that
row's column of `b_p_out_odd`, which is kept from block to block.  The transpositions move each row to its own lane and back. -/
def blockLoop (avg res : List Px) (x : Nat) : Nat → Nat → List Px → List Px → Option (List Px × List Px)
  | 0, _, odd, out => some (odd, out)
  | k + 1, i, odd, out => do
    let r ← res[x + i]?
    let m ← avg[x + i]?
    let n ← avg[x + i + 1]?
    let left ← blockLeft odd (x + i) m
    blockLoop avg res x k (i + 1) (odd.set i (lane r m n left).2) (out ++ [(lane r m n left).1, (lane r m n left).2])

/-- The loop over blocks (squeeze.cc:200-223): `x` while `x < w - 9`. -/
def blocks (avg res : List Px) : Nat → Nat → List Px → List Px → Option (Nat × List Px)
  | 0, x, _, out => some (x, out)
  | fuel + 1, x, odd, out =>
    if x < res.length - 9 then do
      let (odd', out') ← blockLoop avg res x 8 0 odd out
      blocks avg res fuel (x + 8) odd' out'
    else some (x, out)

/-- The vector part of a row (squeeze.cc:199-225). -/
def vecPart (full : Bool) (odd0 avg res : List Px) : Option (Nat × List Px) :=
  if full = true ∧ res.length > 16 then blocks avg res res.length 0 odd0 [] else some (0, [])

/-- A row as `unsqueeze_span` treats it (squeeze.cc:182-228): with vectors when its span is full and it has more than 16
residuals, the rest by `unsqueeze_row`.  `odd0` is the uninitialised buffer. -/
def invRowVec (full : Bool) (odd0 avg res : List Px) : Option (List Px) := do
  let (x, out) ← vecPart full odd0 avg res
  let out ← invLoop (fun r m n l => some (unpair r m n l)) avg res (res.length - x) x out
  finish avg res out

/-- The rows of a channel, spans of eight rows (squeeze.cc:178-232), row `y` of `h`. -/
def invRowsVec (odd0 : List Px) (h : Nat) : Nat → List (List Px) → List (List Px) → Option (List (List Px))
  | y, a :: as, r :: rs => do
    let o ← invRowVec (decide (y / 8 * 8 + 8 ≤ h)) odd0 a r
    let os ← invRowsVec odd0 h (y + 1) as rs
    some (o :: os)
  | _, [], [] => some []
  | _, _, _ => none

/-- All rows with `unsqueeze_row` (the `HWY_SCALAR` build). -/
def invRowsScalar : List (List Px) → List (List Px) → Option (List (List Px))
  | a :: as, r :: rs => do
    let o ← invRow a r
    let os ← invRowsScalar as rs
    some (o :: os)
  | [], [] => some []
  | _, _ => none

/-- The inner loop of a slice (squeeze.cc:285-304): eight columns at a time, the rest scalar. -/
def slice (l : List (Px × Px × Px × Px)) : Nat → List (Px × Px)
  | 0 => unpairAll l
  | fuel + 1 =>
    if 8 ≤ l.length then ((l.take 8).map fun (r, m, n, t) => lane r m n t) ++ slice (l.drop 8) fuel else unpairAll l

/-- The slices of 64 columns (squeeze.cc:269-276). -/
def slices (l : List (Px × Px × Px × Px)) : Nat → List (Px × Px)
  | 0 => []
  | fuel + 1 => if l = [] then [] else slice (l.take 64) 64 ++ slices (l.drop 64) fuel

def colsVec (l : List (Px × Px × Px × Px)) : List (Px × Px) := slices l l.length

end Jxl.Modular.Squeeze
