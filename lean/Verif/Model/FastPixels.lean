import Verif.Model.FastChannel
import Verif.Model.PackSigned
import Verif.Model.MaTree
import Verif.Model.EntropyStream
/-!
# Pixels and residuals of the fast lossless encoder (lib/jxl/enc_fast_lossless.cc)

`pixel_t` is `int16_t` or `int32_t`, a `BitVec n` here; arithmetic is done in `int` and stored with truncation.  `none` is an access outside
the buffer of the caller or the rows of the group, or an overflow of `int`.
-/
namespace Jxl.FastCode

/-- A difference or sum of two `pixel_t` computed in `int` and stored in a `pixel_t`. -/
def store32 (n : Nat) (d : Int) : Option (BitVec n) := if -2 ^ 31 ≤ d ∧ d < 2 ^ 31 then some (BitVec.ofInt n d) else none

/-- The prediction (enc_fast_lossless.cc:3133-3141); `grad` is computed without sign. -/
def predict {n : Nat} (left top topleft : BitVec n) : Option (BitVec n) := do
  let ac ← store32 n (left.toInt - topleft.toInt)
  let ab ← store32 n (left.toInt - top.toInt)
  let bc ← store32 n (top.toInt - topleft.toInt)
  let grad := ac + top
  let d := ab ^^^ bc
  let clamp := if d.toInt < 0 then top else left
  let s := ac ^^^ bc
  some (if s.toInt < 0 then grad else clamp)

/-- A residual (enc_fast_lossless.cc:3127-3142): `PackSigned` (3099-3102) of an `int`, truncated to `upixel_t`. -/
def residual {n : Nat} (px left top topleft : BitVec n) : Option (BitVec n) := do
  let pred ← predict left top topleft
  let d ← store32 32 (px.toInt - pred.toInt)
  some ((packSigned d).setWidth n)

/-- One lane of `PredictPixels` (enc_fast_lossless.cc:2619-2645), the code with vector instructions: everything wraps around. -/
def residualLane {n : Nat} (px left top topleft : BitVec n) : BitVec n :=
  let ac := left - topleft
  let ab := left - top
  let bc := top - topleft
  let grad := ac + top
  let d := ab ^^^ bc
  let clamp := if 0 > d.toInt then top else left
  let s := ac ^^^ bc
  let pred := if 0 > s.toInt then grad else clamp
  let res := px - pred
  let res2 := res + res
  if 0 > res.toInt then BitVec.ofInt n (-1) - res2 else res2

/-- `StoreYCoCg` (enc_fast_lossless.cc:3271-3278): the three samples stored. -/
def storeYCoCg {n : Nat} (r g b : BitVec n) : Option (BitVec n × BitVec n × BitVec n) := do
  let co ← store32 n (r.toInt - b.toInt)
  let tmp ← store32 n (b.toInt + co.toInt >>> 1)
  let cg ← store32 n (g.toInt - tmp.toInt)
  let y ← store32 n (tmp.toInt + cg.toInt >>> 1)
  some (y, co, cg)

/-- `LoadLE16` and `SwapEndian` (enc_fast_lossless.cc:3176-3180) or one byte: the sample at a position of the buffer. -/
def loadSample (bytes : Nat) (big : Bool) (buf : List Nat) (pos : Nat) : Option Nat :=
  if bytes = 1 then buf[pos]?
  else do
    let a ← buf[pos]?
    let b ← buf[pos + 1]?
    let v := a ||| b <<< 8
    some (if big then v >>> 8 ||| (v <<< 8) % 2 ^ 16 else v)

/-- One pixel of the `FillRow` functions (enc_fast_lossless.cc:3192-3412): the samples of its channels, stored as `pixel_t`. -/
def fillPixel (n : Nat) (s : List Nat) : Option (List (BitVec n)) :=
  match s with
  | [l] => some [BitVec.ofNat n l]
  | [l, a] => some [BitVec.ofNat n l, BitVec.ofNat n a]
  | [r, g, b] => (storeYCoCg (BitVec.ofNat n r) (BitVec.ofNat n g) (BitVec.ofNat n b)).map fun (y, co, cg) => [y, co, cg]
  | [r, g, b, a] => (storeYCoCg (BitVec.ofNat n r) (BitVec.ofNat n g) (BitVec.ofNat n b)).map fun (y, co, cg) => [y, co, cg, BitVec.ofNat n a]
  | _ => none

/-- An area of the caller's buffer (the arguments of `ProcessImageArea`, enc_fast_lossless.cc:3415-3418, with `yskip = 0`). -/
structure Area where
  bytes : Nat
  big : Bool
  nbChans : Nat
  stride : Nat
  x0 : Nat
  y0 : Nat
  xs : Nat
  ys : Nat

/-- Where sample `c` of pixel `x` of row `y` lies (enc_fast_lossless.cc:3441-3442 and the index in each `FillRow` function). -/
def Area.pos (a : Area) (y x c : Nat) : Nat := a.stride * (a.y0 + y) + a.x0 * a.nbChans * a.bytes + (a.nbChans * x + c) * a.bytes

/-- `FillRow…` (enc_fast_lossless.cc:3192-3412, 3450-3489) for row `y`: for each pixel the samples of its channels. -/
def fillRow (n : Nat) (a : Area) (buf : List Nat) (y : Nat) : Option (List (List (BitVec n))) :=
  (List.range a.xs).mapM fun x => do
    let s ← (List.range a.nbChans).mapM fun c => loadSample a.bytes a.big buf (a.pos y x c)
    fillPixel n s

/-- One channel of such a row. -/
def channelRow {n : Nat} (c : Nat) (row : List (List (BitVec n))) : Option (List (BitVec n)) := row.mapM fun p => p[c]?

/-- What is left of the first pixel of a row, and of the row above it (enc_fast_lossless.cc:3488-3493). -/
def border {n : Nat} : Option (List (BitVec n)) → Option (BitVec n)
  | some prev => prev[0]?
  | none => some 0

/-- The pixel to the left (enc_fast_lossless.cc:3498). -/
def leftOf {n : Nat} (prev : Option (List (BitVec n))) (cur : List (BitVec n)) (x : Nat) : Option (BitVec n) := if x = 0 then border prev else cur[x - 1]?

/-- The pixel above and the one to the left of that (enc_fast_lossless.cc:3499-3500); `prev` is the row above, if `y > 0`. -/
def topOf {n : Nat} (prev : Option (List (BitVec n))) (left : BitVec n) (x : Nat) : Option (BitVec n) :=
  match prev with
  | some p => p[x]?
  | none => some left
@[inherit_doc topOf] def topleftOf {n : Nat} (prev : Option (List (BitVec n))) (left : BitVec n) (x : Nat) : Option (BitVec n) :=
  match prev with
  | some p => if x = 0 then border prev else p[x - 1]?
  | none => some left

/-- The residual of pixel `x` of a row (enc_fast_lossless.cc:3495-3503, 3127-3142). -/
def residualAt {n : Nat} (prev : Option (List (BitVec n))) (cur : List (BitVec n)) (x : Nat) : Option (BitVec n) := do
  let px ← cur[x]?
  let left ← leftOf prev cur x
  let top ← topOf prev left x
  let topleft ← topleftOf prev left x
  residual px left top topleft

/-- The residuals of a row. -/
def residualRow {n : Nat} (prev : Option (List (BitVec n))) (cur : List (BitVec n)) : Option (List Nat) :=
  (List.range cur.length).mapM fun x => (residualAt prev cur x).map (·.toNat)

/-- The residuals of the rows of a channel (enc_fast_lossless.cc:3440-3504). -/
def residualRows {n : Nat} : Option (List (BitVec n)) → List (List (BitVec n)) → Option (List (List Nat))
  | _, [] => some []
  | prev, cur :: rest => do
    let r ← residualRow prev cur
    let rs ← residualRows (some cur) rest
    some (r :: rs)

/-- The residuals of all channels of an area; `pad c y` are those of what lies behind row `y` of channel `c` in its buffer. -/
def areaResiduals (n : Nat) (a : Area) (buf : List Nat) (pad : Nat → Nat → List Nat) : Option (List (List (List Nat × List Nat))) := do
  let rows ← (List.range a.ys).mapM (fillRow n a buf)
  (List.range a.nbChans).mapM fun c => do
    let chan ← rows.mapM (channelRow c)
    let res ← residualRows none chan
    some (res.mapIdx fun y r => (r, pad c y))

/-- `WriteACSection` (enc_fast_lossless.cc:3510-3543) after the header of the group: what each channel's writer gets. -/
def writeArea (k n : Nat) (codes : List Code) (a : Area) (buf : List Nat) (pad : Nat → Nat → List Nat) : Option (List (List (Nat × Nat))) := do
  let rowss ← areaResiduals n a buf pad
  writeChannels k codes rowss

/-- `NumSymbols` (enc_fast_lossless.cc:2726-2734, 2789-2797, 2856, 2920) for a bit depth without palette; `ycocg` if there are three or more
channels. -/
def numSymbols (depth : Nat) (ycocg : Bool) : Nat :=
  if depth ≤ 13 then (if ycocg then depth + 3 else depth + 2) else if depth = 14 then 17 else 19

/-- `pixel_t` of a bit depth (enc_fast_lossless.cc:2694, 2756, 2822, 2879). -/
def pixelBits (depth : Nat) : Nat := if depth ≤ 14 then 16 else 32

/-- `kInputBytes` (enc_fast_lossless.cc:2693, 2755, 2821, 2878). -/
def inputBytes (depth : Nat) : Nat := if depth ≤ 8 then 1 else 2

/-- The tree that is written (enc_fast_lossless.cc:2941-2958) as the decoder keeps it: splits by the number of the channel, and a leaf for each
channel with the gradient predictor, the first channel in the last context. -/
def fastTree : List MaTree.Node :=
  [⟨0, 1, 1, 2, 0, 0, 1⟩, ⟨0, 2, 3, 4, 0, 0, 1⟩, ⟨0, 0, 5, 6, 0, 0, 1⟩,
   ⟨-1, 0, 0, 0, 5, 0, 1⟩, ⟨-1, 0, 1, 0, 5, 0, 1⟩, ⟨-1, 0, 2, 0, 5, 0, 1⟩, ⟨-1, 0, 3, 0, 5, 0, 1⟩]

/-- The reader of the modular decoder (`ReadHybridUintClustered`, encoding.cc:165-176 and each loop); errors and undefined outcomes remain. -/
def entropyReader (c : Stream.Code) (mult : Nat) : MaTree.Reader (Stream.Out Stream.St) where
  read r h :=
    match r with
    | .ok st =>
      match Stream.readValue c mult h st with
      | .ok (v, st) => (v, .ok st)
      | .ub => (0, .ub)
      | .deep => (0, .deep)
      | .bad => (0, .bad)
    | r => (0, r)
  ok r := match r with | .ok _ => true | _ => false

end Jxl.FastCode
