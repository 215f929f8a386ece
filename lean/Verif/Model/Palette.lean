import Verif.Model.ModularImage
/-!
# Model of the palette transform (lib/jxl/modular/transform/palette.h, palette.cc, enc_palette.cc)

A palette is the list of rows of the first channel, so that reading past the end of a row is an error here even where
the memory of the next row follows. `none` stands for undefined behaviour: reads outside an array and overflow of
signed arithmetic.

Not modelled: the lossy forward transform, and the predictors of delta palettes, which are any function of the samples
decoded so far. The luma order of the forward transform compares floats; any reordering is allowed here.
-/
namespace Jxl.Modular.Palette

/-- The result of signed 32-bit arithmetic. -/
def ck (v : Int) : Option Int := if -2147483648 ≤ v ∧ v < 2147483648 then some v else none

/-- Apply `f` to every element, failing if it fails once. -/
def mapOpt {α β : Type} (f : α → Option β) : List α → Option (List β)
  | [] => some []
  | a :: l => (f a).bind fun b => (mapOpt f l).map fun bs => b :: bs

/-- `kDeltaPalette` (palette.h:58-83). -/
def kDeltaPalette : List (List Int) := [
  [0, 0, 0], [4, 4, 4], [11, 0, 0], [0, 0, -13], [0, -12, 0], [-10, -10, -10],
  [-18, -18, -18], [-27, -27, -27], [-18, -18, 0], [0, 0, -32], [-32, 0, 0], [-37, -37, -37],
  [0, -32, -32], [24, 24, 45], [50, 50, 50], [-45, -24, -24], [-24, -45, -45], [0, -24, -24],
  [-34, -34, 0], [-24, 0, -24], [-45, -45, -24], [64, 64, 64], [-32, 0, -32], [0, -32, 0],
  [-32, 0, 32], [-24, -45, -24], [45, 24, 45], [24, -24, -45], [-45, -24, 24], [80, 80, 80],
  [64, 0, 0], [0, 0, -64], [0, -64, -64], [-24, -24, 45], [96, 96, 96], [64, 64, 0],
  [45, -24, -24], [34, -34, 0], [112, 112, 112], [24, -45, -45], [45, 45, -24], [0, -32, 32],
  [24, -24, 45], [0, 96, 96], [45, -24, 24], [24, -45, -24], [-24, -45, 24], [0, -64, 0],
  [96, 0, 0], [128, 128, 128], [64, 0, 64], [144, 144, 144], [96, 96, 0], [-36, -36, 36],
  [45, -24, -45], [45, -45, -24], [0, 0, -96], [0, 128, 128], [0, 96, 0], [45, 24, -45],
  [-128, 0, 0], [24, -45, 24], [-45, 24, -45], [64, 0, -64], [64, -64, -64], [96, 0, 96],
  [45, -45, 24], [24, 45, -45], [64, 64, -64], [128, 128, 0], [0, 0, -128], [-24, 45, -45]]

/-- `Scale<4>` (palette.h:39-47): 64-bit arithmetic, the result cut to a pixel. -/
def scale (value depth : Nat) : Option Int :=
  if depth < 64 then some (BitVec.ofNat 32 ((value * (2 ^ depth - 1) % 2 ^ 64) / 4)).toInt else none

/-- The delta for a negative index (palette.h:84-97). -/
def deltaValue (index : Int) (c depth : Nat) : Option Int :=
  let i := (-(index + 1)).toNat % 143
  ((kDeltaPalette[(i + 1) / 2]?).bind fun row => row[c]?).bind fun e =>
    let r := e * (if i % 2 = 0 then -1 else 1)
    if 8 < depth then (if depth - 8 < 31 then ck (r * 2 ^ (depth - 8)) else none) else some r

/-- The small cube (palette.h:98-103); `i` is the index minus the palette size. -/
def smallCube (i c depth : Nat) : Option Int :=
  (scale (i / 4 ^ c % 4) depth).bind fun v => if depth - 3 < 31 then ck (v + 2 ^ (depth - 3)) else none

/-- The large cube (palette.h:104-121); `i` is the index minus the palette size and 64. -/
def largeCube (i c depth : Nat) : Option Int := scale (i / 5 ^ c % 5) depth

/-- `GetPaletteValue` (palette.h:49-124). -/
def getPaletteValue (pal : List (List Px)) (index : Int) (c size depth : Nat) : Option Px :=
  if index < 0 then
    if 3 ≤ c then some 0 else (deltaValue index c depth).map (BitVec.ofInt 32)
  else if (size : Int) + 64 ≥ 2147483648 then none
  else if (size : Int) ≤ index ∧ index < size + 64 then
    if 3 ≤ c then some 0 else (smallCube (index.toNat - size) c depth).map (BitVec.ofInt 32)
  else if (size : Int) + 64 ≤ index then
    if 3 ≤ c then some 0 else (largeCube (index.toNat - size - 64) c depth).map (BitVec.ofInt 32)
  else (pal[c]?).bind fun row => row[index.toNat]?

/-- `Clamp1` (base/common.h:187-189). -/
def clamp1 (v lo hi : Int) : Int := if v < lo then lo else if v > hi then hi else v

/-- One channel, no deltas (palette.cc:60-77). -/
def inv1 (pal : List (List Px)) (size depth : Nat) (rows : List (List Px)) : Option (List (List Px)) :=
  mapOpt (mapOpt fun p => getPaletteValue pal (clamp1 p.toInt 0 ((size : Int) - 1)) 0 size depth) rows

/-- Channel `c` of several, no deltas (palette.cc:78-99). -/
def invC (pal : List (List Px)) (size depth : Nat) (rows : List (List Px)) (c : Nat) : Option (List (List Px)) :=
  mapOpt (mapOpt fun p => getPaletteValue pal p.toInt c size depth) rows

/-- A row with deltas (palette.cc:113-137, 146-166): `guess prev cur` predicts from the rows above and the samples to
the left. Both predictors are functions of these. -/
def deltaRow (guess : List (List Px) → List Px → Int) (pal : List (List Px)) (size nbDeltas depth c : Nat)
    (prev : List (List Px)) : List Px → List Px → Option (List Px)
  | [], cur => some cur
  | p :: ps, cur =>
    (getPaletteValue pal p.toInt c size depth).bind fun e =>
      let v := if p.toInt < (nbDeltas : Int) then BitVec.ofInt 32 (guess prev cur + e.toInt) else e
      deltaRow guess pal size nbDeltas depth c prev ps (cur ++ [v])

def deltaRows (guess : List (List Px) → List Px → Int) (pal : List (List Px)) (size nbDeltas depth c : Nat) :
    List (List Px) → List (List Px) → Option (List (List Px))
  | [], prev => some prev
  | r :: rs, prev =>
    (deltaRow guess pal size nbDeltas depth c prev r []).bind fun row =>
      deltaRows guess pal size nbDeltas depth c rs (prev ++ [row])

/-- The rows of output channel `c` (palette.cc:55-175). -/
def invRows (guess : Nat → List (List Px) → List Px → Int) (zero : Bool) (pal : Channel) (nbDeltas depth : Nat)
    (idx : Channel) (c : Nat) : Option (List (List Px)) :=
  if idx.w = 0 then some (if c = 0 then idx.rows else List.replicate idx.h [])
  else if nbDeltas = 0 ∧ zero = true then
    if pal.h = 1 then inv1 pal.rows pal.w depth idx.rows else invC pal.rows pal.w depth idx.rows c
  else deltaRows (guess c) pal.rows pal.w nbDeltas depth c idx.rows []

/-- The number of meta channels afterwards (palette.cc:176-184). -/
def invMeta (nbMeta beginC nb : Nat) : Option Nat :=
  if nbMeta ≤ beginC + 1 then some (nbMeta - 1)
  else if (nbMeta : Int) < 2 - nb then none
  else if beginC + nb - 1 < nbMeta + nb - 2 then some (nbMeta + nb - 2) else none

/-- `InvPalette` (palette.cc:27-187). The outer `none` is undefined behaviour, the inner one a refusal; `bitdepth` is
that of the image, `zero` says whether the predictor is `Zero`. -/
def invPalette (guess : Nat → List (List Px) → List Px → Int) (zero : Bool) (img : Image) (beginC nbDeltas bitdepth : Nat) :
    Option (Option Image) :=
  if img.nbMeta < 1 then some none
  else match img.channel[0]?, img.channel[beginC + 1]? with
    | some pal, some idx =>
      if pal.h < 1 then some none
      else
        (mapOpt (invRows guess zero pal nbDeltas (min bitdepth 24) idx) (List.range pal.h)).bind fun rows =>
          some ((invMeta img.nbMeta beginC pal.h).map fun m =>
            Image.mk ((img.channel.take (beginC + 1)).drop 1 ++ rows.map (fun r => { idx with rows := r }) ++
              img.channel.drop (beginC + 2)) m)
    | _, _ => some none

/-- `MetaPalette` (palette.cc:189-216): the layout the decoder expects; the new channel is filled with zeros. -/
def metaPalette (img : Image) (beginC endC nbColors nbDeltas : Nat) : Option Image :=
  if checkEqualChannels img beginC endC then
    let nb := endC - beginC + 1
    let pch := Channel.mk (nbColors + nbDeltas) nb (-1) (-1) (List.replicate nb (List.replicate (nbColors + nbDeltas) 0))
    let chs := pch :: (img.channel.take (beginC + 1) ++ img.channel.drop (endC + 1))
    if img.nbMeta ≤ beginC then some (Image.mk chs (img.nbMeta + 1))
    else if endC < img.nbMeta then some (Image.mk chs (img.nbMeta + 2 - nb))
    else none
  else none

/-! ## Forward, lossless -/

/-- `compute_minmax` (enc_transform.cc:40-53). -/
def minMax (ps : List Int) : Int × Int :=
  ps.foldl (fun m p => (if p < m.1 then p else m.1, if p > m.2 then p else m.2)) (2147483647, -2147483648)

/-- Insertion in a `std::set`, in increasing order. -/
def insertSet (x : Int) : List Int → List Int
  | [] => [x]
  | y :: l => if x < y then x :: y :: l else if x = y then y :: l else y :: insertSet x l

/-- The colours of a channel (enc_palette.cc:211-222); refuses too many. -/
def collectSet (nbColors : Nat) : List Int → List Int → Option (List Int)
  | [], s => some s
  | p :: ps, s =>
    if p ∈ s then collectSet nbColors ps s
    else if nbColors < s.length + 1 then none else collectSet nbColors ps (insertSet p s)

/-- The search for a colour (enc_palette.cc:238-244); reading past the palette is undefined. -/
def searchFrom (pal : List Int) (p : Int) : Nat → Nat → Option Nat
  | 0, _ => none
  | fuel + 1, i => (pal[i]?).bind fun q => if p ≠ q ∧ i < pal.length then searchFrom pal p fuel (i + 1) else some i

/-- Marks the colours in use (enc_palette.cc:257-267), `mn` being the smallest; the inner `none` refuses. -/
def markUsed (nbColors : Nat) (mn : Int) : List Int → List Nat → Nat → Option (Option (List Nat × Nat))
  | [], t, n => some (some (t, n))
  | p :: ps, t, n =>
    (t[(p - mn).toNat]?).bind fun f =>
      if f = 0 then
        if nbColors < n + 1 then some none else markUsed nbColors mn ps (t.set (p - mn).toNat 1) (n + 1)
      else markUsed nbColors mn ps t n

/-- Numbers the colours (enc_palette.cc:275-281): palette, table, next index. -/
def numberStep (mn : Int) (s : List Int × List Nat × Nat) (i : Nat) : List Int × List Nat × Nat :=
  if s.2.1.getD i 0 ≠ 0 then (s.1 ++ [(i : Int) + mn], s.2.1.set i s.2.2, s.2.2 + 1) else s

/-- The channel palette (enc_palette.cc:196-289): palette and indices of all samples. -/
def channelPalette (nbColors : Nat) (rows : List (List Px)) : Option (Option (List Int × List (List Nat))) :=
  let ps := rows.flatten.map BitVec.toInt
  let mn := (minMax ps).1
  let size := ((minMax ps).2 - mn + 1) % 2 ^ 64
  if 65536 < size then
    match collectSet nbColors ps [] with
    | none => some none
    | some pal => (mapOpt (mapOpt fun p => searchFrom pal (BitVec.toInt p) (pal.length + 1) 0) rows).map fun r =>
        some (pal, r)
  else
    (markUsed nbColors mn ps (List.replicate size.toNat 0) 0).bind fun m =>
      match m with
      | none => some none
      | some (t, n) =>
        let s := (List.range size.toNat).foldl (numberStep mn) ([], t, 0)
        if s.1.length ≤ n then
          (mapOpt (mapOpt fun p => s.2.1[(BitVec.toInt p - mn).toNat]?) rows).map fun r => some (s.1, r)
        else none

/-- The implicit colours with `nb` channels (enc_palette.cc:351-358); the depth is not limited to 24 here. -/
def implicitColors (nb depth : Nat) : Option (List (List Px)) :=
  mapOpt (fun k : Nat => mapOpt (fun c => getPaletteValue [] k c 0 depth) (List.range nb)) (List.range 189)

/-- The loop over pixels (enc_palette.cc:360-388): all colours seen, the explicit ones in order, how many implicit. -/
def collect (implicit : List (List Px)) (nbColors : Nat) :
    List (List Px) → List (List Px) → List (List Px) → Nat → Option (List (List Px) × Nat)
  | [], _, order, used => some (order, used)
  | p :: ps, seen, order, used =>
    if p ∈ seen then collect implicit nbColors ps seen order used
    else if p ∈ implicit then collect implicit nbColors ps (p :: seen) order (used + 1)
    else if nbColors < order.length + 1 then none
    else collect implicit nbColors ps (p :: seen) (order ++ [p]) used

/-- The colours of row `y` of the channels. -/
def colorsRow (chs : List Channel) (w y : Nat) : List (List Px) :=
  (List.range w).map fun x => chs.map fun ch => (ch.rows.getD y []).getD x 0

/-- `inv_palette` (enc_palette.cc:406-409, 461): later entries replace earlier ones, an unknown colour has index 0. -/
def invPal (implicit order : List (List Px)) (color : List Px) : Nat :=
  (((order.zipIdx.reverse ++ (implicit.zipIdx order.length).reverse).find? fun e => e.1 == color).map (·.2)).getD 0

/-- Several channels (enc_palette.cc:291-567, lossless): palette and index rows. `srt` is the luma order. -/
def multiPalette (srt : List (List Px) → List (List Px)) (nbColors depth : Nat) (chs : List Channel) (w h : Nat) :
    Option (Option (List (List Px) × List (List Px))) :=
  (implicitColors chs.length depth).bind fun implicit =>
    let pixels := (List.range h).flatMap (colorsRow chs w)
    match collect implicit nbColors pixels [] [] 0 with
    | none => some none
    | some (order, used) =>
      if order.length + used = 1 then some none
      else
        let order := srt (order ++ implicit.filter fun c => 10 < pixels.count c)
        some (some ((List.range chs.length).map (fun c => order.map fun col => col.getD c 0),
          (List.range h).map fun y => (colorsRow chs w y).map fun col => BitVec.ofNat 32 (invPal implicit order col)))

/-- `FwdPalette` without loss (enc_palette.cc:178-590): the outer `none` is undefined behaviour, the inner one a
refusal. -/
def fwdPalette (srt : List (List Px) → List (List Px)) (img : Image) (beginC endC nbColors bitdepth : Nat) :
    Option (Option Image) :=
  if checkEqualChannels img beginC endC = false then some none
  else if beginC < img.nbMeta then some none
  else if 32 ≤ bitdepth ∨ nbColors < 2 then some none
  else match img.channel[beginC]? with
    | none => none
    | some ch =>
      if beginC = endC then
        (channelPalette nbColors ch.rows).map (Option.map fun r =>
          Image.mk (Channel.mk r.1.length 1 (-1) (-1) [r.1.map (BitVec.ofInt 32)] ::
              (img.channel.take beginC ++ { ch with rows := r.2.map (List.map (BitVec.ofNat 32)) } ::
                img.channel.drop (beginC + 1))) (img.nbMeta + 1))
      else
        let chs := (img.channel.drop beginC).take (endC + 1 - beginC)
        (multiPalette srt nbColors bitdepth chs ch.w ch.h).map (Option.map fun r =>
          Image.mk (Channel.mk (r.1.getD 0 []).length chs.length (-1) (-1) r.1 ::
              (img.channel.take beginC ++ { ch with rows := r.2 } :: img.channel.drop (endC + 1))) (img.nbMeta + 1))

end Jxl.Modular.Palette
