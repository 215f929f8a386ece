import Verif.Model.FlatTree
import Verif.Model.ModularImage
import Verif.Model.WeightedPred
/-!
# Model of modular channel coding

`EncodeModularChannelMAANS` (modular/encoding/enc_encoding.cc:238-480), `DecodeModularChannelMAANS`
(modular/encoding/encoding.cc:147-510), the channel loops of `ModularCompress`
(enc_encoding.cc:653-712) and `ModularDecode` (encoding.cc:554-689), and the prediction code they
share (modular/encoding/context_predict.h:372-600).

Every loop over pixels in those functions has the same shape: select a context, a multiplier and a
prediction from the pixels seen so far, code one number, update some state. A `Path` is what differs
between the loops; there is one `Path` for each loop of the code. `none` is undefined behaviour (an
access outside an array, overflow of `int64_t`) or a violated debug assertion; the encoder's refusal
is `some none`. Debug images are left out. The entropy decoder is a parameter (`MaTree.Reader`,
asked for clustered contexts): `IsSingleValueAndAdvance` and `ReadHybridUintClusteredHuffRleOnly`
are treated as reading the numbers one by one.
-/
namespace Jxl.Modular
open Jxl.MaTree (Node FlatNode LeafInfo Filtered Lut Reader filterTree clusterContexts lookup treeToLookupTable clampProp unpack)

/-- Conversion to `int32_t`. -/
def i32 (x : Int) : Int := (BitVec.ofInt 32 x).toInt

/-- A position in a channel of width `w`, the two rows above (if `y` is large enough) and the part
of the current row to the left. -/
structure Pos where
  w : Nat
  y : Nat
  x : Nat
  n1 : List Px
  n2 : List Px
  cur : List Px

/-- The neighbouring samples as `pixel_type_w`. -/
structure Nb where
  left : Int
  top : Int
  topleft : Int
  topright : Int
  leftleft : Int
  toptop : Int
  toprightright : Int
deriving DecidableEq, Repr

/-- A sample of a row. -/
def at? (l : List Px) (i : Nat) : Option Int := (l[i]?).map BitVec.toInt

def leftAt (p : Pos) : Option Int := if 0 < p.x then at? p.cur (p.x - 1) else if 0 < p.y then at? p.n1 p.x else some 0
def topAt (p : Pos) (left : Int) : Option Int := if 0 < p.y then at? p.n1 p.x else some left
def topleftAt (p : Pos) (left : Int) : Option Int := if 0 < p.x ∧ 0 < p.y then at? p.n1 (p.x - 1) else some left
def toprightAt (p : Pos) (top : Int) : Option Int := if p.x + 1 < p.w ∧ 0 < p.y then at? p.n1 (p.x + 1) else some top
def leftleftAt (p : Pos) (left : Int) : Option Int := if 1 < p.x then at? p.cur (p.x - 2) else some left
def toptopAt (p : Pos) (top : Int) : Option Int := if 1 < p.y then at? p.n2 p.x else some top
def toprightrightAt (p : Pos) (topright : Int) : Option Int := if p.x + 2 < p.w ∧ 0 < p.y then at? p.n1 (p.x + 2) else some topright

/-- The neighbours with edge cases (context_predict.h:525-532; the loops of the encoder and the
gradient loops of the decoder read the ones they need in the same way, e.g. enc_encoding.cc:293-299). -/
def nbEdge (p : Pos) : Option Nb :=
  (leftAt p).bind fun left => (topAt p left).bind fun top => (topleftAt p left).bind fun topleft => (toprightAt p top).bind fun topright =>
  (leftleftAt p left).bind fun leftleft => (toptopAt p top).bind fun toptop => (toprightrightAt p topright).map fun trr =>
    { left := left, top := top, topleft := topleft, topright := topright, leftleft := leftleft, toptop := toptop, toprightright := trr }

/-- The neighbours read directly (context_predict.h:525-532 with `kNoEdgeCases`). -/
def nbNec (p : Pos) : Option Nb :=
  if p.x < 2 ∨ p.y < 2 then none
  else
    (at? p.cur (p.x - 1)).bind fun left => (at? p.n1 p.x).bind fun top => (at? p.n1 (p.x - 1)).bind fun topleft => (at? p.n1 (p.x + 1)).bind fun topright =>
    (at? p.cur (p.x - 2)).bind fun leftleft => (at? p.n2 p.x).bind fun toptop => (at? p.n1 (p.x + 2)).map fun trr =>
      { left := left, top := top, topleft := topleft, topright := topright, leftleft := leftleft, toptop := toptop, toprightright := trr }

/-- `ClampedGradient` (context_predict.h:385-402) of `int32_t` values. -/
def clampedGradient (n w l : Int) : Int :=
  let m := min n w
  let M := max n w
  let grad := i32 (n + w - l)
  if l > M then m else if l < m then M else grad

/-- `Select` (context_predict.h:404-409). -/
def selectPred (a b c : Int) : Int :=
  let p := a + b - c
  if (p - a).natAbs < (p - b).natAbs then a else b

/-- `PredictOne` (context_predict.h:472-511); division of `int64_t` rounds towards zero. -/
def predictOne (p : Nat) (n : Nb) (wp : Int) : Int :=
  match p with
  | 0 => 0
  | 1 => n.left
  | 2 => n.top
  | 3 => (n.left + n.top).tdiv 2
  | 4 => selectPred n.left n.top n.topleft
  | 5 => clampedGradient n.left n.top n.topleft
  | 6 => wp
  | 7 => n.topright
  | 8 => n.topleft
  | 9 => n.leftleft
  | 10 => (n.left + n.topleft).tdiv 2
  | 11 => (n.topleft + n.top).tdiv 2
  | 12 => (n.top + n.topright).tdiv 2
  | 13 => (6 * n.top - 2 * n.toptop + 7 * n.left + 1 * n.leftleft + 1 * n.toprightright + 3 * n.topright + 8).tdiv 16
  | _ => 0

/-- The property vector (context_predict.h:534-566, 452-460): `g` is the entry 9 left by the previous
pixel of the row (0 at its start), `wpProp` the entry 15, `refs` the entries from other channels. -/
def propsList (sp : Nat → Int) (y x : Nat) (n : Nb) (g wpProp : Int) (refs : List Int) : List Int :=
  [sp 0, sp 1, i32 y, i32 x, i32 (if n.top > 0 then n.top else -n.top), i32 (if n.left > 0 then n.left else -n.left), i32 n.top, i32 n.left,
   i32 (n.left - g), i32 (n.left + n.top - n.topleft), i32 (n.left - n.topleft), i32 (n.topleft - n.top), i32 (n.top - n.topright), i32 (n.top - n.toptop), i32 (n.left - n.leftleft),
   i32 wpProp] ++ refs

/-! ### Properties from other channels -/

/-- The four numbers from one channel (context_predict.h:428-440). -/
def refOne (c : Channel) (y x : Nat) : Option (List Int) :=
  (c.rows[y]?).bind fun rpp => (c.rows[if y = 0 then 0 else y - 1]?).bind fun prev =>
  (at? rpp x).bind fun v => (if 0 < x then at? rpp (x - 1) else some 0).bind fun vleft =>
  (if 0 < y then at? prev x else some vleft).bind fun vtop => (if 0 < x ∧ 0 < y then at? prev (x - 1) else some vleft).map fun vtopleft =>
    let vp := clampedGradient vleft vtop vtopleft
    [i32 v.natAbs, i32 v, i32 (v - vp).natAbs, i32 (v - vp)]

/-- The channels before `c` that have its size and shifts, the nearest first
(context_predict.h:418-425). -/
def refChannels (before : List Channel) (c : Channel) : List Channel :=
  before.reverse.filter fun d => d.w == c.w && d.h == c.h && d.hshift == c.hshift && d.vshift == c.vshift

def collect (y x : Nat) : List Channel → Option (List Int)
  | [] => some []
  | c :: cs => (refOne c y x).bind fun a => (collect y x cs).map fun b => a ++ b

/-- The row of `references` (context_predict.h:411-444): `num` numbers, four for each channel, filled
up with zeros. -/
def references (before : List Channel) (c : Channel) (num y x : Nat) : Option (List Int) :=
  if num % 4 ≠ 0 then none
  else (collect y x ((refChannels before c).take (num / 4))).map fun l => l ++ List.replicate (num - l.length) 0

/-! ### The loops -/

/-- What is selected for a pixel. -/
structure Sel where
  ctx : Nat
  mult : Nat
  guess : Int

/-- The parts in which the loops differ. -/
structure Path (σ : Type) where
  row : σ → σ
  step : Pos → σ → Option (Sel × σ)
  upd : Pos → Px → σ → Option σ

/-- A token: context and number. -/
abbrev Tok := Nat × Nat

/-- One row of an encoder loop; the second component says that a residual overflowed. -/
def encRow {σ : Type} (P : Path σ) (tok : Sel → Px → Option (Px × Bool)) (w y : Nat) (n1 n2 : List Px) : List Px → List Px → σ → Option (List Tok × Bool × σ)
  | [], _, s => some ([], false, s)
  | p :: rest, cur, s =>
    let pos : Pos := { w := w, y := y, x := cur.length, n1 := n1, n2 := n2, cur := cur }
    (P.step pos s).bind fun r => (tok r.1 p).bind fun t => (P.upd pos p r.2).bind fun s2 =>
    (encRow P tok w y n1 n2 rest (cur ++ [p]) s2).map fun q => ((r.1.ctx, t.1.toNat) :: q.1, t.2 || q.2.1, q.2.2)

/-- All rows; `n1`, `n2` are the previous two rows. -/
def encRows {σ : Type} (P : Path σ) (tok : Sel → Px → Option (Px × Bool)) (w : Nat) : List (List Px) → Nat → List Px → List Px → σ → Option (List Tok × Bool)
  | [], _, _, _, _ => some ([], false)
  | r :: rest, y, n1, n2, s =>
    (encRow P tok w y n1 n2 r [] (P.row s)).bind fun a => (encRows P tok w rest (y + 1) r n1 a.2.2).map fun b => (a.1 ++ b.1, a.2.1 || b.2)

/-- A loop of the encoder with the check at its end (e.g. enc_encoding.cc:313-315). -/
def encLoop {σ : Type} (P : Path σ) (tok : Sel → Px → Option (Px × Bool)) (c : Channel) (s : σ) : Option (Option (List Tok)) :=
  (encRows P tok c.w c.rows 0 [] [] s).map fun a => if a.2 then none else some a.1

/-- `make_pixel` (encoding.cc:186-192). -/
def makePixel (v : Nat) (mult : Nat) (guess : Int) : Option Px :=
  (Wp.chk (unpack v * mult)).bind fun a => (Wp.chk (a + guess)).map fun b => BitVec.ofInt 32 b

/-- One row of a decoder loop. -/
def decRow {σ ρ : Type} (P : Path σ) (R : Reader ρ) (w y : Nat) (n1 n2 : List Px) : Nat → List Px → σ → ρ → Option (List Px × σ × ρ)
  | 0, cur, s, r => some (cur, s, r)
  | n + 1, cur, s, r =>
    let pos : Pos := { w := w, y := y, x := cur.length, n1 := n1, n2 := n2, cur := cur }
    (P.step pos s).bind fun a =>
      let v := R.read r a.1.ctx
      (makePixel v.1 a.1.mult a.1.guess).bind fun p => (P.upd pos p a.2).bind fun s2 => decRow P R w y n1 n2 n (cur ++ [p]) s2 v.2

def decRows {σ ρ : Type} (P : Path σ) (R : Reader ρ) (w : Nat) : Nat → Nat → List Px → List Px → σ → ρ → Option (List (List Px) × ρ)
  | 0, _, _, _, _, r => some ([], r)
  | n + 1, y, n1, n2, s, r =>
    (decRow P R w y n1 n2 w [] (P.row s) r).bind fun a => (decRows P R w n (y + 1) a.1 n1 a.2.1 a.2.2).map fun b => (a.1 :: b.1, b.2)

def decLoop {σ ρ : Type} (P : Path σ) (R : Reader ρ) (c : Channel) (s : σ) (r : ρ) : Option (List (List Px) × ρ) := decRows P R c.w c.h 0 [] [] s r

/-! ### The paths -/

/-- Paths without state. -/
def plain (f : Pos → Option Sel) : Path Unit := { row := fun s => s, step := fun p _ => (f p).map fun a => (a, ()), upd := fun _ _ _ => some () }

/-- The weighted predictor is the only one, contexts from a table: the encoder's loop
(enc_encoding.cc:290-312) with `nb := nbEdge`, the decoder's (encoding.cc:339-398) with
`nb := nbWpFast`. -/
def pathWpLut (hd : Wp.Header) (lut : Lut) (nb : Pos → Option Nb) : Path Wp.State where
  row := fun s => s
  step := fun p s => (nb p).bind fun n => (Wp.predict hd s p.x p.y p.w n.top n.left n.topright n.topleft n.toptop).bind fun r =>
    (lut (clampProp (i32 r.prop))).map fun c => ({ ctx := c, mult := 1, guess := i32 r.guess }, r.st)
  upd := fun p px s => Wp.update s px.toInt p.x p.y p.w

/-- The decoder's pointers in the loop for the weighted predictor (encoding.cc:343-352):
`rtop`, `rtoptop`, `rtopleft` and `rtopright` at `x`, in a row of the channel (`y` large enough) or
one to the left in the current row. -/
def rtopAt (p : Pos) : Option Int := if 0 < p.y then at? p.n1 p.x else at? p.cur (p.x - 1)
def rtoptopAt (p : Pos) : Option Int := if 1 < p.y then at? p.n2 p.x else rtopAt p
def rtopleftAt (p : Pos) : Option Int := if 0 < p.y then at? p.n1 (p.x - 1) else at? p.cur (p.x - 1)
def rtoprightAt (p : Pos) : Option Int := if 0 < p.y then at? p.n1 (p.x + 1) else at? p.cur (p.x - 1)

/-- The neighbours in that loop: first pixel (encoding.cc:354-362), middle (:374-377), last
(:387-389). Only the five the weighted predictor uses are read; the other two are not used. -/
def nbWpFast (p : Pos) : Option Nb :=
  if p.x = 0 then
    (if 0 < p.y then rtopAt p else some 0).bind fun left => (if 0 < p.y then rtoptopAt p else some 0).bind fun toptop =>
    (if p.x + 1 < p.w ∧ 0 < p.y then at? p.n1 (p.x + 1) else some left).map fun topright =>
      { left := left, top := left, topleft := left, topright := topright, leftleft := 0, toptop := toptop, toprightright := 0 }
  else
    (rtopAt p).bind fun top => (at? p.cur (p.x - 1)).bind fun left => (if p.x + 1 < p.w then rtoprightAt p else rtopAt p).bind fun topright =>
    (rtopleftAt p).bind fun topleft => (rtoptopAt p).map fun toptop =>
      { left := left, top := top, topleft := topleft, topright := topright, leftleft := 0, toptop := toptop, toprightright := 0 }

/-- One leaf with the gradient predictor (enc_encoding.cc:324-336, encoding.cc:289-307). -/
def pathGradient (ctx : Nat) : Path Unit := plain fun p => (nbEdge p).map fun n => { ctx := ctx, mult := 1, guess := clampedGradient n.top n.left n.topleft }

/-- The fast loop for files with run lengths (encoding.cc:257-288): `rtop` and `rtopleft` point into
the row above or one to the left in the current row. -/
def pathRle (ctx : Nat) : Path Unit := plain fun p =>
  if p.x = 0 then (if 0 < p.y then at? p.n1 0 else some 0).map fun g => { ctx := ctx, mult := 1, guess := g }
  else (at? p.cur (p.x - 1)).bind fun left => (rtopAt p).bind fun top => (rtopleftAt p).map fun topleft => { ctx := ctx, mult := 1, guess := clampedGradient top left topleft }

/-- The gradient predictor is the only one, contexts from a table (enc_encoding.cc:346-363,
encoding.cc:318-338); the table index is computed in `int64_t`. -/
def pathGradLut (lut : Lut) : Path Unit := plain fun p => (nbEdge p).bind fun n =>
  (lut (clampProp (n.top + n.left - n.topleft))).map fun c => { ctx := c, mult := 1, guess := clampedGradient n.top n.left n.topleft }

/-- One leaf with predictor zero (enc_encoding.cc:375-380, encoding.cc:219-254). -/
def pathZero (ctx mult : Nat) (offset : Int) : Path Unit := plain fun _ => some { ctx := ctx, mult := mult, guess := offset }

/-- One leaf, any other predictor (enc_encoding.cc:389-401). -/
def pathNoTree (i : LeafInfo) : Path Unit := plain fun p => (nbEdge p).map fun n => { ctx := i.ctx, mult := i.multiplier, guess := predictOne i.predictor n 0 }

/-- What the tree loops need. -/
structure TreeCfg where
  nodes : List FlatNode
  walk : Nat
  sp : Nat → Int
  refs : Nat → Nat → Option (List Int)

/-- Property vector, tree walk and prediction (context_predict.h:560-590). -/
def treeStep (T : TreeCfg) (p : Pos) (n : Nb) (g wpProp wpPred : Int) : Option Sel :=
  (T.refs p.y p.x).bind fun refs => (lookup T.nodes (propsList T.sp p.y p.x n g wpProp refs) T.walk 0).map fun i =>
    { ctx := i.ctx, mult := i.multiplier, guess := i.offset + predictOne i.predictor n wpPred }

/-- The tree without the weighted predictor (enc_encoding.cc:404-433, encoding.cc:399-448). The state
is entry 9 of the property vector; entry 15 stays 0. -/
def pathTree (T : TreeCfg) (nb : Pos → Option Nb) : Path Int where
  row := fun _ => 0
  step := fun p g => (nb p).bind fun n => (treeStep T p n g 0 0).map fun a => (a, i32 (n.left + n.top - n.topleft))
  upd := fun _ _ g => some g

/-- The tree with the weighted predictor (enc_encoding.cc:434-466, encoding.cc:449-506). -/
def pathTreeWp (hd : Wp.Header) (T : TreeCfg) (nb : Pos → Option Nb) : Path (Int × Wp.State) where
  row := fun s => (0, s.2)
  step := fun p s => (nb p).bind fun n => (Wp.predict hd s.2 p.x p.y p.w n.top n.left n.topright n.topleft n.toptop).bind fun r =>
    (treeStep T p n s.1 r.prop r.guess).map fun a => (a, (i32 (n.left + n.top - n.topleft), r.st))
  upd := fun p px s => (Wp.update s.2 px.toInt p.x p.y p.w).map fun w => (s.1, w)

/-- The neighbours in the decoder's tree loops (encoding.cc:412-446, 459-504): the middle of the row
is read without edge cases if `fast`. -/
def nbMixed (fast : Bool) (p : Pos) : Option Nb :=
  if fast ∧ 1 < p.y ∧ 8 < p.w ∧ 2 ≤ p.x ∧ p.x < p.w - 2 then nbNec p else nbEdge p

/-! ### Residuals -/

/-- `SubOverflow` and `PackSigned` (enc_encoding.cc:308-310; base/common.h:55-68). -/
def tokSub (a : Sel) (p : Px) : Option (Px × Bool) :=
  let d := p.toInt - a.guess
  some (packSigned (BitVec.ofInt 32 d), decide (i32 d ≠ d))

/-- The residual is divided by a shift (enc_encoding.cc:396-398), with its debug assertion. -/
def tokShift (k : Nat) (a : Sel) (p : Px) : Option (Px × Bool) :=
  let d := p.toInt - a.guess
  if d / 2 ^ k * a.mult = d then some (packSigned (BitVec.ofInt 32 (d / 2 ^ k)), false) else none

/-- The residual is divided (enc_encoding.cc:429-431, 460-462), with the debug assertion. -/
def tokDiv (a : Sel) (p : Px) : Option (Px × Bool) :=
  let d := p.toInt - a.guess
  if a.mult ≠ 0 ∧ d.tmod a.mult = 0 then some (packSigned (BitVec.ofInt 32 (d.tdiv a.mult)), false) else none

/-- No prediction (enc_encoding.cc:378). -/
def tokZero (_ : Sel) (p : Px) : Option (Px × Bool) := some (packSigned p, false)

/-! ### Channels -/

/-- Numbers of iterations allowed in the loops over trees. -/
structure Ticks where
  filter : Nat
  walk : Nat
  lut : Nat

/-- `static_props` (enc_encoding.cc:258-259, encoding.cc:159-160). -/
def staticProps (chan group : Nat) (p : Nat) : Int := if p = 0 then chan else if p = 1 then i32 group else 0

/-- The table if the tree qualifies (enc_encoding.cc:273-278, encoding.cc:311-316). -/
def lutIf (b : Bool) (w : Nat) (nodes : List FlatNode) (fuel : Nat) : Option (Option Lut) :=
  if b then treeToLookupTable w nodes fuel (fun _ => none) else some none

/-- `tree.size() == 1`. -/
def single (nodes : List FlatNode) : Option LeafInfo :=
  match nodes with
  | [.leaf i] => some i
  | _ => none

/-- The branches of `EncodeModularChannelMAANS` after the two tables: single leaf, table, tree
(enc_encoding.cc:316-466). -/
def encNoWpLut (skip : Bool) (hd : Wp.Header) (T : TreeCfg) (F : Filtered) (c : Channel) (gl : Option Lut) : Option (Option (List Tok)) :=
  let one := if skip then none else single F.nodes
  let general :=
    if !F.useWp && !skip then encLoop (pathTree T nbEdge) tokDiv c 0
    else encLoop (pathTreeWp hd T nbEdge) tokDiv c (0, Wp.init c.w)
  let afterLut :=
    match one with
    | some i =>
      if i.predictor = 0 ∧ i.multiplier = 1 ∧ i.offset = 0 then encLoop (pathZero i.ctx 1 0) tokZero c ()
      else if i.predictor ≠ 6 ∧ i.multiplier &&& (i.multiplier - 1) = 0 ∧ i.offset = 0 then encLoop (pathNoTree i) (tokShift (Nat.log2 i.multiplier)) c ()
      else general
    | none => general
  let fromGradient :=
    match (if skip then none else gl) with
    | some lut => encLoop (pathGradLut lut) tokSub c ()
    | none => afterLut
  match one with
  | some i => if i.predictor = 5 ∧ i.multiplier = 1 ∧ i.offset = 0 then encLoop (pathGradient i.ctx) tokSub c () else fromGradient
  | none => fromGradient

/-- `EncodeModularChannelMAANS` (enc_encoding.cc:238-480) for channel `before.length`. -/
def encodeChannel (tk : Ticks) (hd : Wp.Header) (tree : List Node) (group : Nat) (skip : Bool) (before : List Channel) (c : Channel) : Option (Option (List Tok)) :=
  if c.w = 0 ∨ c.h = 0 then some none
  else
    let sp := staticProps before.length group
    (filterTree tree sp tk.filter).bind fun F =>
      let T : TreeCfg := { nodes := F.nodes, walk := tk.walk, sp := sp, refs := references before c (F.numProps - 16) }
      (lutIf F.wpOnly 16 F.nodes tk.lut).bind fun wl => (lutIf F.gradientOnly 16 F.nodes tk.lut).bind fun gl =>
        match (if skip then none else wl) with
        | some lut => encLoop (pathWpLut hd lut nbEdge) tokSub c (Wp.init c.w)
        | none => encNoWpLut skip hd T F c gl

/-- What the decoder knows about the entropy code: LZ77 is used; only run lengths with prefix codes
(`IsHuffRleOnly`). -/
structure CodeInfo where
  lz77 : Bool
  rleOnly : Bool

/-- `global_tree_is_all_gradient_noop` (encoding.cc:199-210). -/
def allGradientNoop (tree : List Node) : Bool :=
  tree.all fun n => if n.property = -1 then n.predictor == 5 && n.offset == 0 && n.multiplier == 1 else decide (n.property < 2)

/-- The loops after the single-leaf cases (encoding.cc:309-506). -/
def decGeneral {ρ : Type} (tk : Ticks) (ci : CodeInfo) (hd : Wp.Header) (T : TreeCfg) (F : Filtered) (R : Reader ρ) (c : Channel) (r : ρ) : Option (List (List Px) × ρ) :=
  (lutIf F.wpOnly 8 T.nodes tk.lut).bind fun wl => (lutIf F.gradientOnly 8 T.nodes tk.lut).bind fun gl =>
    match gl with
    | some lut => decLoop (pathGradLut lut) R c () r
    | none =>
      match (if !ci.lz77 && decide (8 < c.w) then wl else none) with
      | some lut => decLoop (pathWpLut hd lut nbWpFast) R c (Wp.init c.w) r
      | none =>
        if !F.useWp then decLoop (pathTree T (nbMixed (F.numProps == 16))) R c 0 r
        else decLoop (pathTreeWp hd T (nbMixed (F.numProps == 16 && !ci.lz77))) R c (0, Wp.init c.w) r

/-- `DecodeModularChannelMAANS` (encoding.cc:147-510): the new samples of channel `before.length`. -/
def decodeChannel {ρ : Type} (tk : Ticks) (ci : CodeInfo) (hd : Wp.Header) (tree : List Node) (cm : List Nat) (group : Nat) (R : Reader ρ) (before : List Channel) (c : Channel) (r : ρ) :
    Option (List (List Px) × ρ) :=
  if c.w = 0 ∨ c.h = 0 then some (c.rows, r)
  else
    let sp := staticProps before.length group
    (filterTree tree sp tk.filter).bind fun F => (clusterContexts cm F.nodes).bind fun nodes =>
      let T : TreeCfg := { nodes := nodes, walk := tk.walk, sp := sp, refs := references before c (F.numProps - 16) }
      match single nodes with
      | some i =>
        if i.predictor = 0 then decLoop (pathZero i.ctx i.multiplier i.offset) R c () r
        else if ci.lz77 && ci.rleOnly && allGradientNoop tree then decLoop (pathRle i.ctx) R c () r
        else if i.predictor = 5 ∧ i.offset = 0 ∧ i.multiplier = 1 then decLoop (pathGradient i.ctx) R c () r
        else decGeneral tk ci hd T F R c r
      | none => decGeneral tk ci hd T F R c r

/-! ### Images -/

/-- The loop ends at this channel (enc_encoding.cc:691-695, encoding.cc:657-661). -/
def tooLarge (nbMeta maxSize i : Nat) (c : Channel) : Bool := decide (nbMeta ≤ i) && (decide (maxSize < c.w) || decide (maxSize < c.h))

/-- The channel loop of `ModularCompress` (enc_encoding.cc:690-704). -/
def encodeChannels (tk : Ticks) (hd : Wp.Header) (tree : List Node) (group : Nat) (skip : Bool) (nbMeta maxSize : Nat) : List Channel → List Channel → Option (Option (List Tok))
  | _, [] => some (some [])
  | before, c :: rest =>
    if tooLarge nbMeta maxSize before.length c then some (some [])
    else if c.w = 0 ∨ c.h = 0 then encodeChannels tk hd tree group skip nbMeta maxSize (before ++ [c]) rest
    else
      match encodeChannel tk hd tree group skip before c with
      | none => none
      | some none => some none
      | some (some t) => (encodeChannels tk hd tree group skip nbMeta maxSize (before ++ [c]) rest).map fun o => o.map fun u => t ++ u

/-- The channel loop of `ModularDecode` (encoding.cc:655-676); the channels are given with their
sizes and any contents. Truncated input is not considered here. -/
def decodeChannels {ρ : Type} (tk : Ticks) (ci : CodeInfo) (hd : Wp.Header) (tree : List Node) (cm : List Nat) (group : Nat) (R : Reader ρ) (nbMeta maxSize : Nat) :
    List Channel → List Channel → ρ → Option (List Channel × ρ)
  | before, [], r => some (before, r)
  | before, c :: rest, r =>
    if tooLarge nbMeta maxSize before.length c then some (before ++ c :: rest, r)
    else if c.w = 0 ∨ c.h = 0 then decodeChannels tk ci hd tree cm group R nbMeta maxSize (before ++ [c]) rest r
    else (decodeChannel tk ci hd tree cm group R before c r).bind fun a => decodeChannels tk ci hd tree cm group R nbMeta maxSize (before ++ [{ c with rows := a.1 }]) rest a.2

/-- `image_width`, the encoder's distance multiplier (enc_encoding.cc:675-684). -/
def encWidth (nbMeta maxSize : Nat) : Nat → List Channel → Nat → Nat
  | _, [], acc => acc
  | i, c :: rest, acc => if tooLarge nbMeta maxSize i c then acc else encWidth nbMeta maxSize (i + 1) rest (if c.w > acc then c.w else acc)

/-- `distance_multiplier` of the decoder (encoding.cc:593-607). -/
def decWidth (nbMeta maxSize : Nat) : Nat → List Channel → Nat → Nat
  | _, [], acc => acc
  | i, c :: rest, acc =>
    if tooLarge nbMeta maxSize i c then acc
    else if c.w = 0 ∨ c.h = 0 then decWidth nbMeta maxSize (i + 1) rest acc
    else decWidth nbMeta maxSize (i + 1) rest (if c.w > acc then c.w else acc)

end Jxl.Modular
