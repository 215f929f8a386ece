import Verif.Model.CoeffOrder
/-!
# Transform layout (AC strategy) metadata

`lib/jxl/ac_strategy.h:123-125, 141-159, 186-240` (`AcStrategy`, `AcStrategyRow`, `AcStrategyImage`),
`lib/jxl/dec_modular.cc:467-562` (`DecodeAcMetadata`), `lib/jxl/enc_modular.cc:1787-1804` (`AddACMetadata`),
`lib/jxl/dec_group.cc:275-455` (the walk over the blocks of a group), `lib/jxl/enc_entropy_coder.cc:184-188` (the
encoder's walk), `lib/jxl/enc_group.cc:437-468` (the encoder's walk with colour tiles).

Simplifications: an image is a function of column and row; a store outside the image is the outcome `ub`.  The colour
correlation maps and the entropy coding of the metadata are left out.  `is444` and the list of used strategies are
kept.  Nested loops are loops over the list of the cells they visit, in the same order.
-/
namespace Jxl.AcStrategy
open CoeffOrder

/-- Result of an operation that may be refused or may leave the image. -/
inductive Out (α : Type) where
  | ok (a : α)
  | fail
  | ub
  deriving DecidableEq

/-- Rectangle of blocks. -/
structure Rect where
  x0 : Nat
  y0 : Nat
  w : Nat
  h : Nat

/-- The bytes of an `AcStrategyImage`. -/
abbrev Layer := Nat → Nat → Nat

/-- A store into an image. -/
def upd {α : Type} (g : Nat → Nat → α) (x y : Nat) (v : α) : Nat → Nat → α :=
  fun a b => if a = x ∧ b = y then v else g a b

/-- The cells of a rectangle of `w` × `h`, row by row. -/
def offsets (w h : Nat) : List (Nat × Nat) :=
  (List.range h).flatMap fun iy => (List.range w).map fun ix => (ix, iy)

/-- `AcStrategyImage::SetNoBoundsCheck` (ac_strategy.h:210-224) in an image of `W` × `H` blocks. -/
def setCells (W H t x y : Nat) : List (Nat × Nat) → Layer → Out Layer
  | [], g => .ok g
  | (ix, iy) :: cs, g =>
    if x + ix < W ∧ y + iy < H then
      if g (x + ix) (y + iy) ≠ 255 then .fail
      else setCells W H t x y cs (upd g (x + ix) (y + iy) (2 * t + if ix = 0 ∧ iy = 0 then 1 else 0))
    else .ub

/-- What the decoder has stored so far, and how many entries of the list it has used. -/
structure State where
  layer : Layer
  qf : Nat → Nat → Int
  epf : Nat → Nat → Int
  num : Nat
  used : Nat

/-- The stored quantizer (dec_modular.cc:552-553). -/
def clampQf (v : Int) : Int := 1 + max 0 (min 255 v)

/-- Placing one transform at column `x`, row `y` (dec_modular.cc:529-554). -/
def place (W H : Nat) (is444 : Bool) (r : Rect) (x y : Nat) (raw q : Int) (s : State) : Out State :=
  if ¬ (0 ≤ raw ∧ raw < 27) then .fail
  else
    let t := raw.toNat
    let cx := coveredX.getD t 0
    let cy := coveredY.getD t 0
    if (cx > 1 ∨ cy > 1) ∧ is444 = false then .fail
    else if x + cx > (x / 32 + 1) * 32 ∨ x + cx > min W (r.x0 + r.w) then .fail
    else if y + cy > (y / 32 + 1) * 32 ∨ y + cy > min H (r.y0 + r.h) then .fail
    else
      match setCells W H t x y (offsets cx cy) s.layer with
      | .ok g => .ok { s with layer := g, qf := upd s.qf x y (clampQf q), num := s.num + 1, used := s.used ||| (1 <<< t) }
      | .fail => .fail
      | .ub => .ub

/-- One cell (dec_modular.cc:516-555).  `acs` and `qs` are the two rows of the list, `sharp` the filter strengths. -/
def cell (W H : Nat) (is444 : Bool) (r : Rect) (acs qs : List Int) (sharp : Nat → Nat → Int) (c : Nat × Nat)
    (s : State) : Out State :=
  let x := r.x0 + c.1
  let y := r.y0 + c.2
  if sharp x y < 0 ∨ sharp x y ≥ 8 then .fail
  else
    let s := { s with epf := upd s.epf x y (sharp x y) }
    if s.layer x y ≠ 255 then .ok s
    else
      match acs[s.num]?, qs[s.num]? with
      | some raw, some q => place W H is444 r x y raw q s
      | _, _ => .fail

/-- The loop over the cells of the rectangle (dec_modular.cc:509-556). -/
def cells (W H : Nat) (is444 : Bool) (r : Rect) (acs qs : List Int) (sharp : Nat → Nat → Int) :
    List (Nat × Nat) → State → Out State
  | [], s => .ok s
  | c :: cs, s =>
    match cell W H is444 r acs qs sharp c s with
    | .ok s => cells W H is444 r acs qs sharp cs s
    | .fail => .fail
    | .ub => .ub

/-- `DecodeAcMetadata` (dec_modular.cc:503-557) for the rectangle `r` of an image of `W` × `H` blocks. -/
def decode (W H : Nat) (is444 : Bool) (r : Rect) (acs qs : List Int) (sharp : Nat → Nat → Int) (s : State) : Out State :=
  cells W H is444 r acs qs sharp (offsets r.w r.h) { s with num := 0 }

/-- `AcStrategyRow::operator[]` (ac_strategy.h:190-194): `IsFirstBlock`. -/
def isFirst (v : Nat) : Bool := v % 2 == 1

/-- The two rows of the list (enc_modular.cc:1791-1802). -/
def encode (r : Rect) (g : Layer) (qf : Nat → Nat → Int) : List (Int × Int) :=
  (offsets r.w r.h).filterMap fun c =>
    if isFirst (g (r.x0 + c.1) (r.y0 + c.2)) then
      some (((g (r.x0 + c.1) (r.y0 + c.2) / 2 : Nat) : Int), qf (r.x0 + c.1) (r.y0 + c.2) - 1)
    else none

/-- The blocks the encoder visits in a group (enc_entropy_coder.cc:164, 184-186; enc_group.cc:460-468). -/
def encVisits (r : Rect) (g : Layer) : List (Nat × Nat) :=
  (offsets r.w r.h).filter fun c => isFirst (g (r.x0 + c.1) (r.y0 + c.2))

/-- The decoder's loop inside one colour tile (dec_group.cc:318-327, 361, 452): the first blocks visited before
column `lim`, and the column where it stops.  `none`: the table of widths has no entry, or the fuel does not suffice. -/
def walkTile (row : Nat → Nat) (w lim : Nat) : Nat → Nat → Option (List Nat × Nat)
  | 0, _ => none
  | fuel + 1, bx =>
    if bx < w ∧ bx < lim then
      (coveredX[row bx / 2]?).bind fun llf =>
        (walkTile row w lim fuel (bx + llf)).map fun p => (if isFirst (row bx) then bx :: p.1 else p.1, p.2)
    else some ([], bx)

/-- The loop over the colour tiles of a row (dec_group.cc:311-453): visited columns with the tile they use. -/
def walkRow (row : Nat → Nat) (w : Nat) : List Nat → Nat → Option (List (Nat × Nat))
  | [], _ => some []
  | tx :: ts, bx =>
    (walkTile row w ((tx + 1) * 8) (w + 1) bx).bind fun p =>
      (walkRow row w ts p.2).map fun l => p.1.map (fun b => (b, tx)) ++ l

/-- The blocks the decoder visits in a group, row by row (dec_group.cc:275-455), as (column, row, tile). -/
def walkRows (r : Rect) (g : Layer) : List Nat → Option (List (Nat × Nat × Nat))
  | [] => some []
  | iy :: ys =>
    (walkRow (fun ix => g (r.x0 + ix) (r.y0 + iy)) r.w (List.range ((r.w + 7) / 8)) 0).bind fun l =>
      (walkRows r g ys).map fun rest => l.map (fun p => (p.1, iy, p.2)) ++ rest

/-- The decoder's walk over a whole group. -/
def decVisits (r : Rect) (g : Layer) : Option (List (Nat × Nat × Nat)) := walkRows r g (List.range r.h)

end Jxl.AcStrategy
