import Verif.Model.EntropyStream
/-!
# Rectangles (lib/jxl/base/rect.h)

Both axes are treated alike by all functions, so a rectangle is a pair of segments.  `RectT<T>` is used with unsigned and with signed 64-bit `T`; sizes are `size_t` in both.
-/
namespace Jxl.Rects
open Stream (Out)

/-- The type `T` of positions. -/
inductive Kind where
  | unsigned
  | signed
deriving DecidableEq

/-- Conversion to `T`. -/
def Kind.conv : Kind → Int → Int
  | .unsigned, v => v % 2 ^ 64
  | .signed, v => (v + 2 ^ 63) % 2 ^ 64 - 2 ^ 63

/-- The result of arithmetic in `T`: signed overflow is undefined. -/
def Kind.arith : Kind → Int → Out Int
  | .unsigned, v => .ok (v % 2 ^ 64)
  | .signed, v => if -2 ^ 63 ≤ v ∧ v < 2 ^ 63 then .ok v else .ub

/-- Conversion to `size_t`. -/
def size (v : Int) : Nat := (v % 2 ^ 64).toNat

/-- One axis of a rectangle: `x0_` and `xsize_` (rect.h:167-171). -/
structure Seg where
  x0 : Int
  len : Nat
deriving DecidableEq

/-- `x1` (rect.h:126): the sum of a `T` and a `size_t` is a `size_t`. -/
def Seg.x1 (k : Kind) (s : Seg) : Int := k.conv (s.x0 + s.len)

/-- `ClampedSize` (rect.h:161-165). -/
def clampedSize (k : Kind) (b : Int) (m : Nat) (e : Int) : Out Nat :=
  if k.conv (b + m) ≤ e then .ok m else if e > b then (k.arith (e - b)).bind fun v => .ok (size v) else .ok 0

/-- One axis of `Intersection` (rect.h:64-68). -/
def Seg.inter (k : Kind) (a b : Seg) : Out Seg :=
  (clampedSize k (max a.x0 b.x0) a.len (min (a.x1 k) (b.x1 k))).bind fun n => .ok ⟨max a.x0 b.x0, n⟩

/-- One axis of `Translate` (rect.h:70-73). -/
def Seg.translate (k : Kind) (d : Int) (s : Seg) : Out Seg := (k.arith (s.x0 + d)).bind fun x => .ok ⟨x, s.len⟩

/-- One axis of `IsInside` (rect.h:105-108). -/
def Seg.isInside (k : Kind) (a b : Seg) : Bool := decide (a.x0 ≥ b.x0) && decide (a.x1 k ≤ b.x1 k)

/-- One axis of `ShiftLeft` (rect.h:129-132); `1 << shift` is an `int`. -/
def Seg.shiftLeft (k : Kind) (n : Nat) (s : Seg) : Out Seg :=
  if n < 31 then (k.arith (s.x0 * 2 ^ n)).bind fun x => .ok ⟨x, s.len * 2 ^ n % 2 ^ 64⟩ else .ub

/-- One axis of `CeilShiftRight` (rect.h:136-143). -/
def Seg.ceilShiftRight (n : Nat) (s : Seg) : Out Seg :=
  if n < 31 then if s.x0 % 2 ^ n = 0 then .ok ⟨s.x0 / 2 ^ n, (s.len + 2 ^ n - 1) % 2 ^ 64 / 2 ^ n⟩ else .bad else .ub

/-- One axis of `Extend` (rect.h:145-151). -/
def Seg.extend (k : Kind) (border : Int) (s parent : Seg) : Out Seg :=
  (k.arith (parent.x0 + border)).bind fun p =>
    (if s.x0 > p then k.arith (s.x0 - border) else .ok parent.x0).bind fun x0 =>
      (k.arith (s.x1 k + border)).bind fun e =>
        (k.arith ((if e > parent.x1 k then parent.x1 k else e) - x0)).bind fun n => .ok ⟨x0, size n⟩

/-- A rectangle. -/
structure Rect where
  x : Seg
  y : Seg
deriving DecidableEq

/-- Both axes. -/
def both (a b : Out Seg) : Out Rect := a.bind fun x => b.bind fun y => .ok ⟨x, y⟩

/-- `Intersection` (rect.h:64-68). -/
def Rect.inter (k : Kind) (a b : Rect) : Out Rect := both (a.x.inter k b.x) (a.y.inter k b.y)

/-- `Crop` to an image (rect.h:52-62). -/
def Rect.crop (k : Kind) (w h : Nat) (a : Rect) : Out Rect := a.inter k ⟨⟨0, w⟩, ⟨0, h⟩⟩

/-- `Translate` (rect.h:70-73). -/
def Rect.translate (k : Kind) (dx dy : Int) (a : Rect) : Out Rect := both (a.x.translate k dx) (a.y.translate k dy)

/-- `IsInside` (rect.h:105-108). -/
def Rect.isInside (k : Kind) (a b : Rect) : Bool := a.x.isInside k b.x && a.y.isInside k b.y

/-- `ShiftLeft` (rect.h:129-132). -/
def Rect.shiftLeft (k : Kind) (m n : Nat) (a : Rect) : Out Rect := both (a.x.shiftLeft k m) (a.y.shiftLeft k n)

/-- `CeilShiftRight` (rect.h:136-143). -/
def Rect.ceilShiftRight (m n : Nat) (a : Rect) : Out Rect := both (a.x.ceilShiftRight m) (a.y.ceilShiftRight n)

/-- `Extend` (rect.h:145-151). -/
def Rect.extend (k : Kind) (border : Int) (a parent : Rect) : Out Rect := both (a.x.extend k border parent.x) (a.y.extend k border parent.y)

end Jxl.Rects
