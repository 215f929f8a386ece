/-!
# Orientation of images, geometrically

An image is a rectangle of samples, `at x y` being the sample in column `x` from the left and row `y` from the top.  The eight orientations
are built from three motions: mirroring left-right, exchanging rows and columns, and a quarter turn clockwise.
-/
namespace Jxl.Orient

structure Img (α : Type) where
  w : Nat
  h : Nat
  at_ : Nat → Nat → α

/-- Left becomes right. -/
def Img.mirror {α} (i : Img α) : Img α := ⟨i.w, i.h, fun x y => i.at_ (i.w - 1 - x) y⟩
/-- Rows become columns. -/
def Img.transpose {α} (i : Img α) : Img α := ⟨i.h, i.w, fun x y => i.at_ y x⟩
/-- A quarter turn clockwise: the left column, read upwards, becomes the top row. -/
def Img.turn {α} (i : Img α) : Img α := ⟨i.h, i.w, fun x y => i.at_ y (i.h - 1 - x)⟩

/-- What has to be shown for a stored image with Exif orientation `o` (1..8). -/
def Img.shown {α} (i : Img α) : Nat → Img α
  | 2 => i.mirror
  | 3 => i.turn.turn
  | 4 => i.mirror.turn.turn
  | 5 => i.transpose
  | 6 => i.turn
  | 7 => i.transpose.turn.turn
  | 8 => i.turn.turn.turn
  | _ => i

end Jxl.Orient
