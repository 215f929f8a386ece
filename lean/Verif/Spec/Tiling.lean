import Verif.Model.FrameDim
/-!
# Specification: a family of rectangles tiles an area
-/
namespace Jxl.FrameDim

/-- The cell `(x, y)` lies in the rectangle. -/
def Rect.Has (r : Rect) (x y : Nat) : Prop := r.x0 ≤ x ∧ x < r.x0 + r.xs ∧ r.y0 ≤ y ∧ y < r.y0 + r.ys

/-- `n` non-empty rectangles inside a `w × h` area such that every cell of the area lies in exactly one of them. -/
structure Tiles (n : Nat) (r : Nat → Rect) (w h : Nat) : Prop where
  nonempty : ∀ g < n, 0 < (r g).xs ∧ 0 < (r g).ys
  inside : ∀ g < n, (r g).x0 + (r g).xs ≤ w ∧ (r g).y0 + (r g).ys ≤ h
  cover : ∀ x < w, ∀ y < h, ∃ g, g < n ∧ (r g).Has x y
  disjoint : ∀ g < n, ∀ g' < n, ∀ x y, (r g).Has x y → (r g').Has x y → g = g'

end Jxl.FrameDim
