import Verif.Model.Rect
/-! The pixels of a rectangle, and sizes that are far from the limits of 64-bit numbers. -/
namespace Jxl.Rects

/-- The positions of a segment. -/
def Seg.Has (s : Seg) (p : Int) : Prop := s.x0 ≤ p ∧ p < s.x0 + s.len

/-- The pixels of a rectangle. -/
def Rect.Has (r : Rect) (p q : Int) : Prop := r.x.Has p ∧ r.y.Has q

/-- Positions of the type, up to 2^60 from the origin. -/
def Seg.Ok (k : Kind) (s : Seg) : Prop := (k = .unsigned → 0 ≤ s.x0) ∧ -2 ^ 60 ≤ s.x0 ∧ s.x0 ≤ 2 ^ 60 ∧ s.len ≤ 2 ^ 60

/-- The same for both axes. -/
def Rect.Ok (k : Kind) (r : Rect) : Prop := r.x.Ok k ∧ r.y.Ok k

end Jxl.Rects
