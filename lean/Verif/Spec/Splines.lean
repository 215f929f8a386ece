import Verif.Model.Splines
/-!
# What splines may be given to the encoder, said without the coding
-/
namespace Jxl.Splines

/-- Less than `lim` away from the origin in both directions. -/
def Near (lim : Int) (p : Int × Int) : Prop := -lim < p.1 ∧ p.1 < lim ∧ -lim < p.2 ∧ p.2 < lim

/-- The polygon through the points never stands still and makes no step of 2^23 or more. -/
def Moves : List (Int × Int) → Prop
  | a :: b :: l => a ≠ b ∧ Near (2 ^ 23) (b.1 - a.1, b.2 - a.2) ∧ Moves (b :: l)
  | _ => True

/-- The length of the polygon, horizontally and vertically. -/
def len : List (Int × Int) → Nat
  | a :: b :: l => (b.1 - a.1).natAbs + (b.2 - a.2).natAbs + len (b :: l)
  | _ => 0

/-- The points after `p`, reached with the last step `d`, if the steps change by `ss`. -/
def track (p d : Int × Int) : List (Int × Int) → List (Int × Int)
  | [] => []
  | s :: ss => (p.1 + (d.1 + s.1), p.2 + (d.2 + s.2)) :: track (p.1 + (d.1 + s.1), p.2 + (d.2 + s.2)) (d.1 + s.1, d.2 + s.2) ss

/-- 32 numbers a 32-bit integer and its negation can hold. -/
def DctOk (l : List Int) : Prop := l.length = 32 ∧ ∀ v ∈ l, -2 ^ 31 < v ∧ v < 2 ^ 31

/-- A curve that may be given to the encoder, for a picture of `size` pixels. -/
structure Curve.Ok (size : Nat) (c : Curve) : Prop where
  some : c.pts ≠ []
  near : ∀ p ∈ c.pts, Near (2 ^ 23) p
  moves : Moves c.pts
  short : len c.pts ≤ 1024 * size + 2 ^ 32 ∧ len c.pts ≤ 2 ^ 42
  color : c.color.length = 3 ∧ ∀ l ∈ c.color, DctOk l
  sigma : DctOk c.sigma

/-- All curves of a frame. -/
structure CurvesOk (pixels size : Nat) (cs : List Curve) (adjust : Int) : Prop where
  some : cs ≠ []
  each : ∀ c ∈ cs, c.Ok size
  size : size ≤ 2 ^ 53
  count : (cs.map fun c => c.pts.length).sum ≤ pixels / 2 ∧ (cs.map fun c => c.pts.length).sum ≤ 2 ^ 20
  adjust : -2 ^ 31 ≤ adjust ∧ adjust < 2 ^ 31

/-- The starting points of curves. -/
def starts (cs : List Curve) : List (Int × Int) := cs.filterMap fun c => c.pts.head?

/-- What is read from any bits: the range of all numbers, and as many starting points as splines, with at most one point for two pixels. -/
structure Set.Ok (pixels : Nat) (s : Set) : Prop where
  some : s.splines ≠ []
  starts : s.starts.length = s.splines.length
  near : ∀ p ∈ s.starts, Near (2 ^ 23) p
  steps : ∀ q ∈ s.splines, ∀ p ∈ q.steps, Near (2 ^ 30) p
  dct : ∀ q ∈ s.splines, q.color.length = 3 ∧ (∀ l ∈ q.color, DctOk l) ∧ DctOk q.sigma
  count : (s.splines.map fun q => q.steps.length + 1).sum ≤ pixels / 2 ∧ (s.splines.map fun q => q.steps.length + 1).sum ≤ 2 ^ 20
  adjust : -2 ^ 31 ≤ s.adjust ∧ s.adjust < 2 ^ 31

end Jxl.Splines
