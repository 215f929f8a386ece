import Verif.Model.AcStrategy
/-! What a valid layout of transforms is, independently of how it is stored or read. -/
namespace Jxl.AcStrategy.Spec

/-- A transform: the column and row of its first block, and its kind. -/
structure Varblock where
  x : Nat
  y : Nat
  t : Nat
  deriving DecidableEq

/-- Width in blocks. -/
def Varblock.cx (b : Varblock) : Nat := CoeffOrder.coveredX.getD b.t 0
/-- Height in blocks. -/
def Varblock.cy (b : Varblock) : Nat := CoeffOrder.coveredY.getD b.t 0

/-- The transform covers the block in column `x` and row `y`. -/
def Varblock.Covers (b : Varblock) (x y : Nat) : Prop := b.x ≤ x ∧ x < b.x + b.cx ∧ b.y ≤ y ∧ y < b.y + b.cy

/-- The block is inside the rectangle. -/
def Inside (r : Rect) (x y : Nat) : Prop := r.x0 ≤ x ∧ x < r.x0 + r.w ∧ r.y0 ≤ y ∧ y < r.y0 + r.h

/-- The transform is of a known kind, lies inside the rectangle, and does not cross a boundary between groups of
32 × 32 blocks. -/
def Fits (r : Rect) (b : Varblock) : Prop :=
  b.t < 27 ∧ r.x0 ≤ b.x ∧ b.x + b.cx ≤ r.x0 + r.w ∧ r.y0 ≤ b.y ∧ b.y + b.cy ≤ r.y0 + r.h ∧
    (b.x + b.cx - 1) / 32 = b.x / 32 ∧ (b.y + b.cy - 1) / 32 = b.y / 32

/-- First blocks in reading order. -/
def Before (a b : Varblock) : Prop := a.y < b.y ∨ (a.y = b.y ∧ a.x < b.x)

/-- The transforms fit, are listed in reading order, and each block of the rectangle belongs to exactly one. -/
structure Tiling (r : Rect) (bs : List Varblock) : Prop where
  fits : ∀ b ∈ bs, Fits r b
  sorted : bs.Pairwise Before
  covered : ∀ x y, Inside r x y → ∃ b ∈ bs, b.Covers x y
  unique : ∀ x y, ∀ b ∈ bs, ∀ b' ∈ bs, b.Covers x y → b'.Covers x y → b = b'

/-- The stored bytes describe these transforms: each covered block carries the kind, and the first block is marked. -/
def Shows (g : Layer) (bs : List Varblock) : Prop :=
  ∀ b ∈ bs, ∀ x y, b.Covers x y → g x y = 2 * b.t + if x = b.x ∧ y = b.y then 1 else 0

/-- A group: the part inside `r` of an aligned square of 32 × 32 blocks. -/
def IsGroup (r gr : Rect) : Prop :=
  gr.x0 % 32 = 0 ∧ gr.y0 % 32 = 0 ∧ r.x0 ≤ gr.x0 ∧ r.y0 ≤ gr.y0 ∧ gr.x0 ≤ r.x0 + r.w ∧ gr.y0 ≤ r.y0 + r.h ∧
    gr.x0 + gr.w = min (gr.x0 + 32) (r.x0 + r.w) ∧ gr.y0 + gr.h = min (gr.y0 + 32) (r.y0 + r.h)

/-- The transforms whose first block is in the group. -/
def inGroup (gr : Rect) (bs : List Varblock) : List Varblock :=
  bs.filter fun b => decide (gr.x0 ≤ b.x ∧ b.x < gr.x0 + gr.w ∧ gr.y0 ≤ b.y ∧ b.y < gr.y0 + gr.h)

end Jxl.AcStrategy.Spec
