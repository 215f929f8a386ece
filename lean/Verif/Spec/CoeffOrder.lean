import Verif.Model.CoeffOrder
/-!
# What a natural coefficient order is

A transform covers `cx` × `cy` blocks of 8 × 8, `cx = cy * xs`; its coefficients are `8 * cx` wide and `8 * cy`
high, numbered row by row.
-/
namespace Jxl.CoeffOrder

/-- Zigzag: by diagonals, even diagonals from left to right, odd ones from right to left. -/
def Before (a b : Nat × Nat) : Prop :=
  a.1 + a.2 < b.1 + b.2 ∨
    a.1 + a.2 = b.1 + b.2 ∧ if (a.1 + a.2) % 2 = 0 then a.1 < b.1 else b.1 < a.1

instance (a b : Nat × Nat) : Decidable (Before a b) := by unfold Before; exact inferInstance

/-- The place of coefficient `p` in the square block, whose rows are `xs` times as close. -/
def place (cx xs p : Nat) : Nat × Nat := (p % (8 * cx), p / (8 * cx) * xs)

/-- The low frequency coefficients, row by row. -/
def lowest (cx k : Nat) : Nat := k / cx * (8 * cx) + k % cx

/-- A natural order: every coefficient once, first the low frequencies, the others in zigzag order. -/
structure IsNatural (cx cy xs : Nat) (l : List Nat) : Prop where
  perm : l.Perm (List.range (64 * (cx * cy)))
  low : ∀ k, k < cx * cy → l[k]? = some (lowest cx k)
  zigzag : (l.drop (cx * cy)).Pairwise fun p q => Before (place cx xs p) (place cx xs q)

/-- Part of an array. -/
def Slice (order : List Nat) (off : Nat) (vs : List Nat) : Prop := ∀ j, j < vs.length → order[off + j]? = vs[j]?

/-- Covered blocks after `CoefficientLayout`. -/
def cxOf (o : Nat) : Nat := max (coveredY.getD o 0) (coveredX.getD o 0)
def cyOf (o : Nat) : Nat := min (coveredY.getD o 0) (coveredX.getD o 0)
def ordOf (o : Nat) : Nat := strategyOrder.getD o 0

/-- An order that can be used for strategy `o`: every coefficient once, low frequencies first. -/
def GoodOrder (o : Nat) (vs : List Nat) : Prop :=
  vs.Perm (List.range (64 * (cxOf o * cyOf o))) ∧ ∀ k, k < cxOf o * cyOf o → vs[k]? = some (lowest (cxOf o) k)

end Jxl.CoeffOrder
