/-!
# Decision trees

The abstract meaning of a "meta-adaptive" tree: a binary tree whose inner nodes compare one
property with a threshold and whose leaves say how to predict and which context to use.
-/
namespace Jxl.MaTree

/-- What a leaf selects. -/
structure LeafInfo where
  ctx : Nat
  predictor : Nat
  offset : Int
  multiplier : Nat
deriving DecidableEq, Repr

inductive Dtree where
  | leaf (info : LeafInfo)
  | split (property : Nat) (splitval : Int) (l r : Dtree)
deriving DecidableEq, Repr

/-- Walk the tree: the left child is taken if the property is larger than the threshold. -/
def Dtree.eval (props : Nat → Int) : Dtree → LeafInfo
  | .leaf i => i
  | .split p v l r => if props p > v then l.eval props else r.eval props

/-- Number of edges on a longest path. -/
def Dtree.height : Dtree → Nat
  | .leaf _ => 0
  | .split _ _ l r => 1 + max l.height r.height

def minInt : Int := -2147483648
def maxInt : Int := 2147483647

/-- Properties are 32-bit numbers. -/
def PropsOk (props : Nat → Int) : Prop := ∀ p, minInt ≤ props p ∧ props p ≤ maxInt

/-- Every leaf is selected by some vector of 32-bit properties satisfying `C`. -/
def Dtree.Live (C : (Nat → Int) → Prop) : Dtree → Prop
  | .leaf _ => ∃ props, PropsOk props ∧ C props
  | .split p v l r => l.Live (fun props => C props ∧ props p > v) ∧ r.Live (fun props => C props ∧ props p ≤ v)

end Jxl.MaTree
