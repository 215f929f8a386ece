/-!
# Specification of frame references through storage slots

Frames are decoded in order.  Every frame may be stored into some of eight slots and may read some of them; it sees whatever the last
frame before it left there.
-/
namespace Jxl.FrameRefs

/-- For one frame: the set of slots it reads and the set of slots it is stored in, as bit masks. -/
structure FrameRef where
  reference : Nat
  savedAs : Nat
  deriving DecidableEq, Repr, Inhabited

/-- Frame `j` is stored in slot `s`. -/
def Saves (fs : List FrameRef) (s j : Nat) : Prop := ∃ f, fs[j]? = some f ∧ f.savedAs.testBit s = true

/-- The content of slot `s` before frame `n` is frame `j`. -/
def Holds (fs : List FrameRef) (s n j : Nat) : Prop := j < n ∧ Saves fs s j ∧ ∀ k, j < k → k < n → ¬ Saves fs s k

/-- Frame `i` reads frame `j`. -/
def Reads (fs : List FrameRef) (i j : Nat) : Prop := ∃ f s, fs[i]? = some f ∧ s < 8 ∧ f.reference.testBit s = true ∧ Holds fs s i j

/-- The pixels of frame `j` reach frame `i` through some chain of references. -/
inductive Needs (fs : List FrameRef) : Nat → Nat → Prop
  | direct {i j} : Reads fs i j → Needs fs i j
  | step {i k j} : Needs fs i k → Reads fs k j → Needs fs i j

end Jxl.FrameRefs
