import Verif.Spec.Prefix
/-!
# Best code lengths (specification)

The lengths asked of a search for a prefix code: a complete code that gives a word to just the symbols that occur, each of
a length within the limits of its symbol.  A code is best if no other such code makes the whole message shorter.
-/
namespace Jxl.CodeLengths

/-- Lengths that may be chosen for symbols with these frequencies and limits. -/
def Allowed (freq lo hi lens : List Nat) : Prop :=
  lens.length = freq.length ∧ Prefix.Complete lens ∧ ∀ i, i < freq.length →
    (freq.getD i 0 = 0 → lens.getD i 0 = 0) ∧
    (freq.getD i 0 ≠ 0 → lens.getD i 0 ≠ 0 ∧ lo.getD i 0 ≤ lens.getD i 0 ∧ lens.getD i 0 ≤ hi.getD i 0)

/-- The length of a message in which each symbol occurs as often as its frequency says. -/
def total (freq lens : List Nat) : Nat := (List.zipWith (· * ·) freq lens).sum

/-- No lengths allowed are better. -/
def Best (freq lo hi lens : List Nat) : Prop :=
  Allowed freq lo hi lens ∧ ∀ other, Allowed freq lo hi other → total freq lens ≤ total freq other

end Jxl.CodeLengths
