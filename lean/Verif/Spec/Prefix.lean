import Verif.Spec.Bits
/-!
# Canonical prefix codes (specification)

A prefix code is given by one length per symbol, `0` for symbols that do not occur.  All of it is measured in
units of `2^-15`: a word of length `l` owns `2^(15-l)` units of the unit interval.  The canonical code lists the
words by length and, for one length, by symbol; the word of a symbol is the binary expansion of the left end of
its interval.
-/
namespace Jxl.Prefix

/-- The units owned by all words. -/
def weight (lens : List Nat) : Nat := ((lens.filter (· ≠ 0)).map fun l => 2 ^ (15 - l)).sum

/-- A complete code: lengths at most 15, and the words exactly fill the unit interval. -/
def Complete (lens : List Nat) : Prop := (∀ l ∈ lens, l ≤ 15) ∧ weight lens = 2 ^ 15

/-- Left end of the interval of symbol `s`: all the shorter words, then the earlier symbols of equal length. -/
def position (lens : List Nat) (s : Nat) : Nat :=
  weight (lens.filter (· < lens.getD s 0)) +
    (lens.take s).count (lens.getD s 0) * 2 ^ (15 - lens.getD s 0)

/-- The code word of symbol `s`, first bit first: the leading `lens[s]` binary digits of its position. -/
def word (lens : List Nat) (s : Nat) : List Bool :=
  (bitsOf (lens.getD s 0) (position lens s / 2 ^ (15 - lens.getD s 0))).reverse

end Jxl.Prefix
