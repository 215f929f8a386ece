import Verif.Lemmas.FastCode
/-!
# C60: the fast lossless encoder finds best code lengths
-/
namespace Jxl.Props
open FastCode

/-- Whenever the limits leave a complete code at all, and one symbol may have a word of one bit, the lengths found form a complete
code within the limits for just the symbols that occur, and no other such code makes the message shorter. -/
theorem C60_lengths_are_best (syms : List Sym) (hhi : ∀ s ∈ syms, s.hi ≤ 15) (hsum : (syms.map (·.freq)).sum < 2 ^ 59)
    (hone : ∃ s ∈ syms, s.freq ≠ 0 ∧ s.lo ≤ 1)
    (hex : ∃ ls, CodeLengths.Allowed (syms.map (·.freq)) (syms.map (·.lo)) (syms.map (·.hi)) ls) :
    ∃ ls, lengths syms = some ls ∧ CodeLengths.Best (syms.map (·.freq)) (syms.map (·.lo)) (syms.map (·.hi)) ls :=
  lengths_best hhi hsum hone hex

/-- Contrary to the comment beside the adjustment of the precision, limits that forbid all words of one bit are not dealt with: the
search shifts by a negative amount. -/
theorem C60_no_short_word_undefined (syms : List Sym) (h : ∀ s ∈ syms, s.freq ≠ 0 → 2 ≤ s.lo ∧ s.lo ≤ s.hi) : lengths syms = none :=
  lengths_undefined h

/-- The assertion that the cost found is finite holds whenever some allowed code has a word shorter than the greatest limit. -/
theorem C60_cost_is_finite (syms : List Sym) (hhi : ∀ s ∈ syms, s.hi ≤ 15) (hsum : (syms.map (·.freq)).sum < 2 ^ 59) (ls : List Nat)
    (hls : CodeLengths.Allowed (syms.map (·.freq)) (syms.map (·.lo)) (syms.map (·.hi)) ls) (hlt : ∃ l ∈ ls, l ≠ 0 ∧ l < prec syms) :
    finalCost (envOf ((used syms).map Sym.atLeastOne)) ((used syms).map Sym.atLeastOne) < (envOf ((used syms).map Sym.atLeastOne)).inf :=
  finalCost_lt hhi hsum hls hlt

/-- Otherwise it need not hold, although the lengths found are right: two symbols, words of one bit. -/
theorem C60_cost_taken_for_infinite : ∃ syms : List Sym, lengths syms = some [1, 1] ∧
    CodeLengths.Best (syms.map (·.freq)) (syms.map (·.lo)) (syms.map (·.hi)) [1, 1] ∧
    finalCost (envOf ((used syms).map Sym.atLeastOne)) ((used syms).map Sym.atLeastOne) = (envOf ((used syms).map Sym.atLeastOne)).inf := by
  refine ⟨[⟨5, 0, 1⟩, ⟨3, 0, 1⟩], by decide +kernel, ?_, by decide +kernel⟩
  have hex : CodeLengths.Allowed [5, 3] [0, 0] [1, 1] [1, 1] := by
    refine ⟨rfl, ⟨by decide, by decide⟩, ?_⟩
    show ∀ i, i < 2 → _
    decide
  obtain ⟨ls, h1, h2⟩ := lengths_best (syms := [⟨5, 0, 1⟩, ⟨3, 0, 1⟩]) (by decide) (by decide) ⟨⟨5, 0, 1⟩, by decide, by decide, by decide⟩ ⟨_, hex⟩
  have h3 : lengths [⟨5, 0, 1⟩, ⟨3, 0, 1⟩] = some [1, 1] := by decide +kernel
  rw [h3] at h1
  cases h1
  exact h2

/-! Witnesses: the limits of 8-bit images, with a symbol that does not occur and one whose best word would be too long. -/

def exFastSyms : List Sym := [⟨3843, 0, 3⟩, ⟨852, 0, 3⟩, ⟨0, 0, 3⟩, ⟨1, 0, 3⟩, ⟨1, 2, 4⟩, ⟨7, 0, 4⟩]

theorem exFastAllowed : CodeLengths.Allowed (exFastSyms.map (·.freq)) (exFastSyms.map (·.lo)) (exFastSyms.map (·.hi)) [2, 2, 0, 2, 3, 3] := by
  refine ⟨rfl, ⟨by decide, by decide⟩, ?_⟩
  show ∀ i, i < 6 → _
  decide

example : lengths exFastSyms = some [1, 2, 0, 3, 4, 4] := by decide +kernel

example : ∃ ls, lengths exFastSyms = some ls ∧
    CodeLengths.Best (exFastSyms.map (·.freq)) (exFastSyms.map (·.lo)) (exFastSyms.map (·.hi)) ls :=
  C60_lengths_are_best exFastSyms (by decide) (by decide) ⟨⟨3843, 0, 3⟩, by decide, by decide, by decide⟩ ⟨_, exFastAllowed⟩

example : ∃ l ∈ [2, 2, 0, 2, 3, 3], l ≠ 0 ∧ l < prec exFastSyms := ⟨2, by decide, by decide, by decide⟩

example : ∀ s ∈ ([⟨5, 2, 3⟩, ⟨0, 0, 1⟩, ⟨7, 2, 2⟩] : List Sym), s.freq ≠ 0 → 2 ≤ s.lo ∧ s.lo ≤ s.hi := by decide

end Jxl.Props
