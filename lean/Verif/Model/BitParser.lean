import Verif.Spec.Bits
/-!
# Reading from a bit string

`ReadVisitor` (fields.cc:155-193) checks `AllReadsWithinBounds` after every field and stops with "not enough bytes";
values read past the end are discarded.  By C02 the bit reader is a position in the bit string of the buffer, so a
header reader is modelled as a function consuming a prefix of the remaining bits, `none` when bits are missing.
-/
namespace Jxl

/-- `reader->ReadBits(n)` followed by the bounds check. -/
def rdBits (n : Nat) (s : List Bool) : Option (Nat × List Bool) :=
  if n ≤ s.length then some (ofBits (s.take n), s.drop n) else none

theorem rdBits_append {n v : Nat} (h : v < 2 ^ n) (rest : List Bool) :
    rdBits n (bitsOf n v ++ rest) = some (v, rest) := by
  unfold rdBits
  rw [if_pos (by simp)]
  rw [List.take_append_of_le_length (by simp), List.take_of_length_le (by simp), ofBits_bitsOf_lt h]
  simp

theorem rdBits_lt {n v : Nat} {s r : List Bool} (h : rdBits n s = some (v, r)) : v < 2 ^ n := by
  unfold rdBits at h
  split at h
  · simp only [Option.some.injEq, Prod.mk.injEq] at h
    obtain ⟨rfl, _⟩ := h
    have := ofBits_lt (s.take n)
    rw [List.length_take, Nat.min_eq_left (by assumption)] at this
    exact this
  · cases h

/-- A successful read splits the stream. -/
theorem rdBits_split {n v : Nat} {s r : List Bool} (h : rdBits n s = some (v, r)) : s = bitsOf n v ++ r := by
  unfold rdBits at h
  split at h
  · rename_i hn
    simp only [Option.some.injEq, Prod.mk.injEq] at h
    obtain ⟨rfl, rfl⟩ := h
    have := bitsOf_ofBits (s.take n)
    rw [List.length_take, Nat.min_eq_left hn] at this
    rw [this, List.take_append_drop]
  · cases h

end Jxl
