import Verif.Lemmas.GroupHeader
/-! C65: the header of a modular image. -/
namespace Jxl.Props
open Jxl Jxl.Modular Jxl.Modular.Squeeze Jxl.Modular.GroupHeader

/-- What is written for a header that can be stored is read back as that header, whatever follows, and reading ends where writing ended. -/
theorem C65_round_trip (h : GroupHeader.Header) (hk : GroupHeader.Ok h) :
    ∃ bits, GroupHeader.write h = some bits ∧ ∀ rest, GroupHeader.read (bits ++ rest) = some (h, rest) :=
  header_codec.back h hk

/-- The encoder refuses exactly the headers whose numbers are out of range: none is stored in a damaged form. -/
theorem C65_refused_iff (h : GroupHeader.Header) : GroupHeader.write h = none ↔ ¬ GroupHeader.Ok h := by
  constructor
  · intro e hk
    obtain ⟨b, hb, -⟩ := C65_round_trip h hk
    rw [e] at hb; cases hb
  · intro hk
    rcases e : GroupHeader.write h with _ | b
    · rfl
    · exact absurd (header_codec.only h b e) hk

/-- Whatever the bits are, a header that is accepted has numbers in range: at most 273 transforms, types below 42, predictors below 14. -/
theorem C65_any_bits (s rest : List Bool) (h : GroupHeader.Header) (e : GroupHeader.read s = some (h, rest)) : GroupHeader.Ok h :=
  header_codec.good s h rest e

/-- Accepting and writing again gives bits that mean the same. -/
theorem C65_rewrite (s rest : List Bool) (h : GroupHeader.Header) (e : GroupHeader.read s = some (h, rest)) :
    ∃ bits, GroupHeader.write h = some bits ∧ GroupHeader.read (bits ++ rest) = some (h, rest) := by
  obtain ⟨b, h1, h2⟩ := C65_round_trip h (C65_any_bits s rest h e)
  exact ⟨b, h1, h2 rest⟩

theorem readAll_stops {α : Type} {r : List Bool → Option (α × List Bool)} {s : List Bool} (hs : r s = none) : ∀ (l : List α) (n : Nat) (t : List Bool), l.length < n →
    readAll r l.length t = some (l, s) → readAll r n t = none
  | [], 0, _, h, _ => by simp at h
  | _ :: _, 0, _, h, _ => by simp at h
  | [], n + 1, t, _, e => by
    simp only [List.length_nil, readAll, Option.some.injEq, Prod.mk.injEq, true_and] at e
    subst e
    simp [readAll, hs]
  | a :: l, n + 1, t, h, e => by
    simp only [List.length_cons, readAll, Option.bind_eq_bind] at e ⊢
    obtain ⟨⟨b, u⟩, h1, e⟩ := Option.bind_eq_some_iff.mp e
    obtain ⟨⟨m, v⟩, h2, e⟩ := Option.bind_eq_some_iff.mp e
    simp only [Option.some.injEq, Prod.mk.injEq, List.cons.injEq] at e
    obtain ⟨⟨rfl, rfl⟩, rfl⟩ := e
    rw [h1, Option.bind_some]
    dsimp only at h2 ⊢
    rw [readAll_stops hs m n u (by simpa using h) h2]
    rfl

/-- Of the four kinds of transforms that can be told apart the fourth is not defined: behind any transforms that can be stored, it is refused. -/
theorem C65_unknown_kind (h : GroupHeader.Header) (hk : GroupHeader.Ok h) (n : Nat) (hn : h.transforms.length < n) (h273 : n ≤ 273) :
    ∃ a b c d, writeBool h.globalTree = some a ∧ writeWp h.wp = some b ∧ U32.write transformsEnc n = some c ∧ writeAll writeTr h.transforms = some d ∧
      ∀ s, GroupHeader.read (a ++ (b ++ (c ++ (d ++ (true :: true :: s))))) = none := by
  obtain ⟨b, b1, b2⟩ := wp_codec.back h.wp hk.1
  obtain ⟨c, c1, c2⟩ := transforms_codec.back n ⟨Nat.zero_le _, h273⟩
  obtain ⟨d, d1, d2⟩ := all_back tr_codec h.transforms hk.2.2
  refine ⟨[h.globalTree], b, c, d, rfl, b1, c1, d1, fun s => ?_⟩
  have hkind : readTr (true :: true :: s) = none := by
    have e : U32.read idEnc (true :: true :: s) = some (3, s) := by cbv
    unfold readTr
    rw [e]
    rfl
  have hall := readAll_stops hkind h.transforms n _ hn (d2 (true :: true :: s))
  unfold GroupHeader.read readList
  simp only [List.cons_append, List.nil_append, readBool, Option.bind_eq_bind, Option.bind_some, b2, c2, hall, Option.bind_none]

/-- All three kinds of transforms, the largest numbers, other numbers for the weighted predictor. -/
def groupHeaderExample : GroupHeader.Header :=
  ⟨false, { Wp.defaultHeader with p1C := 31, w3 := 15 }, [.rct 9287 41, .palette 3 8192 70911 66816 13, .squeeze [⟨true, false, 0, 19⟩, ⟨false, true, 9287, 1⟩], .squeeze []]⟩

theorem groupHeaderExample_ok : GroupHeader.Ok groupHeaderExample := by
  refine ⟨by unfold Wp.Header.Ok; decide, by decide, fun t ht => ?_⟩
  simp only [groupHeaderExample, List.mem_cons, List.not_mem_nil, or_false] at ht
  rcases ht with rfl | rfl | rfl | rfl
  · exact ⟨by decide, by decide⟩
  · exact ⟨by decide, ⟨by decide, by decide⟩, by decide, by decide, by decide⟩
  · refine ⟨by decide, fun p hp => ?_⟩
    simp only [List.mem_cons, List.not_mem_nil, or_false] at hp
    rcases hp with rfl | rfl <;> exact ⟨by decide, by decide, by decide⟩
  · exact ⟨by decide, by simp⟩

example : ((GroupHeader.write groupHeaderExample).map List.length) = some 190 := by decide +kernel
example : ∃ bits, GroupHeader.write groupHeaderExample = some bits ∧ ∀ rest, GroupHeader.read (bits ++ rest) = some (groupHeaderExample, rest) :=
  C65_round_trip _ groupHeaderExample_ok
example : ∃ a b c d, writeBool groupHeaderExample.globalTree = some a ∧ writeWp groupHeaderExample.wp = some b ∧ U32.write transformsEnc 5 = some c ∧
    writeAll writeTr groupHeaderExample.transforms = some d ∧ ∀ s, GroupHeader.read (a ++ (b ++ (c ++ (d ++ (true :: true :: s))))) = none :=
  C65_unknown_kind _ groupHeaderExample_ok 5 (by decide) (by decide)
/-- Refused: a type that does not exist, although its number can be stored. -/
example : ¬ GroupHeader.Ok ⟨true, Wp.defaultHeader, [.rct 0 42]⟩ := by
  intro h
  have := (h.2.2 (.rct 0 42) (by simp)).2
  omega
example : (GroupHeader.read [true, true, true, false, false, false, false, false, true, false, false, false, false, true]).map Prod.fst =
    some ⟨true, Wp.defaultHeader, [.rct 1 6]⟩ := by decide +kernel

end Jxl.Props
