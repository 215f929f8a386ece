import Verif.Lemmas.HuffmanRead
/-!
# C15: prefix codes

The canonical code of `Spec/Prefix` is the reference: the encoder's words, the decoder's two-level table and the
checks of the reader are compared with it.
-/
namespace Jxl.Props
open Jxl.Huffman

/-- For every complete set of at most `2^15` lengths and whatever the table held before, building the table stays
inside the `n + 376` entries the decoder allocates (`build` is `none` on any access out of bounds), and from then
on every bit stream decodes to the one symbol whose canonical word it begins with. -/
theorem C15_table_decodes_canonical_code (lens : List Nat) (h : Prefix.Complete lens) (hlen : lens.length ≤ 2 ^ 15)
    (t0 : List Entry) (ht0 : t0.length = lens.length + 376) :
    ∃ size t, build t0 8 lens = some (size, t) ∧ 0 < size ∧ size ≤ lens.length + 376 ∧
      ∀ s : List Bool, ∃ y l, lens[y]? = some l ∧ 0 < l ∧
        (s ++ List.replicate 15 false).take l = Prefix.word lens y ∧
        readSymbol (t.take size) s = some (y, s.drop l) := by
  obtain ⟨total, t', symAt, h1, h2, h3, h4, h5, h6⟩ := build_spec t0 8 lens (by omega) (by omega) h hlen
    (by omega) (by omega) (by left; omega)
  refine ⟨total, t', h1, by omega, by omega, fun s => ?_⟩
  obtain ⟨l, k, g1, g2, g3, g4⟩ := cover (complete_base h) (ofBits s)
  obtain ⟨y, hy1, hy2⟩ := exists_rank lens l k g3
  refine ⟨y, l, hy1, g1, (starts_iff lens hy1 g2 s).mpr (by rw [hy2]; exact g4), ?_⟩
  rw [read_found h3 (h6 l k _ g1 g2 g3 g4), ← hy2, h5 y l g1 hy1]

/-- The canonical words are prefix free, so the symbol found above is the only one. -/
theorem C15_words_prefix_free (lens : List Nat) (h : Prefix.Complete lens) {y z : Nat} {l m : Nat}
    (hy : lens[y]? = some l) (hz : lens[z]? = some m) (hl : 0 < l) (hm : 0 < m)
    (s : List Bool) (h1 : (s ++ List.replicate 15 false).take l = Prefix.word lens y)
    (h2 : (s ++ List.replicate 15 false).take m = Prefix.word lens z) : y = z := by
  have hl15 : l ≤ 15 := h.1 l (List.mem_of_getElem? hy)
  have hm15 : m ≤ 15 := h.1 m (List.mem_of_getElem? hz)
  rw [starts_iff lens hy hl15] at h1
  rw [starts_iff lens hz hm15] at h2
  obtain ⟨e1, e2⟩ := code_unique (complete_base h) hl hl15 (rank_lt hy) hm hm15 (rank_lt hz) h1 h2
  subst e1
  rcases Nat.lt_trichotomy y z with g | g | g
  · exfalso
    have : (lens.take y).count l < (lens.take z).count l := by
      have hs : (lens.take z)[y]? = some l := by rw [List.getElem?_take_of_lt g, hy]
      have := rank_lt hs
      rwa [List.take_take, Nat.min_eq_left (by omega)] at this
    omega
  · exact g
  · exfalso
    have : (lens.take z).count l < (lens.take y).count l := by
      have hs : (lens.take y)[z]? = some l := by rw [List.getElem?_take_of_lt g, hz]
      have := rank_lt hs
      rwa [List.take_take, Nat.min_eq_left (by omega)] at this
    omega

/-- The bits the encoder writes for a symbol are its canonical word. -/
theorem C15_encoder_writes_canonical_words (lens : List Nat) (h15 : ∀ l ∈ lens, l ≤ 15) {y l : Nat}
    (hy : lens[y]? = some l) (hl : 0 < l) :
    ∃ b, (symbols lens)[y]? = some b ∧ bitsOf l b = Prefix.word lens y := by
  refine ⟨_, symbolsGo_spec lens _ y l hy hl, ?_⟩
  rw [reverseBits_eq _ _ hl, word_eq lens hy (h15 l (List.mem_of_getElem? hy)), code, first_eq_nextCode]

/-- Decode `n` symbols one after the other. -/
def readSymbols (t : List Entry) : Nat → List Bool → Option (List Nat × List Bool)
  | 0, s => some ([], s)
  | n + 1, s => (readSymbol t s).bind fun r => (readSymbols t n r.2).map fun q => (r.1 :: q.1, q.2)

/-- Every concatenation of the words written by the encoder decodes into the original symbols, leaving the rest of
the stream. -/
theorem C15_concatenation_decodes (lens : List Nat) (h : Prefix.Complete lens) (hlen : lens.length ≤ 2 ^ 15)
    (t0 : List Entry) (ht0 : t0.length = lens.length + 376) (syms : List Nat)
    (hs : ∀ y ∈ syms, ∃ l, lens[y]? = some l ∧ 0 < l) (rest : List Bool) :
    ∃ size t, build t0 8 lens = some (size, t) ∧
      readSymbols (t.take size) syms.length
        (syms.flatMap (fun y => bitsOf (lens.getD y 0) ((symbols lens).getD y 0)) ++ rest) = some (syms, rest) := by
  obtain ⟨size, t, h1, _, _, h4⟩ := C15_table_decodes_canonical_code lens h hlen t0 ht0
  refine ⟨size, t, h1, ?_⟩
  induction syms with
  | nil => rfl
  | cons y ys ih =>
    obtain ⟨l, hy, hl⟩ := hs y (by simp)
    have hl15 : l ≤ 15 := h.1 l (List.mem_of_getElem? hy)
    obtain ⟨b, hb1, hb2⟩ := C15_encoder_writes_canonical_words lens h.1 hy hl
    have hw : bitsOf (lens.getD y 0) ((symbols lens).getD y 0) = Prefix.word lens y := by
      rw [List.getD_eq_getElem?_getD, List.getD_eq_getElem?_getD, hy, hb1]; exact hb2
    have hwl := word_length lens hy
    generalize hr : ys.flatMap (fun y => bitsOf (lens.getD y 0) ((symbols lens).getD y 0)) ++ rest = s at ih
    have he : (y :: ys).flatMap (fun y => bitsOf (lens.getD y 0) ((symbols lens).getD y 0)) ++ rest =
        Prefix.word lens y ++ s := by
      rw [List.flatMap_cons, hw, List.append_assoc, hr]
    rw [he]
    obtain ⟨z, m, hz, hm, h5, h6⟩ := h4 (Prefix.word lens y ++ s)
    have hzy : z = y := C15_words_prefix_free lens h hz hy hm hl _ h5 (by
      rw [List.append_assoc, List.take_left' hwl])
    subst hzy
    rw [hy] at hz; injection hz with hz; subst hz
    rw [List.drop_left' hwl] at h6
    show (readSymbol _ _).bind _ = _
    rw [h6, Option.bind_some, ih (fun y hy => hs y (by simp [hy]))]; rfl

/-- A set of code lengths that does not exactly fill the code space is refused: whatever the reader accepts is a
complete code for the whole alphabet. -/
theorem C15_only_complete_codes_accepted (t5 : List Entry) (cl : List Nat) (n : Nat) (s rest : List Bool)
    (lens : List Nat) (h : readLens t5 cl n s = some (some (lens, rest))) :
    lens.length = n ∧ Prefix.Complete lens := readLens_accepts h

/-- For every stream, reading a prefix code ends with a table or a refusal, never with an access out of bounds. -/
theorem C15_reading_is_defined (t5 : List Entry) (ht : t5.length = 32) (n : Nat) (s : List Bool) :
    readCode t5 n s ≠ none := by
  unfold readCode
  split
  · simp
  · split
    · exact readSimple_defined _ List.length_replicate _ _
    · exact readGeneral_defined t5 ht n _ _ (by omega)

/-! Witnesses: a complete code with words of 1 to 12 bits, hence with a second-level table, and its words. -/

/-- Lengths 1, 2, …, 11, 12, 12. -/
def exStairs : List Nat := [12, 1, 2, 3, 4, 5, 6, 0, 7, 8, 9, 10, 11, 12]

theorem exStairs_complete : Prefix.Complete exStairs := by
  refine ⟨by decide, by decide⟩

example : Prefix.word exStairs 9 = [true, true, true, true, true, true, true, false] := by decide
example : Prefix.word exStairs 0 = List.replicate 11 true ++ [false] := by decide +kernel
example : (build (List.replicate 390 ⟨7, 7⟩) 8 exStairs).map (·.1) = some (256 + 16) := by decide +kernel
example : ∀ y ∈ [13, 0, 1, 9], ∃ l, exStairs[y]? = some l ∧ 0 < l := by
  intro y hy
  simp at hy
  rcases hy with rfl | rfl | rfl | rfl <;> exact ⟨_, rfl, by decide⟩

/-- Two symbols of length 1, announced by the code-length code `{0 ↦ 1, 1 ↦ 1}`: accepted. -/
example : ∃ cl s, (readLens (List.replicate 32 ⟨0, 0⟩) cl 3 s).map (Option.map (·.1)) = some (some [1, 0, 1]) :=
  ⟨[1, 1, 0, 0, 0, 0, 0, 0, 0, 0, 0, 0, 0, 0, 0, 0, 0, 0], [true, false, true], by decide +kernel⟩

/-- A single symbol of length 1 leaves half of the code space unused and is refused. -/
example : (readLens (List.replicate 32 ⟨0, 0⟩) [0, 1, 0, 0, 0, 0, 0, 0, 0, 0, 0, 0, 0, 0, 0, 0, 0, 0] 1 []) =
    some none := by decide +kernel

end Jxl.Props
