import Verif.Lemmas.FastPrefixStore
import Verif.Props.HuffmanBuilt
/-!
# C61: the prefix codes of the fast lossless encoder are read back, and what is written with them too
-/
namespace Jxl.Props
open Jxl.FastCode Jxl.Huffman

/-- The word the encoder writes for a symbol of its two-level code: the values below 19, and the lengths of copies from 224 on. -/
def fastWord (c : Code) (y : Nat) : List Bool :=
  if y < 19 then bitsOf (c.raw.getD y 0) (c.rawBits.getD y 0) else bitsOf (c.lz.getD (y - 224) 0) (c.lzBits.getD (y - 224) 0)

/-- The symbols that were counted. -/
def FastCounted (raw lz : List Nat) (y : Nat) : Prop := y < 19 ∧ raw.getD y 0 ≠ 0 ∨ 224 ≤ y ∧ y < 257 ∧ lz.getD (y - 224) 0 ≠ 0

/-- For each of the four ranges of bit depths and any counters the encoder can come to, a code is found without undefined behaviour.  Its
header, with whatever is written after it, is read by the decoder as a code for 257 symbols, and from then on the decoder reads any
sequence of counted symbols from the encoder's words. -/
theorem C61_code_read_back (lo hi raw lz : List Nat) (hd : Depth lo hi (dropZeros raw).length) (hc : Counts raw lz) :
    ∃ c ws, prefixCode lo hi raw lz = some c ∧ writeTo c = some ws ∧ ∃ t, ∀ t5 : List Entry, t5.length = 32 →
      (∀ more, readCode t5 257 (emit 0 (ws ++ more)) = some (some (t, emit 0 more))) ∧
      ∀ (syms : List Nat) (rest : List Bool), (∀ y ∈ syms, FastCounted raw lz y) →
        readSymbols t syms.length (syms.flatMap (fastWord c) ++ rest) = some (syms, rest) := by
  obtain ⟨c, e, g⟩ := prefixCode_good hd hc
  have hz : ∃ x ∈ c.lz, x ≠ 0 := by
    have h2 := hc.lzTwo
    obtain ⟨x, hx, hx0⟩ := List.countP_pos_iff.mp (show 0 < lz.countP (· ≠ 0) by omega)
    obtain ⟨i, hi, rfl⟩ := List.mem_iff_getElem.mp hx
    have hg : lz.getD i 0 ≠ 0 := by simpa [List.getD, hi] using hx0
    have := (g.lzUsed i (by rw [← hc.lzLen]; exact hi)).mpr hg
    exact ⟨c.lz.getD i 0, List.mem_of_getElem? (some_of_getD this), this⟩
  obtain ⟨ws, w1, w2, w3⟩ := writeTo_read g.rawLen g.lzLen g.complete hz
  have hlen : c.lens.length = 257 := by
    rw [Code.lens, List.length_append, List.length_append, List.length_replicate, g.rawLen, g.lzLen]
  obtain ⟨size, t, b1, b2, _, b4⟩ := C15_table_decodes_canonical_code c.lens g.complete (by omega) (List.replicate (257 + 376) ⟨0, 0⟩)
    (by rw [List.length_replicate, hlen])
  refine ⟨c, ws, e, w1, t.take size, fun t5 ht5 => ⟨fun more => ?_, fun syms rest hs => ?_⟩⟩
  · rw [emit_fit more ws w2]
    exact w3 t5 ht5 _ size t b1 (by omega)
  · have hw : ∀ y, FastCounted raw lz y → c.lens.getD y 0 ≠ 0 ∧ fastWord c y = bitsOf (c.lens.getD y 0) ((symbols c.lens).getD y 0) := by
      intro y hy
      have hword : ∀ l, c.lens[y]? = some l → l ≠ 0 → c.lens.getD y 0 ≠ 0 ∧
          Prefix.word c.lens y = bitsOf (c.lens.getD y 0) ((symbols c.lens).getD y 0) := by
        intro l h1 h0
        obtain ⟨b, hb1, hb2⟩ := C15_encoder_writes_canonical_words c.lens g.complete.1 h1 (by omega)
        have hgl : c.lens.getD y 0 = l := getD_of_getElem h1
        rw [hgl, List.getD_eq_getElem?_getD, hb1]
        exact ⟨h0, hb2.symm⟩
      rcases hy with ⟨h1, h2⟩ | ⟨h1, h2, h3⟩
      · have h0 := (g.rawUsed y h1).mpr h2
        have hl : c.lens[y]? = some (c.raw.getD y 0) := by
          rw [Code.lens, List.append_assoc, List.getElem?_append_left (by rw [g.rawLen]; exact h1), some_of_getD h0]
        obtain ⟨k1, k2⟩ := hword _ hl h0
        exact ⟨k1, by rw [fastWord, if_pos h1, (g.rawWord y h0).1, k2]⟩
      · have h0 := (g.lzUsed (y - 224) (by omega)).mpr h3
        have hll : (c.raw ++ List.replicate 205 0).length = 224 := by
          rw [List.length_append, List.length_replicate, g.rawLen]
        have hl : c.lens[y]? = some (c.lz.getD (y - 224) 0) := by
          rw [Code.lens, List.getElem?_append_right (by rw [hll]; exact h1), hll, some_of_getD h0]
        obtain ⟨k1, k2⟩ := hword _ hl h0
        refine ⟨k1, ?_⟩
        have := (g.lzWord (y - 224) h0).1
        rw [show 224 + (y - 224) = y by omega] at this
        rw [fastWord, if_neg (by omega), this, k2]
    have := decode_words g.complete b4 rest syms fun y hy => (hw y (hs y hy)).1
    have hfm : syms.flatMap (fastWord c) = syms.flatMap (fun y => bitsOf (c.lens.getD y 0) ((symbols c.lens).getD y 0)) := by
      rw [List.flatMap_def, List.flatMap_def]
      congr 1
      exact List.map_congr_left fun y hy => (hw y (hs y hy)).2
    rw [hfm]
    exact this

/-- The counters the encoder makes from those of sampled rows are of that kind, whatever was sampled, if only the symbols that can occur at
the bit depth were. -/
theorem C61_counters_suffice (n : Nat) (sr sl : List Nat) (h1 : 1 ≤ n) (hn : n ≤ 19) (hr : ∀ i, n ≤ i → sr.getD i 0 = 0)
    (hl : ∀ i, 28 ≤ i → sl.getD i 0 = 0) (hs : sr.sum + sl.sum < 2 ^ 45) :
    Counts (rawCounts n sr) (lzCounts sl) ∧ (dropZeros (rawCounts n sr)).length = n := counts_ok h1 hn hr hl hs

/-- Counters as from an image of 8 bits whose sampled rows had many zeros and one long run. -/
example : Depth limits8.1 limits8.2 (dropZeros (rawCounts 10 [900, 40, 3])).length ∧ Counts (rawCounts 10 [900, 40, 3]) (lzCounts [0, 0, 7]) := by
  obtain ⟨h1, h2⟩ := C61_counters_suffice 10 [900, 40, 3] [0, 0, 7] (by decide) (by decide)
    (fun i h => by rw [List.getD_eq_getElem?_getD, List.getElem?_eq_none (by simp; omega)]; rfl)
    (fun i h => by rw [List.getD_eq_getElem?_getD, List.getElem?_eq_none (by simp; omega)]; rfl) (by decide)
  rw [h2]
  exact ⟨Depth.b8 (by omega) (by omega), h1⟩

/-- The words of values fit the tables of eight-bit entries: they have at most eight bits, and no symbol without a count has a word. -/
theorem C61_words_fit_tables (lo hi raw lz : List Nat) (hd : Depth lo hi (dropZeros raw).length) (hc : Counts raw lz) {c : Code}
    (e : prefixCode lo hi raw lz = some c) (i : Nat) : c.raw.getD i 0 ≤ 8 ∧ (i < 19 → (c.raw.getD i 0 ≠ 0 ↔ raw.getD i 0 ≠ 0)) := by
  obtain ⟨c', e', g⟩ := prefixCode_good hd hc
  rw [e] at e'
  injection e' with e'
  subst e'
  exact ⟨g.rawShort i, g.rawUsed i⟩

/-- At 14 bits, what the vector code assumes about symbols 15 and 16. -/
theorem C61_pair_at_14_bits (raw lz : List Nat) (hn : (dropZeros raw).length = 17) (hc : Counts raw lz) {c : Code}
    (e : prefixCode limits14.1 limits14.2 raw lz = some c) :
    c.raw.getD 15 0 = 8 ∧ c.raw.getD 16 0 = 8 ∧ c.rawBits.getD 16 0 = c.rawBits.getD 15 0 ||| 128 := by
  obtain ⟨c', e', g⟩ := prefixCode_good (by rw [hn]; exact Depth.b14) hc
  rw [e] at e'
  injection e' with e'
  subst e'
  have r := fun i (h : i < 17) => g.rawRange i (by omega)
  have t : (∀ i < 15, limits14.2.getD i 0 ≤ 7) ∧ ∀ i < 17, 15 ≤ i → limits14.1.getD i 0 = 8 ∧ limits14.2.getD i 0 = 8 := by decide
  have h8 : ∀ i, 15 ≤ i → i < 17 → c.raw.getD i 0 = 8 := by
    intro i h1 h2
    have := r i h2
    have := t.2 i h2 h1
    omega
  have h7 : ∀ i, i < 15 → c.raw.getD i 0 ≤ 7 := by
    intro i h1
    have := (r i (by omega)).2
    have := t.1 i h1
    omega
  refine ⟨h8 15 (by omega) (by omega), h8 16 (by omega) (by omega), good_pair g (h8 15 (by omega) (by omega)) (h8 16 (by omega) (by omega)) ?_⟩
  rw [rank_from g h7 (by omega) 0 (by omega) fun i h1 h2 => by omega]

/-- The same for the three pairs beyond 14 bits. -/
theorem C61_pairs_beyond_14_bits (raw lz : List Nat) (hn : (dropZeros raw).length = 19) (hc : Counts raw lz) {c : Code}
    (e : prefixCode limits16.1 limits16.2 raw lz = some c) {i : Nat} (hi : i = 13 ∨ i = 15 ∨ i = 17) :
    c.raw.getD i 0 = 8 ∧ c.raw.getD (i + 1) 0 = 8 ∧ c.rawBits.getD (i + 1) 0 = c.rawBits.getD i 0 ||| 128 := by
  obtain ⟨c', e', g⟩ := prefixCode_good (by rw [hn]; exact Depth.b16) hc
  rw [e] at e'
  injection e' with e'
  subst e'
  have r := fun i (h : i < 19) => g.rawRange i (by omega)
  have t : (∀ i < 13, limits16.2.getD i 0 ≤ 7) ∧ ∀ i < 19, 13 ≤ i → limits16.1.getD i 0 = 8 ∧ limits16.2.getD i 0 = 8 := by decide
  have h8 : ∀ i, 13 ≤ i → i < 19 → c.raw.getD i 0 = 8 := by
    intro i h1 h2
    have := r i h2
    have := t.2 i h2 h1
    omega
  have h7 : ∀ i, i < 13 → c.raw.getD i 0 ≤ 7 := by
    intro i h1
    have := (r i (by omega)).2
    have := t.1 i h1
    omega
  have hr : (c.lens.take i).count 8 = i - 13 := by
    have := rank_from g h7 (by omega) (i - 13) (by omega) fun j h1 h2 => h8 j h1 (by omega)
    rwa [show 13 + (i - 13) = i by omega] at this
  exact ⟨h8 i (by omega) (by omega), h8 (i + 1) (by omega) (by omega),
    good_pair g (h8 i (by omega) (by omega)) (h8 (i + 1) (by omega) (by omega)) (by omega)⟩

/-- The size of the alphabet as it is written: the value has nine bits and eight are announced.  The ninth lands in the next bit, which is
set by the next call in any case, so what a decoder sees does not change. -/
theorem C61_size_spills_into_set_bit (ws : List (Nat × Nat)) (n v : Nat) (hv : v % 2 = 1) :
    emit 0 ((8, 256) :: (n, v) :: ws) = emit 0 ((8, 0) :: (n, v) :: ws) := by
  have : (1 ||| v : Nat) = v := by
    refine Nat.eq_of_testBit_eq fun i => ?_
    rw [Nat.testBit_or]
    cases i with
    | zero => simp [hv]
    | succ i => simp [Nat.testBit_succ]
  simp [emit, this]
  decide

/-- Such counters at 14 bits and beyond. -/
example : (dropZeros (rawCounts 17 [])).length = 17 ∧ (dropZeros (rawCounts 19 [5])).length = 19 ∧ FastCounted (rawCounts 17 []) (lzCounts []) 16 ∧
    FastCounted (rawCounts 17 []) (lzCounts []) 251 ∧ ¬ FastCounted (rawCounts 17 []) (lzCounts []) 17 := by
  refine ⟨by decide, by decide, Or.inl ⟨by decide, by decide⟩, Or.inr ⟨by decide, by decide, by decide⟩, ?_⟩
  rintro (⟨_, h⟩ | ⟨h, _⟩)
  · exact h (by decide)
  · omega

end Jxl.Props
