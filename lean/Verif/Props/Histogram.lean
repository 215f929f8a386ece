import Verif.Lemmas.HistogramEncode
import Verif.Lemmas.Alias
import Verif.Lemmas.Rebalance
/-!
# C13: histogram headers round trip and always give a normalised distribution
-/
namespace Jxl.Props
open Jxl.Histo

/-- Two lists of counts are the same distribution: equal up to zeros at the end. -/
def SameCounts (a b : List Nat) : Prop := ∀ s, a.getD s 0 = b.getD s 0

/-- A normalised histogram of at least three symbols, as the encoder prepares it for a shift of `method - 1`: the counts sum to 4096, each count
but that of the omitted symbol has zeros below the precision of the shift, and no count before the omitted symbol needs 12 bits. -/
structure General (h : Hist) : Prop where
  method : 1 ≤ h.method ∧ h.method ≤ 12
  symbols : 3 ≤ h.numSymbols
  size : 3 ≤ h.size ∧ h.size ≤ 256
  beyond : ∀ s, h.size ≤ s → h.counts.getD s 0 = 0
  sum : h.counts.sum = 4096
  omitted : h.omitPos < h.size ∧ 0 < h.counts.getD h.omitPos 0
  before : ∀ s, s < h.omitPos → h.counts.getD s 0 < 2048
  precise : ∀ s, s < h.size → s ≠ h.omitPos → 0 < h.counts.getD s 0 →
    2 ^ ((h.counts.getD s 0).log2 - precision (h.counts.getD s 0).log2 (h.method - 1)) ∣ h.counts.getD s 0

/-- The histograms the encoder stores. -/
inductive Storable : Hist → Prop
  | flat {h} : h.method = 0 → 0 < h.size → h.size ≤ 256 → SameCounts h.counts (flat h.size 4096) → Storable h
  | single {h} : h.method ≠ 0 → h.numSymbols = 1 → h.sym0 < h.size → h.size ≤ 256 → h.counts.getD h.sym0 0 = 4096 →
      (∀ s, s ≠ h.sym0 → h.counts.getD s 0 = 0) → Storable h
  | pair {h} : h.method ≠ 0 → h.numSymbols = 2 → h.sym0 < h.sym1 → h.sym1 < h.size → h.size ≤ 256 → 0 < h.counts.getD h.sym1 0 →
      h.counts.getD h.sym0 0 + h.counts.getD h.sym1 0 = 4096 →
      (∀ s, s ≠ h.sym0 → s ≠ h.sym1 → h.counts.getD s 0 = 0) → Storable h
  | general {h} : General h → Storable h

/-- **C13 (round trip).** The decoder rebuilds every histogram the encoder stores, with no larger an alphabet, and reads exactly the
bits the encoder wrote. -/
theorem C13_round_trip {h : Hist} (hh : Storable h) (rest : List Bool) :
    ∃ bits c, encode h = some bits ∧ read (bits ++ rest) = some (c, rest) ∧ SameCounts c h.counts ∧ c.length ≤ h.size := by
  cases hh with
  | flat h0 h1 h2 h3 =>
    refine ⟨bitsOf 1 0 ++ bitsOf 1 1 ++ storeVarLen8 (h.size - 1), flat h.size 4096, ?_, ?_, fun s => (h3 s).symm, by simp [flat]⟩
    · unfold encode; rw [if_neg (by omega), if_pos h0, if_neg (by omega)]
    · unfold Histo.read
      rw [List.append_assoc, List.append_assoc, rd_append (by decide)]
      dsimp only
      rw [if_neg (by decide), rd_append (by decide)]
      dsimp only
      rw [if_pos rfl, readVarLen8_store (by omega)]
      dsimp only
      rw [if_neg (by omega), show h.size - 1 + 1 = h.size by omega]
  | single h0 h1 h2 h3 h4 h5 =>
    refine ⟨bitsOf 1 1 ++ bitsOf 1 0 ++ storeVarLen8 h.sym0, (List.replicate (h.sym0 + 1) 0).set h.sym0 4096, ?_, ?_, ?_, by simp; omega⟩
    · unfold encode; rw [if_neg (by omega), if_neg h0, if_neg (by omega), if_pos h1]
    · unfold Histo.read
      rw [List.append_assoc, List.append_assoc, rd_append (by decide)]
      dsimp only
      rw [if_pos rfl]
      unfold readSmall
      rw [rd_append (by decide)]
      dsimp only
      rw [readVarLen8_store (by omega)]
      rfl
    · intro s
      rw [getD_set_eq (by simp), getD_replicate_zero]
      by_cases hs : h.sym0 = s
      · rw [if_pos hs, ← hs, h4]
      · rw [if_neg hs, h5 s (by omega)]
  | pair h0 h1 h2 h3 h4 h5 h6 h7 =>
    refine ⟨bitsOf 1 1 ++ bitsOf 1 1 ++ storeVarLen8 h.sym0 ++ storeVarLen8 h.sym1 ++ bitsOf 12 (h.counts.getD h.sym0 0),
      ((List.replicate (max h.sym0 h.sym1 + 1) 0).set h.sym0 (h.counts.getD h.sym0 0)).set h.sym1 (4096 - h.counts.getD h.sym0 0), ?_, ?_, ?_,
      by simp; omega⟩
    · unfold encode; rw [if_neg (by omega), if_neg h0, if_neg (by omega), if_neg (by omega), if_pos h1]
    · unfold Histo.read
      simp only [List.append_assoc]
      rw [rd_append (by decide)]
      dsimp only
      rw [if_pos rfl]
      unfold readSmall
      rw [rd_append (by decide)]
      dsimp only
      rw [readVarLen8_store (by omega)]
      dsimp only
      rw [if_neg (by decide), readVarLen8_store (by omega)]
      dsimp only
      rw [if_neg (by omega), rd_append (by omega)]
    · intro s
      rw [getD_set_eq (by simp; omega), getD_set_eq (by simp; omega), getD_replicate_zero]
      by_cases hs1 : h.sym1 = s
      · rw [if_pos hs1, ← hs1]; omega
      · rw [if_neg hs1]
        by_cases hs : h.sym0 = s
        · rw [if_pos hs, hs]
        · rw [if_neg hs, h7 s (by omega) (by omega)]
  | general hg =>
    obtain ⟨⟨m1, m2⟩, g1, ⟨z1, z2⟩, g3, g4, ⟨o1, o2⟩, g6, g7⟩ := hg
    have hlt : ∀ i, i ≠ h.omitPos → h.counts.getD i 0 < 4096 := by
      intro i hi
      by_cases hil : i < h.counts.length
      · have := sum_set (l := h.counts) (i := i) (c := 0) hil
        have h2 : h.counts.getD h.omitPos 0 ≤ (h.counts.set i 0).sum := by
          rw [← getD_set_ne (i := i) (v := 0) hi]
          by_cases ho : h.omitPos < (h.counts.set i 0).length
          · rw [List.getD_eq_getElem?_getD, List.getElem?_eq_getElem ho]
            exact Alias.le_sum_of_mem (List.getElem_mem ho)
          · rw [List.getD_eq_getElem?_getD, List.getElem?_eq_none (by omega)]; simp
        omega
      · rw [List.getD_eq_getElem?_getD, List.getElem?_eq_none (by omega)]; simp
    obtain ⟨c, hc, hs, hcl⟩ := readGeneral_enc h (h.method - 1) z1 z2 o1 g4 o2 g6 hlt g3 g7 rest
    refine ⟨_, c, by unfold encode; rw [if_neg (by omega), if_neg (by omega), if_neg (by omega), if_neg (by omega), if_neg (by omega)], ?_, hs, by omega⟩
    unfold Histo.read
    simp only [List.append_assoc]
    rw [rd_append (by decide)]
    dsimp only
    rw [if_neg (by decide), rd_append (by decide)]
    dsimp only
    rw [if_neg (by decide), readShift_write m1 m2]
    dsimp only [Option.bind_some]
    exact hc

/-- **C13 (accepted distributions are normalised).** Whatever the bits, a distribution the decoder accepts sums to exactly 4096. -/
theorem C13_accepted_is_normalised {bits rest : List Bool} {c : List Nat} (h : read bits = some (c, rest)) : c.sum = 4096 :=
  read_sum h

/-- The empty histogram is stored as a single symbol 0 of weight 4096, the same distribution the alias table uses for it. -/
theorem C13_empty {h : Hist} (h0 : h.method ≠ 0) (h1 : h.numSymbols = 0) (h2 : h.size = 0) (rest : List Bool) :
    ∃ bits, encode h = some bits ∧ read (bits ++ rest) = some ([4096], rest) := by
  refine ⟨bitsOf 1 1 ++ bitsOf 1 0 ++ storeVarLen8 0, ?_, ?_⟩
  · unfold encode; rw [if_neg (by omega), if_neg h0, if_pos h1]
  · unfold Histo.read
    rw [List.append_assoc, List.append_assoc, rd_append (by decide)]
    dsimp only
    rw [if_pos rfl]
    unfold readSmall
    rw [rd_append (by decide)]
    dsimp only
    rw [readVarLen8_store (by omega)]
    rfl

/-- A histogram of eleven symbols with a run of five equal counts, at shift 6. -/
def histExample : Hist := ⟨7, 2, 11, 11, 0, 1, [96, 6, 3005, 64, 64, 64, 64, 64, 1, 640, 28, 0, 0]⟩

example : General histExample where
  method := by decide
  symbols := by decide
  size := by decide
  beyond := by
    intro s hs
    by_cases h : s < 13
    · have : s = 11 ∨ s = 12 := by simp [histExample] at hs; omega
      rcases this with rfl | rfl <;> rfl
    · rw [List.getD_eq_getElem?_getD, List.getElem?_eq_none (by simp [histExample]; omega)]; rfl
  sum := by decide
  omitted := by decide
  before := by decide
  precise := by decide +kernel

example : ((encode histExample).bind read).map (·.1) = some [96, 6, 3005, 64, 64, 64, 64, 64, 1, 640, 28] := by decide +kernel

/-- **C42 (partial).** Whatever the frequencies and the fixed-point logarithms, when the encoder's normalisation finishes and succeeds on at
least three symbols, its result meets the requirements of the general code, so it is stored losslessly. -/
theorem C42_normalised_is_storable_partial {F : Float64} (hF : ∀ f, F.big f = false → F.round f ≤ 1) {shift : Nat} (hs : shift ≤ 11) {freqs : List Nat}
    (h3 : 3 ≤ freqs.length) (h256 : freqs.length ≤ 256) {k : Nat} {cs : List Nat} {om n s0 s1 : Nat} (hn : 3 ≤ n)
    (h : rebalance F shift freqs k = some (cs, om)) (padding : Nat) :
    General ⟨shift + 1, om, freqs.length, n, s0, s1, cs ++ List.replicate padding 0⟩ := by
  obtain ⟨hl, ⟨g1, ⟨g2, g3⟩, g4, g5⟩⟩ := rebalance_ok hF h
  have e : ∀ p, (cs ++ List.replicate padding 0).getD p 0 = cs.getD p 0 := by
    intro p
    by_cases hp : p < cs.length
    · exact getD_append_left hp
    · rw [List.getD_eq_getElem?_getD, List.getElem?_append_right (by omega), List.getD_eq_getElem?_getD, List.getElem?_eq_none (l := cs) (by omega),
        List.getElem?_replicate]
      split <;> rfl
  refine ⟨⟨by dsimp only; omega, by dsimp only; omega⟩, hn, ⟨h3, h256⟩, ?_, by simp [g1], ⟨by dsimp only; omega, by dsimp only; rw [e]; exact g3⟩, ?_, ?_⟩
  · intro s hs'
    dsimp only at hs' ⊢
    rw [e, List.getD_eq_getElem?_getD, List.getElem?_eq_none (by omega)]; rfl
  · intro s hs'; dsimp only; rw [e]; exact g4 s hs'
  · intro s h4 h5 h6
    dsimp only at h4 h5 h6 ⊢
    rw [e] at h6 ⊢
    exact g5 s (by omega) h5 h6

/-- **C42 (a limit of the encoder).** Normalising is not defined for every histogram.  With shift 6 and a histogram of 256 symbols and 524288
occurrences (so every floating-point target is exact), and whatever the logarithm table holds, the loop first takes the last count from a symbol
that does occur, and then looks beyond the end of the table of allowed counts. -/
theorem C42_normalisation_leaves_table (F : Float64) (hround : ∀ f, F.round f = (f * 4096 * 2 + 524288) / (2 * 524288))
    (hbig : ∀ f, F.big f = decide (f * 4096 > 524288)) (hratio : ∀ a b, 0 ≤ F.ratio a b ∧ F.ratio a b < 2 ^ 31) :
    badFreqs.sum = 524288 ∧ (∀ f ∈ badFreqs, 0 < f) ∧ (∃ s, s = start F 6 (allowed 6) badFreqs 0 ⟨[], [], 0, 0⟩ ∧
      ∃ bins, iterate ⟨F, allowed 6, s.maxFreq⟩ s.loopBins s.rest = .next bins (-63) ∧
        (∃ b ∈ bins, 0 < b.freq ∧ (allowed 6).getD b.ind 0 = 0) ∧ iterate ⟨F, allowed 6, s.maxFreq⟩ bins (-63) = .outside) ∧
    ∀ k, rebalance F 6 badFreqs k = none := by
  have hstart : start F 6 (allowed 6) badFreqs 0 ⟨[], [], 0, 0⟩ = start exactFloat 6 (allowed 6) badFreqs 0 ⟨[], [], 0, 0⟩ := by
    refine start_congr _ _ _ _ _ ?_ 0 _
    intro f _
    have h1 : F.round f = exactFloat.round f := by rw [hround]; simp only [exactFloat]; omega
    refine ⟨by unfold startCount; rw [h1], ?_⟩
    rw [hbig]
    simp only [exactFloat, decide_eq_decide]
    omega
  obtain ⟨b1, b2, b3⟩ := bad_start
  have hfirst := bad_first F 17049 hratio
  have hsecond := bad_second F 17049 hratio
  refine ⟨by decide +kernel, by decide +kernel, ⟨_, rfl, badBins 189, ?_, ⟨⟨160, 189, 199⟩, by simp [badBins], by decide, bad_table.2.1⟩, ?_⟩, ?_⟩
  · rw [hstart, b1, b2, b3]; exact hfirst
  · rw [hstart, b3]; exact hsecond
  · intro k
    unfold rebalance
    dsimp only
    rw [hstart, b1, b2, b3]
    split
    · rfl
    · rw [if_neg (by decide)]
      have : rebalanceLoop ⟨F, allowed 6, 17049⟩ k (badBins 188) (-64) = none := by
        cases k with
        | zero => rfl
        | succ k =>
          rw [rebalanceLoop, hfirst]
          dsimp only
          cases k with
          | zero => rfl
          | succ k => rw [rebalanceLoop, hsecond]
      rw [this]; rfl

/-- Such floating-point results exist. -/
example : ∃ F : Float64, (∀ f, F.round f = (f * 4096 * 2 + 524288) / (2 * 524288)) ∧ (∀ f, F.big f = decide (f * 4096 > 524288)) ∧
    (∀ a b, 0 ≤ F.ratio a b ∧ F.ratio a b < 2 ^ 31) := ⟨⟨_, _, fun _ => 0, fun _ _ => 0⟩, fun _ => rfl, fun _ => rfl, by intro a b; dsimp only; omega⟩

/-- An ordinary histogram is normalised: four symbols of frequencies 1, 5, 20 and 6, with shift 2 and all logarithms equal. -/
example : rebalance ⟨fun f => f * 128, fun f => decide (f > 0), fun _ => 0, fun _ _ => 0⟩ 2 [1, 5, 20, 6] 9 = some ([128, 512, 2688, 768], 2) := by
  decide +kernel

/-- **C42 (which symbol takes the rest).** The count that is not written belongs to the first of the most frequent symbols, unless an earlier symbol has
a count of 12 bits; then the two exchange their counts and the most frequent symbol gets that count. -/
theorem C42_balancing_symbol {F : Float64} {shift : Nat} {freqs : List Nat} {k : Nat} {cs : List Nat} {om : Nat}
    (h : rebalance F shift freqs k = some (cs, om)) :
    ∃ top, (∀ p, freqs.getD p 0 ≤ freqs.getD top 0) ∧ (∀ p, p < top → freqs.getD p 0 < freqs.getD top 0) ∧
      (om = top ∨ om < top ∧ 2048 ≤ cs.getD top 0) := by
  have hs := start_pos F shift (allowed shift) freqs 0 ⟨[], [], 0, 0⟩ [] rfl rfl (by simp) (by intro p hp; dsimp only at hp; omega)
  have ho := start_ok F shift freqs 0 _ (start_init F shift (allowed shift))
  rw [List.nil_append] at hs
  unfold rebalance at h
  dsimp only at h
  generalize start F shift (allowed shift) freqs 0 ⟨[], [], 0, 0⟩ = s at h hs ho
  obtain ⟨h1, h2, h3⟩ := hs
  rw [h1] at h2 h3
  refine ⟨s.pos, h2, h3, ?_⟩
  split at h
  · cases h
  rename_i hex
  split at h
  · split at h
    · simp only [Option.some.injEq, Prod.mk.injEq] at h; exact .inl h.2.symm
    · cases h
  · rw [Option.bind_eq_some_iff] at h
    obtain ⟨⟨bins, rest⟩, _, h⟩ := h
    dsimp only at h
    split at h
    · simp only [Option.some.injEq] at h
      have := finish_pos (cs := applyBins (allowed shift) bins s.counts) (pos := s.pos) (rest := rest.toNat) ?_
      · rw [h] at this; exact this
      · rw [applyBins_length]
        simp only [List.all_eq_true, bne_iff_ne, ne_eq] at hex
        refine Classical.byContradiction fun hc => hex fun b hb e => ?_
        have := ho.length
        have := ho.3 b hb
        omega
    · cases h

/-- Two symbols are equally frequent; the first of them is left out. -/
example : rebalance ⟨fun f => f * 128, fun f => decide (f > 0), fun _ => 0, fun _ _ => 0⟩ 2 [1, 13, 5, 13] 9 = some ([128, 1920, 512, 1536], 1) := by
  decide +kernel

end Jxl.Props
