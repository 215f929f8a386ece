import Verif.Lemmas.FrameParams
/-!
# C75: parameters of a whole frame are read back
-/
namespace Jxl.Props
open FrameParams F16.Spec

/-- C75 (quantiser): every quantiser of the format is written and read back, others are refused. -/
theorem C75_quantiser (q : Quant) (h32 : q.scale < 2 ^ 32 ∧ q.dc < 2 ^ 32) :
    (q.Ok → ∃ b, writeQuant q = some b ∧ ∀ rest, readQuant (b ++ rest) = some (q, rest)) ∧ (¬ q.Ok → writeQuant q = none) := by
  refine ⟨fun h => ?_, fun h => ?_⟩
  · obtain ⟨a, a1, a2, _⟩ := u32_trip h32.1 (scale_iff.mpr h.1)
    obtain ⟨b, b1, b2, _⟩ := u32_trip h32.2 (dc_iff.mpr h.2)
    refine ⟨a ++ b, by rw [writeQuant, a1, b1]; rfl, fun rest => ?_⟩
    rw [readQuant, List.append_assoc, a2]
    simp only [Option.bind_eq_bind, Option.bind_some, b2]
  · by_cases h1 : 1 ≤ q.scale ∧ q.scale ≤ 73728
    · have h2 : ¬ (1 ≤ q.dc ∧ q.dc ≤ 65536) := fun h2 => h ⟨h1, h2⟩
      obtain ⟨a, a1, _⟩ := u32_trip h32.1 (scale_iff.mpr h1)
      have := (C03_u32 dcEnc q.dc h32.2 []).2 fun hr => h2 (dc_iff.mp hr)
      rw [writeQuant, a1, this.1]
      rfl
    · have := (C03_u32 scaleEnc q.scale h32.1 []).2 fun hr => h1 (scale_iff.mp hr)
      rw [writeQuant, this.1]
      rfl

/-- C75 (quantiser): no bits give a quantiser outside the format; in particular neither divisor is zero. -/
theorem C75_quantiser_any_bits (s : List Bool) (q : Quant) (rest : List Bool) (h : readQuant s = some (q, rest)) : q.Ok := by
  unfold readQuant at h
  simp only [Option.bind_eq_bind, Option.bind_eq_some_iff] at h
  obtain ⟨⟨a, s1⟩, ha, ⟨b, s2⟩, hb, h⟩ := h
  cases h
  exact ⟨scale_iff.mp (u32_read (by decide) ha), dc_iff.mp (u32_read (by decide) hb)⟩

example : (⟨73728, 65536⟩ : Quant).Ok := by unfold Quant.Ok; decide
example : ((writeQuant ⟨4097, 16⟩).map List.length, writeQuant ⟨73729, 16⟩, writeQuant ⟨1, 0⟩) = (some 16, none, none) := by decide

/-- C75 (colour correlation): every correlation of the format is written and read back. -/
theorem C75_correlation (c : Cfl) (h : c.Ok) :
    ∃ b, writeCfl c = some b ∧ ∀ rest, readCfl (b ++ rest) = some (c, rest) := by
  obtain ⟨b, h1, h2, _⟩ := cfl_back h
  exact ⟨b, h1, h2⟩

/-- C75 (colour correlation): no bits give a correlation outside the limits of the format; in particular the divisor is not zero. -/
theorem C75_correlation_any_bits (s : List Bool) (c : Cfl) (rest : List Bool) (h : readCfl s = some (c, rest)) : c.Limits := cfl_range h

/-- C75 (colour correlation): the bits that the encoder asks for are enough for a factor below 258. -/
theorem C75_allotment_partial (c : Cfl) (h : c.Ok) (hf : c.factor < 258) :
    ∃ b, writeCfl c = some b ∧ b.length ≤ cflAllotment := by
  obtain ⟨b, h1, _, _, h2⟩ := cfl_back h
  exact ⟨b, h1, Nat.le_trans (h2 hf) (by decide)⟩

/-- A correlation with a large factor. -/
def largeFactor : Cfl := ⟨258, 0, 0x3F800000, -128, 127⟩

theorem largeFactor_ok : largeFactor.Ok where
  limits := ⟨by decide, (four_iff _).mpr (by decide), (four_iff _).mpr (by decide), by decide, by decide⟩
  halfX := ⟨0, by decide, by unfold finite16; decide, by decide, by decide⟩
  halfB := ⟨0x3C00, by decide, by unfold finite16; decide, by decide, by decide⟩

/-- C75, what does not hold: with a larger factor more bits are written than the encoder asked for. -/
theorem C75_allotment_exceeded : ∃ c : Cfl, c.Ok ∧ ∃ b, writeCfl c = some b ∧ cflAllotment < b.length :=
  ⟨largeFactor, largeFactor_ok, (writeCfl largeFactor).get (by decide), by simp, by decide⟩

example : (writeCfl largeFactor).map List.length = some 67 := by decide
example : (writeCfl .initial).map List.length = some 1 := by decide
example : (writeCfl ⟨257, 0x40800000, 0xBF000000, 127, -128⟩).bind readCfl = some (⟨257, 0x40800000, 0xBF000000, 127, -128⟩, []) := by decide
-- a base correlation above 4 is refused
example : (writeCfl ⟨257, 0x40802000, 0, 0, 0⟩).map readCfl = some none := by decide

/-- C75 (noise): a table is written in eighty bits; each value is read back at most half a step away. -/
theorem C75_noise (lut : List Nat) (h : NoiseOk lut) :
    ∃ b out, writeNoise lut = some b ∧ b.length = 80 ∧ (∀ rest, readNoise (b ++ rest) = some (out, rest)) ∧
      out.length = 8 ∧ ∀ (i v w : Nat), lut[i]? = some v → out[i]? = some w → Near v w ∧ ∃ k < 1024, w = k * (2 * halfStep) := by
  have hq : ∀ v ∈ lut, quantise v < 1024 := fun v hv => (quantise_lt v).mpr (h.small v hv)
  obtain ⟨bs, h1, h2, h3⟩ := levels_back lut hq
  refine ⟨bs.flatten, lut.map fun v => quantise v * (one / 1024), by rw [writeNoise, if_pos ((hasAny_iff lut).mpr h.some), h1]; rfl, by rw [h2, h.eight], fun rest => ?_, by rw [List.length_map, h.eight], fun i v w hv hw => ?_⟩
  · rw [readNoise, ← h.eight]
    exact h3 rest
  · rw [List.getElem?_map, hv] at hw
    injection hw with hw
    subst hw
    exact ⟨near v, _, hq v (List.mem_of_getElem? hv), by rw [show one / 1024 = 2 * halfStep by decide]⟩

/-- C75 (noise): a table of whole steps is read back exactly. -/
theorem C75_noise_exact (lut : List Nat) (h : NoiseOk lut) (hk : ∀ v ∈ lut, ∃ k, v = k * (2 * halfStep)) :
    ∃ b, writeNoise lut = some b ∧ ∀ rest, readNoise (b ++ rest) = some (lut, rest) := by
  obtain ⟨bs, h1, _, h3⟩ := levels_back lut fun v hv => (quantise_lt v).mpr (h.small v hv)
  refine ⟨bs.flatten, by rw [writeNoise, if_pos ((hasAny_iff lut).mpr h.some), h1]; rfl, fun rest => ?_⟩
  rw [readNoise, ← h.eight, h3]
  congr 2
  refine (List.map_congr_left fun v hv => ?_).trans (List.map_id lut)
  obtain ⟨k, rfl⟩ := hk v hv
  rw [quantise_step, show one / 1024 = 2 * halfStep by decide]
  rfl

/-- C75 (noise): other tables of eight values are refused. -/
theorem C75_noise_refused (lut : List Nat) (h8 : lut.length = 8) (h : ¬ NoiseOk lut) : writeNoise lut = none := by
  unfold writeNoise
  by_cases ha : hasAny lut = true
  · rw [if_pos ha]
    have : ∃ v ∈ lut, writeLevel v = none := by
      refine Classical.byContradiction fun hn => h ⟨h8, fun v hv => Classical.byContradiction fun hl => hn ⟨v, hv, write_large hl⟩, (hasAny_iff lut).mp ha⟩
    rw [mapM_none this]
    rfl
  · rw [if_neg ha]

/-- C75 (noise): the largest value that the encoder leaves in a table can be written. -/
theorem C75_noise_limit (v : Nat) (h : v ≤ lutMax) : v < 2047 * halfStep :=
  Nat.lt_of_le_of_lt h (by decide)

/-- A table of noise. -/
def noiseTable : List Nat := [0, 1 * 2 ^ 139, 2 * 2 ^ 139, 100 * 2 ^ 139, 0, 5 * 2 ^ 139 + 1, 1023 * 2 ^ 139, lutMax]

theorem noiseTable_ok : NoiseOk noiseTable := ⟨by decide, by decide, ⟨lutMax, by decide, by decide⟩⟩

example : ((writeNoise noiseTable).bind readNoise).map (fun r => r.1.map (· / 2 ^ 139)) = some [0, 1, 2, 100, 0, 5, 1023, 1023] := by decide
example : NoiseOk (List.replicate 8 (3 * (2 * halfStep))) := ⟨by decide, by decide, ⟨3 * (2 * halfStep), by decide, by decide⟩⟩

/-- C75, what does not hold: a table that the decoder reads may be refused by the encoder: the smallest step, 1/1024, is less than a thousandth. -/
theorem C75_noise_read_not_written : ∃ s lut, readNoise s = some (lut, []) ∧ lut.any (0 < ·) = true ∧ writeNoise lut = none :=
  ⟨(List.replicate 8 (bitsOf 10 1)).flatten, List.replicate 8 (2 ^ 139), by decide, by decide, by decide⟩

end Jxl.Props
