import Verif.Lemmas.QuantTables
/-!
# C76: quantisation tables are read back
-/
namespace Jxl.Props
open QuantTables F16.Spec

/-- C76 (tables): all tables of the format without negative zeros are written and read back, given that those stored pixel by pixel are. -/
theorem C76_tables {R : Type} (rd : Nat → List Bool → Option (R × List Bool)) (wr : Nat → R → Option (List Bool)) (rawOk : Nat → R → Prop)
    (hraw : ∀ (i : Nat) (r : R), rawOk i r → ∃ b, wr i r = some b ∧ ∀ rest, rd i (b ++ rest) = some (r, rest))
    (es : List (Enc R)) (h : TablesLimits rawOk es) (hz : ∀ e ∈ es, e.NoNegZero) :
    ∃ b, writeTables wr es = some b ∧ ∀ rest, readTables rd (b ++ rest) = some (es, rest) := by
  by_cases ha : es.all Enc.isLibrary = true
  · refine ⟨bitsOf 1 1, by rw [writeTables, if_pos ha], fun rest => ?_⟩
    rw [readTables, rdBits_append (n := 1) (by decide), all_library es ha, h.number]
    rfl
  · obtain ⟨b, b1, b2⟩ := encs_back hraw es 0 fun k e hk => by
      have hl := (List.getElem?_eq_some_iff.mp hk).1
      rw [h.number] at hl
      rw [Nat.zero_add]
      exact ⟨(limits_congr (small_iff hl) _ e).mpr (h.each k e hk), hz e (List.mem_of_getElem? hk)⟩
    refine ⟨bitsOf 1 0 ++ b, by rw [writeTables, if_neg ha, b1]; rfl, fun rest => ?_⟩
    rw [readTables, List.append_assoc, rdBits_append (n := 1) (by decide)]
    simp only [Option.bind_eq_bind, Option.bind_some]
    rw [if_neg (by decide), ← h.number]
    exact b2 rest

/-- C76 (tables): whatever bits are read, the tables are within the limits of the format, given that those stored pixel by pixel are. -/
theorem C76_tables_any_bits {R : Type} (rd : Nat → List Bool → Option (R × List Bool)) (rawOk : Nat → R → Prop)
    (hraw : ∀ (i : Nat) (s : List Bool) (r : R) (rest : List Bool), rd i s = some (r, rest) → rawOk i r)
    (s : List Bool) (es : List (Enc R)) (rest : List Bool) (h : readTables rd s = some (es, rest)) : TablesLimits rawOk es := by
  unfold readTables at h
  obtain ⟨⟨d, s1⟩, _, h⟩ := Option.bind_eq_some_iff.mp h
  dsimp only at h
  by_cases hd : d = 1
  · rw [if_pos hd] at h
    cases h
    refine ⟨by simp, fun i e he => ?_⟩
    have := List.mem_of_getElem? he
    rw [List.mem_replicate] at this
    rw [this.2]
    trivial
  · rw [if_neg hd] at h
    obtain ⟨l, h⟩ := encs_range hraw 17 0 _ _ _ h
    refine ⟨l, fun i e he => ?_⟩
    have hl := (List.getElem?_eq_some_iff.mp he).1
    have := h i e he
    rw [Nat.zero_add] at this
    exact (limits_congr (small_iff (by omega)) _ e).mp this

/-- C76 (lowest frequencies): factors of the format are written and read back, within the bits asked for (enc_quant_weights.cc:154-155). -/
theorem C76_dc (x y b : Nat) (hx : DcLimits x) (hy : DcLimits y) (hb : DcLimits b) :
    ∃ w, writeDcs x y b = some w ∧ w.length ≤ 1 + 4 * 8 * 3 ∧ ∀ rest, readDcs (w ++ rest) = some ([x, y, b], rest) := by
  by_cases hd : [x, y, b] = dcDefault
  · refine ⟨bitsOf 1 1, by rw [writeDcs, if_pos hd], by simp, fun rest => ?_⟩
    rw [readDcs, rdBits_append (n := 1) (by decide), hd]
    rfl
  · obtain ⟨u, u1, u2, u3⟩ := dc_back hx
    obtain ⟨v, v1, v2, v3⟩ := dc_back hy
    obtain ⟨w, w1, w2, w3⟩ := dc_back hb
    refine ⟨bitsOf 1 0 ++ (u ++ (v ++ w)), by rw [writeDcs, if_neg hd, u1, v1, w1]; rfl, by simp [u2, v2, w2], fun rest => ?_⟩
    simp only [List.append_assoc]
    rw [readDcs, rdBits_append (n := 1) (by decide)]
    simp only [Option.bind_eq_bind, Option.bind_some]
    rw [if_neg (by decide)]
    simp only [u3, v3, w3, Option.bind_some]

/-- C76 (lowest frequencies): whatever bits are read, the three factors are positive and not almost zero, so they have a finite inverse. -/
theorem C76_dc_any_bits (s : List Bool) (ws rest : _) (h : readDcs s = some (ws, rest)) :
    ws.length = 3 ∧ ∀ w ∈ ws, w < 2 ^ 31 ∧ 11258999 * 2 ^ 99 ≤ mag32 w ∧ 128 * mag32 w < 65536 * 2 ^ 149 := by
  have big : ∀ w, DcLimits w → w < 2 ^ 31 ∧ 11258999 * 2 ^ 99 ≤ mag32 w ∧ 128 * mag32 w < 65536 * 2 ^ 149 := by
    rintro w ⟨⟨_, k, _, hf, hm, _⟩, h1, h2⟩
    refine ⟨h1, h2, ?_⟩
    rw [hm, Nat.one_mul, show (65536 * 2 ^ 149 : Nat) = 2 ^ 40 * 2 ^ 125 by decide]
    exact Nat.mul_lt_mul_of_pos_right (mag16_lt hf) (Nat.two_pow_pos _)
  unfold readDcs at h
  obtain ⟨⟨d, s1⟩, _, h⟩ := Option.bind_eq_some_iff.mp h
  dsimp only at h
  by_cases hd : d = 1
  · rw [if_pos hd] at h
    cases h
    decide
  · rw [if_neg hd] at h
    simp only [Option.bind_eq_bind, Option.bind_eq_some_iff] at h
    obtain ⟨⟨x, s2⟩, hx, ⟨y, s3⟩, hy, ⟨b, s4⟩, hb, h⟩ := h
    cases h
    refine ⟨rfl, fun w hw => ?_⟩
    simp only [List.mem_cons, List.not_mem_nil, or_false] at hw
    rcases hw with rfl | rfl | rfl
    · exact big _ (dc_range hx)
    · exact big _ (dc_range hy)
    · exact big _ (dc_range hb)

/-! ### Examples -/

/-- A list of tables, read from bits. -/
def tableBits : List Bool :=
  bitsOf 1 0 ++ (bitsOf 3 6 ++ bitsOf 4 1 ++ (List.replicate 3 (bitsOf 16 0x5000 ++ bitsOf 16 0xB800)).flatten)
    ++ (bitsOf 3 1 ++ (List.replicate 9 (bitsOf 16 0x4400)).flatten) ++ (List.replicate 8 (bitsOf 3 0)).flatten
    ++ (bitsOf 3 5 ++ (List.replicate 27 (bitsOf 16 0x3C00)).flatten ++ bitsOf 4 0 ++ (List.replicate 3 (bitsOf 16 1)).flatten ++ bitsOf 4 0 ++ (List.replicate 3 (bitsOf 16 0x7BFF)).flatten)
    ++ (List.replicate 6 (bitsOf 3 0)).flatten

/-- No table is stored pixel by pixel. -/
def noRaw : Nat → List Bool → Option (Empty × List Bool) := fun _ _ => none

-- the tables of these bits meet the conditions and are not all predefined
example : ((readTables noRaw tableBits).map fun r => (r.1.map Enc.isLibrary, r.2)) =
    some ([false, false, true, true, true, true, true, true, true, true, false, true, true, true, true, true, true], []) := by decide +kernel
example : ((readTables noRaw tableBits).bind fun r => writeTables (fun _ (e : Empty) => nomatch e) r.1) = some tableBits := by decide +kernel
example : ((readTables noRaw tableBits).bind fun r => match r.1 with | .dct d :: .id ws :: _ => some (d.bands, ws) | _ => none) =
    some ([0x45000000, 0xBF000000, 0x45000000, 0xBF000000, 0x45000000, 0xBF000000], List.replicate 9 0x43800000) := by decide +kernel
-- a zero weight and a special table of more than one block are refused
example : ((readTables noRaw (bitsOf 1 0 ++ bitsOf 3 1 ++ List.replicate 300 false)).isSome, (readTables noRaw (bitsOf 1 0 ++ bitsOf 3 0 ++ bitsOf 3 0 ++ bitsOf 3 0 ++ bitsOf 3 0 ++ bitsOf 3 1 ++ (List.replicate 20 (bitsOf 16 0x4400)).flatten)).isSome) =
    (false, false) := by decide +kernel
example : ((writeDcs 0x39800000 0x3B000000 0x3C000000).map List.length, (writeDcs 0x39800000 0x3B000000 0x3C000000).bind readDcs, writeDcs 0x39800000 0x3B000000 0x3B800000) =
    (some 49, some ([0x39800000, 0x3B000000, 0x3C000000], []), some [true]) := by decide +kernel
-- the conditions of the theorems
example : DcLimits 0x39800000 := ⟨⟨by decide, 0x2800, by decide, by unfold finite16; decide, by decide, by decide⟩, by decide, by decide⟩
example : (⟨2, [0x45000000, 0xBF000000, 0x45000000, 0xBF000000, 0x45000000, 0xBF000000]⟩ : Dct).Limits :=
  dct_range (s := bitsOf 4 1 ++ (List.replicate 3 (bitsOf 16 0x5000 ++ bitsOf 16 0xB800)).flatten) (rest := []) (by decide +kernel)

/-- C76, what does not hold without the limits: the encoder writes a zero factor, which the decoder refuses. -/
theorem C76_zero_written_not_read : ∃ b, writeDcs 0 0 0 = some b ∧ ∀ rest, readDcs (b ++ rest) = none := by
  refine ⟨_, rfl, fun rest => ?_⟩
  have hd : F16.decode 0 = some 0 := by decide
  have hp : Check.positive.passes 0 = false := by decide
  have e : ∀ r, readDc (bitsOf 16 0 ++ r) = none := fun r => by
    simp only [readDc, F16.read, rdBits_append (n := 16) (v := 0) (by decide), Option.bind_eq_bind, Option.bind_some, hd, Nat.zero_mod, if_true, hp]
    rfl
  simp only [List.append_assoc]
  rw [readDcs, rdBits_append (n := 1) (by decide)]
  simp only [Option.bind_eq_bind, Option.bind_some]
  rw [if_neg (by decide), e]
  rfl

end Jxl.Props
