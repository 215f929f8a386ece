import Verif.Lemmas.IccFinal
/-! # The checks of the reader on what the encoder wrote -/
namespace Jxl.Icc

open VarInt.Spec (varint)

/-- The preamble fits in the twenty bytes that are decoded before the check. -/
theorem preamble_ok (rest : Nat → UInt8) {L : Nat} {cs ds : Bytes} (hL : L < 2 ^ 32) (hc : cs.length < 2 ^ 32) (h20 : 20 < (pack L cs ds).length) :
    readPre rest (pack L cs ds) =
      if (varint L).length + (varint cs.length).length + cs.length ≤ min 1024 (pack L cs ds).length ∧ (pack L cs ds).length ≤ L + 65536 ∧ L ≤ 2 ^ 28
      then .ok () else .fail := by
  have l1 := VarInt.varint_length_le 4 L (by omega)
  have l2 := VarInt.varint_length_le 4 cs.length (by omega)
  unfold readPre
  rw [if_pos h20]
  have hd : (((pack L cs ds).take 20) ++ (List.range (min 1024 (pack L cs ds).length - 20)).map rest).length = min 1024 (pack L cs ds).length := by
    rw [List.length_append, List.length_take, List.length_map, List.length_range]; omega
  obtain ⟨tl, ht⟩ : ∃ tl, (pack L cs ds).take 20 ++ (List.range (min 1024 (pack L cs ds).length - 20)).map rest =
      varint L ++ (varint cs.length ++ tl) := by
    refine ⟨(cs ++ ds).take (20 - (varint L ++ varint cs.length).length) ++ (List.range (min 1024 (pack L cs ds).length - 20)).map rest, ?_⟩
    unfold pack
    rw [List.append_assoc (varint L ++ varint cs.length), List.take_append, List.take_of_length_le (l := varint L ++ varint cs.length)]
    · simp only [List.append_assoc]
    · rw [List.length_append]; omega
  generalize ((pack L cs ds).take 20) ++ (List.range (min 1024 (pack L cs ds).length - 20)).map rest = d at *
  unfold checkPreamble
  have v1 : varIntAt d d.length 0 = .ok (L, 0 + (varint L).length) := varIntAt_ok (by rw [List.take_length]; exact ht) (by omega)
  have v2 : varIntAt d d.length (0 + (varint L).length) = .ok (cs.length, 0 + (varint L).length + (varint cs.length).length) := by
    refine varIntAt_ok (rest := tl) ?_ (by omega)
    rw [List.take_length, Nat.zero_add, ht, List.drop_left' rfl]
  rw [v1, bind_ok]
  dsimp only
  rw [check32_ok (by omega), bind_ok, v2, bind_ok]
  dsimp only
  rw [check32_ok (by omega), bind_ok, Nat.zero_add, hd]
  by_cases ho : (varint L).length + (varint cs.length).length + cs.length ≤ min 1024 (pack L cs ds).length
  · rw [checkOob_ok (by omega) ho, bind_ok]
    by_cases h1 : L + 65536 < (pack L cs ds).length
    · rw [if_pos h1, if_neg (by omega)]
    · rw [if_neg h1]
      by_cases h2 : L > 2 ^ 28
      · rw [if_pos h2, if_neg (by omega)]
      · rw [if_neg h2, if_pos ⟨ho, by omega, by omega⟩]
  · have hf : checkOob ((varint L).length + (varint cs.length).length) cs.length (min 1024 (pack L cs ds).length) = .fail := by
      unfold checkOob
      split
      · rfl
      · rw [if_pos (by omega)]
    rw [hf, bind_fail, if_neg (by omega)]

end Jxl.Icc
