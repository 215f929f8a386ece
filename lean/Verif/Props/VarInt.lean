import Verif.Lemmas.FrameIndex
/-!
# C35: base-128 integers; C41: the frame index box
-/
namespace Jxl.Props
open VarInt VarInt.Spec PaddedBytes

/-- **C35, decoder.**  Every 64-bit value is decoded from its encoding, consuming exactly that, wherever it is and whatever follows. -/
theorem C35_decode (pre rest : List UInt8) (v : Nat) (hv : v < 2 ^ 64) :
    decode (pre ++ varint v ++ rest) pre.length = some (v, pre.length + (varint v).length) := by
  have := decLoop_spec (pre ++ varint v ++ rest) 9 pre.length 0 v (by omega) (by simp) rest (by simp) (by simpa using hv)
  simpa [decode] using this

/-- A proper prefix of an encoding at the end of the input is refused. -/
theorem C35_truncated (pre q r : List UInt8) (v : Nat) (hq : q ++ r = varint v) (hr : r ≠ []) : decode (pre ++ q) pre.length = none :=
  decLoop_trunc _ _ _ _ v r (by simpa using hq) hr

/-- The decoder reads one to ten bytes, all inside the input, and yields a 64-bit value, on any input. -/
theorem C35_bounds (inp : List UInt8) (pos v pos' : Nat) (h : decode inp pos = some (v, pos')) :
    pos < pos' ∧ pos' ≤ pos + 10 ∧ pos' ≤ inp.length ∧ v < 2 ^ 64 := by
  have := decLoop_bounds inp 9 pos 0 (by omega) (by simp) v pos' h
  omega

/-- **C35, encoder into a fixed buffer** (container): with room for the bytes they are written and nothing else changes. -/
theorem C35_encode_buffer (mem : List UInt8) (pos v : Nat) (h : pos + (varint v).length ≤ mem.length) :
    encLoop mem.length mem pos v = some (true, mem.take pos ++ varint v ++ mem.drop (pos + (varint v).length), pos + (varint v).length) :=
  encLoop_spec _ _ _ _ (by omega) h

/-- **C35, encoder of the ICC codec (partial).**  For values below 2^63 the call never touches memory outside the buffer; it fails only when
the buffer cannot be enlarged, and then changes nothing; otherwise exactly the encoding has been appended.  Missing: values from 2^63 on, for
which it is false (`C35_top_bit_lost`); the codec itself only writes sizes below 2^32. -/
theorem C35_encode_icc_partial (b : PaddedBytes) (h : b.WF) (a1 a2 : Alloc) (v : Nat) (hv : v < 2 ^ 63) :
    ∃ ok b', encIcc b a1 a2 v = some (ok, b') ∧ ok = (b.resize a1 (b.size + 9)).1 ∧
      b'.contents = if ok then b.contents ++ varint v else b.contents := by
  have hp := resize_props b a1 (b.size + 9) h
  have hl := varint_length_le 8 v (by omega)
  have hpos := varint_length_pos v
  have hcl := contents_length h
  unfold encIcc
  rcases hb : b.resize a1 (b.size + 9) with ⟨ok, b'⟩
  rw [hb] at hp
  simp only at hp ⊢
  cases ok with
  | false =>
    refine ⟨false, b', rfl, rfl, ?_⟩
    rw [hp.2.1 rfl]; rfl
  | true =>
    obtain ⟨hs, hc⟩ := hp.2.2 rfl
    have hm : b'.mem.length = b'.cap + 8 := by
      have := hp.1.size_le
      rcases hp.1.mem_len with ⟨_, h2⟩ | h2
      · omega
      · exact h2
    have hsz := hp.1.size_le
    simp only [encLoop_spec b'.size v b.size b'.mem (by omega) (by omega), resize, reserve]
    rw [if_pos (by omega)]
    refine ⟨true, _, rfl, rfl, ?_⟩
    simp only [contents, if_true, blit] at hc ⊢
    rw [List.take_append_of_le_length (by simp; omega), List.take_of_length_le (by simp; omega)]
    congr 1
    rw [List.take_take, List.take_take] at hc
    rw [Nat.min_eq_left (by omega)] at hc
    rw [hc, Nat.min_eq_right (by omega)]

/-- Disagreement: the ICC encoder's buffer is extended by nine bytes only.  When its capacity is then exhausted the tenth byte lands behind
the buffer and is lost, so 2^63 is read back as 0. -/
theorem C35_top_bit_lost : ∃ (b : PaddedBytes) (a1 a2 : Alloc) (b' : PaddedBytes), b.WF ∧ encIcc b a1 a2 (2 ^ 63) = some (true, b') ∧
    decode b'.contents b.size = some (0, b'.size) := by
  refine ⟨(PaddedBytes.run {} [.append (some fun _ => 0) (List.replicate 55 7)]).2, some fun _ => 0, some fun _ => 0,
    { mem := List.replicate 55 7 ++ List.replicate 9 128 ++ List.replicate 40 0, size := 65, cap := 96 }, ?_, ?_, ?_⟩
  · constructor <;> decide
  · decide +kernel
  · decide +kernel

example : varint 300 = [0xac, 0x02] ∧ (varint (2 ^ 64 - 1)).length = 10 ∧ decode [9, 0xac, 0x02, 5] 1 = some (300, 3) := by decide +kernel

/-! ## Frame index box -/

/-- Ticks from the start of frame `p` to the start of frame `q`. -/
def ticksBetween (es : List Entry) (p q : Nat) : Nat := (((es.drop p).take (q - p)).map fun e => e.duration.toNat).sum

/-- **C41 (partial).**  For every non-empty list of frames (with nondecreasing offsets): the box is written without touching memory outside its
buffer, and consists of the number of listed frames, the tick unit and for each listed frame the documented offset and frame count.
Missing: the third number of each record is not the documented duration, see `C41_ticks_fail`; what is written instead is `writtenTicks`. -/
theorem C41_frame_index_partial (es : List Entry) (tnum tden : BitVec 32) (h0 : es ≠ []) (hn : es.length < 2 ^ 31)
    (hs : 18 + 30 * (listed (es.map (·.indexed))).length < 2 ^ 31)
    (hoff : ∀ i j, i ≤ j → j < es.length → (offAt es i).toNat ≤ (offAt es j).toNat) :
    frameIndexBox es tnum tden = some (some (varint (listed (es.map (·.indexed))).length ++ u32be tnum.toNat ++ u32be tden.toNat ++
      (recordsFrom es.length (fun p => (offAt es p).toNat) (fun p _ => ((writtenTicks es p).signExtend 64).toNat) none
        (listed (es.map (·.indexed)))).flatMap varint)) := by
  cases es with
  | nil => exact absurd rfl h0
  | cons e rest =>
    rw [frameIndexBox_bytes e rest tnum tden (by rw [numIndexed_eq]; exact hs), numIndexed_eq,
      records_spec (e :: rest) hn hoff rest 1 {} rfl (by simp) (by simp) (by simp) (by simp) rfl rfl, listed_eq]

def exFrames : List Entry := [⟨true, 5, 0⟩, ⟨false, 6, 70⟩, ⟨true, 7, 200⟩, ⟨true, 8, 300⟩]

/-- Disagreement: the durations written are not the documented ones (5 + 6, 7 and 8 ticks in this file; 0, 0 and 7 are written). -/
theorem C41_ticks_fail : ∃ bytes, frameIndexBox exFrames 1 1000 = some (some bytes) ∧
    bytes ≠ varint 3 ++ u32be 1 ++ u32be 1000 ++
      (recordsFrom 4 (fun p => (offAt exFrames p).toNat) (ticksBetween exFrames) none (listed (exFrames.map (·.indexed)))).flatMap varint ∧
    bytes = [3, 0, 0, 0, 1, 0, 0, 3, 232, 0, 0, 2, 200, 1, 0, 1, 100, 7, 1] := by
  refine ⟨_, C41_frame_index_partial exFrames 1 1000 (by decide) (by decide) (by decide) ?_, ?_, ?_⟩
  · intro i j hij hj
    have : ∀ j < 4, ∀ i ≤ j, (offAt exFrames i).toNat ≤ (offAt exFrames j).toNat := by decide
    exact this j hj i hij
  · decide +kernel
  · decide +kernel

end Jxl.Props
