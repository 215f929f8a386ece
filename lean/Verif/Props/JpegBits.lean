import Verif.Lemmas.JpegScan
/-!
# C36: JPEG bit streams — byte stuffing and padding are reversible

`Jpeg.scanBytes` is the format (ITU-T T.81): codes packed most significant bit first, padded, `0x00` after every
`0xFF`, restart markers between segments.
-/
namespace Jxl.Props
open Jxl.Jpeg

/-- The writer: whatever sequence of writes and buffer reservations completes, for any number of segments, the
bytes are exactly those of the format.  In particular a stray `0xFF` never appears unstuffed. -/
theorem C36_writer (segs : List (List WOp)) (pads rest : Option (List Nat)) (w : Writer)
    (hok : ∀ os ∈ segs, CodesOk (opCodes os))
    (hw : writeSegs 0 segs Writer.init pads = some (some (w, rest))) :
    w.out.reverse = scanBytes 0 (withPads (segs.map fun os => codeBits (opCodes os)) pads) ∧ w.healthy = true := by
  have := writeSegs_out segs 0 rfl rfl rfl hok hw
  exact ⟨by simpa [Writer.init] using this.1, this.2.1⟩

/-- Round trip: the file around the scan is arbitrary apart from a marker after it and no `0xFF` right before it;
the reads may cut the bits up differently from the writes, in pieces of at most 16 bits.  The reader never leaves
the input, gets the bits written, records the padding bits used and stops exactly at the marker. -/
theorem C36_round_trip (segs : List (List WOp)) (pads rest : Option (List Nat)) (w : Writer)
    (pre tail : List Nat) (m : Nat) (widths : List (List Nat)) (hne : segs ≠ [])
    (hok : ∀ os ∈ segs, CodesOk (opCodes os))
    (hw : writeSegs 0 segs Writer.init pads = some (some (w, rest)))
    (hpre : pre ≠ []) (hlast : pre.getLast? ≠ some 255) (hm : m ≠ 0)
    (hwd : WidthsFit (withPads (segs.map fun os => codeBits (opCodes os)) pads) widths) :
    ∃ rs, readSegs (pre ++ (w.out.reverse ++ 255 :: m :: tail)) 0 widths pre.length =
        some (some (rs, pre.length + w.out.length)) ∧
      SegsRead (withPads (segs.map fun os => codeBits (opCodes os)) pads) widths rs := by
  have h := writeSegs_out segs 0 rfl rfl rfl hok hw
  have ho : w.out.reverse = scanBytes 0 (withPads (segs.map fun os => codeBits (opCodes os)) pads) := by
    simpa [Writer.init] using h.1
  have hl : w.out.length = (scanBytes 0 (withPads (segs.map fun os => codeBits (opCodes os)) pads)).length := by
    rw [← ho, List.length_reverse]
  rw [ho, hl]
  refine readSegs_scan _ _ widths 0 pre m tail ?_ hpre hlast hm rfl hwd h.2.2
  cases segs with
  | nil => exact absurd rfl hne
  | cons a b => simp [withPads]

/-- The writer stays inside its chunk: after `Reserve(n)` any codes of 1 to 63 bits with at most `64 * (n / 16)`
bits together can be written, from every state of the writer. -/
theorem C36_writer_safe (w : Writer) (n : Nat) (ws : List (Nat × Nat)) (hr : w.room ≤ 64) (hn : n ≤ chunkSize)
    (hws : ∀ x ∈ ws, 1 ≤ x.1 ∧ x.1 ≤ 63) (hsum : (ws.map Prod.fst).sum ≤ 64 * (n / 16)) :
    ∃ w', runOps (.reserve n :: ws.map fun x => .write x.1 x.2) w = some w' ∧ w'.room ≤ 64 := by
  obtain ⟨w', K, e, _, b⟩ := runWrites_some ws (reserve_budget w n hr hn) hws hsum
  exact ⟨w', e, b.room⟩

/-- Ending a segment never leaves the chunk, and is refused exactly when the padding bits run out or one of them
is not a bit. -/
theorem C36_jump (w : Writer) (pads : Option (List Nat)) (hr : w.room ≤ 64) :
    jump w pads ≠ none ∧
      (jump w pads = some none ↔
        ∃ src, pads = some src ∧ (src.length < w.room % 8 ∨ ∃ b ∈ src.take (w.room % 8), 1 < b)) := by
  cases pads with
  | none =>
    obtain ⟨w', e, _⟩ := emitEnd_some w (2 ^ (w.room % 8) - 1) hr
    have : jump w none = some (some (w', none)) := by unfold jump; simp only; rw [e]; rfl
    rw [this]
    exact ⟨by simp, by simp⟩
  | some src =>
    cases ht : takePads (w.room % 8) src 0 0 with
    | none =>
      have hj : jump w (some src) = some none := by unfold jump; simp only; rw [ht]
      rw [hj]
      refine ⟨by simp, ⟨fun _ => ⟨src, rfl, ?_⟩, fun _ => rfl⟩⟩
      refine Classical.byContradiction fun hcon => ?_
      have hlen : w.room % 8 ≤ src.length := by
        have : ¬ src.length < w.room % 8 := fun h => hcon (Or.inl h)
        omega
      have : ∀ (n : Nat) (l : List Nat) (a b : Nat), n ≤ l.length → takePads n l a b ≠ none := by
        intro n
        induction n with
        | zero => intro l a b _ h; cases h
        | succ n ih =>
          intro l a b h
          cases l with
          | nil => simp at h
          | cons x l => rw [takePads]; exact ih l _ _ (by simpa using h)
      exact this _ _ _ _ hlen ht
    | some r =>
      obtain ⟨pat, dang, rst⟩ := r
      have a := takePads_some _ _ _ _ ht
      by_cases hd : dang > 1
      · have hj : jump w (some src) = some none := by unfold jump; simp only; rw [ht]; simp only [hd, if_true]
        rw [hj]
        refine ⟨by simp, ⟨fun _ => ⟨src, rfl, Or.inr ?_⟩, fun _ => rfl⟩⟩
        refine Classical.byContradiction fun hcon => ?_
        have hall : ∀ b ∈ src.take (w.room % 8), b ≤ 1 := by
          intro b hb
          have : ¬ 1 < b := fun h => hcon ⟨b, hb, h⟩
          omega
        have : ∀ (n : Nat) (l : List Nat) (a b : Nat) {r}, b ≤ 1 → (∀ x ∈ l.take n, x ≤ 1) →
            takePads n l a b = some r → r.2.1 ≤ 1 := by
          intro n
          induction n with
          | zero => intro l a b r hb _ h; cases h; exact hb
          | succ n ih =>
            intro l a b r hb hx h
            cases l with
            | nil => cases h
            | cons x l =>
              rw [takePads] at h
              have hx1 : x ≤ 1 := hx x (by simp)
              have hor : b ||| x ≤ 1 := by
                have hb' : b = 0 ∨ b = 1 := by omega
                have hx' : x = 0 ∨ x = 1 := by omega
                rcases hb' with rfl | rfl <;> rcases hx' with rfl | rfl <;> decide
              exact ih l _ _ hor (fun y hy => hx y (by simp [hy])) h
        have := this _ _ _ _ (by decide) hall ht
        simp only at this; omega
      · obtain ⟨w', e, _⟩ := emitEnd_some w pat hr
        have hj : jump w (some src) = some (some (w', some rst)) := by
          unfold jump; simp only; rw [ht]; simp only [hd, if_false]; rw [e]; rfl
        rw [hj]
        refine ⟨by simp, ⟨fun h => (by cases h), ?_⟩⟩
        rintro ⟨src', hs, hc⟩
        injection hs with hs
        subst hs
        rcases hc with hc | ⟨b, hb, hb1⟩
        · have := a.1; omega
        · have := a.2.2.1 (by simp only; omega) b hb; omega

/-- Restart markers are always written inside the chunk. -/
theorem C36_marker (w : Writer) (m : Nat) : emitMarker w m ≠ none := by
  unfold emitMarker
  have hp : (reserve w 2).pos + 2 ≤ chunkSize := by
    unfold reserve; split
    · show 0 + 2 ≤ chunkSize; decide
    · omega
  simp only
  rw [if_pos (by omega)]
  simp

/-- Two segments: codes containing `0xFF` bytes, custom padding `0 1 1` for the first and `0` for the second,
read back in different pieces; the reader returns the padding and stops at the end marker. -/
def c36Segs : List (List WOp) :=
  [[.reserve 512, .write 16 0xFFFF, .write 5 3, .write 63 (2 ^ 63 - 1), .write 1 1],
   [.write 7 0x7F]]

example : (writeSegs 0 c36Segs Writer.init (some [0, 1, 1, 0])).map (·.map fun x => (x.1.out.reverse, x.2)) =
    some (some ([255, 0, 255, 0, 31, 255, 0, 255, 0, 255, 0, 255, 0, 255, 0, 255, 0, 255, 0, 251, 255, 208, 254], some [])) := by decide +kernel

example : readSegs ([218] ++ ([255, 0, 255, 0, 31, 255, 0, 255, 0, 255, 0, 255, 0, 255, 0, 255, 0, 255, 0, 251, 255,
    208, 254] ++ 255 :: 217 :: [7])) 0 [[16, 5, 16, 16, 16, 16], [3, 4]] 1 =
    some (some ([([0xFFFF, 3, 0xFFFF, 0xFFFF, 0xFFFF, 0xFFFF], [0, 1, 1]), ([7, 15], [0])], 24)) := by rfl

example : ∀ os ∈ c36Segs, CodesOk (opCodes os) := by
  intro os h
  simp only [c36Segs, List.mem_cons, List.not_mem_nil, or_false] at h
  rcases h with rfl | rfl <;> intro w hw <;> simp only [opCodes, List.mem_cons, List.not_mem_nil, or_false] at hw
  · rcases hw with rfl | rfl | rfl | rfl <;> decide
  · subst hw; decide

example : WidthsFit (withPads (c36Segs.map fun os => codeBits (opCodes os)) (some [0, 1, 1, 0]))
    [[16, 5, 16, 16, 16, 16], [3, 4]] :=
  ⟨by decide, by decide, by decide, by decide, trivial⟩

end Jxl.Props
