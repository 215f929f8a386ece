import Verif.Lemmas.FastSection
/-!
# C62: the residuals of the fast lossless encoder, runs of zeros included, are read back by the decoder
-/
namespace Jxl.Props
open Jxl.FastCode Jxl.Huffman

/-- Four codes are found and their header is written.  Whatever follows it, the decoder reads a code from the header and stops where it ends.
From then on it reads any section: up to four channels, written as values and runs in chunks of any size, come back as the residuals they
were, in the context of each channel; the reader stops exactly at the end, without an error.  No single call of the bit writer has a value
that does not fit or more than the 56 bits it can take.  Each of the four contexts has a code of its own, as have the distances. -/
theorem C62_section_read_back (chans : List Chan) (h4 : chans.length = 4) (hok : ∀ ch ∈ chans, ChanOk ch) :
    ∃ codes hs hb dc, chans.mapM (fun ch => prefixCode ch.lo ch.hi ch.raw ch.lz) = some codes ∧ writeStreamHeader codes = some hs ∧ dc.map = [4, 3, 2, 1, 0] ∧
      (∀ more : List (Nat × Nat), emit 0 (hs ++ more) = hb ++ emit 0 more) ∧
      (∀ (env : Stream.Env) (rest : List Bool), Stream.EnvOk env → Stream.decodeHistograms env 4 (hb ++ rest) = .ok (dc, rest)) ∧
      ∀ (k : Nat) (rowss : List (List (List Nat × List Nat))), 1 ≤ k → rowss.length ≤ 4 → RowsOk k chans rowss →
        ∃ wss, writeChannels k codes rowss = some wss ∧ (∀ ws ∈ wss, ∀ w ∈ ws, w.2 < 2 ^ w.1 ∧ w.1 ≤ 56) ∧
          ∀ (mult : Nat) (rest : List Bool), mult ≠ 0 → ∃ s, s.bad = false ∧
            Stream.decode dc mult (contexts 0 rowss) (wss.flatMap (emit 0) ++ rest) =
              .ok (rowss.flatMap (fun rows => rows.flatMap (·.1)), ⟨0x13 <<< 16, s, rest⟩) := by
  obtain ⟨codes, wss, ts, a1, a2, a3, a4, a5, a6, a7, a8⟩ := fast_codes chans hok
  have e1 : writeStreamHeader codes = some (streamStart ++ wss.flatten) := by rw [writeStreamHeader, a2]; rfl
  have hfit : ∀ w ∈ wss.flatten, w.2 < 2 ^ w.1 := by
    intro w hw
    obtain ⟨ws, hws, hw⟩ := List.mem_flatten.mp hw
    obtain ⟨i, hi, rfl⟩ := List.mem_iff_getElem.mp hws
    have h1 : chans[i]? = some (chans[i]'(by omega)) := List.getElem?_eq_getElem _
    have h2 : codes[i]? = some (codes[i]'(by omega)) := List.getElem?_eq_getElem _
    exact writeTo_fits (hok _ (List.mem_of_getElem? h1)).counts (a6 i _ _ h1 h2) (mapM_at a2 h2 (List.getElem?_eq_getElem hi)) w hw
  obtain ⟨hb, hhb⟩ := header_bits hfit
  refine ⟨codes, _, hb, streamCode ts, a1, e1, rfl, hhb, fun env rest henv => ?_, fun k rowss hk hr hrows => ?_⟩
  · obtain ⟨ws, w1, w2⟩ := header_back (env := env) a2 (by omega) (by omega) (fun i ws t h1 h2 => a7 i ws t h1 h2 _ henv.t5) (bitWrites rest)
    rw [e1] at w1
    injection w1 with w1
    rw [← w1, hhb, emit_bitWrites] at w2
    exact w2
  · let ch : Nat → Chan := fun x => chans.getD (3 - x) ⟨[], [], [], []⟩
    let C : Nat → FastCode.Code := fun x => codes.getD (3 - x) ⟨[], [], [], []⟩
    have hget : ∀ x, x < 4 → chans[3 - x]? = some (ch x) ∧ codes[3 - x]? = some (C x) := by
      intro x hx
      constructor
      · show _ = some (chans.getD (3 - x) _)
        rw [List.getD_eq_getElem?_getD, List.getElem?_eq_getElem (by omega)]
        rfl
      · show _ = some (codes.getD (3 - x) _)
        rw [List.getD_eq_getElem?_getD, List.getElem?_eq_getElem (by omega)]
        rfl
    obtain ⟨bss, ops, b1, b2, b3, b4, b5, b6⟩ := fast_ops (C := C) (RAW := fun x => (ch x).raw) (LZ := fun x => (ch x).lz) hk chans codes rowss 0
      (by omega) a3 (by omega) (by
        intro i x c hx hc
        have hi : i < 4 := by
          have := (List.getElem?_eq_some_iff.mp hx).1
          omega
        obtain ⟨g1, g2⟩ := hget (3 - (0 + i)) (by omega)
        rw [show 3 - (3 - (0 + i)) = i by omega] at g1 g2
        rw [hx] at g1
        rw [hc] at g2
        injection g1 with g1
        injection g2 with g2
        refine ⟨hok x (List.mem_of_getElem? hx), a6 i x c hx hc, g2.symm, ?_, ?_⟩
        · rw [← g1]
        · rw [← g1]) hrows
    refine ⟨bss, b1, b2, fun mult rest hm => ?_⟩
    have hemit : ∀ wss : List (List (Nat × Nat)), (∀ ws ∈ wss, ∀ w ∈ ws, w.2 < 2 ^ w.1 ∧ w.1 ≤ 56) → wss.flatMap (emit 0) = wss.flatMap bitsFor := by
      intro wss h
      induction wss with
      | nil => rfl
      | cons ws wss ih =>
        have e := emit_fit [] ws fun w hw => (h ws (by simp) w hw).1
        rw [List.append_nil, emit, List.append_nil] at e
        rw [List.flatMap_cons, List.flatMap_cons, e, ih fun x hx => h x (by simp [hx])]
    have hcount : (ops.flatMap fun o => o.2.vals).length < 2 ^ 32 := by
      rw [b5]
      have hle : ∀ (cs : List Chan) (rs : List (List (List Nat × List Nat))), rs.length ≤ cs.length → RowsOk k cs rs →
          (rs.flatMap fun rows => rows.flatMap (·.1)).length ≤ cs.length * 65536 := by
        intro cs rs
        induction rs generalizing cs with
        | nil => intro _ _; simp
        | cons r rs ih =>
          intro h1 h2
          match cs, h1 with
          | x :: cs, h1 =>
            have i1 := ih cs (by simpa using h1) fun i a b ha hb => h2 (i + 1) a b (by simpa using ha) (by simpa using hb)
            have i2 := (h2 0 x r rfl rfl).1
            rw [List.flatMap_cons, List.length_append, List.length_cons]
            omega
      have := hle chans rowss (by omega) hrows
      omega
    obtain ⟨s, s1, s2⟩ := stream_values (cs := chans.map fun x => (x.raw, x.lz)) (codes := codes) (ts := ts) (LO := fun x => (ch x).lo)
      (HI := fun x => (ch x).hi) (RAW := fun x => (ch x).raw) (LZ := fun x => (ch x).lz) (C := C) (by simpa using h4) (by omega) (by omega)
      (by
        intro x hx
        obtain ⟨y, hy, rfl⟩ := List.mem_map.mp hx
        exact ⟨(hok y hy).counts.rawLen, (hok y hy).counts.lzLen⟩)
      (by
        intro i x c t h1 h2 h3
        rw [List.getElem?_map] at h1
        obtain ⟨y, hy, rfl⟩ := Option.map_eq_some_iff.mp h1
        exact a8 i y c t hy h2 h3)
      (ops := ops)
      (by
        intro o ho
        obtain ⟨g1, g2⟩ := hget o.1 (b3 o ho).1
        have hc := (hok _ (List.mem_of_getElem? g1)).counts
        exact ⟨(b3 o ho).1, by rw [List.getElem?_map, g1]; rfl, hc.rawLen, hc.lzLen, g2, a6 _ _ _ g1 g2⟩)
      (fun o ho => (b3 o ho).2) hm hcount rest
    refine ⟨s, s1, ?_⟩
    rw [hemit _ b2, b4, ← b5, ← b6]
    exact s2

/-- The counters the encoder makes from those of sampled rows are of that kind: whatever was sampled, every run in a group can be written. -/
theorem C62_counters_suffice (n : Nat) (sr sl : List Nat) (h1 : 1 ≤ n) (hn : n ≤ 19) (hr : ∀ i, n ≤ i → sr.getD i 0 = 0)
    (hl : ∀ i, 28 ≤ i → sl.getD i 0 = 0) (hs : sr.sum + sl.sum < 2 ^ 45) (lo hi : List Nat) (hd : Depth lo hi n) :
    ChanOk ⟨lo, hi, rawCounts n sr, lzCounts sl⟩ ∧ (dropZeros (rawCounts n sr)).length = n := by
  obtain ⟨c1, c2⟩ := C61_counters_suffice n sr sl h1 hn hr hl hs
  refine ⟨⟨by rw [c2]; exact hd, c1, fun i h => ?_⟩, c2⟩
  show (lzCounts sl).getD i 0 ≠ 0
  rw [lzCounts, getD_range_map _ (by omega)]
  have hb : ∀ i < 28, 1 ≤ baseLz.getD i 0 ∧ baseLz.getD i 0 < 256 := by decide
  have := hb i h
  have := getD_le_sum sl i
  rw [Nat.mod_eq_of_lt (by omega)]
  omega

/-- The choices for four channels of 8 bits of which nothing is known in advance, and of two of them: a row with a run that goes on in the
second row, and a row of small values.  Chunks of eight values; what lies behind the rows is arbitrary. -/
def fastExampleChans : List Chan := List.replicate 4 ⟨limits8.1, limits8.2, rawCounts 10 [], lzCounts []⟩
@[inherit_doc fastExampleChans] def fastExampleRows : List (List (List Nat × List Nat)) :=
  [[([5, 7] ++ List.replicate 20 0, [9, 9]), (List.replicate 19 0 ++ [300], [0, 0, 1, 2])], [([1, 2, 3], [0, 0, 0, 0, 0])]]

example : fastExampleChans.length = 4 ∧ (∀ ch ∈ fastExampleChans, ChanOk ch) ∧ RowsOk 8 fastExampleChans fastExampleRows ∧
    contexts 0 fastExampleRows = List.replicate 42 3 ++ List.replicate 3 2 := by
  have hc := C62_counters_suffice 10 [] [] (by decide) (by decide) (fun _ _ => rfl) (fun _ _ => rfl) (by decide) limits8.1 limits8.2
    (Depth.b8 (by decide) (by decide))
  refine ⟨rfl, ?_, ?_, by decide⟩
  · intro ch hch
    rw [(List.mem_replicate.mp hch).2]
    exact hc.1
  · intro j ch rows h1 h2
    have hch : ch = ⟨limits8.1, limits8.2, rawCounts 10 [], lzCounts []⟩ := (List.mem_replicate.mp (List.mem_of_getElem? h1)).2
    subst hch
    have hl : (dropZeros (rawCounts 10 [])).length = 10 := hc.2
    have hrows : ∀ rows ∈ fastExampleRows, (rows.flatMap (·.1)).length ≤ 65536 ∧ (∀ v ∈ rows.flatMap (·.1), v < 2 ^ (10 - 1)) ∧
        ∀ r ∈ rows, (r.1.length + (8 - 1)) / 8 * 8 ≤ r.1.length + r.2.length := by decide
    have := hrows rows (List.mem_of_getElem? h2)
    dsimp only
    rw [hl]
    exact this

end Jxl.Props
