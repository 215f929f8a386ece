import Verif.Lemmas.FastPaletteFrame
/-!
# C69: images with a palette from the fast lossless encoder are what the decoder shows
-/
namespace Jxl.Props
open Jxl.FastCode Jxl.Huffman Jxl.Modular Jxl.Modular.Whole Jxl.MaTree

theorem chosen_faithful {srt : List Nat → List Nat} (hsrt : ∀ l, (srt l).Perm l) {nb w h stride : Nat} {buf colours : List Nat} {lookup : Nat → Nat}
    (hb : BytesOk nb w h stride buf) (hc : choosePalette srt nb w h stride buf = some (some (colours, lookup))) (hz : nb ≤ 2 ∨ ZeroApart nb w h stride buf) :
    Faithful nb w h stride buf colours lookup := by
  obtain ⟨o, o1, o2⟩ := C67_palette_partial hsrt hb
  rw [hc] at o1
  injection o1 with o1
  obtain ⟨p1, -, -, -, p5⟩ := o2 colours lookup o1.symm
  refine ⟨p1, ?_⟩
  rcases hz with hz | hz
  · exact C67_grey hsrt hb hz hc
  · exact p5 hz

/-- **C69, small images.** Of an image of at most 256 by 256 pixels of eight bits for which a palette was chosen, one section is written, from any
counters with eleven symbols.  The decoder of frames, which knows the size and the number of channels, reads it up to its last bit, whatever
follows, and the image it makes of it, the palette undone, is the one in the caller's buffer.  The other parts of the frame read nothing.

Partial: with three or four channels only if no other colour shares the place of zero in the hash table; see `C67_colour_lost`. -/
theorem C69_small_partial {srt : List Nat → List Nat} (hsrt : ∀ l, (srt l).Perm l) (chans : List Chan) (h4 : chans.length = 4)
    (hok : ∀ ch ∈ chans, ChanOk ch ∧ (dropZeros ch.raw).length = 11) :
    ∃ codes, chans.mapM (fun ch => prefixCode ch.lo ch.hi ch.raw ch.lz) = some codes ∧
      ∀ (nb w h stride : Nat) (buf colours : List Nat) (lookup : Nat → Nat) (k : Nat) (pad : Nat → Nat → List Nat), BytesOk nb w h stride buf →
        choosePalette srt nb w h stride buf = some (some (colours, lookup)) → (nb ≤ 2 ∨ ZeroApart nb w h stride buf) →
        1 ≤ w → w ≤ 256 → 1 ≤ h → h ≤ 256 → 1 ≤ k →
        (∀ y, (colours.length + 1 + (k - 1)) / k * k ≤ colours.length + 1 + (pad 0 y).length) → (∀ y, (w + (k - 1)) / k * k ≤ w + (pad 1 y).length) →
        ∃ bits, writePaletteSingle k codes nb colours lookup stride buf w h pad = some bits ∧
          ∀ (env : Stream.Env) (u : Build) (junk : Nat → Nat → Nat → Px) (rest : List Bool), Stream.EnvOk env →
            ∃ g, Frame.readGlobal env junk 256 w h nb (bits ++ rest) = .ok (g, rest) ∧ Frame.useFull 256 g = true ∧
              Frame.finalImage u g = .ok (callerImage ⟨1, false, nb, stride, 0, 0, w, h⟩ buf) ∧
              ∀ stream minShift maxShift rect s, Frame.readGroup env u junk 256 g stream minShift maxShift rect s = .ok (⟨[], 0⟩, s) := by
  obtain ⟨codes, e1, e2⟩ := palette_small chans h4 hok
  exact ⟨codes, e1, fun nb w h stride buf colours lookup k pad hb hc hz => e2 nb w h stride buf colours lookup k pad hb (chosen_faithful hsrt hb hc hz)⟩

/-- **C69, large images.** The first section, which ends at a byte, holds the palette; the section of each group holds indices.  The decoder of frames
reads the first section up to fewer than eight zero bits; the groups of the low frequencies read nothing.  When it has read the sections of all
groups, in any order and each followed by anything, the image it makes of them, the palette undone, is the one in the caller's buffer.

Partial in the same way as `C69_small_partial`. -/
theorem C69_large_partial {srt : List Nat → List Nat} (hsrt : ∀ l, (srt l).Perm l) (chans : List Chan) (h4 : chans.length = 4)
    (hok : ∀ ch ∈ chans, ChanOk ch ∧ (dropZeros ch.raw).length = 11) :
    ∃ codes, chans.mapM (fun ch => prefixCode ch.lo ch.hi ch.raw ch.lz) = some codes ∧
      ∀ (nb w h stride : Nat) (buf colours : List Nat) (lookup : Nat → Nat) (k : Nat) (pad : Nat → Nat → List Nat) (gpad : Nat → Nat → Nat → Nat → List Nat),
        BytesOk nb w h stride buf → choosePalette srt nb w h stride buf = some (some (colours, lookup)) → (nb ≤ 2 ∨ ZeroApart nb w h stride buf) →
        1 ≤ w → 1 ≤ h → 256 < w ∨ 256 < h → 1 ≤ k →
        (∀ y, (colours.length + 1 + (k - 1)) / k * k ≤ colours.length + 1 + (pad 0 y).length) →
        (∀ gx gy y, (min (w - gx * 256) 256 + (k - 1)) / k * k ≤ min (w - gx * 256) 256 + (gpad gx gy 0 y).length) →
        ∃ (bits : List Bool) (sect : Nat → Nat → List Bool), writePaletteGlobal k codes nb colours pad = some bits ∧ bits.length % 8 = 0 ∧
          (∀ gx gy, gx * 256 < w → gy * 256 < h → writePaletteGroup k codes nb lookup stride buf (gx * 256) (gy * 256) (min (w - gx * 256) 256) (min (h - gy * 256) 256)
            (gpad gx gy) = some (sect gx gy)) ∧
          ∀ (env : Stream.Env) (u : Build) (junk : Nat → Nat → Nat → Px), Stream.EnvOk env → ∃ g n, n < 8 ∧
            (∀ rest, Frame.readGlobal env junk 256 w h nb (bits ++ rest) = .ok (g, List.replicate n false ++ rest)) ∧ Frame.useFull 256 g = true ∧
            (∀ stream rect s, Frame.readGroup env u junk 256 g stream 3 1000 rect s = .ok (⟨[], 0⟩, s)) ∧
            ∀ (gs : List (Nat × Nat × Nat)) (after : Nat → Nat → List Bool), (∀ t ∈ gs, t.2.1 * 256 < w ∧ t.2.2 * 256 < h) →
              (∀ gx gy, gx * 256 < w → gy * 256 < h → ∃ s, (s, gx, gy) ∈ gs) →
              ∃ g', Frame.readGroups env u junk 256 0 2 g (gs.map fun t => (t.1, ⟨t.2.1 * 256, t.2.2 * 256, 256, 256⟩, sect t.2.1 t.2.2 ++ after t.2.1 t.2.2)) = .ok g' ∧
                Frame.finalImage u g' = .ok (callerImage ⟨1, false, nb, stride, 0, 0, w, h⟩ buf) := by
  obtain ⟨codes, e1, e2⟩ := palette_large chans h4 hok
  exact ⟨codes, e1, fun nb w h stride buf colours lookup k pad gpad hb hc hz => e2 nb w h stride buf colours lookup k pad gpad hb (chosen_faithful hsrt hb hc hz)⟩

/-- The counters after the change for the palette still give a code for every symbol of palette and indices, whatever rows were sampled. -/
theorem C69_counters_suffice (n : Nat) (h1 : 1 ≤ n) (hn : n ≤ 512) (sr sl : List Nat) (hr : ∀ i, 11 ≤ i → sr.getD i 0 = 0) (hl : ∀ i, 28 ≤ i → sl.getD i 0 = 0)
    (hs : sr.sum + sl.sum < 2 ^ 45) :
    ChanOk ⟨limits8.1, limits8.2, paletteCounts n (rawCounts 11 sr), lzCounts sl⟩ ∧ (dropZeros (paletteCounts n (rawCounts 11 sr))).length = 11 := by
  obtain ⟨c1, c2⟩ := C62_counters_suffice 11 sr sl (by decide) (by decide) hr hl hs limits8.1 limits8.2 (Depth.b8 (by decide) (by decide))
  exact paletteCounts_ok c1 c2 h1 hn

/-! ## The conditions are met -/

/-- The four codes of an image with a palette of four colours of which nothing was sampled. -/
def paletteChans : List Chan :=
  ⟨limits8.1, limits8.2, paletteCounts 4 (rawCounts 11 []), lzCounts []⟩ :: List.replicate 3 ⟨limits8.1, limits8.2, rawCounts 11 [], lzCounts []⟩

theorem paletteChans_ok : ∀ ch ∈ paletteChans, ChanOk ch ∧ (dropZeros ch.raw).length = 11 := by
  intro ch hch
  rcases List.mem_cons.mp hch with rfl | hch
  · exact C69_counters_suffice 4 (by decide) (by decide) [] [] (fun _ _ => rfl) (fun _ _ => rfl) (by decide)
  · rw [(List.mem_replicate.mp hch).2]
    exact C62_counters_suffice 11 [] [] (by decide) (by decide) (fun _ _ => rfl) (fun _ _ => rfl) (by decide) limits8.1 limits8.2 (Depth.b8 (by decide) (by decide))

theorem paletteGrey_ok : BytesOk 1 3 1 3 [0, 255, 17] := by
  refine ⟨by decide, by decide, fun y hy => ?_⟩
  have : y = 0 := by omega
  subst this
  decide

/-- A grey image of three pixels: a palette is chosen, and the decoder shows the three pixels. -/
example : ∃ codes colours lookup bits, choosePalette id 1 3 1 3 [0, 255, 17] = some (some (colours, lookup)) ∧
    writePaletteSingle 16 codes 1 colours lookup 3 [0, 255, 17] 3 1 (fun _ _ => List.replicate 1024 0) = some bits ∧
    ∀ (env : Stream.Env) (u : Build) (junk : Nat → Nat → Nat → Px) (rest : List Bool), Stream.EnvOk env →
      ∃ g, Frame.readGlobal env junk 256 3 1 1 (bits ++ rest) = .ok (g, rest) ∧ Frame.finalImage u g = .ok ⟨[⟨3, 1, 0, 0, [[0, 255, 17]]⟩], 0⟩ := by
  obtain ⟨codes, -, h⟩ := C69_small_partial (srt := id) (fun _ => List.Perm.refl _) paletteChans rfl paletteChans_ok
  have hs : ((choosePalette id 1 3 1 3 [0, 255, 17]).bind id).isSome = true := by decide +kernel
  obtain ⟨p, hp⟩ := Option.isSome_iff_exists.mp hs
  obtain ⟨o, ho, hp⟩ := Option.bind_eq_some_iff.mp hp
  have hp : o = some p := hp
  subst hp
  obtain ⟨colours, lookup⟩ := p
  obtain ⟨q, q1, q2⟩ := C67_palette_partial (srt := id) (fun _ => List.Perm.refl _) paletteGrey_ok
  rw [ho] at q1
  injection q1 with q1
  have hc := (q2 colours lookup q1.symm).1
  obtain ⟨bits, b1, b2⟩ := h 1 3 1 3 [0, 255, 17] colours lookup 16 (fun _ _ => List.replicate 1024 0) paletteGrey_ok ho (Or.inl (by decide)) (by decide) (by decide) (by decide) (by decide) (by decide)
    (fun y => by rw [List.length_replicate]; omega) (fun y => by rw [List.length_replicate]; omega)
  refine ⟨codes, colours, lookup, bits, ho, b1, fun env u junk rest henv => ?_⟩
  obtain ⟨g, g1, -, g3, -⟩ := b2 env u junk rest henv
  exact ⟨g, g1, g3⟩

/-- A row of 257 grey pixels of the same value. -/
def plainBuf : List Nat := List.replicate 257 200

theorem plain_length : plainBuf.length = 257 := List.length_replicate

theorem plain_at {i : Nat} (h : i < 257) : plainBuf.getD i 0 = 200 := by
  rw [List.getD_eq_getElem?_getD, plainBuf, List.getElem?_replicate, if_pos h]
  rfl

theorem plainBuf_ok : BytesOk 1 257 1 257 plainBuf := by
  refine ⟨by decide, fun b hb => by rw [(List.mem_replicate.mp hb).2]; decide, fun y hy => ?_⟩
  have : y = 0 := by omega
  subst this
  rw [plain_length]
  omega

/-- The hash table with that value. -/
def plainTable : Nat → Nat := fun i => if i = pixelHash 200 then 200 else 0

theorem plain_fold (n : Nat) : (List.replicate n 200).foldl addPixel (plainTable, false) = (plainTable, false) := by
  have e : addPixel (plainTable, false) 200 = (plainTable, false) := by
    unfold addPixel
    have : (fun i => if i = pixelHash 200 then 200 else plainTable i) = plainTable := by
      funext i
      unfold plainTable
      split <;> rfl
    dsimp only
    rw [this]
    rfl
  induction n with
  | zero => rfl
  | succ n ih => rw [List.replicate_succ, List.foldl_cons, e, ih]

theorem plain_row {d n : Nat} (h : d + n ≤ 257) : rowPixels 1 (plainBuf.drop d) 0 n = List.replicate n 200 := by
  refine List.eq_replicate_iff.mpr ⟨by simp [rowPixels], fun b hb => ?_⟩
  obtain ⟨x, hx, rfl⟩ := List.mem_map.mp hb
  rw [List.mem_range'_1] at hx
  rw [bytesAt_drop, bytesAt, bytesAt, plain_at (by omega)]

theorem plain_palette : ∃ colours lookup, colours.length = 1 ∧ choosePalette id 1 257 1 257 plainBuf = some (some (colours, lookup)) := by
  have hrows : groupRows 1 257 1 257 = [(0, 256), (256, 1)] := by decide
  have hoct : ∀ d, ∀ b ∈ plainBuf.drop d, b < 256 := fun d b hb => plainBuf_ok.octets b (List.mem_of_mem_drop hb)
  have hd : detectRows 1 plainBuf (groupRows 1 257 1 257) (fun _ => 0) = some (plainTable, false) := by
    rw [hrows, detectRows, detectRow_eq (by decide) (by decide) (hoct 0) (by rw [List.length_drop, plain_length]; omega), plain_row (by decide), Option.bind_some, List.replicate_succ, List.foldl_cons]
    have e : addPixel (fun _ => 0, false) 200 = (plainTable, false) := rfl
    rw [e, plain_fold, if_neg (by decide), detectRows, detectRow_eq (by decide) (by decide) (hoct 256) (by rw [List.length_drop, plain_length]; omega), plain_row (by decide), Option.bind_some, plain_fold, if_neg (by decide)]
    rfl
  have he : paletteEntries plainTable = [200] := by decide +kernel
  refine ⟨[200], lookupOf 1 [200] fun _ => 0, rfl, ?_⟩
  unfold choosePalette
  rw [hd, Option.map_some, he]
  rfl

/-- A palette is chosen for it, and the decoder shows the image once it has read both groups, the right one first. -/
example (env : Stream.Env) (henv : Stream.EnvOk env) (u : Build) (junk : Nat → Nat → Nat → Px) : ∃ codes colours lookup bits left right g g' n,
    choosePalette id 1 257 1 257 plainBuf = some (some (colours, lookup)) ∧
    writePaletteGlobal 16 codes 1 colours (fun _ _ => List.replicate 1024 0) = some bits ∧
    writePaletteGroup 16 codes 1 lookup 257 plainBuf 0 0 256 1 (fun _ _ => List.replicate 15 0) = some left ∧
    writePaletteGroup 16 codes 1 lookup 257 plainBuf 256 0 1 1 (fun _ _ => List.replicate 15 0) = some right ∧
    Frame.readGlobal env junk 256 257 1 1 bits = .ok (g, List.replicate n false) ∧
    Frame.readGroups env u junk 256 0 2 g [(22, ⟨256, 0, 256, 256⟩, right), (21, ⟨0, 0, 256, 256⟩, left)] = .ok g' ∧
    Frame.finalImage u g' = .ok (callerImage ⟨1, false, 1, 257, 0, 0, 257, 1⟩ plainBuf) := by
  obtain ⟨codes, -, h⟩ := C69_large_partial (srt := id) (fun _ => List.Perm.refl _) paletteChans rfl paletteChans_ok
  obtain ⟨colours, lookup, hlen, hc⟩ := plain_palette
  obtain ⟨bits, sect, b1, -, b3, b4⟩ := h 1 257 1 257 plainBuf colours lookup 16 (fun _ _ => List.replicate 1024 0) (fun _ _ _ _ => List.replicate 15 0) plainBuf_ok hc (Or.inl (by decide))
    (by decide) (by decide) (Or.inl (by decide)) (by decide) (fun y => by rw [List.length_replicate]; omega) (fun gx gy y => by rw [List.length_replicate]; omega)
  obtain ⟨g, n, -, g2, -, -, g5⟩ := b4 env u junk henv
  obtain ⟨g', i1, i2⟩ := g5 [(22, 1, 0), (21, 0, 0)] (fun _ _ => []) (by decide) (fun gx gy hx hy => by
    have h0 : gy = 0 := by omega
    have h1 : gx = 0 ∨ gx = 1 := by omega
    subst h0
    rcases h1 with rfl | rfl
    · exact ⟨21, by simp⟩
    · exact ⟨22, by simp⟩)
  refine ⟨codes, colours, lookup, bits, sect 0 0, sect 1 0, g, g', n, hc, b1, b3 0 0 (by decide) (by decide), b3 1 0 (by decide) (by decide), ?_, ?_, i2⟩
  · have := g2 []
    rwa [List.append_nil, List.append_nil] at this
  · simpa using i1

end Jxl.Props
