import Verif.Lemmas.FastGroup
/-!
# C63: the fast lossless encoder is lossless, group by group
-/
namespace Jxl.Props
open Jxl.FastCode Jxl.Huffman Jxl.Modular Jxl.MaTree

/-- A sample in the caller's buffer: a byte, or two with the low or the high one first. -/
def sampleAt (bytes : Nat) (big : Bool) (buf : List Nat) (pos : Nat) : Nat :=
  if bytes = 1 then buf.getD pos 0 else if big then 256 * buf.getD pos 0 + buf.getD (pos + 1) 0 else buf.getD pos 0 + 256 * buf.getD (pos + 1) 0

theorem loadSample_at {bytes : Nat} {big : Bool} {buf : List Nat} {pos : Nat} (h1 : 1 ≤ bytes) (hb : ∀ b ∈ buf, b < 256) (hp : pos + bytes ≤ buf.length) :
    loadSample bytes big buf pos = some (sampleAt bytes big buf pos) := by
  unfold loadSample sampleAt
  by_cases hb1 : bytes = 1
  · rw [if_pos hb1, if_pos hb1, List.getElem?_eq_getElem (by omega), List.getD_eq_getElem?_getD, List.getElem?_eq_getElem (by omega)]
    rfl
  · rw [if_neg hb1, if_neg hb1, List.getElem?_eq_getElem (show pos < buf.length by omega), List.getElem?_eq_getElem (show pos + 1 < buf.length by omega),
      List.getD_eq_getElem?_getD, List.getD_eq_getElem?_getD, List.getElem?_eq_getElem (show pos < buf.length by omega),
      List.getElem?_eq_getElem (show pos + 1 < buf.length by omega)]
    have ha := hb _ (List.getElem_mem (show pos < buf.length by omega))
    have hc := hb _ (List.getElem_mem (show pos + 1 < buf.length by omega))
    simp only [Option.bind_eq_bind, Option.bind_some, Option.getD_some]
    generalize buf[pos] = a at *
    generalize buf[pos + 1] = c at *
    have e : a ||| c <<< 8 = a + 256 * c := by
      have := Nat.two_pow_add_eq_or_of_lt (i := 8) (b := a) (by omega) c
      rw [Nat.or_comm, Nat.shiftLeft_eq, Nat.mul_comm, ← this]
      omega
    cases big
    · simp [e]
    · simp only [if_true, e]
      have e1 : (a + 256 * c) >>> 8 = c := by rw [Nat.shiftRight_eq_div_pow]; omega
      have e2 : ((a + 256 * c) <<< 8) % 2 ^ 16 = 2 ^ 8 * a := by rw [Nat.shiftLeft_eq]; omega
      have := Nat.two_pow_add_eq_or_of_lt (i := 8) (b := c) (by omega) a
      rw [e1, e2, Nat.or_comm, ← this]

/-- Where the caller's buffer has sample `c` of the pixel in column `x` and row `y` of the area: rows are `stride` bytes apart, in a row the
samples lie one after the other. -/
def bytePos (a : Area) (y x c : Nat) : Nat := (a.y0 + y) * a.stride + ((a.x0 + x) * a.nbChans + c) * a.bytes

theorem bytePos_eq (a : Area) (y x c : Nat) : a.pos y x c = bytePos a y x c := by
  unfold Area.pos bytePos
  rw [Nat.mul_comm a.stride, Nat.add_assoc, Nat.add_left_cancel_iff, Nat.add_mul a.x0, Nat.mul_comm a.nbChans, Nat.add_assoc (a.x0 * a.nbChans), Nat.add_mul (a.x0 * a.nbChans)]

/-- The samples of an image area as the caller's buffer has them. -/
def areaSample (a : Area) (buf : List Nat) (y x c : Nat) : Nat := sampleAt a.bytes a.big buf (bytePos a y x c)

/-- An area that may be given to the encoder: one to four channels, a group of at most 256 by 256 pixels, all samples inside the buffer and of
the announced bit depth. -/
structure AreaOk (depth : Nat) (a : Area) (buf : List Nat) : Prop where
  depth1 : 1 ≤ depth
  depth16 : depth ≤ 16
  bytes : a.bytes = inputBytes depth
  chans : 1 ≤ a.nbChans ∧ a.nbChans ≤ 4
  width : 1 ≤ a.xs ∧ a.xs ≤ 256
  height : 1 ≤ a.ys ∧ a.ys ≤ 256
  octets : ∀ b ∈ buf, b < 256
  inside : ∀ y x c, y < a.ys → x < a.xs → c < a.nbChans → bytePos a y x c + a.bytes ≤ buf.length ∧ areaSample a buf y x c < 2 ^ depth

theorem areaOk_samples {depth : Nat} {a : Area} {buf : List Nat} (h : AreaOk depth a buf) : Samples depth a buf (areaSample a buf) := by
  intro y x c hy hx hc
  obtain ⟨h1, h2⟩ := h.inside y x c hy hx hc
  have hb : 1 ≤ a.bytes := by
    rw [h.bytes]
    unfold inputBytes
    split <;> omega
  exact ⟨by rw [bytePos_eq]; exact loadSample_at hb h.octets h1, h2⟩

theorem restored_all (maxSize : Nat) : ∀ (cs ds : List Channel) (i : Nat), SameShapes cs ds → (∀ c ∈ cs, c.w ≤ maxSize ∧ c.h ≤ maxSize) →
    restored 0 maxSize i cs ds = cs
  | [], [], _, _, _ => rfl
  | c :: cs, d :: ds, i, hs, h => by
    have := h c (by simp)
    rw [restored, if_neg (by omega), restored_all maxSize cs ds (i + 1) hs.2.2 fun x hx => h x (by simp [hx])]
  | [], _ :: _, _, hs, _ => hs.elim
  | _ :: _, [], _, hs, _ => hs.elim

theorem sameShapes_of {w h : Nat} : ∀ (cs ds : List Channel), ds.length = cs.length → (∀ c ∈ cs, c.w = w ∧ c.h = h ∧ c.hshift = 0 ∧ c.vshift = 0) →
    (∀ d ∈ ds, d.w = w ∧ d.h = h ∧ d.hshift = 0 ∧ d.vshift = 0 ∧ d.Wf) → SameShapes cs ds
  | [], [], _, _, _ => trivial
  | c :: cs, d :: ds, hl, hc, hd => by
    obtain ⟨c1, c2, c3, c4⟩ := hc c (by simp)
    obtain ⟨d1, d2, d3, d4, d5⟩ := hd d (by simp)
    refine ⟨⟨by rw [d1, c1], by rw [d2, c2], by rw [d3, c3], by rw [d4, c4]⟩, d5, sameShapes_of cs ds (by simpa using hl) (fun x hx => hc x (by simp [hx])) fun x hx => hd x (by simp [hx])⟩
  | [], _ :: _, hl, _, _ => by simp at hl
  | _ :: _, [], hl, _, _ => by simp at hl

theorem writeChannels_length {k : Nat} : ∀ (codes : List FastCode.Code) (rs : List (List (List Nat × List Nat))) (wss : List (List (Nat × Nat))),
    writeChannels k codes rs = some wss → wss.length = rs.length
  | _, [], _, h => by simp [writeChannels] at h; rw [h]; rfl
  | [], _ :: _, _, h => by simp [writeChannels] at h
  | c :: cs, r :: rs, wss, h => by
    simp only [writeChannels, Option.bind_eq_bind] at h
    obtain ⟨w, -, h⟩ := Option.bind_eq_some_iff.mp h
    obtain ⟨ws, h2, h⟩ := Option.bind_eq_some_iff.mp h
    injection h with h
    rw [← h, List.length_cons, List.length_cons, writeChannels_length cs rs ws h2]

/-- Four codes are made for the bit depth, from any counters the encoder may have come to, and their header is written.  The decoder makes a
code of it.  Any group of the image is written without an access out of bounds or an overflow, whatever lies behind its rows.  The modular decoder
reads it with that code and the encoder's tree, and stops where it ends; undoing the colour transform gives the samples of the caller's buffer,
with any vector width and whatever the channels held before. -/
theorem C63_group_lossless (depth : Nat) (nb : Nat) (chans : List Chan) (h4 : chans.length = 4)
    (hok : ∀ ch ∈ chans, ChanOk ch ∧ (dropZeros ch.raw).length = numSymbols depth (3 ≤ nb)) :
    ∃ codes hs hb dc, chans.mapM (fun ch => prefixCode ch.lo ch.hi ch.raw ch.lz) = some codes ∧ writeStreamHeader codes = some hs ∧
      (∀ more : List (Nat × Nat), emit 0 (hs ++ more) = hb ++ emit 0 more) ∧
      (∀ (env : Stream.Env) (rest : List Bool), Stream.EnvOk env → Stream.decodeHistograms env 4 (hb ++ rest) = .ok (dc, rest)) ∧
      ∀ (a : Area) (buf : List Nat) (k : Nat) (pad : Nat → Nat → List Nat), AreaOk depth a buf → a.nbChans = nb → 1 ≤ k →
        (∀ c y, (a.xs + (k - 1)) / k * k ≤ a.xs + (pad c y).length) →
        ∃ wss, writeArea k (pixelBits depth) codes a buf pad = some wss ∧ wss.length = nb ∧ (∀ ws ∈ wss, ∀ w ∈ ws, w.2 < 2 ^ w.1 ∧ w.1 ≤ 56) ∧
          ∀ (mult : Nat) (rest : List Bool) (ci : CodeInfo) (hd : Wp.Header) (group maxSize lanes : Nat) (ds : List Channel), mult ≠ 0 → hd.Ok →
            a.xs ≤ maxSize → a.ys ≤ maxSize → ds.length = nb → (∀ d ∈ ds, d.w = a.xs ∧ d.h = a.ys ∧ d.hshift = 0 ∧ d.vshift = 0 ∧ d.Wf) →
            ∃ st0 cs st, Stream.start dc.tables (wss.flatMap (emit 0) ++ rest) = .ok st0 ∧
              decodeChannels (ticks fastDtree) ci hd fastTree dc.map group (entropyReader dc mult) 0 maxSize [] ds (.ok st0) = some (cs, .ok st) ∧
              st.bits = rest ∧ st.lz.bad = false ∧ Stream.finalOk st = true ∧
              cs.length = nb ∧ (∀ c ∈ cs, c.w = a.xs ∧ c.h = a.ys ∧ c.hshift = 0 ∧ c.vshift = 0 ∧ c.Wf) ∧
              (if 3 ≤ nb then Rct.inv lanes ⟨cs, 0⟩ 0 6 else some ⟨cs, 0⟩) = some ⟨(List.range nb).map (sampleChannel a (areaSample a buf)), 0⟩ := by
  obtain ⟨codes, hs, hb, dc, e1, e2, e3, e0, e4, e5⟩ := C62_section_read_back chans h4 fun ch hch => (hok ch hch).1
  refine ⟨codes, hs, hb, dc, e1, e2, e0, e4, fun a buf k pad ha hnb hk hpad => ?_⟩
  have hsam := areaOk_samples ha
  obtain ⟨c1, c4⟩ := ha.chans
  obtain ⟨R, r1, r2⟩ := area_tokens ha.depth16 c1 c4 hsam
  have hrowss : ∀ c, ((R c).mapIdx fun y r => (r, pad c y)).flatMap (·.1) = (R c).flatten := by
    intro c
    rw [List.flatMap_def]
    congr 1
    apply List.ext_getElem?
    intro i
    rw [List.getElem?_map, List.getElem?_mapIdx]
    cases (R c)[i]? <;> rfl
  have hlen : ∀ c, c < a.nbChans → (R c).flatten.length = a.ys * a.xs := by
    intro c hc
    obtain ⟨l1, l2, -⟩ := r2 c hc
    rw [← l1]
    generalize R c = l at l2
    clear l1
    induction l with
    | nil => simp
    | cons x l ih =>
      rw [List.flatten_cons, List.length_append, ih fun y hy => l2 y (by simp [hy]), (l2 x (by simp)).1, List.length_cons, Nat.succ_mul]
      omega
  have hsize : a.ys * a.xs ≤ 65536 := Nat.le_trans (Nat.mul_le_mul ha.height.2 ha.width.2) (by decide)
  have hRows : RowsOk k chans ((List.range a.nbChans).map fun c => (R c).mapIdx fun y r => (r, pad c y)) := by
    intro j ch rows h1 h2
    rw [List.getElem?_map] at h2
    obtain ⟨c, hc, rfl⟩ := Option.map_eq_some_iff.mp h2
    obtain ⟨hj, hc⟩ := List.getElem?_eq_some_iff.mp hc
    rw [List.getElem_range] at hc
    subst hc
    rw [List.length_range] at hj
    obtain ⟨l1, l2, -⟩ := r2 j hj
    rw [hrowss]
    refine ⟨by rw [hlen j hj]; exact hsize, fun v hv => ?_, fun r hr => ?_⟩
    · obtain ⟨rs, q1, q2⟩ := List.mem_flatten.mp hv
      have q3 := (l2 rs q1).2 v q2
      refine Nat.lt_of_lt_of_le q3 (Nat.pow_le_pow_right (by decide) ?_)
      rw [(hok ch (List.mem_of_getElem? h1)).2]
      have := ha.depth16
      unfold winSize numSymbols
      rw [hnb]
      by_cases h3 : 3 ≤ nb
      · simp only [h3, decide_true, if_true]
        split
        · omega
        · split <;> omega
      · simp only [h3, decide_false, if_false]
        split
        · simp
        · split <;> omega
    · obtain ⟨i, hi, rfl⟩ := List.mem_mapIdx.mp hr
      have q := (l2 _ (List.getElem_mem hi)).1
      unfold RowOk
      dsimp only
      rw [q]
      exact hpad j i
  obtain ⟨wss, w1, w2, w3⟩ := e5 k _ hk (by rw [List.length_map, List.length_range]; omega) hRows
  refine ⟨wss, ?_, ?_, w2, fun mult rest ci hd group maxSize lanes ds hm hhd hx hy hds hshape => ?_⟩
  · unfold writeArea
    rw [r1 pad]
    exact w1
  · rw [writeChannels_length _ _ _ w1, List.length_map, List.length_range, hnb]
  · obtain ⟨s, s1, s2⟩ := w3 mult rest hm
    -- the values reach the modular decoder
    obtain ⟨st0, hstart⟩ : ∃ st0, Stream.start dc.tables (wss.flatMap (emit 0) ++ rest) = .ok st0 := by
      unfold Stream.decode at s2
      cases hst : Stream.start dc.tables (wss.flatMap (emit 0) ++ rest) with
      | ok st0 => exact ⟨st0, rfl⟩
      | ub => rw [hst] at s2; cases s2
      | deep => rw [hst] at s2; cases s2
      | bad => rw [hst] at s2; cases s2
    unfold Stream.decode at s2
    rw [hstart] at s2
    replace s2 : Stream.readValues dc mult _ st0 = _ := s2
    have hdel := delivers_values _ _ _ _ s2
    have hz := zip_contexts (R := R) (pad := pad) a.nbChans 0
    rw [← List.range_eq_range'] at hz
    rw [hz, e3] at hdel
    have hcs : ∀ c ∈ (List.range a.nbChans).map (codedChannel (pixelBits depth) a (areaSample a buf)), c.w = a.xs ∧ c.h = a.ys ∧ c.hshift = 0 ∧ c.vshift = 0 := by
      intro c hc
      obtain ⟨i, -, rfl⟩ := List.mem_map.mp hc
      exact ⟨rfl, rfl, rfl, rfl⟩
    have hwf : ∀ c ∈ (List.range a.nbChans).map (codedChannel (pixelBits depth) a (areaSample a buf)), c.Wf := by
      intro c hc
      obtain ⟨i, -, rfl⟩ := List.mem_map.mp hc
      refine ⟨by simp [codedChannel, storedRows], fun r hr => ?_⟩
      obtain ⟨r', hr', rfl⟩ := List.mem_map.mp hr
      obtain ⟨y, -, rfl⟩ := List.mem_map.mp hr'
      simp [codedChannel]
    have hsame := sameShapes_of _ ds (by rw [List.length_map, List.length_range, hds, hnb]) hcs hshape
    have henc := encode_all (hd := hd) (group := group) (maxSize := maxSize) (C := codedChannel (pixelBits depth) a (areaSample a buf)) (R := R) c4
      (fun c hc => ⟨show a.xs ≠ 0 by have := ha.width; omega, show a.ys ≠ 0 by have := ha.height; omega, hx, hy, (r2 c hc).2.2⟩) a.nbChans 0 [] rfl (by omega)
    rw [← List.range_eq_range'] at henc
    have hdec := C20_image_partial fastTree_wf fastTree_ok hhd group 0 maxSize ci (entropyReader dc mult) _ ds [] _ _ _ (by simp) hwf hsame (Or.inl fastTree_noBoundary) henc hdel
    rw [restored_all maxSize _ ds _ hsame fun c hc => by obtain ⟨q1, q2, -⟩ := hcs c hc; rw [q1, q2]; exact ⟨hx, hy⟩] at hdec
    refine ⟨_, _, _, hstart, by rw [e3]; exact hdec, rfl, s1, rfl, by rw [List.nil_append, List.length_map, List.length_range, hnb],
      fun c hc => by
        rw [List.nil_append] at hc
        exact ⟨(hcs c hc).1, (hcs c hc).2.1, (hcs c hc).2.2.1, (hcs c hc).2.2.2, hwf c hc⟩, ?_⟩
    rw [List.nil_append, ← hnb]
    by_cases h3 : 3 ≤ a.nbChans
    · rw [if_pos h3]
      refine C17_round_trip lanes _ _ 0 6 (by decide) ?_ (transformed ha.depth16 h3 c4 hsam)
      intro c hc
      obtain ⟨i, -, rfl⟩ := List.mem_map.mp hc
      refine ⟨by simp [sampleChannel], fun r hr => ?_⟩
      obtain ⟨y, -, rfl⟩ := List.mem_map.mp hr
      simp [sampleChannel]
    · rw [if_neg h3, untransformed ha.depth16 c1 h3 hsam]

/-- The code with vector instructions finds the same residuals: for all values that samples of the bit depth, or their luma and chroma, can have. -/
theorem C63_vector_code (depth : Nat) (hd : depth ≤ 16) (p l t c : BitVec (pixelBits depth))
    (h : ∀ v ∈ [p, l, t, c], -2 ^ depth ≤ v.toInt ∧ v.toInt < 2 ^ depth) : residual p l t c = some (residualLane p l t c) := by
  have hw := window_ok (nb := 3) hd
  have hi : ∀ v ∈ [p, l, t, c], In (winSize depth 3) (winLow depth 3) v.toInt := by
    intro v hv
    have := h v hv
    have e : (2 : Int) ^ (depth + 1) = 2 * 2 ^ depth := by rw [Int.pow_succ]; omega
    simp only [In, winSize, winLow, Nat.le_refl, if_true, e]
    omega
  exact residualLane_eq hw (hi p (by simp)) (hi l (by simp)) (hi t (by simp)) (hi c (by simp))

/-- Three by two pixels with three samples of eight bits, the second column of a buffer with four columns. -/
def fastExampleArea : Area := ⟨1, false, 3, 13, 1, 0, 3, 2⟩
@[inherit_doc fastExampleArea] def fastExampleBuf : List Nat := [9, 9, 9, 255, 0, 0, 0, 255, 0, 0, 0, 255, 77, 8, 8, 8, 1, 2, 3, 250, 128, 7, 255, 255, 255]

example : AreaOk 8 fastExampleArea fastExampleBuf ∧
    (∀ ch ∈ List.replicate 4 (⟨limits8.1, limits8.2, rawCounts 11 [], lzCounts []⟩ : Chan), ChanOk ch ∧ (dropZeros ch.raw).length = numSymbols 8 (3 ≤ 3)) ∧
    (List.range 3).map (sampleChannel fastExampleArea (areaSample fastExampleArea fastExampleBuf)) =
      [⟨3, 2, 0, 0, [[255, 0, 0], [1, 250, 255]]⟩, ⟨3, 2, 0, 0, [[0, 255, 0], [2, 128, 255]]⟩, ⟨3, 2, 0, 0, [[0, 0, 255], [3, 7, 255]]⟩] := by
  refine ⟨⟨by decide, by decide, by decide, by decide, by decide, by decide, by decide, ?_⟩, ?_, by decide⟩
  · intro y x c hy hx hc
    have : ∀ y < 2, ∀ x < 3, ∀ c < 3, bytePos fastExampleArea y x c + fastExampleArea.bytes ≤ fastExampleBuf.length ∧
      areaSample fastExampleArea fastExampleBuf y x c < 2 ^ 8 := by decide
    exact this y hy x hx c hc
  · intro ch hch
    rw [(List.mem_replicate.mp hch).2]
    exact C62_counters_suffice 11 [] [] (by decide) (by decide) (fun _ _ => rfl) (fun _ _ => rfl) (by decide) limits8.1 limits8.2
      (Depth.b8 (by decide) (by decide))

/-- Two pixels of sixteen bits, the high byte first. -/
example : AreaOk 16 ⟨2, true, 1, 4, 0, 0, 2, 1⟩ [255, 254, 0, 1] ∧ areaSample ⟨2, true, 1, 4, 0, 0, 2, 1⟩ [255, 254, 0, 1] 0 0 0 = 65534 := by
  refine ⟨⟨by decide, by decide, by decide, by decide, by decide, by decide, by decide, ?_⟩, by decide⟩
  intro y x c hy hx hc
  have : ∀ y < 1, ∀ x < 2, ∀ c < 1, bytePos ⟨2, true, 1, 4, 0, 0, 2, 1⟩ y x c + 2 ≤ [255, 254, 0, 1].length ∧
    areaSample ⟨2, true, 1, 4, 0, 0, 2, 1⟩ [255, 254, 0, 1] y x c < 2 ^ 16 := by decide
  exact this y hy x hx c hc

example : ∀ v ∈ [(255 : BitVec 16), -255, 0, 128], -2 ^ 8 ≤ v.toInt ∧ v.toInt < 2 ^ 8 := by
  simp

end Jxl.Props
