import Verif.Lemmas.FastFrame
/-!
# C68: what the fast lossless encoder writes is what the decoder shows
-/
namespace Jxl.Props
open Jxl.FastCode Jxl.Huffman Jxl.Modular Jxl.Modular.Whole Jxl.MaTree

/-- The image in the caller's buffer. -/
def callerImage (a : Area) (buf : List Nat) : Image := ⟨(List.range a.nbChans).map (sampleChannel a (areaSample a buf)), 0⟩

/-- **C68, small images.** An image of at most 256 by 256 pixels is written as one section, from any counters the encoder may have come to.  The
decoder of frames, which knows the size and the number of channels, reads the section up to its last bit, whatever follows, and the image it
makes of it, all transforms undone, is the one in the caller's buffer.  The other parts of the frame read nothing. -/
theorem C68_small (depth : Nat) (nb : Nat) (chans : List Chan) (h4 : chans.length = 4)
    (hok : ∀ ch ∈ chans, ChanOk ch ∧ (dropZeros ch.raw).length = numSymbols depth (3 ≤ nb)) :
    ∃ codes, chans.mapM (fun ch => prefixCode ch.lo ch.hi ch.raw ch.lz) = some codes ∧
      ∀ (a : Area) (buf : List Nat) (k : Nat) (pad : Nat → Nat → List Nat), AreaOk depth a buf → a.nbChans = nb → 1 ≤ k →
        (∀ c y, (a.xs + (k - 1)) / k * k ≤ a.xs + (pad c y).length) →
        ∃ bits, writeSingle k (pixelBits depth) codes a buf pad = some bits ∧
          ∀ (env : Stream.Env) (u : Build) (junk : Nat → Nat → Nat → Px) (rest : List Bool), Stream.EnvOk env →
            ∃ g, Frame.readGlobal env junk 256 a.xs a.ys nb (bits ++ rest) = .ok (g, rest) ∧
              Frame.useFull 256 g = true ∧ Frame.finalImage u g = .ok (callerImage a buf) ∧
              ∀ stream minShift maxShift rect s, Frame.readGroup env u junk 256 g stream minShift maxShift rect s = .ok (⟨[], 0⟩, s) := by
  obtain ⟨codes, hs, hb, dc, e1, e2, e3, e4, e5⟩ := C63_group_lossless depth nb chans h4 hok
  refine ⟨codes, e1, fun a buf k pad ha hnb hk hpad => ?_⟩
  obtain ⟨wss, w1, w2, -, w4⟩ := e5 a buf k pad ha hnb hk hpad
  have hn1 : 1 ≤ nb := by rw [← hnb]; exact ha.chans.1
  have hwne : wss ≠ [] := by intro e; rw [e] at w2; simp at w2; omega
  refine ⟨_, by rw [writeSingle, e2, w1]; rfl, fun env u junk rest henv => ?_⟩
  have hsh := frame_shaped junk a.xs a.ys nb
  have hne : (Frame.frameImage junk a.xs a.ys nb).channel ≠ [] := by
    intro e
    have := congrArg List.length e
    simp [Frame.frameImage] at this
    omega
  obtain ⟨hx1, hx2⟩ := ha.width
  obtain ⟨hy1, hy2⟩ := ha.height
  obtain ⟨st0, cs, st, c1, c2, c3, -, c5, c6, c7, c8⟩ := w4 a.xs rest (codeInfo dc) Wp.defaultHeader 0 256 u.lanes (Frame.frameImage junk a.xs a.ys nb).channel
    (by omega) (by unfold Wp.Header.Ok; decide) hx2 hy2 (by simp [Frame.frameImage]) hsh
  have hcne : cs ≠ [] := by intro e; rw [e] at c6; simp at c6; omega
  have hcs : Shaped a.xs a.ys cs := c7
  have hsome : Frame.haveSomething 256 ⟨cs, 0⟩ = true := by rw [something hcs hcne, decide_eq_true ⟨hx2, hy2⟩]
  refine ⟨⟨some (fastTree, dc), globalHeader nb, ⟨cs, 0⟩, (globalHeader nb).transforms, []⟩, ?_, ?_, ?_, ?_⟩
  · rw [hnb, emit_continue (global_bits e3) hwne]
    simp only [List.append_assoc]
    rw [global_read henv (fun r => e4 env r henv), coded_read hne (global_header_read nb _) meta_global]
    have hch : readChannels env (some (fastTree, dc)) (globalHeader nb) 0 256 256 (Frame.frameImage junk a.xs a.ys nb) (wss.flatMap (emit 0) ++ rest) = .ok (⟨cs, 0⟩, rest) := by
      have e := channels_read (env := env) (hd := globalHeader nb) (groupDim := 256) hsh hne hx1 hy1 hx2 hy2 (by decide) (by decide) rfl c1 c2 c5
      rw [c3] at e
      exact e
    rw [hch]
    show Stream.Out.ok _ = _
    simp only [Frame.moveTransforms, hsome, if_true]
  · simp [Frame.useFull, hsome]
  · unfold Frame.finalImage globalHeader
    dsimp only
    unfold callerImage
    rw [hnb]
    by_cases h3 : 3 ≤ nb
    · rw [if_pos h3] at c8
      rw [if_pos (by omega)]
      show (match Rct.inv u.lanes ⟨cs, 0⟩ 0 6 with | none => _ | some i => _) = _
      rw [c8]
    · rw [if_neg h3] at c8
      rw [if_neg (by omega)]
      injection c8 with c8
      rw [← c8]
      rfl
  · intro stream minShift maxShift rect s
    unfold Frame.readGroup
    have : (Frame.groupImage junk 256 minShift maxShift rect ⟨cs, 0⟩).channel = [] := by
      unfold Frame.groupImage
      dsimp only
      have hd : ∀ l : List Channel, (∀ c ∈ l, c.w = a.xs ∧ c.h = a.ys) → l.dropWhile (fun c => decide (c.w ≤ 256 ∧ c.h ≤ 256)) = [] := by
        intro l
        induction l with
        | nil => intro _; rfl
        | cons c l ih =>
          intro hl
          obtain ⟨q1, q2⟩ := hl c (by simp)
          rw [List.dropWhile_cons_of_pos (by rw [q1, q2]; exact decide_eq_true ⟨hx2, hy2⟩), ih fun x hx => hl x (by simp [hx])]
      rw [List.drop_zero, hd cs fun c hc => ⟨(hcs c hc).1, (hcs c hc).2.1⟩]
      rfl
    rw [if_pos this]

/-- **C68, large images.** The first section and the section of each group are written, with the same codes; the first one ends at a byte.  The
decoder of frames reads the first section up to fewer than eight zero bits; it keeps no full image.  Then it reads the section of each group, in
any order, up to its last bit and shows the samples of the caller's buffer for that group.  The groups of the low frequencies read nothing. -/
theorem C68_large (depth : Nat) (nb : Nat) (h1 : 1 ≤ nb) (chans : List Chan) (h4 : chans.length = 4)
    (hok : ∀ ch ∈ chans, ChanOk ch ∧ (dropZeros ch.raw).length = numSymbols depth (3 ≤ nb)) :
    ∃ codes bits, chans.mapM (fun ch => prefixCode ch.lo ch.hi ch.raw ch.lz) = some codes ∧ writeGlobal nb codes = some bits ∧ bits.length % 8 = 0 ∧
      ∀ (w h : Nat), 256 < w ∨ 256 < h → ∀ (env : Stream.Env) (junk : Nat → Nat → Nat → Px), Stream.EnvOk env → ∃ g n, n < 8 ∧
        (∀ rest, Frame.readGlobal env junk 256 w h nb (bits ++ rest) = .ok (g, List.replicate n false ++ rest)) ∧ Frame.useFull 256 g = false ∧
        (∀ env u junk stream rect s, Frame.readGroup env u junk 256 g stream 3 1000 rect s = .ok (⟨[], 0⟩, s)) ∧
        ∀ (gx gy : Nat), gx * 256 < w → gy * 256 < h → ∀ (a : Area) (buf : List Nat) (k : Nat) (pad : Nat → Nat → List Nat),
          AreaOk depth a buf → a.nbChans = nb → a.xs = min (w - gx * 256) 256 → a.ys = min (h - gy * 256) 256 → 1 ≤ k →
          (∀ c y, (a.xs + (k - 1)) / k * k ≤ a.xs + (pad c y).length) →
          ∃ gbits, writeGroup k (pixelBits depth) codes a buf pad = some gbits ∧
            ∀ (env : Stream.Env) (u : Build) (junk : Nat → Nat → Nat → Px) (stream : Nat) (rest : List Bool), Stream.EnvOk env →
              Frame.readGroup env u junk 256 g stream 0 2 ⟨gx * 256, gy * 256, 256, 256⟩ (gbits ++ rest) = .ok (callerImage a buf, rest) := by
  obtain ⟨codes, hs, hb, dc, e1, e2, e3, e4, e5⟩ := C63_group_lossless depth nb chans h4 hok
  have hbits := global_bits (nb := nb) e3 []
  rw [List.append_nil, emit, List.append_nil] at hbits
  refine ⟨codes, _, e1, by rw [writeGlobal, e2]; rfl, ?_, fun w h hl env junk henv => ?_⟩
  · simp only [List.length_append, List.length_replicate]
    omega
  have hsh := frame_shaped junk w h nb
  have hne : (Frame.frameImage junk w h nb).channel ≠ [] := by
    intro e
    have := congrArg List.length e
    simp [Frame.frameImage] at this
    omega
  have hnone : Frame.haveSomething 256 (Frame.frameImage junk w h nb) = false := by
    have := something hsh hne
    rw [decide_eq_false (by omega)] at this
    exact this
  have hmoved : Frame.moveTransforms 256 (Frame.frameImage junk w h nb) (globalHeader nb).transforms = ((globalHeader nb).transforms, []) := by
    unfold Frame.moveTransforms globalHeader
    rw [hnone]
    by_cases h3 : nb > 2
    · simp [h3]
    · simp [h3]
  have hfull : Frame.useFull 256 ⟨some (fastTree, dc), globalHeader nb, Frame.frameImage junk w h nb, [], (globalHeader nb).transforms⟩ = false := by simp [Frame.useFull, hnone]
  refine ⟨⟨some (fastTree, dc), globalHeader nb, Frame.frameImage junk w h nb, [], (globalHeader nb).transforms⟩,
    (8 - (emit 0 (globalWrites nb hs)).length % 8) % 8, ?_, fun rest => ?_, hfull, ?_, ?_⟩
  · omega
  · generalize (8 - (emit 0 (globalWrites nb hs)).length % 8) % 8 = n
    rw [hbits]
    simp only [List.append_assoc]
    rw [global_read henv (fun r => e4 env r henv), coded_read hne (global_header_read nb _) meta_global]
    have hch : ∀ s, readChannels env (some (fastTree, dc)) (globalHeader nb) 0 256 256 (Frame.frameImage junk w h nb) s = .ok (Frame.frameImage junk w h nb, s) := by
      intro s
      unfold readChannels
      rw [show validDims 256 (Frame.frameImage junk w h nb) = some true from shaped_valid (by decide) (by decide) hsh]
      dsimp only
      rw [if_pos (show numCoded (Frame.frameImage junk w h nb).nbMeta 256 0 _ = 0 from shaped_none hl hsh)]
    rw [hch]
    show Stream.Out.ok _ = _
    rw [hmoved]
  · intro env u junk' stream rect s
    unfold Frame.readGroup
    have : (Frame.groupImage junk' 256 3 1000 rect (Frame.frameImage junk w h nb)).channel = [] := by
      unfold Frame.groupImage
      dsimp only
      rw [List.filterMap_eq_nil_iff]
      intro c hc
      obtain ⟨i, hi, rfl⟩ := List.mem_mapIdx.mp hc
      obtain ⟨-, -, q3, q4, -⟩ := hsh _ (List.mem_of_mem_drop ((List.dropWhile_suffix _).subset (List.getElem_mem hi)))
      unfold Frame.groupChannel
      rw [q3, q4]
      rfl
    rw [if_pos this]
  · intro gx gy hx hy a buf k pad ha hnb hax hay hk hpad
    obtain ⟨wss, w1, w2, -, w4⟩ := e5 a buf k pad ha hnb hk hpad
    have hwne : wss ≠ [] := by intro e; rw [e] at w2; simp at w2; omega
    refine ⟨_, by rw [writeGroup, w1]; rfl, fun env u junk' stream rest henv => ?_⟩
    obtain ⟨s1, s2⟩ := group_shaped junk' hl hsh hx hy
    rw [← hax, ← hay] at s1
    replace s1 : Shaped a.xs a.ys (Frame.groupImage junk' 256 0 2 ⟨gx * 256, gy * 256, 256, 256⟩ (Frame.frameImage junk w h nb)).channel := s1
    replace s2 : (Frame.groupImage junk' 256 0 2 ⟨gx * 256, gy * 256, 256, 256⟩ (Frame.frameImage junk w h nb)).channel.length = _ := s2
    have hgi : Frame.groupImage junk' 256 0 2 ⟨gx * 256, gy * 256, 256, 256⟩ (Frame.frameImage junk w h nb) =
      ⟨(Frame.groupImage junk' 256 0 2 ⟨gx * 256, gy * 256, 256, 256⟩ (Frame.frameImage junk w h nb)).channel, 0⟩ := rfl
    have s2' : (Frame.groupImage junk' 256 0 2 ⟨gx * 256, gy * 256, 256, 256⟩ (Frame.frameImage junk w h nb)).channel.length = nb := by
      rw [s2]
      simp [Frame.frameImage]
    rw [Frame.readGroup]
    dsimp only
    generalize Frame.groupImage junk' 256 0 2 ⟨gx * 256, gy * 256, 256, 256⟩ (Frame.frameImage junk w h nb) = gi at *
    obtain ⟨ds, m⟩ := gi
    injection hgi with _ hm
    dsimp only at s1 s2' hm ⊢
    subst hm
    have hdne : ds ≠ [] := by intro e; rw [e] at s2'; simp at s2'; omega
    obtain ⟨hx1, hx2⟩ := ha.width
    obtain ⟨hy1, hy2⟩ := ha.height
    obtain ⟨st0, cs, st, c1, c2, c3, -, c5, c6, c7, c8⟩ := w4 a.xs rest (codeInfo dc) Wp.defaultHeader stream 0xFFFFFF u.lanes ds
      (by omega) (by unfold Wp.Header.Ok; decide) (by omega) (by omega) s2' s1
    have hfit : ∀ more, emit 0 (groupWrites ++ more) = bitsFor groupWrites ++ emit 0 more := fun more => emit_fit _ _ (by decide)
    rw [if_neg hdne, readImage, emit_continue hfit hwne, List.append_assoc,
      coded_read (img := ⟨ds, 0⟩) hdne (group_header_read _) rfl,
      channels_read (hd := ⟨true, Wp.defaultHeader, []⟩) (groupDim := 0x1FFFFFFF) s1 hdne hx1 hy1 (by omega) (by omega) (by decide) (by decide) rfl c1 c2 c5, c3]
    have hsz : cs.map (fun c => (c.w, c.h)) = ds.map (fun c => (c.w, c.h)) := by
      rw [show cs.map (fun c => (c.w, c.h)) = List.replicate nb (a.xs, a.ys) from
        List.eq_replicate_iff.mpr ⟨by rw [List.length_map, c6], fun b hb => by obtain ⟨c, hc, rfl⟩ := List.mem_map.mp hb; rw [(c7 c hc).1, (c7 c hc).2.1]⟩,
        show ds.map (fun c => (c.w, c.h)) = List.replicate nb (a.xs, a.ys) from
        List.eq_replicate_iff.mpr ⟨by rw [List.length_map, s2'], fun b hb => by obtain ⟨c, hc, rfl⟩ := List.mem_map.mp hb; rw [(s1 c hc).1, (s1 c hc).2.1]⟩]
    show (if cs.map (fun c => (c.w, c.h)) = ds.map (fun c => (c.w, c.h)) then Stream.Out.ok ((⟨cs, 0⟩ : Image), rest) else .bad).bind _ = _
    rw [if_pos hsz]
    show (if Frame.useFull 256 _ then Stream.Out.ok ((⟨cs, 0⟩ : Image), rest) else (Frame.undoMoved u (globalHeader nb).transforms ⟨cs, 0⟩).bind fun i => .ok (i, rest)) = _
    rw [hfull, if_neg (by decide)]
    have hundo : Frame.undoMoved u (globalHeader nb).transforms ⟨cs, 0⟩ = .ok (callerImage a buf) := by
      unfold globalHeader
      dsimp only
      unfold callerImage
      rw [hnb]
      by_cases h3 : 3 ≤ nb
      · rw [if_pos h3] at c8
        rw [if_pos (by omega)]
        show (match Rct.inv u.lanes ⟨cs, 0⟩ 0 6 with | none => Stream.Out.bad | some i => .ok i).bind _ = _
        rw [c8]
        rfl
      · rw [if_neg h3] at c8
        rw [if_neg (by omega)]
        injection c8 with c8
        rw [← c8]
        rfl
    rw [hundo]
    rfl

/-! ## The conditions are met -/

theorem fastChans_ok : ∀ ch ∈ List.replicate 4 (⟨limits8.1, limits8.2, rawCounts 11 [], lzCounts []⟩ : Chan),
    ChanOk ch ∧ (dropZeros ch.raw).length = numSymbols 8 (3 ≤ 3) := by
  intro ch hch
  rw [(List.mem_replicate.mp hch).2]
  exact C62_counters_suffice 11 [] [] (by decide) (by decide) (fun _ _ => rfl) (fun _ _ => rfl) (by decide) limits8.1 limits8.2
    (Depth.b8 (by decide) (by decide))

theorem fastExampleArea_ok : AreaOk 8 fastExampleArea fastExampleBuf := by
  refine ⟨by decide, by decide, by decide, by decide, by decide, by decide, by decide, ?_⟩
  intro y x c hy hx hc
  have : ∀ y < 2, ∀ x < 3, ∀ c < 3, bytePos fastExampleArea y x c + fastExampleArea.bytes ≤ fastExampleBuf.length ∧
    areaSample fastExampleArea fastExampleBuf y x c < 2 ^ 8 := by decide
  exact this y hy x hx c hc

example : ∃ codes bits, writeSingle 16 (pixelBits 8) codes fastExampleArea fastExampleBuf (fun _ _ => List.replicate 13 0) = some bits ∧
    ∀ (env : Stream.Env) (u : Build) (junk : Nat → Nat → Nat → Px) (rest : List Bool), Stream.EnvOk env →
      ∃ g, Frame.readGlobal env junk 256 3 2 3 (bits ++ rest) = .ok (g, rest) ∧ Frame.finalImage u g =
        .ok ⟨[⟨3, 2, 0, 0, [[255, 0, 0], [1, 250, 255]]⟩, ⟨3, 2, 0, 0, [[0, 255, 0], [2, 128, 255]]⟩, ⟨3, 2, 0, 0, [[0, 0, 255], [3, 7, 255]]⟩], 0⟩ := by
  obtain ⟨codes, -, h⟩ := C68_small 8 3 _ (by simp) fastChans_ok
  obtain ⟨bits, b1, b2⟩ := h fastExampleArea fastExampleBuf 16 (fun _ _ => List.replicate 13 0) fastExampleArea_ok rfl (by decide) (fun _ _ => by simp [fastExampleArea])
  refine ⟨codes, bits, b1, fun env u junk rest henv => ?_⟩
  obtain ⟨g, g1, -, g3, -⟩ := b2 env u junk rest henv
  exact ⟨g, g1, g3⟩

/-- The right group of an image of 300 by 2 pixels. -/
def fastLargeArea : Area := ⟨1, false, 3, 132, 0, 0, 44, 2⟩
@[inherit_doc fastLargeArea] def fastLargeBuf : List Nat := (List.range 264).map (· % 256)

theorem fastLargeArea_ok : AreaOk 8 fastLargeArea fastLargeBuf := by
  refine ⟨by decide, by decide, by decide, by decide, by decide, by decide, ?_, ?_⟩
  · intro b hb
    obtain ⟨i, -, rfl⟩ := List.mem_map.mp hb
    exact Nat.mod_lt _ (by decide)
  · intro y x c hy hx hc
    have hy : y < 2 := hy
    have hx : x < 44 := hx
    have hc : c < 3 := hc
    have hp : bytePos fastLargeArea y x c < 264 := by
      simp only [bytePos, fastLargeArea]
      omega
    refine ⟨by simp only [fastLargeBuf, List.length_map, List.length_range]; exact hp, ?_⟩
    simp only [areaSample, sampleAt, fastLargeArea, if_true, fastLargeBuf, List.getD_eq_getElem?_getD, List.getElem?_map]
    cases h : (List.range 264)[bytePos ⟨1, false, 3, 132, 0, 0, 44, 2⟩ y x c]? with
    | none => simp
    | some v => exact Nat.mod_lt _ (by decide)

example (env : Stream.Env) (henv : Stream.EnvOk env) (u : Build) (junk : Nat → Nat → Nat → Px) : ∃ codes bits gbits g, writeGlobal 3 codes = some bits ∧
    writeGroup 16 (pixelBits 8) codes fastLargeArea fastLargeBuf (fun _ _ => List.replicate 4 0) = some gbits ∧
    (∃ n, Frame.readGlobal env junk 256 300 2 3 bits = .ok (g, List.replicate n false)) ∧
    Frame.readGroup env u junk 256 g 22 0 2 ⟨256, 0, 256, 256⟩ gbits = .ok (callerImage fastLargeArea fastLargeBuf, []) := by
  obtain ⟨codes, bits, -, h2, -, h⟩ := C68_large 8 3 (by decide) _ (by simp) fastChans_ok
  obtain ⟨g, n, -, g2, -, -, g5⟩ := h 300 2 (Or.inl (by decide)) env junk henv
  obtain ⟨gbits, b1, b2⟩ := g5 1 0 (by decide) (by decide) fastLargeArea fastLargeBuf 16 (fun _ _ => List.replicate 4 0) fastLargeArea_ok rfl rfl rfl (by decide) (fun _ _ => by simp [fastLargeArea])
  refine ⟨codes, bits, gbits, g, h2, b1, ⟨n, ?_⟩, ?_⟩
  · have := g2 []
    rwa [List.append_nil, List.append_nil] at this
  · have := b2 env u junk 22 [] henv
    rwa [List.append_nil] at this

end Jxl.Props
