import Verif.Lemmas.PaletteImage
/-!
# C19: palettes
-/
namespace Jxl.Props
open Modular Modular.Palette

/-- Every index has a value, for every bit depth of the format; nothing is read outside the palette. An index of the
palette gives the stored sample, and any other index gives a value that does not depend on the palette. -/
theorem C19_values (pal : List (List Px)) (index : Int) (c size depth : Nat) (hc : c < pal.length)
    (hrow : ∀ row ∈ pal, row.length = size) (hs : size + 64 < 2 ^ 31) (hd : depth ≤ 31) :
    ∃ v, getPaletteValue pal index c size depth = some v ∧
      (0 ≤ index → index < size → ∃ row, pal[c]? = some row ∧ row[index.toNat]? = some v) ∧
      (index < 0 ∨ (size : Int) ≤ index → ∀ pal', getPaletteValue pal' index c size depth = some v) := by
  obtain ⟨v, hv⟩ := getPaletteValue_some (index := index) hc hrow (by omega) hd
  refine ⟨v, hv, ?_, ?_⟩
  · intro h0 h1
    rw [getPaletteValue_explicit h0 h1 (by omega), List.getElem?_eq_getElem hc, Option.bind_some] at hv
    exact ⟨_, List.getElem?_eq_getElem hc, hv⟩
  · intro h pal'
    rw [← hv]
    unfold getPaletteValue
    by_cases h0 : index < 0
    · rw [if_pos h0, if_pos h0]
    · have h64 : ¬ (size : Int) + 64 ≥ 2147483648 := by omega
      rw [if_neg h0, if_neg h0, if_neg h64, if_neg h64]
      by_cases h1 : (size : Int) ≤ index ∧ index < size + 64
      · rw [if_pos h1, if_pos h1]
      · have h2 : (size : Int) + 64 ≤ index := by omega
        rw [if_neg h1, if_neg h1, if_pos h2, if_pos h2]

/-- The 64 colours after the palette form a 4 × 4 × 4 cube; their samples are valid for the depth. -/
theorem C19_small_cube (pal : List (List Px)) (r g b size depth : Nat) (hr : r < 4) (hg : g < 4) (hb : b < 4)
    (hs : size + 64 < 2 ^ 31) (h1 : 1 ≤ depth) (hd : depth ≤ 31) (c v : Nat) (hv : [r, g, b][c]? = some v) :
    getPaletteValue pal ((size + (r + 4 * g + 16 * b) : Nat) : Int) c size depth =
        some (BitVec.ofNat 32 (v * (2 ^ depth - 1) / 4 + 2 ^ (depth - 3))) ∧
      v * (2 ^ depth - 1) / 4 + 2 ^ (depth - 3) < 2 ^ depth := by
  have hc : c < 3 := (List.getElem?_eq_some_iff.1 hv).1
  have hval : (r + 4 * g + 16 * b) / 4 ^ c % 4 = v ∧ v ≤ 3 := by
    have : c = 0 ∨ c = 1 ∨ c = 2 := by omega
    rcases this with rfl | rfl | rfl <;> simp at hv <;> subst hv <;> simp only [Nat.reducePow, Nat.div_one] <;> omega
  refine ⟨?_, cube_lt hval.2 h1⟩
  rw [getPaletteValue_implicit _ _ _ _ _ (by omega), if_neg (by omega), if_pos (by omega), smallCube_eq _ _ hd, hval.1]
  simp only [Option.map_some, BitVec.ofInt_natCast]

/-- Then comes a 5 × 5 × 5 cube. -/
theorem C19_large_cube (pal : List (List Px)) (r g b size depth : Nat) (hr : r < 5) (hg : g < 5) (hb : b < 5)
    (hs : size + 64 < 2 ^ 31) (hd : depth ≤ 31) (c v : Nat) (hv : [r, g, b][c]? = some v) :
    getPaletteValue pal ((size + (64 + (r + 5 * g + 25 * b)) : Nat) : Int) c size depth =
        some (BitVec.ofNat 32 (v * (2 ^ depth - 1) / 4)) ∧ v * (2 ^ depth - 1) / 4 < 2 ^ depth := by
  have hc : c < 3 := (List.getElem?_eq_some_iff.1 hv).1
  have hval : (r + 5 * g + 25 * b) / 5 ^ c % 5 = v ∧ v ≤ 4 := by
    have : c = 0 ∨ c = 1 ∨ c = 2 := by omega
    rcases this with rfl | rfl | rfl <;> simp at hv <;> subst hv <;> simp only [Nat.reducePow, Nat.div_one] <;> omega
  refine ⟨?_, ?_⟩
  · rw [getPaletteValue_implicit _ _ _ _ _ (by omega), if_neg (by omega), if_neg (by omega),
      show 64 + (r + 5 * g + 25 * b) - 64 = r + 5 * g + 25 * b by omega, largeCube_eq _ _ hd, hval.1]
    simp only [Option.map_some, BitVec.ofInt_natCast]
  · have h2 : v * (2 ^ depth - 1) ≤ 4 * (2 ^ depth - 1) := Nat.mul_le_mul_right _ hval.2
    have : 0 < 2 ^ depth := Nat.pow_pos (by omega)
    omega

/-- Undoing the transform on any image, with any predictor, is defined. If it is accepted, the index channel has become
one channel for each row of the palette, of the same size, and wherever an index (beyond the deltas) is one of the
palette the samples are those of the palette. The palette is gone and the other channels are untouched. -/
theorem C19_decode (guess : Nat → List (List Px) → List Px → Int) (zero : Bool) (pal idx : Channel) (A B : List Channel)
    (nbMeta nbDeltas depth : Nat) (hp : pal.Wf) (hi : idx.Wf) (hs : pal.w + 64 < 2 ^ 31) :
    ∃ r, invPalette guess zero (Image.mk (pal :: (A ++ idx :: B)) nbMeta) A.length nbDeltas depth = some r ∧
      ∀ img', r = some img' → ∃ outs, img'.channel = A ++ outs ++ B ∧ outs.length = pal.h ∧
        ∀ (c : Nat) (o : Channel), outs[c]? = some o → o.Wf ∧ o.dims = idx.dims ∧
          ∀ (y x : Nat) (row : List Px) (p : Px), idx.rows[y]? = some row → row[x]? = some p →
            (nbDeltas : Int) ≤ p.toInt → 0 ≤ p.toInt → p.toInt < pal.w →
            ∃ out col, o.rows[y]? = some out ∧ pal.rows[c]? = some col ∧ out[x]? = col[p.toInt.toNat]? := by
  by_cases hm : nbMeta < 1
  · unfold invPalette; rw [if_pos hm]; exact ⟨_, rfl, fun _ h => by cases h⟩
  by_cases hh : pal.h < 1
  · unfold invPalette
    dsimp only
    have h1 : (pal :: (A ++ idx :: B))[A.length + 1]? = some idx := by
      rw [List.getElem?_cons_succ, List.getElem?_append_right (by omega), Nat.sub_self]; rfl
    rw [if_neg hm]
    simp only [List.getElem?_cons_zero, h1]
    rw [if_pos hh]; exact ⟨_, rfl, fun _ h => by cases h⟩
  have hd : min depth 24 ≤ 31 := by omega
  obtain ⟨rows, hr⟩ : ∃ rows, mapOpt (invRows guess zero pal nbDeltas (min depth 24) idx) (List.range pal.h) = some rows :=
    mapOpt_some fun c hc => by
      obtain ⟨r, h, _⟩ := invRows_decoded (guess := guess) (zero := zero) (nbDeltas := nbDeltas) hp hi
        (List.mem_range.1 hc) (by omega) hd
      exact ⟨r, h⟩
  rw [invPalette_eq (by omega) (by omega) hr]
  refine ⟨_, rfl, ?_⟩
  intro img' himg
  obtain ⟨k, _, rfl⟩ := Option.map_eq_some_iff.1 himg
  obtain ⟨g1, g2⟩ := mapOpt_get hr
  rw [List.length_range] at g1
  refine ⟨_, rfl, by rw [List.length_map, g1], ?_⟩
  intro c o ho
  rw [List.getElem?_map] at ho
  obtain ⟨rc, h1, rfl⟩ := Option.map_eq_some_iff.1 ho
  have hc : c < pal.h := by
    have := (List.getElem?_eq_some_iff.1 h1).1; omega
  obtain ⟨b, e1, e2⟩ := g2 c c (List.getElem?_range hc)
  rw [h1] at e2; cases e2
  obtain ⟨r', f1, f2⟩ := invRows_decoded (guess := guess) (zero := zero) (nbDeltas := nbDeltas) hp hi hc (by omega) hd
  rw [e1] at f1; cases f1
  exact ⟨⟨f2.height, f2.width⟩, rfl, f2.entry⟩

/-- The layout the decoder prepares is one that undoing the transform turns back into the original layout, whatever
samples were decoded. -/
theorem C19_layout (guess : Nat → List (List Px) → List Px → Int) (zero : Bool) (img img1 img2 : Image)
    (beginC endC nbColors nbDeltas depth : Nat) (h : metaPalette img beginC endC nbColors nbDeltas = some img1)
    (hsame : SameLayout img1 img2) (hwf : img2.Wf) (hs : nbColors + nbDeltas + 64 < 2 ^ 31) :
    ∃ img3, invPalette guess zero img2 beginC nbDeltas depth = some (some img3) ∧ SameLayout img img3 := by
  unfold metaPalette at h
  cases hce : checkEqualChannels img beginC endC with
  | false => rw [hce] at h; cases h
  | true =>
    rw [hce, if_pos rfl] at h
    obtain ⟨b1, b2, b3, ch, b4, b5, b6, b7⟩ := checkEqual_spec hce
    obtain ⟨c1, c2⟩ := split_at b4
    generalize hA : img.channel.take beginC = A at *
    dsimp only at h
    -- the layout of the second image
    have hlay : ∃ m, img1 = Image.mk (Channel.mk (nbColors + nbDeltas) (endC - beginC + 1) (-1) (-1)
          (List.replicate (endC - beginC + 1) (List.replicate (nbColors + nbDeltas) 0)) ::
          (A ++ ch :: img.channel.drop (endC + 1))) m ∧ 1 ≤ m ∧ invMeta m beginC (endC - beginC + 1) = some img.nbMeta := by
      have htk : img.channel.take (beginC + 1) = A ++ [ch] := by
        rw [List.take_add_one, hA, b4]; rfl
      rw [htk] at h
      by_cases hm : img.nbMeta ≤ beginC
      · rw [if_pos hm] at h
        cases h
        refine ⟨_, by rw [List.append_assoc]; rfl, by omega, ?_⟩
        unfold invMeta
        rw [if_pos (by omega)]; rfl
      · rw [if_neg hm, if_pos (b3 (by omega))] at h
        cases h
        refine ⟨_, by rw [List.append_assoc]; rfl, by have := b3 (by omega); omega, ?_⟩
        have := b3 (by omega)
        unfold invMeta
        rw [if_neg (by omega), if_neg (by omega), if_pos (by omega)]
        congr 1; omega
    obtain ⟨m, rfl, hm1, hmeta⟩ := hlay
    obtain ⟨hl1, hl2⟩ := hsame
    obtain ⟨chs2, m2⟩ := img2
    dsimp only at hl1 hl2
    subst hl2
    -- take the second image apart
    cases chs2 with
    | nil => simp at hl1
    | cons pal rest =>
      simp only [List.map_cons, List.map_append, List.cons.injEq] at hl1
      obtain ⟨hpal, hrest⟩ := hl1
      obtain ⟨A2, X, hr1, hA2, hX⟩ := List.map_eq_append_iff.1 hrest.symm
      cases X with
      | nil => simp at hX
      | cons idx B2 =>
        simp only [List.map_cons, List.cons.injEq] at hX
        subst hr1
        have hA2l : A2.length = beginC := by
          rw [← c2, ← List.length_map (f := Channel.dims) (as := A), ← hA2, List.length_map]
        have hph : pal.h = endC - beginC + 1 ∧ pal.w = nbColors + nbDeltas := by
          have := hpal
          simp only [Channel.dims, Prod.mk.injEq] at this
          exact ⟨this.2.1.symm, this.1.symm⟩
        have hpwf := hwf pal (by simp)
        have hiwf := hwf idx (by simp)
        obtain ⟨rows, hr⟩ : ∃ rows, mapOpt (invRows guess zero pal nbDeltas (min depth 24) idx) (List.range pal.h) = some rows :=
          mapOpt_some fun c hc => by
            obtain ⟨r, h, _⟩ := invRows_decoded (guess := guess) (zero := zero) (nbDeltas := nbDeltas) (d := min depth 24) hpwf hiwf
              (List.mem_range.1 hc) (by omega) (by omega)
            exact ⟨r, h⟩
        rw [← hA2l, invPalette_eq hm1 (by omega) hr, hA2l, hph.1, hmeta]
        refine ⟨_, rfl, ?_, rfl⟩
        dsimp only
        rw [List.map_append, List.map_append, hA2, hX.2]
        have hlen : rows.length = endC - beginC + 1 := by
          rw [(mapOpt_get hr).1, List.length_range, hph.1]
        have hmid : (rows.map fun r => ({ idx with rows := r } : Channel)).map Channel.dims =
            ((img.channel.drop beginC).take (endC + 1 - beginC)).map Channel.dims := by
          have e1 : (rows.map fun r => ({ idx with rows := r } : Channel)).map Channel.dims =
              List.replicate (endC - beginC + 1) ch.dims := by
            rw [List.eq_replicate_iff]
            refine ⟨by simp [hlen], ?_⟩
            intro x hx
            obtain ⟨y, hy, rfl⟩ := List.mem_map.1 hx
            obtain ⟨r, _, rfl⟩ := List.mem_map.1 hy
            exact hX.1
          have e2 : ((img.channel.drop beginC).take (endC + 1 - beginC)).map Channel.dims =
              List.replicate (endC - beginC + 1) ch.dims := by
            rw [List.eq_replicate_iff]
            refine ⟨by simp; omega, ?_⟩
            intro x hx
            obtain ⟨y, hy, rfl⟩ := List.mem_map.1 hx
            exact b6 y hy
          rw [e1, e2]
        rw [hmid]
        conv => lhs; rw [b7]
        rw [List.map_append, List.map_append]

/-- The lossless forward transform is defined for all images, whatever order it puts the colours in, and undoing it
gives the image back, if there is one channel or the depth is at most 24 bits. -/
theorem C19_round_trip_partial (srt : List (List Px) → List (List Px)) (hsrt : ∀ l, (srt l).Perm l) (img : Image)
    (beginC endC nbColors depth : Nat) (hwf : img.Wf) (hn : nbColors ≤ 2 ^ 30) :
    ∃ r, fwdPalette srt img beginC endC nbColors depth = some r ∧
      ∀ img', r = some img' → beginC = endC ∨ depth ≤ 24 → ∀ guess,
        invPalette guess true img' beginC 0 depth = some (some img) := by
  unfold fwdPalette
  cases hce : checkEqualChannels img beginC endC with
  | false => rw [if_pos rfl]; exact ⟨_, rfl, fun _ h => by cases h⟩
  | true =>
    rw [if_neg (by decide)]
    obtain ⟨b1, b2, b3, ch, b4, b5, b6, b7⟩ := checkEqual_spec hce
    obtain ⟨c1, c2⟩ := split_at b4
    by_cases hm : beginC < img.nbMeta
    · rw [if_pos hm]; exact ⟨_, rfl, fun _ h => by cases h⟩
    rw [if_neg hm]
    by_cases hdn : 32 ≤ depth ∨ nbColors < 2
    · rw [if_pos hdn]; exact ⟨_, rfl, fun _ h => by cases h⟩
    rw [if_neg hdn, b4]
    dsimp only
    have hchwf : ch.Wf := hwf ch (List.mem_of_getElem? b4)
    have hmeta : ∀ nb, invMeta (img.nbMeta + 1) (img.channel.take beginC).length nb = some img.nbMeta := by
      intro nb
      unfold invMeta
      rw [c2, if_pos (by omega)]; rfl
    by_cases hone : beginC = endC
    · rw [if_pos hone]
      obtain ⟨r, e, hr⟩ := channelPalette_spec nbColors ch.rows
      rw [e]
      refine ⟨_, rfl, fun img' himg _ guess => ?_⟩
      cases r with
      | none => cases himg
      | some pi =>
        obtain ⟨pal, idx⟩ := pi
        obtain ⟨g1, f, g2, g3⟩ := hr pal idx rfl
        simp only [Option.map_some, Option.some.injEq] at himg
        subst himg
        have hrows : mapOpt (invRows guess true (Channel.mk pal.length 1 (-1) (-1) [pal.map (BitVec.ofInt 32)]) 0 (min depth 24)
            { ch with rows := idx.map (List.map (BitVec.ofNat 32)) }) (List.range 1) = some [ch.rows] := by
          have : invRows guess true (Channel.mk pal.length 1 (-1) (-1) [pal.map (BitVec.ofInt 32)]) 0 (min depth 24)
            { ch with rows := idx.map (List.map (BitVec.ofNat 32)) } 0 = some ch.rows := by
            unfold invRows
            dsimp only
            by_cases hw : ch.w = 0
            · rw [if_pos hw, if_pos rfl]
              congr 1
              obtain ⟨l1, l2⟩ := mapOpt_get g2
              apply List.ext_getElem?
              intro y
              rw [List.getElem?_map]
              by_cases hy : y < ch.rows.length
              · obtain ⟨b, m1, m2⟩ := l2 y _ (List.getElem?_eq_getElem hy)
                have hnil : ch.rows[y] = [] := List.length_eq_zero_iff.1 (by rw [hchwf.2 _ (List.getElem_mem hy), hw])
                rw [hnil] at m1
                cases m1
                rw [m2, List.getElem?_eq_getElem hy, hnil]; rfl
              · rw [List.getElem?_eq_none (by omega), List.getElem?_eq_none (by omega)]; rfl
            · rw [if_neg hw, if_pos ⟨rfl, rfl⟩, if_pos rfl]
              exact channel_undo g2 (by omega) g3
          show mapOpt _ [0] = _
          rw [mapOpt, this]; rfl
        have := invPalette_eq (A := img.channel.take beginC) (B := img.channel.drop (beginC + 1)) (m := img.nbMeta + 1)
          (guess := guess) (zero := true) (nbDeltas := 0) (depth := depth) (by omega) (Nat.le_refl 1) hrows
        rw [hmeta] at this
        rw [c2] at this
        rw [this]
        simp only [Option.map_some, List.map_cons, List.map_nil]
        rw [List.append_assoc]
        show some (some (Image.mk (img.channel.take beginC ++ ([ch] ++ img.channel.drop (beginC + 1))) img.nbMeta)) = _
        rw [List.singleton_append, ← c1]
    · rw [if_neg hone]
      have hdims : ∀ c ∈ (img.channel.drop beginC).take (endC + 1 - beginC), c.Wf ∧ c.w = ch.w ∧ c.h = ch.h := by
        intro c hc
        have := b6 c hc
        simp only [Channel.dims, Prod.mk.injEq] at this
        exact ⟨hwf c (List.mem_of_mem_drop (List.mem_of_mem_take hc)), this.1, this.2.1⟩
      generalize hchs : (img.channel.drop beginC).take (endC + 1 - beginC) = chs at *
      have hlen : 2 ≤ chs.length := by rw [← hchs]; simp; omega
      obtain ⟨r, e, hr⟩ := multi_round_trip hsrt (n := nbColors) (d := depth) (w := ch.w) (h := ch.h) hdims (by omega) (by omega) hlen
      rw [e]
      refine ⟨_, rfl, fun img' himg hd guess => ?_⟩
      cases r with
      | none => cases himg
      | some pi =>
        obtain ⟨pal, idx⟩ := pi
        obtain ⟨_, g2⟩ := hr pal idx rfl
        simp only [Option.map_some, Option.some.injEq] at himg
        subst himg
        have hd' : min depth 24 = depth := by omega
        have hrows := g2 guess (Channel.mk (pal.getD 0 []).length chs.length (-1) (-1) pal) { ch with rows := idx } rfl rfl rfl rfl rfl rfl
        rw [← hd'] at hrows
        have := invPalette_eq (A := img.channel.take beginC) (B := img.channel.drop (endC + 1)) (m := img.nbMeta + 1)
          (guess := guess) (zero := true) (nbDeltas := 0) (depth := depth)
          (pal := Channel.mk (pal.getD 0 []).length chs.length (-1) (-1) pal) (by omega) (by show 1 ≤ chs.length; omega) hrows
        rw [hmeta] at this
        rw [c2] at this
        rw [this]
        simp only [Option.map_some]
        have hmid : (chs.map (·.rows)).map (fun r => ({ ch with rows := r } : Channel)) = chs := by
          rw [List.map_map]
          apply List.ext_getElem?
          intro i
          rw [List.getElem?_map]
          by_cases hi : i < chs.length
          · rw [List.getElem?_eq_getElem hi]
            simp only [Option.map_some, Function.comp_apply, Option.some.injEq]
            have := b6 _ (List.getElem_mem hi)
            generalize chs[i] = q at this
            obtain ⟨q1, q2, q3, q4, q5⟩ := q
            simp only [Channel.dims, Prod.mk.injEq] at this
            obtain ⟨rfl, rfl, rfl, rfl⟩ := this
            rfl
          · rw [List.getElem?_eq_none (by omega)]; rfl
        rw [hmid, ← b7]

/-- Two samples of 28 bits in each of two channels; the first pixel is one of the implicit colours for that depth. -/
def deepImage : Image := Image.mk [Channel.mk 2 1 0 0 [[67108863, 5]], Channel.mk 2 1 0 0 [[0, 7]]] 0

/-- With more than 24 bits the encoder takes its implicit colours at the full depth and the decoder at 24 bits, so the
image comes back changed. -/
theorem C19_deep_violated : ∃ img', fwdPalette id deepImage 0 1 128 28 = some (some img') ∧
    invPalette (fun _ _ _ => 0) true img' 0 0 28 =
      some (some (Image.mk [Channel.mk 2 1 0 0 [[4194303, 5]], Channel.mk 2 1 0 0 [[0, 7]]] 0)) ∧
    Image.mk [Channel.mk 2 1 0 0 [[4194303, 5]], Channel.mk 2 1 0 0 [[0, 7]]] 0 ≠ deepImage :=
  ⟨Image.mk [Channel.mk 1 2 (-1) (-1) [[5], [7]], Channel.mk 2 1 0 0 [[166, 0]]] 1, by decide +kernel, by decide +kernel,
    by decide⟩

-- three channels with one implicit colour and two others
example : fwdPalette id (Image.mk [Channel.mk 3 1 0 0 [[7, 255, 9]], Channel.mk 3 1 0 0 [[7, 255, 9]],
      Channel.mk 3 1 0 0 [[7, 255, 8]]] 0) 0 2 16 8 =
    some (some (Image.mk [Channel.mk 2 3 (-1) (-1) [[7, 9], [7, 9], [7, 8]], Channel.mk 3 1 0 0 [[0, 190, 1]]] 1)) ∧
    invPalette (fun _ _ _ => 0) true (Image.mk [Channel.mk 2 3 (-1) (-1) [[7, 9], [7, 9], [7, 8]],
      Channel.mk 3 1 0 0 [[0, 190, 1]]] 1) 0 0 8 = some (some (Image.mk [Channel.mk 3 1 0 0 [[7, 255, 9]],
        Channel.mk 3 1 0 0 [[7, 255, 9]], Channel.mk 3 1 0 0 [[7, 255, 8]]] 0)) := by decide +kernel
-- one channel, small range (table) and large range (set)
example : fwdPalette id (Image.mk [Channel.mk 3 1 0 0 [[40, 10, 40]]] 0) 0 0 16 8 =
    some (some (Image.mk [Channel.mk 2 1 (-1) (-1) [[10, 40]], Channel.mk 3 1 0 0 [[1, 0, 1]]] 1)) ∧
    fwdPalette id (Image.mk [Channel.mk 3 1 0 0 [[90000, -2, 90000]]] 0) 0 0 16 30 =
      some (some (Image.mk [Channel.mk 2 1 (-1) (-1) [[-2, 90000]], Channel.mk 3 1 0 0 [[1, 0, 1]]] 1)) := by
  decide +kernel
-- the extremes of the index, without a palette
example : getPaletteValue [] (-2147483648) 1 0 8 = some (-32) ∧ getPaletteValue [] (-1) 2 0 8 = some 0 ∧
    getPaletteValue [] 2147483647 0 0 8 = some 191 := by decide +kernel
-- deltas: the first pixel is predicted, the second is a palette entry
example : invPalette (fun _ _ cur => 100 + cur.length) false
    (Image.mk [Channel.mk 2 1 (-1) (-1) [[3, 50]], Channel.mk 2 1 0 0 [[0, 1]]] 1) 0 1 8 =
    some (some (Image.mk [Channel.mk 2 1 0 0 [[103, 50]]] 0)) := by decide +kernel

end Jxl.Props
