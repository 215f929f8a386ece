import Verif.Lemmas.FrameDim
/-!
# C26: groups tile the frame
-/
namespace Jxl.Props
open FrameDim

/-- Parameters a frame header can have: sizes at least 1, group size shift up to 3, chroma shifts up to 4 (the format has at most 1),
positive upsampling. -/
structure ValidDims (xpx ypx gs mh mv up : Nat) : Prop where
  x : 0 < xpx
  y : 0 < ypx
  h : mh ≤ 4
  v : mv ≤ 4
  u : 0 < up

theorem groupDim_eq (xpx ypx gs mh mv up : Nat) (m : Bool) : (set xpx ypx gs mh mv m up).groupDim = 128 * 2 ^ gs := by
  show (256 >>> 1) <<< gs = _
  rw [Nat.shiftLeft_eq]; rfl

theorem groupDim_pos (gs : Nat) : 0 < 128 * 2 ^ gs := Nat.mul_pos (by omega) (Nat.pow_pos (by omega))

/-- **C26, pixels.**  The group rectangles tile the (possibly downsampled) frame. -/
theorem C26_groups (xpx ypx gs mh mv up : Nat) (m : Bool) :
    let d := set xpx ypx gs mh mv m up
    Tiles d.numGroups d.groupRect d.xsize d.ysize := by
  intro d
  have hd : 0 < d.groupDim := by rw [groupDim_eq]; exact groupDim_pos gs
  exact grid_tiles d.xsizeGroups d.ysizeGroups d.groupDim d.xsize d.ysize hd (fun i => lt_divCeil _ _ i hd) (fun i => lt_divCeil _ _ i hd)

/-- **C26, DC groups.**  The DC group rectangles tile the blocks. -/
theorem C26_dc_groups (xpx ypx gs mh mv up : Nat) (m : Bool) :
    let d := set xpx ypx gs mh mv m up
    Tiles d.numDcGroups d.dcGroupRect d.xsizeBlocks d.ysizeBlocks := by
  intro d
  have hd : 0 < d.groupDim := by rw [groupDim_eq]; exact groupDim_pos gs
  exact grid_tiles d.xsizeDcGroups d.ysizeDcGroups d.groupDim d.xsizeBlocks d.ysizeBlocks hd (fun i => lt_divCeil _ _ i hd)
    (fun i => lt_divCeil _ _ i hd)

/-- Number of blocks in one direction. -/
theorem blocks_spec (n k : Nat) : let b := divCeil n (8 <<< k) <<< k
    n ≤ 8 * b ∧ 8 * b < n + 8 * 2 ^ k ∧ 2 ^ k ∣ b := by
  intro b
  have hp : 0 < 2 ^ k := Nat.pow_pos (by omega)
  have e1 : 8 <<< k = 8 * 2 ^ k := Nat.shiftLeft_eq ..
  have e2 : b = divCeil n (8 * 2 ^ k) * 2 ^ k := by
    show divCeil n (8 <<< k) <<< k = _
    rw [e1, Nat.shiftLeft_eq]
  have h1 := divCeil_le n (8 * 2 ^ k) (by omega)
  have h2 := divCeil_lt n (8 * 2 ^ k) (by omega)
  have e3 : divCeil n (8 * 2 ^ k) * (8 * 2 ^ k) = 8 * b := by rw [e2]; grind
  rw [e3] at h1 h2
  exact ⟨h1, h2, by rw [e2]; exact Nat.dvd_mul_left ..⟩

/-- In one direction: tile `i` of the pixels exists iff tile `i` of the blocks exists. -/
theorem blocks_tiles (n k gs i : Nat) (hk : k ≤ 4) :
    i < divCeil n (128 * 2 ^ gs) ↔ i * (16 * 2 ^ gs) < divCeil n (8 <<< k) <<< k := by
  obtain ⟨h1, h2, ⟨c, hc⟩⟩ := blocks_spec n k
  rw [lt_divCeil _ _ _ (groupDim_pos gs)]
  generalize divCeil n (8 <<< k) <<< k = b at *
  have e : i * (128 * 2 ^ gs) = 8 * (i * (16 * 2 ^ gs)) := by grind
  -- the tile start is a multiple of `2^k` blocks
  have hdiv : 2 ^ k ∣ i * (16 * 2 ^ gs) := by
    have : 2 ^ k ∣ 16 := by
      have : (2 : Nat) ^ k ∣ 2 ^ 4 := Nat.pow_dvd_pow 2 hk
      simpa using this
    exact Nat.dvd_trans this (Nat.dvd_trans (Nat.dvd_mul_right 16 (2 ^ gs)) (Nat.dvd_mul_left ..))
  rw [e]
  constructor
  · intro h; omega
  · intro h
    -- both are multiples of 2^k, so the distance is at least 2^k
    obtain ⟨q, hq⟩ := hdiv
    rw [hq, hc] at h
    have : q < c := Nat.lt_of_mul_lt_mul_left h
    have h3 : 2 ^ k * (q + 1) ≤ 2 ^ k * c := Nat.mul_le_mul_left _ this
    rw [hq]
    rw [hc] at h2
    rw [Nat.mul_add, Nat.mul_one] at h3
    omega

/-- **C26, blocks.**  The block rectangles of the groups tile the blocks of the frame, with the same group numbers. -/
theorem C26_block_groups (xpx ypx gs mh mv up : Nat) (m : Bool) (hv : ValidDims xpx ypx gs mh mv up) :
    let d := set xpx ypx gs mh mv m up
    Tiles d.numGroups d.blockGroupRect d.xsizeBlocks d.ysizeBlocks := by
  intro d
  have e : d.groupDim >>> 3 = 16 * 2 ^ gs := by
    rw [groupDim_eq, Nat.shiftRight_eq_div_pow, show 128 * 2 ^ gs = 16 * 2 ^ gs * 2 ^ 3 by grind, Nat.mul_div_cancel _ (by omega)]
  have e0 : d.groupDim = 128 * 2 ^ gs := groupDim_eq ..
  have hp : 0 < 2 ^ gs := Nat.pow_pos (by omega)
  have := grid_tiles d.xsizeGroups d.ysizeGroups (16 * 2 ^ gs) d.xsizeBlocks d.ysizeBlocks (by omega)
    (by
      intro i
      have : d.xsizeGroups = divCeil d.xsize (128 * 2 ^ gs) := by rw [← e0]; rfl
      rw [this]
      exact blocks_tiles d.xsize mh gs i hv.h)
    (by
      intro i
      have : d.ysizeGroups = divCeil d.ysize (128 * 2 ^ gs) := by rw [← e0]; rfl
      rw [this]
      exact blocks_tiles d.ysize mv gs i hv.v)
  unfold Dims.blockGroupRect
  rw [e]
  exact this

/-- **C26, sizes.**  Blocks cover the frame, are a multiple of the chroma subsampling, and are the fewest possible; the downsampled size is the
smallest that covers the frame; padded sizes are whole blocks and cover it. -/
theorem C26_sizes (xpx ypx gs mh mv up : Nat) (m : Bool) (hv : ValidDims xpx ypx gs mh mv up) :
    let d := set xpx ypx gs mh mv m up
    (d.xsize * up ≥ xpx ∧ (d.xsize - 1) * up < xpx ∧ d.ysize * up ≥ ypx ∧ (d.ysize - 1) * up < ypx) ∧
    (d.xsize ≤ 8 * d.xsizeBlocks ∧ 8 * d.xsizeBlocks < d.xsize + 8 * 2 ^ mh ∧ 2 ^ mh ∣ d.xsizeBlocks) ∧
    (d.ysize ≤ 8 * d.ysizeBlocks ∧ 8 * d.ysizeBlocks < d.ysize + 8 * 2 ^ mv ∧ 2 ^ mv ∣ d.ysizeBlocks) ∧
    (d.xsize ≤ d.xsizePadded ∧ d.ysize ≤ d.ysizePadded) ∧
    (m = false → 8 * 2 ^ mh ∣ d.xsizePadded ∧ 8 * 2 ^ mv ∣ d.ysizePadded ∧ d.xsizePadded < d.xsize + 8 * 2 ^ mh ∧ d.ysizePadded < d.ysize + 8 * 2 ^ mv) ∧
    (xpx ≤ d.xsizeUpsampledPadded ∧ ypx ≤ d.ysizeUpsampledPadded) := by
  intro d
  have x1 : xpx ≤ d.xsize * up := divCeil_le xpx up hv.u
  have x2 : d.xsize * up < xpx + up := divCeil_lt xpx up hv.u
  have y1 : ypx ≤ d.ysize * up := divCeil_le ypx up hv.u
  have y2 : d.ysize * up < ypx + up := divCeil_lt ypx up hv.u
  have bx := blocks_spec d.xsize mh
  have by' := blocks_spec d.ysize mv
  have px : d.xsizePadded = if m then d.xsize else d.xsizeBlocks * 8 := rfl
  have py : d.ysizePadded = if m then d.ysize else d.ysizeBlocks * 8 := rfl
  have ux : d.xsizeUpsampledPadded = d.xsizePadded * up := rfl
  have uy : d.ysizeUpsampledPadded = d.ysizePadded * up := rfl
  change d.xsize ≤ 8 * d.xsizeBlocks ∧ 8 * d.xsizeBlocks < d.xsize + 8 * 2 ^ mh ∧ 2 ^ mh ∣ d.xsizeBlocks at bx
  change d.ysize ≤ 8 * d.ysizeBlocks ∧ 8 * d.ysizeBlocks < d.ysize + 8 * 2 ^ mv ∧ 2 ^ mv ∣ d.ysizeBlocks at by'
  have padx : d.xsize ≤ d.xsizePadded := by rw [px]; split <;> omega
  have pady : d.ysize ≤ d.ysizePadded := by rw [py]; split <;> omega
  refine ⟨⟨x1, ?_, y1, ?_⟩, bx, by', ⟨padx, pady⟩, ?_, ?_, ?_⟩
  · have := hv.x
    rw [Nat.sub_mul]; omega
  · have := hv.y
    rw [Nat.sub_mul]; omega
  · rintro rfl
    simp only [Bool.false_eq_true, if_false] at px py
    rw [px, py]
    refine ⟨?_, ?_, by omega, by omega⟩
    · rw [Nat.mul_comm d.xsizeBlocks]; exact Nat.mul_dvd_mul_left 8 bx.2.2
    · rw [Nat.mul_comm d.ysizeBlocks]; exact Nat.mul_dvd_mul_left 8 by'.2.2
  · rw [ux]; exact Nat.le_trans x1 (Nat.mul_le_mul_right _ padx)
  · rw [uy]; exact Nat.le_trans y1 (Nat.mul_le_mul_right _ pady)

/-- **C26, nesting.**  The blocks of group `(gx, gy)` belong to DC group `(gx / 8, gy / 8)`, which exists. -/
theorem C26_nesting (xpx ypx gs mh mv up : Nat) (m : Bool) (hv : ValidDims xpx ypx gs mh mv up) (g : Nat) :
    let d := set xpx ypx gs mh mv m up
    let dc := g / d.xsizeGroups / 8 * d.xsizeDcGroups + g % d.xsizeGroups / 8
    g < d.numGroups → dc < d.numDcGroups ∧ ∀ x y, (d.blockGroupRect g).Has x y → (d.dcGroupRect dc).Has x y := by
  intro d dc hg
  have e0 : d.groupDim = 128 * 2 ^ gs := groupDim_eq ..
  have e : d.groupDim >>> 3 = 16 * 2 ^ gs := by
    rw [groupDim_eq, Nat.shiftRight_eq_div_pow, show 128 * 2 ^ gs = 16 * 2 ^ gs * 2 ^ 3 by grind, Nat.mul_div_cancel _ (by omega)]
  have hp : 0 < 2 ^ gs := Nat.pow_pos (by omega)
  have hnx : 0 < d.xsizeGroups := by
    rcases Nat.eq_zero_or_pos d.xsizeGroups with h0 | h0
    · have : d.numGroups = d.xsizeGroups * d.ysizeGroups := rfl
      rw [this, h0] at hg; simp at hg
    · exact h0
  have gx : g % d.xsizeGroups * (16 * 2 ^ gs) < d.xsizeBlocks := by
    have h1 : d.xsizeGroups = divCeil d.xsize (128 * 2 ^ gs) := by rw [← e0]; rfl
    have h2 := Nat.mod_lt g hnx
    rw [h1] at h2 ⊢
    exact (blocks_tiles d.xsize mh gs _ hv.h).mp h2
  have gy : g / d.xsizeGroups * (16 * 2 ^ gs) < d.ysizeBlocks := by
    have h1 : d.ysizeGroups = divCeil d.ysize (128 * 2 ^ gs) := by rw [← e0]; rfl
    have h2 : g / d.xsizeGroups < d.ysizeGroups := by
      rw [Nat.div_lt_iff_lt_mul hnx, Nat.mul_comm]; exact hg
    rw [h1] at h2
    exact (blocks_tiles d.ysize mv gs _ hv.v).mp h2
  have hdc : dc = g / d.xsizeGroups / 8 * d.xsizeDcGroups + g % d.xsizeGroups / 8 := rfl
  clear_value dc
  generalize hgx : g % d.xsizeGroups = a at *
  generalize hgy : g / d.xsizeGroups = b at *
  have ax : a / 8 * (128 * 2 ^ gs) ≤ a * (16 * 2 ^ gs) := by
    have : a / 8 * (128 * 2 ^ gs) = (a / 8 * 8) * (16 * 2 ^ gs) := by grind
    rw [this]; exact Nat.mul_le_mul_right _ (by omega)
  have ay : b / 8 * (128 * 2 ^ gs) ≤ b * (16 * 2 ^ gs) := by
    have : b / 8 * (128 * 2 ^ gs) = (b / 8 * 8) * (16 * 2 ^ gs) := by grind
    rw [this]; exact Nat.mul_le_mul_right _ (by omega)
  have ax2 : a * (16 * 2 ^ gs) + 16 * 2 ^ gs ≤ a / 8 * (128 * 2 ^ gs) + 128 * 2 ^ gs := by
    have h1 : a / 8 * (128 * 2 ^ gs) + 128 * 2 ^ gs = (a / 8 * 8 + 8) * (16 * 2 ^ gs) := by grind
    have h2 : a * (16 * 2 ^ gs) + 16 * 2 ^ gs = (a + 1) * (16 * 2 ^ gs) := by grind
    rw [h1, h2]; exact Nat.mul_le_mul_right _ (by omega)
  have ay2 : b * (16 * 2 ^ gs) + 16 * 2 ^ gs ≤ b / 8 * (128 * 2 ^ gs) + 128 * 2 ^ gs := by
    have h1 : b / 8 * (128 * 2 ^ gs) + 128 * 2 ^ gs = (b / 8 * 8 + 8) * (16 * 2 ^ gs) := by grind
    have h2 : b * (16 * 2 ^ gs) + 16 * 2 ^ gs = (b + 1) * (16 * 2 ^ gs) := by grind
    rw [h1, h2]; exact Nat.mul_le_mul_right _ (by omega)
  have dx : a / 8 < d.xsizeDcGroups := by
    have : d.xsizeDcGroups = divCeil d.xsizeBlocks (128 * 2 ^ gs) := by rw [← e0]; rfl
    rw [this, lt_divCeil _ _ _ (groupDim_pos gs)]; omega
  have dy : b / 8 < d.ysizeDcGroups := by
    have : d.ysizeDcGroups = divCeil d.ysizeBlocks (128 * 2 ^ gs) := by rw [← e0]; rfl
    rw [this, lt_divCeil _ _ _ (groupDim_pos gs)]; omega
  have m1 : dc % d.xsizeDcGroups = a / 8 := by
    rw [hdc, Nat.mul_comm, Nat.mul_add_mod]; exact Nat.mod_eq_of_lt dx
  have m2 : dc / d.xsizeDcGroups = b / 8 := by
    rw [hdc, Nat.add_comm, Nat.add_mul_div_right _ _ (by omega), Nat.div_eq_of_lt dx, Nat.zero_add]
  refine ⟨?_, ?_⟩
  · have h1 : d.numDcGroups = d.ysizeDcGroups * d.xsizeDcGroups := Nat.mul_comm ..
    rw [h1]
    have : (b / 8 + 1) * d.xsizeDcGroups ≤ d.ysizeDcGroups * d.xsizeDcGroups := Nat.mul_le_mul_right _ dy
    rw [Nat.add_mul] at this
    omega
  · intro x y hxy
    simp only [Rect.Has, Dims.blockGroupRect, Dims.dcGroupRect, Rect.clamped, m1, m2, e, hgx, hgy] at hxy ⊢
    rw [e0]
    rw [clamped_eq _ _ _ gx, clamped_eq _ _ _ gy] at hxy
    rw [clamped_eq _ _ _ (by omega), clamped_eq _ _ _ (by omega)]
    omega

/-- A 1000 × 601 frame with 4:2:0 chroma: 4 × 3 groups of 256 pixels, 126 × 76 blocks, one DC group. -/
example : let d := set 1000 601 1 1 1 false 1
    d.numGroups = 12 ∧ d.numDcGroups = 1 ∧ d.xsizeBlocks = 126 ∧ d.ysizeBlocks = 76 ∧ d.groupRect 11 = ⟨768, 512, 232, 89⟩ ∧
    ValidDims 1000 601 1 1 1 1 := by
  refine ⟨by decide, by decide, by decide, by decide, by decide, ⟨?_, ?_, ?_, ?_, ?_⟩⟩ <;> omega

end Jxl.Props
