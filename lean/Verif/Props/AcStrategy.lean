import Verif.Lemmas.AcStrategyWalk
/-!
# C48: layouts of transforms
-/
namespace Jxl.Props
open Jxl.AcStrategy Jxl.AcStrategy.Spec

/-- Whatever the lists contain, the decoder never stores outside the image. -/
theorem C48_safe (W H : Nat) (is444 : Bool) (r : Rect) (acs qs : List Int) (sharp : Nat → Nat → Int) (s : State) :
    decode W H is444 r acs qs sharp s ≠ .ub :=
  cells_no_ub _ _

/-- If the decoder accepts, the transforms it has stored tile the rectangle exactly, none crosses a group boundary,
their kinds are the first entries of the list in reading order, each carries its quantizer, and nothing outside the
rectangle has changed.  With subsampled chroma every transform is a single block.  The set of used kinds is exact. -/
theorem C48_accepted (W H : Nat) (is444 : Bool) (r : Rect) (acs qs : List Int) (sharp : Nat → Nat → Int)
    (s s' : State) (hf : ∀ x y, Inside r x y → s.layer x y = 255)
    (h : decode W H is444 r acs qs sharp s = .ok s') :
    ∃ bs, Tiling r bs ∧ Shows s'.layer bs ∧
      bs.map (fun b => (b.t : Int)) = acs.take bs.length ∧
      (∀ (i : Nat) (b : Varblock), bs[i]? = some b →
        ∃ q, qs[i]? = some q ∧ s'.qf b.x b.y = 1 + max 0 (min 255 q)) ∧
      (∀ x y, Inside r x y → s'.epf x y = sharp x y ∧ 0 ≤ sharp x y ∧ sharp x y < 8) ∧
      (∀ x y, ¬ Inside r x y → s'.layer x y = s.layer x y ∧ s'.qf x y = s.qf x y) ∧
      (∀ k, s'.used.testBit k = true ↔ s.used.testBit k = true ∨ ∃ b ∈ bs, b.t = k) ∧
      (is444 = false → ∀ b ∈ bs, b.cx = 1 ∧ b.cy = 1) := by
  obtain ⟨bs, hi⟩ := cells_inv hf _ [] [] _ _ rfl (inv_start is444 r acs qs sharp s) h
  refine ⟨bs, hi.tiling, hi.shows, hi.types, hi.quant, ?_, ?_, hi.used, hi.small⟩
  · intro x y ⟨h1, h2, h3, h4⟩
    have := hi.sharpOk (x - r.x0, y - r.y0) (mem_offsets.2 ⟨by dsimp only; omega, by dsimp only; omega⟩)
    dsimp only at this
    rwa [Nat.add_sub_cancel' h1, Nat.add_sub_cancel' h3] at this
  · intro x y hn
    refine ⟨hi.free x y fun b hb hc => hn (fits_inside (hi.fits b hb) hc), hi.quant0 x y fun b hb hc => ?_⟩
    have := fits_inside (hi.fits b hb) (fits_origin (hi.fits b hb))
    rw [hc.1, hc.2] at this
    exact hn this

/-- Every layout that tiles the rectangle is written as the kinds and quantizers in reading order, and reading what was
written, with anything behind it, restores the layout, the quantizers and the filter strengths. -/
theorem C48_round_trip (W H : Nat) (is444 : Bool) (r : Rect) (bs : List Varblock) (g : Layer)
    (qf sharp : Nat → Nat → Int) (s : State) (xs ys : List Int)
    (hW : r.x0 + r.w ≤ W) (hH : r.y0 + r.h ≤ H) (ht : Tiling r bs) (hg : Shows g bs)
    (hs : is444 = false → ∀ b ∈ bs, b.cx = 1 ∧ b.cy = 1)
    (hq : ∀ b ∈ bs, 1 ≤ qf b.x b.y ∧ qf b.x b.y ≤ 256)
    (hsh : ∀ x y, Inside r x y → 0 ≤ sharp x y ∧ sharp x y < 8)
    (hf : ∀ x y, Inside r x y → s.layer x y = 255) :
    encode r g qf = bs.map (fun b => ((b.t : Int), qf b.x b.y - 1)) ∧
      ∃ s', decode W H is444 r ((encode r g qf).map Prod.fst ++ xs) ((encode r g qf).map Prod.snd ++ ys) sharp s = .ok s' ∧
        (∀ x y, Inside r x y → s'.layer x y = g x y ∧ s'.epf x y = sharp x y) ∧
        (∀ b ∈ bs, s'.qf b.x b.y = qf b.x b.y) ∧
        (∀ x y, ¬ Inside r x y → s'.layer x y = s.layer x y ∧ s'.qf x y = s.qf x y) := by
  refine ⟨encode_tiling ht hg, ?_⟩
  obtain ⟨s', e, hi⟩ := cells_round_trip hW hH ht hg hs hq hsh hf rfl rfl _ [] _ rfl (rinv_start r bs g qf sharp s)
    (xs := xs) (ys := ys)
  have hor : ∀ b ∈ bs, (b.x - r.x0, b.y - r.y0) ∈ offsets r.w r.h := by
    intro b hb
    obtain ⟨h1, h2, h3, h4⟩ := fits_inside (ht.fits b hb) (fits_origin (ht.fits b hb))
    exact mem_offsets.2 ⟨by dsimp only; omega, by dsimp only; omega⟩
  refine ⟨s', e, ?_, fun b hb => hi.quant b hb (hor b hb), ?_⟩
  · intro x y hin
    obtain ⟨b, hb, hc⟩ := ht.covered x y hin
    refine ⟨hi.placed b hb (hor b hb) x y hc, ?_⟩
    obtain ⟨h1, h2, h3, h4⟩ := hin
    have := hi.sharpOk (x - r.x0, y - r.y0) (mem_offsets.2 ⟨by dsimp only; omega, by dsimp only; omega⟩)
    dsimp only at this
    rwa [Nat.add_sub_cancel' h1, Nat.add_sub_cancel' h3] at this
  · intro x y hn
    refine ⟨hi.others x y fun b hb _ hc => hn (fits_inside (ht.fits b hb) hc), hi.quant0 x y fun b hb hc => ?_⟩
    have := fits_inside (ht.fits b hb) (fits_origin (ht.fits b hb))
    rw [hc.1, hc.2] at this
    exact hn this

/-- In each group encoder and decoder visit the same blocks in the same order, namely the first blocks of the
transforms of the group; the decoder uses the colour tile of the first block; and the coefficients of these transforms
fill exactly the area of the group, which is at most 256 × 256. -/
theorem C48_visits (r gr : Rect) (bs : List Varblock) (g : Layer) (ht : Tiling r bs) (hg : Shows g bs)
    (hgr : IsGroup r gr) :
    Tiling gr (inGroup gr bs) ∧
      encVisits gr g = (inGroup gr bs).map (fun b => (b.x - gr.x0, b.y - gr.y0)) ∧
      decVisits gr g = some ((inGroup gr bs).map fun b => (b.x - gr.x0, b.y - gr.y0, (b.x - gr.x0) / 8)) ∧
      ((inGroup gr bs).map fun b => 64 * (b.cx * b.cy)).sum = 64 * (gr.w * gr.h) ∧
      64 * (gr.w * gr.h) ≤ 256 * 256 := by
  have ht' := tiling_group ht hgr
  have hg' := shows_group (gr := gr) hg
  refine ⟨ht', encVisits_eq ht' hg', ?_, ?_, ?_⟩
  · rw [decVisits_eq ht' hg', encVisits_eq ht' hg', List.map_map]
    rfl
  · rw [← tiling_area ht']
    generalize inGroup gr bs = l
    induction l with
    | nil => rfl
    | cons b l ih => simp only [List.map_cons, List.sum_cons, ih, Nat.mul_add]
  · obtain ⟨_, _, _, _, _, _, h7, h8⟩ := hgr
    have h1 : gr.w ≤ 32 := by omega
    have h2 : gr.h ≤ 32 := by omega
    have := Nat.mul_le_mul h1 h2
    omega

/-! A rectangle of 3 × 2 blocks with a 16x16 transform, and a 16x8 transform at its right; the list is read from the
third column of an image, and has entries left over. -/

/-- Nothing stored yet. -/
def acsStart : State := ⟨fun _ _ => 255, fun _ _ => 0, fun _ _ => 0, 0, 0⟩

/-- What is shown of a state: the bytes of a rectangle. -/
def acsBytes (w h : Nat) : Out State → Option (List (Nat × Int))
  | .ok s => some ((offsets w h).map fun c => (s.layer (2 + c.1) c.2, s.qf (2 + c.1) c.2))
  | _ => none

example : acsBytes 3 2 (decode 5 2 true ⟨2, 0, 3, 2⟩ [4, 6, 0] [300, 7, 1] (fun _ _ => 3) acsStart) =
    some [(9, 256), (8, 0), (13, 8), (8, 0), (8, 0), (12, 0)] := by decide +kernel
-- the 16x16 transform does not fit into the last column
example : acsBytes 3 2 (decode 5 2 true ⟨2, 0, 3, 2⟩ [6, 6, 4] [0, 0, 0] (fun _ _ => 3) acsStart) = none := by
  decide +kernel
-- a wide transform below a free block would overlap a tall one
example : acsBytes 3 2 (decode 5 2 true ⟨2, 0, 3, 2⟩ [0, 6, 0, 7] [0, 0, 0, 0] (fun _ _ => 3) acsStart) = none := by
  decide +kernel
-- with subsampled chroma only single blocks are allowed
example : acsBytes 3 2 (decode 5 2 false ⟨2, 0, 3, 2⟩ [4, 6, 0] [0, 7, 1] (fun _ _ => 3) acsStart) = none := by
  decide +kernel

/-- The layer of the first example. -/
def acsLayer : Layer := fun x y => if y = 0 then [9, 8, 13].getD (x - 2) 255 else [8, 8, 12].getD (x - 2) 255

theorem acs_tiling : Tiling ⟨2, 0, 3, 2⟩ [⟨2, 0, 4⟩, ⟨4, 0, 6⟩] where
  fits := by
    intro b hb
    simp only [List.mem_cons, List.not_mem_nil, or_false] at hb
    rcases hb with rfl | rfl <;> (unfold Fits; decide)
  sorted := by simp [Before]
  covered := by
    intro x y ⟨h1, h2, h3, h4⟩
    dsimp only at h1 h2 h3 h4
    by_cases hx : x < 4
    · exact ⟨⟨2, 0, 4⟩, by simp, by unfold Varblock.Covers Varblock.cx Varblock.cy; simp [CoeffOrder.coveredX, CoeffOrder.coveredY]; omega⟩
    · exact ⟨⟨4, 0, 6⟩, by simp, by unfold Varblock.Covers Varblock.cx Varblock.cy; simp [CoeffOrder.coveredX, CoeffOrder.coveredY]; omega⟩
  unique := by
    intro x y b hb b' hb' hc hc'
    simp only [List.mem_cons, List.not_mem_nil, or_false] at hb hb'
    unfold Varblock.Covers Varblock.cx Varblock.cy at hc hc'
    rcases hb with rfl | rfl <;> rcases hb' with rfl | rfl <;>
      simp [CoeffOrder.coveredX, CoeffOrder.coveredY] at hc hc' ⊢ <;> omega

theorem acs_shows : Shows acsLayer [⟨2, 0, 4⟩, ⟨4, 0, 6⟩] := by
  intro b hb x y hc
  simp only [List.mem_cons, List.not_mem_nil, or_false] at hb
  unfold Varblock.Covers Varblock.cx Varblock.cy at hc
  rcases hb with rfl | rfl <;> simp [CoeffOrder.coveredX, CoeffOrder.coveredY] at hc ⊢
  · have hx : x = 2 ∨ x = 3 := by omega
    have hy : y = 0 ∨ y = 1 := by omega
    rcases hx with rfl | rfl <;> rcases hy with rfl | rfl <;> decide
  · have hx : x = 4 := by omega
    have hy : y = 0 ∨ y = 1 := by omega
    rcases hy with rfl | rfl <;> subst hx <;> decide

example : encode ⟨2, 0, 3, 2⟩ acsLayer (fun _ _ => 8) = [(4, 7), (6, 7)] :=
  (C48_round_trip 5 2 true ⟨2, 0, 3, 2⟩ _ acsLayer (fun _ _ => 8) (fun _ _ => 3) acsStart [] [] (by decide)
    (by decide) acs_tiling acs_shows (by simp) (fun _ _ => by decide) (fun _ _ _ => by decide) (fun _ _ _ => rfl)).1

-- the walk over a group: with the rectangle at column 0 the decoder visits the two first blocks
example : decVisits ⟨0, 0, 3, 2⟩ (fun x y => acsLayer (x + 2) y) = some [(0, 0, 0), (2, 0, 0)] := by decide +kernel
-- a 256-pixel wide transform: the walk skips three colour tiles
example : decVisits ⟨0, 0, 32, 1⟩ (fun x _ => if x = 0 then 49 else 48) = some [(0, 0, 0)] := by decide +kernel
example : IsGroup ⟨0, 0, 40, 33⟩ ⟨32, 32, 8, 1⟩ := by unfold IsGroup; decide

end Jxl.Props
