import Verif.Spec.GroupBorder
import Verif.Lemmas.FrameDim
/-! # Group borders: geometry of the rectangles of one group -/
namespace Jxl.Border
open Jxl.FrameDim

/-- Cell `(i, j)` of the 3×3 grid lies in an index rectangle. -/
def idxHas (i j : Nat) (q : Nat × Nat × Nat × Nat) : Bool := decide (q.1 ≤ i ∧ i < q.2.1 ∧ q.2.2.1 ≤ j ∧ j < q.2.2.2)

def goodIdx (q : Nat × Nat × Nat × Nat) : Bool := decide (q.1 ≤ q.2.1 ∧ q.2.1 ≤ 3 ∧ q.2.2.1 ≤ q.2.2.2 ∧ q.2.2.2 ≤ 3)

/-- What the merging of rows into rectangles has to do, for all masks without gaps. -/
def segsOk (b00 b10 b20 b01 b21 b02 b12 b22 : Bool) : Bool :=
  match rowSeg b00 b10 b20, rowSeg b01 true b21, rowSeg b02 b12 b22 with
  | some s0, some s1, some s2 =>
    (idxRects s0 s1 s2).all goodIdx && decide ((idxRects s0 s1 s2).length ≤ 3) &&
    ((idxRects s0 s1 s2).countP (idxHas 0 0) == b00.toNat) && ((idxRects s0 s1 s2).countP (idxHas 1 0) == b10.toNat) &&
    ((idxRects s0 s1 s2).countP (idxHas 2 0) == b20.toNat) && ((idxRects s0 s1 s2).countP (idxHas 0 1) == b01.toNat) &&
    ((idxRects s0 s1 s2).countP (idxHas 1 1) == 1) && ((idxRects s0 s1 s2).countP (idxHas 2 1) == b21.toNat) &&
    ((idxRects s0 s1 s2).countP (idxHas 0 2) == b02.toNat) && ((idxRects s0 s1 s2).countP (idxHas 1 2) == b12.toNat) &&
    ((idxRects s0 s1 s2).countP (idxHas 2 2) == b22.toNat)
  | _, _, _ => false

theorem segs_all : ∀ b00 b10 b20 b01 b21 b02 b12 b22 : Bool, (b00 = true → b10 = true) → (b02 = true → b12 = true) →
    segsOk b00 b10 b20 b01 b21 b02 b12 b22 = true := by decide +kernel

theorem segs_spec (m : Nat → Nat → Bool) (h11 : m 1 1 = true) (h0 : m 0 0 = true → m 1 0 = true) (h2 : m 0 2 = true → m 1 2 = true) :
    ∃ s0 s1 s2, rowSeg (m 0 0) (m 1 0) (m 2 0) = some s0 ∧ rowSeg (m 0 1) (m 1 1) (m 2 1) = some s1 ∧
      rowSeg (m 0 2) (m 1 2) (m 2 2) = some s2 ∧ (∀ q ∈ idxRects s0 s1 s2, goodIdx q = true) ∧ (idxRects s0 s1 s2).length ≤ 3 ∧
      ∀ i j, i < 3 → j < 3 → (idxRects s0 s1 s2).countP (idxHas i j) = (m i j).toNat := by
  have h := segs_all (m 0 0) (m 1 0) (m 2 0) (m 0 1) (m 2 1) (m 0 2) (m 1 2) (m 2 2) h0 h2
  unfold segsOk at h
  rw [h11]
  split at h
  · rename_i s0 s1 s2 e0 e1 e2
    refine ⟨s0, s1, s2, e0, e1, e2, ?_⟩
    simp only [Bool.and_eq_true, List.all_eq_true, decide_eq_true_eq, beq_iff_eq] at h
    obtain ⟨⟨⟨⟨⟨⟨⟨⟨⟨⟨ha, hl⟩, h00⟩, h10⟩, h20⟩, h01⟩, h1⟩, h21⟩, h02⟩, h12⟩, h22⟩ := h
    refine ⟨ha, hl, ?_⟩
    intro i j hi hj
    match i, j, hi, hj with
    | 0, 0, _, _ => exact h00
    | 0, 1, _, _ => exact h01
    | 0, 2, _, _ => exact h02
    | 1, 0, _, _ => exact h10
    | 1, 1, _, _ => rw [h1, h11]; rfl
    | 1, 2, _, _ => exact h12
    | 2, 0, _, _ => exact h20
    | 2, 1, _, _ => exact h21
    | 2, 2, _, _ => exact h22
  · cases h

/-- A list of four non-decreasing positions. -/
structure Mono4 (l : List Nat) : Prop where
  len : l.length = 4
  mono : ∀ i j, i ≤ j → j < 4 → l.getD i 0 ≤ l.getD j 0

/-- The count of rectangles containing a pixel is the count of index rectangles containing its cell. -/
theorem append_count (xp yp : List Nat) (hx : Mono4 xp) (hy : Mono4 yp) :
    ∀ (qs : List (Nat × Nat × Nat × Nat)) (l : List Rect), (∀ q ∈ qs, goodIdx q = true) → l.length + qs.length ≤ 3 →
    ∃ rs, qs.foldl (appendRect xp yp) (some l) = some (l ++ rs) ∧ rs.length ≤ qs.length ∧
      (∀ r ∈ rs, 0 < r.xs ∧ 0 < r.ys ∧ r.x0 + r.xs ≤ xp.getD 3 0 ∧ r.y0 + r.ys ≤ yp.getD 3 0) ∧
      (∀ px py i j, i < 3 → j < 3 → xp.getD i 0 ≤ px → px < xp.getD (i + 1) 0 → yp.getD j 0 ≤ py → py < yp.getD (j + 1) 0 →
        rs.countP (fun r => decide (Has r px py)) = qs.countP (idxHas i j)) ∧
      (∀ px py, (px < xp.getD 0 0 ∨ xp.getD 3 0 ≤ px ∨ py < yp.getD 0 0 ∨ yp.getD 3 0 ≤ py) →
        rs.countP (fun r => decide (Has r px py)) = 0)
  | [], l, _, _ => ⟨[], by simp, Nat.le_refl _, by simp, by intros; rfl, by intros; rfl⟩
  | q :: qs, l, hq, hl => by
    have hg := hq q (List.mem_cons_self ..)
    unfold goodIdx at hg
    rw [decide_eq_true_eq] at hg
    obtain ⟨g1, g2, g3, g4⟩ := hg
    have gx : ∀ i, i < 4 → xp[i]? = some (xp.getD i 0) := by
      intro i hi
      rw [List.getD_eq_getElem?_getD, List.getElem?_eq_getElem (by rw [hx.len]; exact hi)]; rfl
    have gy : ∀ i, i < 4 → yp[i]? = some (yp.getD i 0) := by
      intro i hi
      rw [List.getD_eq_getElem?_getD, List.getElem?_eq_getElem (by rw [hy.len]; exact hi)]; rfl
    have mx := hx.mono q.1 q.2.1 g1 (by omega)
    have my := hy.mono q.2.2.1 q.2.2.2 g3 (by omega)
    have mx3 := hx.mono q.2.1 3 (by omega) (by omega)
    have my3 := hy.mono q.2.2.2 3 (by omega) (by omega)
    have mx0 := hx.mono 0 q.1 (by omega) (by omega)
    have my0 := hy.mono 0 q.2.2.1 (by omega) (by omega)
    simp only [List.length_cons] at hl
    have step : appendRect xp yp (some l) q = some (l ++ if xp.getD q.2.1 0 - xp.getD q.1 0 = 0 ∨ yp.getD q.2.2.2 0 - yp.getD q.2.2.1 0 = 0 then []
        else [⟨xp.getD q.1 0, yp.getD q.2.2.1 0, xp.getD q.2.1 0 - xp.getD q.1 0, yp.getD q.2.2.2 0 - yp.getD q.2.2.1 0⟩]) := by
      unfold appendRect
      simp only [gx q.1 (by omega), gx q.2.1 (by omega), gy q.2.2.1 (by omega), gy q.2.2.2 (by omega), Option.bind_some]
      rw [if_neg (by omega)]
      by_cases h : xp.getD q.2.1 0 - xp.getD q.1 0 = 0 ∨ yp.getD q.2.2.2 0 - yp.getD q.2.2.1 0 = 0
      · rw [if_pos h, if_pos h, List.append_nil]
      · rw [if_neg h, if_neg h, if_pos (by omega)]
    have cell : ∀ px py i j, i < 3 → j < 3 → xp.getD i 0 ≤ px → px < xp.getD (i + 1) 0 → yp.getD j 0 ≤ py → py < yp.getD (j + 1) 0 →
        (idxHas i j q = true ↔ (xp.getD q.1 0 ≤ px ∧ px < xp.getD q.2.1 0 ∧ yp.getD q.2.2.1 0 ≤ py ∧ py < yp.getD q.2.2.2 0)) := by
      intro px py i j hi hj a1 a2 b1 b2
      unfold idxHas
      rw [decide_eq_true_eq]
      constructor
      · rintro ⟨c1, c2, c3, c4⟩
        have := hx.mono q.1 i c1 (by omega)
        have := hx.mono (i + 1) q.2.1 c2 (by omega)
        have := hy.mono q.2.2.1 j c3 (by omega)
        have := hy.mono (j + 1) q.2.2.2 c4 (by omega)
        omega
      · rintro ⟨c1, c2, c3, c4⟩
        refine ⟨?_, ?_, ?_, ?_⟩
        · refine Nat.le_of_not_lt fun h => ?_
          have := hx.mono (i + 1) q.1 h (by omega); omega
        · refine Nat.lt_of_not_le fun h => ?_
          have := hx.mono q.2.1 i h (by omega); omega
        · refine Nat.le_of_not_lt fun h => ?_
          have := hy.mono (j + 1) q.2.2.1 h (by omega); omega
        · refine Nat.lt_of_not_le fun h => ?_
          have := hy.mono q.2.2.2 j h (by omega); omega
    by_cases h : xp.getD q.2.1 0 - xp.getD q.1 0 = 0 ∨ yp.getD q.2.2.2 0 - yp.getD q.2.2.1 0 = 0
    · rw [if_pos h, List.append_nil] at step
      obtain ⟨rs, e, hlen, hr, hc, ho⟩ := append_count xp yp hx hy qs l (fun q' hq' => hq q' (List.mem_cons_of_mem _ hq')) (by omega)
      refine ⟨rs, by rw [List.foldl_cons, step, e], by simp only [List.length_cons]; omega, hr, ?_, ho⟩
      intro px py i j hi hj a1 a2 b1 b2
      have : idxHas i j q ≠ true := by
        rw [Ne, cell px py i j hi hj a1 a2 b1 b2]; omega
      rw [List.countP_cons_of_neg this]
      exact hc px py i j hi hj a1 a2 b1 b2
    · rw [if_neg h] at step
      obtain ⟨rs, e, hlen, hr, hc, ho⟩ := append_count xp yp hx hy qs (l ++ [⟨xp.getD q.1 0, yp.getD q.2.2.1 0,
        xp.getD q.2.1 0 - xp.getD q.1 0, yp.getD q.2.2.2 0 - yp.getD q.2.2.1 0⟩]) (fun q' hq' => hq q' (List.mem_cons_of_mem _ hq'))
        (by simp only [List.length_append, List.length_cons, List.length_nil]; omega)
      refine ⟨⟨xp.getD q.1 0, yp.getD q.2.2.1 0, xp.getD q.2.1 0 - xp.getD q.1 0, yp.getD q.2.2.2 0 - yp.getD q.2.2.1 0⟩ :: rs,
        by rw [List.foldl_cons, step, e, List.append_assoc]; rfl, by simp only [List.length_cons]; omega, ?_, ?_, ?_⟩
      · intro r hr'
        rcases List.mem_cons.1 hr' with h' | h'
        · subst h'
          show 0 < xp.getD q.2.1 0 - xp.getD q.1 0 ∧ 0 < yp.getD q.2.2.2 0 - yp.getD q.2.2.1 0 ∧
            xp.getD q.1 0 + (xp.getD q.2.1 0 - xp.getD q.1 0) ≤ _ ∧ yp.getD q.2.2.1 0 + (yp.getD q.2.2.2 0 - yp.getD q.2.2.1 0) ≤ _
          omega
        · exact hr r h'
      · intro px py i j hi hj a1 a2 b1 b2
        have hcell := cell px py i j hi hj a1 a2 b1 b2
        rw [List.countP_cons, List.countP_cons, hc px py i j hi hj a1 a2 b1 b2]
        congr 1
        have : (decide (Has ⟨xp.getD q.1 0, yp.getD q.2.2.1 0, xp.getD q.2.1 0 - xp.getD q.1 0,
            yp.getD q.2.2.2 0 - yp.getD q.2.2.1 0⟩ px py)) = idxHas i j q := by
          rw [Bool.eq_iff_iff, hcell, decide_eq_true_eq]
          show (_ ∧ px < xp.getD q.1 0 + (xp.getD q.2.1 0 - xp.getD q.1 0) ∧ _ ∧ py < yp.getD q.2.2.1 0 + (yp.getD q.2.2.2 0 - yp.getD q.2.2.1 0)) ↔ _
          constructor
          · rintro ⟨a, b, c, d⟩
            have a : xp.getD q.1 0 ≤ px := a
            have c : yp.getD q.2.2.1 0 ≤ py := c
            omega
          · rintro ⟨a, b, c, d⟩
            exact ⟨a, by omega, c, by omega⟩
        rw [this]
      · intro px py hout
        rw [List.countP_cons, ho px py hout]
        rw [if_neg]
        rw [decide_eq_true_eq]
        intro hh
        obtain ⟨a, b, c, d⟩ := hh
        change px < xp.getD q.1 0 + (xp.getD q.2.1 0 - xp.getD q.1 0) at b
        change py < yp.getD q.2.2.1 0 + (yp.getD q.2.2.2 0 - yp.getD q.2.2.1 0) at d
        change xp.getD q.1 0 ≤ px at a
        change yp.getD q.2.2.1 0 ≤ py at c
        omega

/-- The rectangles of a group, in terms of its parts mask. -/
theorem collect_spec (xp yp : List Nat) (hx : Mono4 xp) (hy : Mono4 yp) (m : Nat → Nat → Bool) (h11 : m 1 1 = true)
    (h0 : m 0 0 = true → m 1 0 = true) (h2 : m 0 2 = true → m 1 2 = true) :
    ∃ rs, collect xp yp m = some rs ∧ rs.length ≤ 3 ∧
      (∀ r ∈ rs, 0 < r.xs ∧ 0 < r.ys ∧ r.x0 + r.xs ≤ xp.getD 3 0 ∧ r.y0 + r.ys ≤ yp.getD 3 0) ∧
      (∀ px py i j, i < 3 → j < 3 → xp.getD i 0 ≤ px → px < xp.getD (i + 1) 0 → yp.getD j 0 ≤ py → py < yp.getD (j + 1) 0 →
        rs.countP (fun r => decide (Has r px py)) = (m i j).toNat) ∧
      (∀ px py, (px < xp.getD 0 0 ∨ xp.getD 3 0 ≤ px ∨ py < yp.getD 0 0 ∨ yp.getD 3 0 ≤ py) →
        rs.countP (fun r => decide (Has r px py)) = 0) := by
  obtain ⟨s0, s1, s2, e0, e1, e2, hg, hl, hm⟩ := segs_spec m h11 h0 h2
  obtain ⟨rs, e, hlen, hr, hc, ho⟩ := append_count xp yp hx hy (idxRects s0 s1 s2) [] hg (by simpa using hl)
  refine ⟨rs, ?_, by omega, hr, ?_, ho⟩
  · unfold collect
    rw [e0, e1, e2]
    exact e
  · intro px py i j hi hj a1 a2 b1 b2
    rw [hc px py i j hi hj a1 a2 b1 b2, hm i j hi hj]

/-! ## One axis: zones of positions -/

/-- Zone of a position: `2c` when only column `c` is read around it, `2b - 1` when columns `b - 1` and `b` are. -/
def zone (gd pad n p : Nat) : Nat :=
  if p % gd < pad ∧ 0 < p / gd then 2 * (p / gd) - 1
  else if gd ≤ p % gd + pad ∧ p / gd + 1 < n then 2 * (p / gd) + 1
  else 2 * (p / gd)

/-- What the axis positions of column `c` must be. -/
structure AxisOk (size gd pad n : Nat) : Prop where
  gd8 : 8 ∣ gd
  pos : 0 < gd
  pad2 : 2 * pad ≤ gd
  n0 : 0 < n
  lo : (n - 1) * gd < size
  hi : size ≤ n * gd

theorem axis_spec {size gd pad n blocks : Nat} (h : AxisOk size gd pad n) (hb : size ≤ 8 * blocks) (c : Nat) (hc : c < n) :
    ∃ xp, axisPos (c * gd / 8) (c * gd / 8 + clampedSize (c * gd / 8) (gd / 8) blocks) size pad (n == c + 1) = some xp ∧ Mono4 xp ∧
      xp.getD 3 0 ≤ size ∧
      (∀ p i, p < size → i < 3 → ((xp.getD i 0 ≤ p ∧ p < xp.getD (i + 1) 0) ↔ 2 * c + i = zone gd pad n p + 1)) := by
  obtain ⟨k, rfl⟩ := h.gd8
  have hk : 0 < k := by have := h.pos; omega
  have e1 : c * (8 * k) / 8 = c * k := by
    rw [show c * (8 * k) = 8 * (c * k) by grind]; omega
  have e2 : 8 * k / 8 = k := by omega
  rw [e1, e2]
  have pad2 := h.pad2
  have hi := h.hi
  have lo := h.lo
  have cl : c * k + clampedSize (c * k) k blocks = min (c * k + k) (max (c * k) blocks) := by
    unfold clampedSize; split <;> (try split) <;> omega
  rw [cl]
  have c0 : c * k = 0 ↔ c = 0 := by
    constructor
    · intro hh
      rcases Nat.mul_eq_zero.1 hh with h' | h'
      · exact h'
      · omega
    · rintro rfl; omega
  have ck8 : c * k * 8 = c * (8 * k) := by grind
  have cB : c ≤ n - 1 := by omega
  have cle : c * (8 * k) ≤ (n - 1) * (8 * k) := Nat.mul_le_mul_right _ cB
  have clt : c * (8 * k) < size := by omega
  have cs : (c + 1) * (8 * k) = c * (8 * k) + 8 * k := Nat.succ_mul ..
  -- end of the column
  have hend : n ≠ c + 1 → c * (8 * k) + 8 * k < size := by
    intro hne
    have : (c + 1) * (8 * k) ≤ (n - 1) * (8 * k) := Nat.mul_le_mul_right _ (by omega)
    omega
  have hlast : n = c + 1 → size ≤ c * (8 * k) + 8 * k := by
    rintro rfl; omega
  have hblk : max (c * k) blocks = blocks := by omega
  rw [hblk]
  have mulk : k * 8 = 8 * k := Nat.mul_comm ..
  have e3 : n ≠ c + 1 → (min (c * k + k) blocks) * 8 = c * (8 * k) + 8 * k := by
    intro hne
    have := hend hne
    omega
  have e4 : size ≤ (min (c * k + k) blocks) * 8 ∨ n ≠ c + 1 := by
    by_cases hne : n = c + 1
    · have := hlast hne; left; omega
    · exact Or.inr hne
  generalize hX1 : (min (c * k + k) blocks) * 8 = X1 at *
  generalize hX0 : c * (8 * k) = X0 at *
  have pk : c ≠ 0 → 8 * k ≤ X0 := by
    intro hc0
    rw [← hX0]
    exact Nat.le_mul_of_pos_left _ (by omega)
  have hz : c = 0 → X0 = 0 := by rintro rfl; omega
  refine ⟨[if c * k = 0 then 0 else X0 - pad, if c * k = 0 then 0 else min size (X0 + pad),
    if n = c + 1 then size else X1 - pad, min size (X1 + pad)], ?_, ?_, ?_, ?_⟩
  · unfold axisPos
    rw [if_neg]
    · rw [ck8, hX1]
      by_cases hn : n = c + 1
      · simp [hn]
      · simp [hn]
    · rw [ck8, hX1, Ne, c0]
      simp only [beq_eq_false_iff_ne]
      rintro (⟨a, b⟩ | ⟨a, b⟩)
      · have := pk a; omega
      · have := e3 a; omega
  · refine ⟨rfl, ?_⟩
    intro i j hij hj
    have m01 : (if c * k = 0 then 0 else X0 - pad) ≤ (if c * k = 0 then 0 else min size (X0 + pad)) := by split <;> omega
    have m12 : (if c * k = 0 then 0 else min size (X0 + pad)) ≤ (if n = c + 1 then size else X1 - pad) := by
      by_cases hn : n = c + 1
      · rw [if_pos hn]; split <;> omega
      · rw [if_neg hn]
        have := e3 hn
        split
        · omega
        · have := hend hn; omega
    have m23 : (if n = c + 1 then size else X1 - pad) ≤ min size (X1 + pad) := by
      by_cases hn : n = c + 1
      · rw [if_pos hn]
        rcases e4 with h' | h'
        · omega
        · exact (h' hn).elim
      · rw [if_neg hn]
        have := e3 hn; have := hend hn; omega
    match i, j, hij, hj with
    | 0, 0, _, _ => exact Nat.le_refl _
    | 0, 1, _, _ => exact m01
    | 0, 2, _, _ => exact Nat.le_trans m01 m12
    | 0, 3, _, _ => exact Nat.le_trans (Nat.le_trans m01 m12) m23
    | 1, 1, _, _ => exact Nat.le_refl _
    | 1, 2, _, _ => exact m12
    | 1, 3, _, _ => exact Nat.le_trans m12 m23
    | 2, 2, _, _ => exact Nat.le_refl _
    | 2, 3, _, _ => exact m23
    | 3, 3, _, _ => exact Nat.le_refl _
    | i + 4, j, h1, h2 => omega
  · show min size (X1 + pad) ≤ size
    omega
  · intro p i hp hi3
    -- position relative to the column
    have hq : p = (p / (8 * k)) * (8 * k) + p % (8 * k) := by
      have := Nat.div_add_mod p (8 * k); rw [Nat.mul_comm] at this; omega
    have hr : p % (8 * k) < 8 * k := Nat.mod_lt _ (by omega)
    generalize hQ : p / (8 * k) = Q at *
    generalize hR : p % (8 * k) = R at *
    have hQn : Q < n := by
      refine Nat.lt_of_not_le fun hh => ?_
      have : n * (8 * k) ≤ Q * (8 * k) := Nat.mul_le_mul_right _ hh
      omega
    have zdef : zone (8 * k) pad n p = if R < pad ∧ 0 < Q then 2 * Q - 1 else if 8 * k ≤ R + pad ∧ Q + 1 < n then 2 * Q + 1 else 2 * Q := by
      unfold zone; rw [hQ, hR]
    rw [zdef]
    -- compare Q with c
    have far1 : Q + 2 ≤ c → Q * (8 * k) + 2 * (8 * k) ≤ X0 := by
      intro hh
      have := Nat.mul_le_mul_right (8 * k) hh
      rw [Nat.add_mul, hX0] at this; omega
    have far2 : c + 2 ≤ Q → X0 + 2 * (8 * k) ≤ Q * (8 * k) := by
      intro hh
      have := Nat.mul_le_mul_right (8 * k) hh
      rw [Nat.add_mul, hX0] at this; omega
    have near1 : Q + 1 = c → Q * (8 * k) + 8 * k = X0 := by
      intro hh; rw [← hX0, ← hh]; exact (Nat.succ_mul ..).symm
    have near2 : c + 1 = Q → X0 + 8 * k = Q * (8 * k) := by
      intro hh; rw [← hX0, ← hh]; exact (Nat.succ_mul ..).symm
    have same : Q = c → Q * (8 * k) = X0 := by rintro rfl; exact hX0
    generalize hP : Q * (8 * k) = P at *
    rcases (by omega : i = 0 ∨ i = 1 ∨ i = 2) with rfl | rfl | rfl
    · show ((if c * k = 0 then 0 else X0 - pad) ≤ p ∧ p < (if c * k = 0 then 0 else min size (X0 + pad))) ↔ _
      by_cases h0 : c * k = 0
      · rw [if_pos h0, if_pos h0]
        have := c0.1 h0
        split <;> (try split) <;> omega
      · rw [if_neg h0, if_neg h0]
        have := mt c0.2 h0
        have := pk this
        rcases (by omega : Q + 2 ≤ c ∨ Q + 1 = c ∨ Q = c ∨ c + 1 = Q ∨ c + 2 ≤ Q) with h' | h' | h' | h' | h'
        · have := far1 h'; split <;> (try split) <;> omega
        · have := near1 h'; split <;> (try split) <;> omega
        · have := same h'; split <;> (try split) <;> omega
        · have := near2 h'; split <;> (try split) <;> omega
        · have := far2 h'; split <;> (try split) <;> omega
    · show ((if c * k = 0 then 0 else min size (X0 + pad)) ≤ p ∧ p < (if n = c + 1 then size else X1 - pad)) ↔ _
      have hlow : (if c * k = 0 then 0 else min size (X0 + pad)) = if c = 0 then 0 else min size (X0 + pad) := by
        by_cases h0 : c = 0
        · rw [if_pos h0, if_pos (c0.2 h0)]
        · rw [if_neg h0, if_neg (fun hh => h0 (c0.1 hh))]
      rw [hlow]
      by_cases hn : n = c + 1
      · rw [if_pos hn]
        have := hlast hn
        rcases (by omega : Q + 2 ≤ c ∨ Q + 1 = c ∨ Q = c) with h' | h' | h'
        · have := far1 h'; split <;> (try split) <;> (try split) <;> omega
        · have := near1 h'; split <;> (try split) <;> (try split) <;> omega
        · have := same h'; split <;> (try split) <;> (try split) <;> omega
      · rw [if_neg hn]
        have := hend hn
        have := e3 hn
        rcases (by omega : Q + 2 ≤ c ∨ Q + 1 = c ∨ Q = c ∨ c + 1 = Q ∨ c + 2 ≤ Q) with h' | h' | h' | h' | h'
        · have := far1 h'; split <;> (try split) <;> (try split) <;> omega
        · have := near1 h'; split <;> (try split) <;> (try split) <;> omega
        · have := same h'; split <;> (try split) <;> (try split) <;> omega
        · have := near2 h'; split <;> (try split) <;> (try split) <;> omega
        · have := far2 h'; split <;> (try split) <;> (try split) <;> omega
    · show ((if n = c + 1 then size else X1 - pad) ≤ p ∧ p < min size (X1 + pad)) ↔ _
      by_cases hn : n = c + 1
      · rw [if_pos hn]
        split <;> (try split) <;> omega
      · rw [if_neg hn]
        have := hend hn
        have := e3 hn
        rcases (by omega : Q + 2 ≤ c ∨ Q + 1 = c ∨ Q = c ∨ c + 1 = Q ∨ c + 2 ≤ Q) with h' | h' | h' | h' | h'
        · have := far1 h'; split <;> (try split) <;> omega
        · have := near1 h'; split <;> (try split) <;> omega
        · have := same h'; split <;> (try split) <;> omega
        · have := near2 h'; split <;> (try split) <;> omega
        · have := far2 h'; split <;> (try split) <;> omega

/-- The columns read around a position are those of its zone. -/
theorem zone_reach {size gd pad n : Nat} (h : AxisOk size gd pad n) {p : Nat} (hp : p < size) (c : Nat) :
    (∃ q, q < size ∧ q ≤ p + pad ∧ p ≤ q + pad ∧ q / gd = c) ↔
      c < n ∧ (2 * c = zone gd pad n p ∨ 2 * c + 1 = zone gd pad n p ∨ 2 * c = zone gd pad n p + 1) := by
  have pos := h.pos
  have pad2 := h.pad2
  have hi := h.hi
  have lo := h.lo
  have hq : p = (p / gd) * gd + p % gd := by
    have := Nat.div_add_mod p gd; rw [Nat.mul_comm] at this; omega
  have hr : p % gd < gd := Nat.mod_lt _ pos
  have hQn : p / gd < n := by
    refine Nat.lt_of_not_le fun hh => ?_
    have : n * gd ≤ p / gd * gd := Nat.mul_le_mul_right _ hh
    omega
  have nextIn : p / gd + 1 < n → p / gd * gd + gd < size := by
    intro hh
    have : (p / gd + 1) * gd ≤ (n - 1) * gd := Nat.mul_le_mul_right _ (by omega)
    rw [Nat.succ_mul] at this; omega
  unfold zone
  generalize hQ : p / gd = Q at *
  generalize hR : p % gd = R at *
  constructor
  · rintro ⟨q, hqs, h1, h2, rfl⟩
    have hq' : q = (q / gd) * gd + q % gd := by
      have := Nat.div_add_mod q gd; rw [Nat.mul_comm] at this; omega
    have hr' : q % gd < gd := Nat.mod_lt _ pos
    have hcn : q / gd < n := by
      refine Nat.lt_of_not_le fun hh => ?_
      have : n * gd ≤ q / gd * gd := Nat.mul_le_mul_right _ hh
      omega
    generalize q / gd = C at *
    generalize q % gd = S at *
    have far1 : Q + 2 ≤ C → Q * gd + 2 * gd ≤ C * gd := by
      intro hh
      have := Nat.mul_le_mul_right gd hh
      rw [Nat.add_mul] at this; omega
    have far2 : C + 2 ≤ Q → C * gd + 2 * gd ≤ Q * gd := by
      intro hh
      have := Nat.mul_le_mul_right gd hh
      rw [Nat.add_mul] at this; omega
    have near1 : Q + 1 = C → Q * gd + gd = C * gd := by
      rintro rfl; rw [Nat.succ_mul]
    have near2 : C + 1 = Q → C * gd + gd = Q * gd := by
      rintro rfl; rw [Nat.succ_mul]
    have same : Q = C → Q * gd = C * gd := by rintro rfl; rfl
    refine ⟨hcn, ?_⟩
    generalize Q * gd = P at *
    generalize C * gd = T at *
    rcases (by omega : Q + 2 ≤ C ∨ Q + 1 = C ∨ Q = C ∨ C + 1 = Q ∨ C + 2 ≤ Q) with h' | h' | h' | h' | h'
    · have := far1 h'; omega
    · have := near1 h'; split <;> (try split) <;> omega
    · have := same h'; split <;> (try split) <;> omega
    · have := near2 h'; split <;> (try split) <;> omega
    · have := far2 h'; omega
  · rintro ⟨hcn, hz⟩
    have div_of : ∀ q D r, q = D * gd + r → r < gd → q / gd = D := by
      intro q D r e hr
      rw [e, Nat.mul_comm, Nat.mul_add_div pos, Nat.div_eq_of_lt hr]; omega
    by_cases hc : c = Q
    · exact ⟨p, hp, by omega, by omega, by rw [hc]; exact hQ⟩
    · by_cases a : R < pad ∧ 0 < Q
      · rw [if_pos a] at hz
        have hcQ : c + 1 = Q := by omega
        have e : Q * gd = c * gd + gd := by rw [← hcQ, Nat.succ_mul]
        exact ⟨Q * gd - 1, by omega, by omega, by omega, div_of _ c (gd - 1) (by omega) (by omega)⟩
      · rw [if_neg a] at hz
        by_cases b : gd ≤ R + pad ∧ Q + 1 < n
        · rw [if_pos b] at hz
          have hcQ : c = Q + 1 := by omega
          have e : c * gd = Q * gd + gd := by rw [hcQ, Nat.succ_mul]
          have := nextIn b.2
          exact ⟨Q * gd + gd, by omega, by omega, by omega, div_of _ c 0 (by omega) (by omega)⟩
        · rw [if_neg b] at hz
          omega

end Jxl.Border
