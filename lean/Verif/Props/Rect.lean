import Verif.Lemmas.Rect
/-!
# Properties: rectangles
-/
namespace Jxl.Props
open Jxl.Rects
open Jxl.Stream (Out)

/-- **C78 (intersection).** The intersection of two rectangles has exactly the pixels of both; it may be empty.

Partial: positions and sizes are at most 2^60, see `C78_intersection_wraps`. -/
theorem C78_intersection_partial {k : Kind} {a b : Rect} (ha : a.Ok k) (hb : b.Ok k) : ∃ r, a.inter k b = .ok r ∧ r.Ok k ∧ ∀ p q, r.Has p q ↔ a.Has p q ∧ b.Has p q := by
  obtain ⟨x, x1, x2, _, x3⟩ := inter_seg ha.1 hb.1
  obtain ⟨y, y1, y2, _, y3⟩ := inter_seg ha.2 hb.2
  refine ⟨⟨x, y⟩, by rw [Rect.inter, x1, y1]; rfl, ⟨x2, y2⟩, fun p q => ?_⟩
  unfold Rect.Has
  rw [x3, y3]
  exact ⟨fun ⟨⟨a, b⟩, c, d⟩ => ⟨⟨a, c⟩, b, d⟩, fun ⟨⟨a, c⟩, b, d⟩ => ⟨⟨a, b⟩, c, d⟩⟩

/-- **C78 (cropping).** Cropping to an image leaves exactly the pixels within it. -/
theorem C78_crop_partial {k : Kind} {a : Rect} (ha : a.Ok k) {w h : Nat} (hw : w ≤ 2 ^ 60) (hh : h ≤ 2 ^ 60) :
    ∃ r, a.crop k w h = .ok r ∧ ∀ p q, r.Has p q ↔ a.Has p q ∧ (0 ≤ p ∧ p < w) ∧ 0 ≤ q ∧ q < h := by
  obtain ⟨r, r1, _, r2⟩ := C78_intersection_partial (b := ⟨⟨0, w⟩, ⟨0, h⟩⟩) ha ⟨⟨fun _ => Int.le_refl 0, (by decide : (-2 ^ 60 : Int) ≤ 0), (by decide : (0 : Int) ≤ 2 ^ 60), hw⟩, ⟨fun _ => Int.le_refl 0, (by decide : (-2 ^ 60 : Int) ≤ 0), (by decide : (0 : Int) ≤ 2 ^ 60), hh⟩⟩
  refine ⟨r, r1, fun p q => ?_⟩
  rw [r2]
  unfold Rect.Has Seg.Has
  dsimp only
  rw [Int.zero_add, Int.zero_add]

/-- **C78 (inside).** A rectangle with pixels is inside another one if and only if all its pixels are. -/
theorem C78_inside_partial {k : Kind} {a b : Rect} (ha : a.Ok k) (hb : b.Ok k) (h0 : 0 < a.x.len ∧ 0 < a.y.len) : a.isInside k b = true ↔ ∀ p q, a.Has p q → b.Has p q := by
  unfold Rect.isInside
  rw [Bool.and_eq_true, inside_seg ha.1 hb.1, inside_seg ha.2 hb.2, inside_has h0.1, inside_has h0.2]
  constructor
  · exact fun ⟨h1, h2⟩ p q ⟨h3, h4⟩ => ⟨h1 p h3, h2 q h4⟩
  · intro h
    have hx : a.x.Has a.x.x0 := ⟨Int.le_refl _, by omega⟩
    have hy : a.y.Has a.y.x0 := ⟨Int.le_refl _, by omega⟩
    exact ⟨fun p hp => (h p _ ⟨hp, hy⟩).1, fun q hq => (h _ q ⟨hx, hq⟩).2⟩

/-- **C78 (translation).** A rectangle is moved by the offset, if that does not take it below zero for unsigned positions. -/
theorem C78_translate_partial {k : Kind} {a : Rect} (ha : a.Ok k) {dx dy : Int} (hx : -2 ^ 60 ≤ dx ∧ dx ≤ 2 ^ 60) (hy : -2 ^ 60 ≤ dy ∧ dy ≤ 2 ^ 60)
    (h0 : k = .unsigned → 0 ≤ a.x.x0 + dx ∧ 0 ≤ a.y.x0 + dy) : ∃ r, a.translate k dx dy = .ok r ∧ ∀ p q, r.Has (p + dx) (q + dy) ↔ a.Has p q := by
  obtain ⟨x, x1, _, x2⟩ := translate_seg ha.1 hx fun e => (h0 e).1
  obtain ⟨y, y1, _, y2⟩ := translate_seg ha.2 hy fun e => (h0 e).2
  exact ⟨⟨x, y⟩, by rw [Rect.translate, x1, y1]; rfl, fun p q => by unfold Rect.Has; rw [x2, y2]⟩

/-- **C78 (extension).** A rectangle inside a parent is extended to exactly the pixels of the parent at most `border` away from it in both directions. -/
theorem C78_extend_partial {k : Kind} {a b : Rect} (ha : a.Ok k) (hb : b.Ok k) (hi : a.isInside k b = true) {r : Int} (hr : 0 ≤ r ∧ r ≤ 2 ^ 60) :
    ∃ e, a.extend k r b = .ok e ∧ ∀ p q, e.Has p q ↔ b.Has p q ∧ (a.x.x0 - r ≤ p ∧ p < a.x.x0 + a.x.len + r) ∧ a.y.x0 - r ≤ q ∧ q < a.y.x0 + a.y.len + r := by
  unfold Rect.isInside at hi
  rw [Bool.and_eq_true, inside_seg ha.1 hb.1, inside_seg ha.2 hb.2] at hi
  obtain ⟨x, x1, x2⟩ := extend_seg ha.1 hb.1 hi.1 hr
  obtain ⟨y, y1, y2⟩ := extend_seg ha.2 hb.2 hi.2 hr
  refine ⟨⟨x, y⟩, by rw [Rect.extend, x1, y1]; rfl, fun p q => ?_⟩
  unfold Rect.Has
  rw [x2, y2]
  exact ⟨fun ⟨⟨a, b⟩, c, d⟩ => ⟨⟨a, c⟩, b, d⟩, fun ⟨⟨a, c⟩, b, d⟩ => ⟨⟨a, b⟩, c, d⟩⟩

/-- **C78 (upsampling).** A rectangle enlarged by powers of two has exactly the pixels that come from its own, and reducing it again gives it back. -/
theorem C78_shift_partial {k : Kind} {a : Rect} {m n : Nat} (hm : m < 31) (hn : n < 31) (h0 : k = .unsigned → 0 ≤ a.x.x0 ∧ 0 ≤ a.y.x0)
    (hx : -2 ^ 30 ≤ a.x.x0 ∧ a.x.x0 ≤ 2 ^ 30 ∧ a.x.len ≤ 2 ^ 30) (hy : -2 ^ 30 ≤ a.y.x0 ∧ a.y.x0 ≤ 2 ^ 30 ∧ a.y.len ≤ 2 ^ 30) :
    ∃ r, a.shiftLeft k m n = .ok r ∧ r.ceilShiftRight m n = .ok a ∧ ∀ p q, r.Has p q ↔ a.Has (p / 2 ^ m) (q / 2 ^ n) := by
  obtain ⟨x, x1, x2, x3⟩ := shift_seg (k := k) hm ⟨fun e => (h0 e).1, hx⟩
  obtain ⟨y, y1, y2, y3⟩ := shift_seg (k := k) hn ⟨fun e => (h0 e).2, hy⟩
  exact ⟨⟨x, y⟩, by rw [Rect.shiftLeft, x1, y1]; rfl, by rw [Rect.ceilShiftRight, x2, y2]; rfl, fun p q => by unfold Rect.Has; rw [x3, y3]⟩

/-- **C78 (downsampling).** A rectangle that starts at multiples of the factors is reduced to exactly the pixels that some of its pixels fall on; others are refused. -/
theorem C78_ceil_partial {a : Rect} {m n : Nat} (hm : m < 31) (hn : n < 31) (hl : a.x.len ≤ 2 ^ 60 ∧ a.y.len ≤ 2 ^ 60) :
    (a.x.x0 % 2 ^ m = 0 ∧ a.y.x0 % 2 ^ n = 0 → ∃ r, a.ceilShiftRight m n = .ok r ∧ ∀ p q, r.Has p q ↔ ∃ u v, a.Has u v ∧ u / 2 ^ m = p ∧ v / 2 ^ n = q) ∧
      (¬ (a.x.x0 % 2 ^ m = 0 ∧ a.y.x0 % 2 ^ n = 0) → a.ceilShiftRight m n = .bad) := by
  constructor
  · rintro ⟨h1, h2⟩
    obtain ⟨x, x1, x2⟩ := ceil_seg hm hl.1 h1
    obtain ⟨y, y1, y2⟩ := ceil_seg hn hl.2 h2
    refine ⟨⟨x, y⟩, by rw [Rect.ceilShiftRight, x1, y1]; rfl, fun p q => ?_⟩
    unfold Rect.Has
    rw [x2, y2]
    exact ⟨fun ⟨⟨u, a, b⟩, v, c, d⟩ => ⟨u, v, ⟨a, c⟩, b, d⟩, fun ⟨u, v, ⟨a, c⟩, b, d⟩ => ⟨⟨u, a, b⟩, v, c, d⟩⟩
  · intro h
    rw [Rect.ceilShiftRight]
    by_cases h1 : a.x.x0 % 2 ^ m = 0
    · obtain ⟨x, x1, _⟩ := ceil_seg hm hl.1 h1
      rw [x1, Seg.ceilShiftRight, if_pos hn, if_neg fun h2 => h ⟨h1, h2⟩]
      rfl
    · rw [Seg.ceilShiftRight, if_pos hm, if_neg h1]
      rfl

/-- **C78, what does not hold:** close to the largest number the addition in the intersection wraps around, and two rectangles that have no pixel in common have a large intersection. -/
theorem C78_intersection_wraps : ∃ a b r : Rect, (∀ p q, ¬ (a.Has p q ∧ b.Has p q)) ∧ a.x.x0 + a.x.len < 2 ^ 64 ∧ b.x.x0 + b.x.len < 2 ^ 64 ∧ a.inter .unsigned b = .ok r ∧ r.x.len = 10 ∧ r.y.len = 10 :=
  ⟨⟨⟨0, 10⟩, ⟨0, 10⟩⟩, ⟨⟨2 ^ 64 - 5, 4⟩, ⟨0, 10⟩⟩, ⟨⟨2 ^ 64 - 5, 10⟩, ⟨0, 10⟩⟩, fun p q h => by
    obtain ⟨⟨⟨_, h1⟩, _⟩, ⟨⟨h2, _⟩, _⟩⟩ := h
    dsimp only at h1 h2
    omega, by decide, by decide, rfl, rfl, rfl⟩

/-! A rectangle that sticks out of an image of 100 by 50 pixels on two sides. -/

def outRect : Rect := ⟨⟨-8, 40⟩, ⟨32, 24⟩⟩

theorem outRect_ok : outRect.Ok .signed := ⟨⟨(fun e => nomatch e), by decide, by decide, by decide⟩, ⟨(fun e => nomatch e), by decide, by decide, by decide⟩⟩

example : outRect.crop .signed 100 50 = .ok ⟨⟨0, 32⟩, ⟨32, 18⟩⟩ := rfl
example : (⟨⟨64, 64⟩, ⟨0, 50⟩⟩ : Rect).extend .unsigned 8 ⟨⟨0, 130⟩, ⟨0, 50⟩⟩ = .ok ⟨⟨56, 74⟩, ⟨0, 50⟩⟩ := rfl
example : (⟨⟨64, 64⟩, ⟨0, 50⟩⟩ : Rect).isInside .unsigned ⟨⟨0, 130⟩, ⟨0, 50⟩⟩ = true := by decide
example : (⟨⟨64, 65⟩, ⟨0, 50⟩⟩ : Rect).ceilShiftRight 3 2 = .ok ⟨⟨8, 9⟩, ⟨0, 13⟩⟩ := rfl
example : outRect.translate .signed 10 (-40) = .ok ⟨⟨2, 40⟩, ⟨-8, 24⟩⟩ := rfl
example : outRect.shiftLeft .signed 3 0 = .ok ⟨⟨-64, 320⟩, ⟨32, 24⟩⟩ := rfl

end Jxl.Props
