import Verif.Lemmas.Orientation
/-!
# C37: the orientation is undone exactly
-/
namespace Jxl.Props
open Orient

/-- A call for the pixels `xpos .. xpos + xsize` of row `ypos` of the image. -/
def rowCall {α : Type} (o : Nat) (i : Img α) (c : Nat × Nat × Nat) : List ((Nat × Nat) × α) :=
  processRow o i.w i.h (fun k => i.at_ (c.2.1 + k) c.2.2) c.1 c.2.1 c.2.2

/-- **C37, dimensions.**  The reported size is the size of the image shown. -/
theorem C37_dimensions {α : Type} (o : Nat) (ho : 1 ≤ o ∧ o ≤ 8) (i : Img α) :
    (i.shown o).w = orientedX o i.w i.h ∧ (i.shown o).h = orientedY o i.w i.h := shown_dims o ho i

/-- **C37, pixels.**  Whatever the sequence of row segments `(xsize, xpos, ypos)` handed to the output stage (any order, any overlap, segments may
stick out of the image), if together they cover the image, the output is exactly the image shown, and nothing is written outside of it. -/
theorem C37_output {α : Type} (o : Nat) (ho : 1 ≤ o ∧ o ≤ 8) (i : Img α) (calls : List (Nat × Nat × Nat))
    (hc : ∀ x < i.w, ∀ y < i.h, ∃ c ∈ calls, c.2.2 = y ∧ c.2.1 ≤ x ∧ x < c.2.1 + c.1) (X Y : Nat) :
    canvas (calls.flatMap (rowCall o i)) (X, Y) =
      if X < (i.shown o).w ∧ Y < (i.shown o).h then some ((i.shown o).at_ X Y) else none := by
  have key : ∀ w ∈ calls.flatMap (rowCall o i), ∃ x < i.w, ∃ y < i.h, w = (place o i.w i.h x y, i.at_ x y) := by
    intro w hw
    obtain ⟨c, _, hw⟩ := List.mem_flatMap.1 hw
    obtain ⟨h1, k, _, h3, h4⟩ := (mem_processRow _ _ _ _ _ _ _ _).1 hw
    exact ⟨_, h3, _, h1, h4⟩
  have hval : ∀ w ∈ calls.flatMap (rowCall o i), w.2 = (fun p : Nat × Nat => (i.shown o).at_ p.1 p.2) w.1 := by
    intro w hw
    obtain ⟨x, hx, y, hy, rfl⟩ := key w hw
    exact (shown_place o ho i x y hx hy).symm
  have hcv := canvas_eq (calls.flatMap (rowCall o i)) (fun p : Nat × Nat => (i.shown o).at_ p.1 p.2) hval (X, Y)
  rw [(shown_dims o ho i).1, (shown_dims o ho i).2]
  by_cases hin : X < orientedX o i.w i.h ∧ Y < orientedY o i.w i.h
  · rw [if_pos hin]
    apply hcv.1
    obtain ⟨x, y, hx, hy, e⟩ := place_surj o ho i.w i.h X Y hin.1 hin.2
    obtain ⟨c, hcm, rfl, h2, h3⟩ := hc x hx y hy
    refine List.mem_map.2 ⟨(place o i.w i.h x c.2.2, i.at_ x c.2.2), List.mem_flatMap.2 ⟨c, hcm, ?_⟩, e⟩
    refine (mem_processRow _ _ _ _ _ _ _ _).2 ⟨hy, x - c.2.1, by omega, by omega, ?_⟩
    rw [show c.2.1 + (x - c.2.1) = x by omega]
  · rw [if_neg hin]
    apply hcv.2
    intro hm
    obtain ⟨w, hw, e⟩ := List.mem_map.1 hm
    obtain ⟨x, hx, y, hy, rfl⟩ := key w hw
    have := place_lt o ho i.w i.h x y hx hy
    rw [show place o i.w i.h x y = (X, Y) from e] at this
    exact hin this

/-- **C37, bijection.**  Different pixels go to different positions. -/
theorem C37_injective (o : Nat) (ho : 1 ≤ o ∧ o ≤ 8) (w h x y x' y' : Nat) (hx : x < w) (hy : y < h) (hx' : x' < w) (hy' : y' < h)
    (e : place o w h x y = place o w h x' y') : x = x' ∧ y = y' := by
  have h1 := shown_place o ho ⟨w, h, fun x y => (x, y)⟩ x y hx hy
  have h2 := shown_place o ho ⟨w, h, fun x y => (x, y)⟩ x' y' hx' hy'
  simp only at h1 h2
  rw [e, h2] at h1
  simp only [Prod.mk.injEq] at h1
  exact ⟨h1.1.symm, h1.2.symm⟩

/-- **C37, memory.**  In a buffer with rows of `stride` bytes that hold the image shown, every pixel lies inside the buffer and two pixels do not
overlap. -/
theorem C37_buffer (o stride ps size w h : Nat) (hs : orientedX o w h * ps ≤ stride) (hb : (orientedY o w h - 1) * stride + orientedX o w h * ps ≤ size)
    (X Y X' Y' : Nat) (hX : X < orientedX o w h) (hY : Y < orientedY o w h) (hX' : X' < orientedX o w h)
    (hne : (X, Y) ≠ (X', Y')) :
    offset stride ps (X, Y) + ps ≤ size ∧
      (offset stride ps (X, Y) + ps ≤ offset stride ps (X', Y') ∨ offset stride ps (X', Y') + ps ≤ offset stride ps (X, Y)) := by
  unfold offset
  simp only
  generalize orientedX o w h = W at *
  generalize orientedY o w h = H at *
  have hrow : ∀ a, a < W → (a + 1) * ps ≤ W * ps := fun a ha => Nat.mul_le_mul_right _ ha
  have h1 := hrow X hX
  have h2 := hrow X' hX'
  have h3 : Y * stride ≤ (H - 1) * stride := Nat.mul_le_mul_right _ (by omega)
  rw [Nat.add_mul, Nat.one_mul] at h1 h2
  refine ⟨by omega, ?_⟩
  rcases Nat.lt_trichotomy Y Y' with hlt | heq | hgt
  · have := Nat.mul_le_mul_right stride hlt
    rw [Nat.succ_mul] at this
    left; omega
  · subst heq
    rcases Nat.lt_trichotomy X X' with hlt | heq | hgt
    · have := Nat.mul_le_mul_right ps hlt
      rw [Nat.succ_mul] at this
      left; omega
    · subst heq; exact absurd rfl hne
    · have := Nat.mul_le_mul_right ps hgt
      rw [Nat.succ_mul] at this
      right; omega
  · have := Nat.mul_le_mul_right stride hgt
    rw [Nat.succ_mul] at this
    right; omega

/-- **C37, second implementation.**  The conversion of decoded images to external buffers does the same, for rows processed in any order. -/
theorem C37_external {α : Type} (o : Nat) (ho : 2 ≤ o ∧ o ≤ 8) (i : Img α) (ys : List Nat) (hys : ∀ y, y ∈ ys ↔ y < i.h) (X Y : Nat) :
    canvas (externalWrites o i.w i.h i.at_ ys) (X, Y) =
      if X < (i.shown o).w ∧ Y < (i.shown o).h then some ((i.shown o).at_ X Y) else none := by
  have ho' : 1 ≤ o ∧ o ≤ 8 := by omega
  have key : ∀ w, w ∈ externalWrites o i.w i.h i.at_ ys ↔ ∃ x < i.w, ∃ y < i.h, w = (place o i.w i.h x y, i.at_ x y) := by
    intro w
    simp only [externalWrites, List.mem_flatMap, List.mem_filterMap, List.mem_range, externalPos_eq o ho, Option.map_some, Option.some.injEq, hys]
    constructor
    · rintro ⟨y, hy, x, hx, rfl⟩; exact ⟨x, hx, y, hy, rfl⟩
    · rintro ⟨x, hx, y, hy, rfl⟩; exact ⟨y, hy, x, hx, rfl⟩
  have hval : ∀ w ∈ externalWrites o i.w i.h i.at_ ys, w.2 = (fun p : Nat × Nat => (i.shown o).at_ p.1 p.2) w.1 := by
    intro w hw
    obtain ⟨x, hx, y, hy, rfl⟩ := (key w).1 hw
    exact (shown_place o ho' i x y hx hy).symm
  have hcv := canvas_eq (externalWrites o i.w i.h i.at_ ys) (fun p : Nat × Nat => (i.shown o).at_ p.1 p.2) hval (X, Y)
  rw [(shown_dims o ho' i).1, (shown_dims o ho' i).2]
  by_cases hin : X < orientedX o i.w i.h ∧ Y < orientedY o i.w i.h
  · rw [if_pos hin]
    obtain ⟨x, y, hx, hy, e⟩ := place_surj o ho' i.w i.h X Y hin.1 hin.2
    exact hcv.1 (List.mem_map.2 ⟨_, (key _).2 ⟨x, hx, y, hy, rfl⟩, e⟩)
  · rw [if_neg hin]
    apply hcv.2
    intro hm
    obtain ⟨w, hw, e⟩ := List.mem_map.1 hm
    obtain ⟨x, hx, y, hy, rfl⟩ := (key w).1 hw
    have := place_lt o ho' i.w i.h x y hx hy
    rw [show place o i.w i.h x y = (X, Y) from e] at this
    exact hin this

/-- A 3x2 image `abc/def` turned by orientation 6: `da/eb/fc`, delivered in two segments per row. -/
def orientImg : Img Char := ⟨3, 2, fun x y => if y = 0 then (if x = 0 then 'a' else if x = 1 then 'b' else 'c') else (if x = 0 then 'd' else if x = 1 then 'e' else 'f')⟩
def orientCalls : List (Nat × Nat × Nat) := [(2, 0, 1), (5, 2, 0), (2, 0, 0), (1, 2, 1)]

example : ∀ x < orientImg.w, ∀ y < orientImg.h, ∃ c ∈ orientCalls, c.2.2 = y ∧ c.2.1 ≤ x ∧ x < c.2.1 + c.1 := by decide

example : [(0, 0), (1, 0), (0, 1), (1, 1), (0, 2), (1, 2), (2, 0)].map (canvas (orientCalls.flatMap (rowCall 6 orientImg))) =
    [some 'd', some 'a', some 'e', some 'b', some 'f', some 'c', none] := by
  have h := C37_output 6 (by decide) orientImg orientCalls (by decide)
  simp only [List.map_cons, List.map_nil, h]
  decide

end Jxl.Props
