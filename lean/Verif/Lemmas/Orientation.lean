import Verif.Model.Orientation
import Verif.Spec.Orientation
namespace Jxl.Orient
variable {α : Type}

theorem swap_length (l : List α) (i j : Nat) : (swap l i j).length = l.length := by
  unfold swap; split <;> simp

theorem swap_get (l : List α) (i j k : Nat) (hi : i < l.length) (hj : j < l.length) :
    (swap l i j)[k]? = if k = j then l[i]? else if k = i then l[j]? else l[k]? := by
  unfold swap
  rw [List.getElem?_eq_getElem hi, List.getElem?_eq_getElem hj]
  simp only [List.getElem?_set, List.length_set]
  by_cases h1 : k = j
  · subst h1; simp [hj]
  · by_cases h2 : k = i
    · subst h2; simp [hi, h1, Ne.symm h1]
    · simp [h1, h2, Ne.symm h1, Ne.symm h2]

theorem flipLoop_length (l : List α) (last k : Nat) : (flipLoop l last k).length = l.length := by
  induction k with
  | zero => rfl
  | succ k ih => rw [flipLoop, swap_length, ih]

theorem flipLoop_get (l : List α) (k : Nat) (hk : k ≤ l.length / 2) (j : Nat) (hj : j < l.length) :
    (flipLoop l (l.length - 1) k)[j]? = if j < k ∨ l.length - 1 - j < k then l[l.length - 1 - j]? else l[j]? := by
  induction k generalizing j with
  | zero => simp [flipLoop]
  | succ k ih =>
    have hk' : k ≤ l.length / 2 := by omega
    rw [flipLoop, swap_get _ _ _ _ (by rw [flipLoop_length]; omega) (by rw [flipLoop_length]; omega)]
    by_cases h1 : j = l.length - 1 - k
    · rw [if_pos h1, ih hk' k (by omega), if_neg (by omega), if_pos (by omega)]
      congr 1; omega
    · rw [if_neg h1]
      by_cases h2 : j = k
      · rw [if_pos h2, ih hk' _ (by omega), if_neg (by omega), if_pos (by omega), h2]
      · rw [if_neg h2, ih hk' _ hj]
        by_cases h3 : j < k ∨ l.length - 1 - j < k
        · rw [if_pos h3, if_pos (by omega)]
        · rw [if_neg h3, if_neg (by omega)]

theorem flipRow_eq (l : List α) : flipRow l = l.reverse := by
  apply List.ext_getElem?
  intro j
  by_cases hj : j < l.length
  · rw [flipRow, flipLoop_get _ _ (Nat.le_refl _) _ hj, List.getElem?_reverse hj]
    split
    · rfl
    · congr 1; omega
  · rw [List.getElem?_eq_none (by rw [flipRow, flipLoop_length]; omega), List.getElem?_eq_none (by rw [List.length_reverse]; omega)]

/-- Position of the pixel `(x, y)` (row already flipped) in the output. -/
def place (o width height x y : Nat) : Nat × Nat :=
  let x' := if shouldFlipX o then width - 1 - x else x
  let y' := if shouldFlipY o then height - 1 - y else y
  if shouldTranspose o then (y', x') else (x', y')

theorem mem_writeToOutput (o ypos xstart : Nat) (px : List α) (w : (Nat × Nat) × α) :
    w ∈ writeToOutput o ypos xstart px ↔
      ∃ i, px[i]? = some w.2 ∧ w.1 = if shouldTranspose o then (ypos, xstart + i) else (xstart + i, ypos) := by
  unfold writeToOutput
  rw [List.mem_mapIdx]
  constructor
  · rintro ⟨i, hi, rfl⟩
    exact ⟨i, by simp [hi], rfl⟩
  · rintro ⟨i, h1, h2⟩
    obtain ⟨hi, e⟩ := List.getElem?_eq_some_iff.1 h1
    exact ⟨i, hi, by rw [e, ← h2]⟩

theorem mem_outputBuffers (o width height y xstart n : Nat) (row : Nat → α) (hn : xstart + n ≤ width) (w : (Nat × Nat) × α) :
    w ∈ outputBuffers o width (if shouldFlipY o then height - 1 - y else y) xstart ((List.range n).map row) ↔
      ∃ i < n, w = (place o width height (xstart + i) y, row i) := by
  obtain ⟨p, v⟩ := w
  unfold outputBuffers
  by_cases hf : shouldFlipX o = true
  · rw [if_pos hf, mem_writeToOutput, flipRow_eq]
    simp only [List.length_map, List.length_range, place, if_pos hf, Prod.mk.injEq]
    constructor
    · rintro ⟨i, h1, h2⟩
      have hi : i < n := by
        have := (List.getElem?_eq_some_iff.1 h1).1
        simpa using this
      rw [List.getElem?_reverse (by simpa using hi)] at h1
      simp only [List.length_map, List.length_range] at h1
      rw [List.getElem?_map, List.getElem?_range (by omega)] at h1
      refine ⟨n - 1 - i, by omega, ?_, (by simpa using h1.symm)⟩
      have e : width - xstart - n + i = width - 1 - (xstart + (n - 1 - i)) := by omega
      rw [h2, e]
    · rintro ⟨i, hi, h1, h2⟩
      refine ⟨n - 1 - i, ?_, ?_⟩
      · rw [List.getElem?_reverse (by simp; omega)]
        simp only [List.length_map, List.length_range]
        rw [List.getElem?_map, List.getElem?_range (by omega), show n - 1 - (n - 1 - i) = i by omega, h2]
        rfl
      · have e : width - xstart - n + (n - 1 - i) = width - 1 - (xstart + i) := by omega
        rw [h1, e]
  · rw [if_neg hf, mem_writeToOutput]
    simp only [place, if_neg hf, Prod.mk.injEq]
    constructor
    · rintro ⟨i, h1, h2⟩
      have hi : i < n := by
        have := (List.getElem?_eq_some_iff.1 h1).1
        simpa using this
      rw [List.getElem?_map, List.getElem?_range hi] at h1
      exact ⟨i, hi, h2, by simpa using h1.symm⟩
    · rintro ⟨i, hi, h1, h2⟩
      exact ⟨i, by rw [List.getElem?_map, List.getElem?_range hi, h2]; rfl, h1⟩

theorem mem_chunkLoop (o width height y xpos : Nat) (row : Nat → α) (limit x0 : Nat) (hl : xpos + limit ≤ width) (w : (Nat × Nat) × α) :
    w ∈ chunkLoop o width (if shouldFlipY o then height - 1 - y else y) xpos row limit x0 ↔
      ∃ i, x0 ≤ i ∧ i < limit ∧ w = (place o width height (xpos + i) y, row i) := by
  induction hm : limit - x0 using Nat.strongRecOn generalizing x0 with
  | _ m ih =>
    have hk : 0 < kChunkSize := by decide
    rw [chunkLoop]
    by_cases h : x0 < limit
    · rw [if_pos h, List.mem_append, ih (limit - (x0 + kChunkSize)) (by omega) (x0 + kChunkSize) rfl,
        mem_outputBuffers o width height y (xpos + x0) _ (fun i => row (x0 + i)) (by omega)]
      constructor
      · rintro (⟨i, hi, e⟩ | ⟨i, h1, h2, e⟩)
        · exact ⟨x0 + i, by omega, by omega, by rw [e, Nat.add_assoc]⟩
        · exact ⟨i, by omega, h2, e⟩
      · rintro ⟨i, h1, h2, e⟩
        by_cases h3 : i < x0 + kChunkSize
        · refine .inl ⟨i - x0, by omega, ?_⟩
          rw [e, Nat.add_assoc, show x0 + (i - x0) = i by omega]
        · exact .inr ⟨i, by omega, h2, e⟩
    · rw [if_neg h]
      constructor
      · intro h'; cases h'
      · rintro ⟨i, h1, h2, _⟩; omega

theorem mem_processRow (o width height : Nat) (row : Nat → α) (xsize xpos ypos : Nat) (w : (Nat × Nat) × α) :
    w ∈ processRow o width height row xsize xpos ypos ↔
      ypos < height ∧ ∃ i < xsize, xpos + i < width ∧ w = (place o width height (xpos + i) ypos, row i) := by
  unfold processRow
  by_cases h1 : ypos ≥ height
  · rw [if_pos h1]; constructor
    · intro h; cases h
    · rintro ⟨h, _⟩; omega
  · rw [if_neg h1]
    by_cases h2 : xpos ≥ width
    · rw [if_pos h2]; constructor
      · intro h; cases h
      · rintro ⟨_, i, _, h, _⟩; omega
    · rw [if_neg h2, mem_chunkLoop o width height ypos xpos row _ 0 (by omega)]
      constructor
      · rintro ⟨i, _, h, e⟩; exact ⟨by omega, i, by omega, by omega, e⟩
      · rintro ⟨_, i, h, h', e⟩; exact ⟨i, by omega, by omega, e⟩

/-- Where the pixel shown at `P` comes from. -/
theorem shown_place (o : Nat) (ho : 1 ≤ o ∧ o ≤ 8) (i : Img α) (x y : Nat) (hx : x < i.w) (hy : y < i.h) :
    (i.shown o).at_ (place o i.w i.h x y).1 (place o i.w i.h x y).2 = i.at_ x y := by
  have e1 : i.w - 1 - (i.w - 1 - x) = x := by omega
  have e2 : i.h - 1 - (i.h - 1 - y) = y := by omega
  have : o = 1 ∨ o = 2 ∨ o = 3 ∨ o = 4 ∨ o = 5 ∨ o = 6 ∨ o = 7 ∨ o = 8 := by omega
  rcases this with rfl | rfl | rfl | rfl | rfl | rfl | rfl | rfl <;>
    simp [Img.shown, Img.mirror, Img.turn, Img.transpose, place, shouldFlipX, shouldFlipY, shouldTranspose, e1, e2]

theorem shown_dims (o : Nat) (ho : 1 ≤ o ∧ o ≤ 8) (i : Img α) : (i.shown o).w = orientedX o i.w i.h ∧ (i.shown o).h = orientedY o i.w i.h := by
  have : o = 1 ∨ o = 2 ∨ o = 3 ∨ o = 4 ∨ o = 5 ∨ o = 6 ∨ o = 7 ∨ o = 8 := by omega
  rcases this with rfl | rfl | rfl | rfl | rfl | rfl | rfl | rfl <;>
    simp [Img.shown, Img.mirror, Img.turn, Img.transpose, orientedX, orientedY]

theorem place_lt (o : Nat) (ho : 1 ≤ o ∧ o ≤ 8) (w h x y : Nat) (hx : x < w) (hy : y < h) :
    (place o w h x y).1 < orientedX o w h ∧ (place o w h x y).2 < orientedY o w h := by
  have : o = 1 ∨ o = 2 ∨ o = 3 ∨ o = 4 ∨ o = 5 ∨ o = 6 ∨ o = 7 ∨ o = 8 := by omega
  rcases this with rfl | rfl | rfl | rfl | rfl | rfl | rfl | rfl <;>
    simp [place, shouldFlipX, shouldFlipY, shouldTranspose, orientedX, orientedY] <;> omega

/-- Every position shown is the place of a pixel. -/
theorem place_surj (o : Nat) (ho : 1 ≤ o ∧ o ≤ 8) (w h X Y : Nat) (hX : X < orientedX o w h) (hY : Y < orientedY o w h) :
    ∃ x y, x < w ∧ y < h ∧ place o w h x y = (X, Y) := by
  have : o = 1 ∨ o = 2 ∨ o = 3 ∨ o = 4 ∨ o = 5 ∨ o = 6 ∨ o = 7 ∨ o = 8 := by omega
  have fin : ∀ x y, x < w → y < h → place o w h x y = (X, Y) → ∃ x y, x < w ∧ y < h ∧ place o w h x y = (X, Y) :=
    fun x y h1 h2 h3 => ⟨x, y, h1, h2, h3⟩
  have pf : ∀ a b c d : Nat, a = c → b = d → (a, b) = (c, d) := by intro a b c d h1 h2; rw [h1, h2]
  rcases this with rfl | rfl | rfl | rfl | rfl | rfl | rfl | rfl
  · exact fin X Y hX hY rfl
  · exact fin (w - 1 - X) Y (by simp [orientedX] at hX; omega) hY (pf _ _ _ _ (by simp [orientedX] at hX; simp [shouldFlipX]; omega) rfl)
  · simp [orientedX, orientedY] at hX hY
    exact fin (w - 1 - X) (h - 1 - Y) (by omega) (by omega)
      (pf _ _ _ _ (by simp [shouldFlipX]; omega) (by simp [shouldFlipY]; omega))
  · simp [orientedX, orientedY] at hX hY
    exact fin X (h - 1 - Y) (by omega) (by omega) (pf _ _ _ _ rfl (by simp [shouldFlipY]; omega))
  · exact fin Y X hY hX rfl
  · simp [orientedX, orientedY] at hX hY
    exact fin Y (h - 1 - X) (by omega) (by omega) (pf _ _ _ _ (by simp [shouldFlipY]; omega) rfl)
  · simp [orientedX, orientedY] at hX hY
    exact fin (w - 1 - Y) (h - 1 - X) (by omega) (by omega)
      (pf _ _ _ _ (by simp [shouldFlipY]; omega) (by simp [shouldFlipX]; omega))
  · simp [orientedX, orientedY] at hX hY
    exact fin (w - 1 - Y) X (by omega) (by omega) (pf _ _ _ _ rfl (by simp [shouldFlipX]; omega))

/-- A canvas on which each position only receives the value `f` of the position. -/
theorem canvas_eq (ws : List ((Nat × Nat) × α)) (f : Nat × Nat → α) (hf : ∀ w ∈ ws, w.2 = f w.1) (p : Nat × Nat) :
    (p ∈ ws.map (·.1) → canvas ws p = some (f p)) ∧ (p ∉ ws.map (·.1) → canvas ws p = none) := by
  induction ws with
  | nil => simp [canvas]
  | cons w ws ih =>
    obtain ⟨q, v⟩ := w
    have ih := ih fun w hw => hf w (List.mem_cons_of_mem _ hw)
    have hv := hf (q, v) List.mem_cons_self
    simp only at hv
    simp only [List.map_cons, List.mem_cons, canvas]
    by_cases hm : p ∈ ws.map (·.1)
    · rw [ih.1 hm]; simp [hm]
    · rw [ih.2 hm]
      constructor
      · rintro (rfl | h)
        · simp [hv]
        · exact absurd h hm
      · intro h
        simp only [not_or] at h
        rw [if_neg (Ne.symm h.1)]

theorem externalPos_eq (o : Nat) (ho : 2 ≤ o ∧ o ≤ 8) (w h x y : Nat) : externalPos o w h x y = some (place o w h x y) := by
  have e1 : w - x - 1 = w - 1 - x := by omega
  have e2 : h - y - 1 = h - 1 - y := by omega
  have : o = 2 ∨ o = 3 ∨ o = 4 ∨ o = 5 ∨ o = 6 ∨ o = 7 ∨ o = 8 := by omega
  rcases this with rfl | rfl | rfl | rfl | rfl | rfl | rfl <;>
    simp [externalPos, place, shouldFlipX, shouldFlipY, shouldTranspose, e1, e2]

end Jxl.Orient
