import Verif.Spec.Tiling
namespace Jxl.FrameDim

theorem divCeil_le (a b : Nat) (hb : 0 < b) : a ≤ divCeil a b * b := by
  unfold divCeil
  have h1 := Nat.div_add_mod (a + b - 1) b
  have h2 := Nat.mod_lt (a + b - 1) hb
  rw [Nat.mul_comm] at h1
  omega

theorem divCeil_lt (a b : Nat) (hb : 0 < b) : divCeil a b * b < a + b := by
  unfold divCeil
  have h1 := Nat.div_mul_le_self (a + b - 1) b
  omega

theorem lt_divCeil (a b i : Nat) (hb : 0 < b) : i < divCeil a b ↔ i * b < a := by
  unfold divCeil
  rw [Nat.lt_div_iff_mul_lt hb]
  omega

theorem divCeil_pos (a b : Nat) (hb : 0 < b) (ha : 0 < a) : 0 < divCeil a b := by
  rw [lt_divCeil _ _ _ hb]; omega

theorem divCeil_unique (a b q : Nat) (hb : 0 < b) (h1 : a ≤ q * b) (h2 : q * b < a + b) : divCeil a b = q := by
  have h3 := divCeil_le a b hb
  have h4 := divCeil_lt a b hb
  have : divCeil a b * b < (q + 1) * b := by rw [Nat.add_mul]; omega
  have := Nat.lt_of_mul_lt_mul_right this
  have : q * b < (divCeil a b + 1) * b := by rw [Nat.add_mul]; omega
  have := Nat.lt_of_mul_lt_mul_right this
  omega

theorem clamped_eq (b m e : Nat) (h : b < e) : clampedSize b m e = min m (e - b) := by
  unfold clampedSize
  rw [if_pos (show e > b from h)]
  split <;> omega

/-- One direction: tile `i` of size `d` of the segment `[0, n)`. -/
theorem seg_mem (n d i x : Nat) (hi : i * d < n) (hx : i * d ≤ x ∧ x < i * d + clampedSize (i * d) d n) : x < n ∧ x / d = i := by
  rw [clamped_eq _ _ _ hi] at hx
  have hd : 0 < d := by omega
  refine ⟨by omega, ?_⟩
  rw [Nat.div_eq_iff hd]
  omega

theorem seg_cover (n d x : Nat) (hd : 0 < d) (hx : x < n) : x / d * d < n ∧ x / d * d ≤ x ∧ x < x / d * d + clampedSize (x / d * d) d n := by
  have h1 := Nat.div_mul_le_self x d
  have h2 := Nat.lt_div_mul_add (a := x) hd
  refine ⟨by omega, h1, ?_⟩
  rw [clamped_eq _ _ _ (by omega)]
  omega

/-- Rectangles of a grid of `nx × ny` tiles of size `d` tile a `w × h` area when the counts are right. -/
theorem grid_tiles (nx ny d w h : Nat) (hd : 0 < d) (hx : ∀ i, i < nx ↔ i * d < w) (hy : ∀ i, i < ny ↔ i * d < h) :
    Tiles (nx * ny) (fun g => Rect.clamped (g % nx * d) (g / nx * d) d d w h) w h := by
  have idx : ∀ g, g < nx * ny → g % nx * d < w ∧ g / nx * d < h := by
    intro g hg
    have hnx : 0 < nx := by
      rcases Nat.eq_zero_or_pos nx with h0 | h0
      · rw [h0] at hg; simp at hg
      · exact h0
    refine ⟨(hx _).mp (Nat.mod_lt _ hnx), (hy _).mp ?_⟩
    rw [Nat.div_lt_iff_lt_mul hnx, Nat.mul_comm]; exact hg
  constructor
  · intro g hg
    have := idx g hg
    simp only [Rect.clamped]
    rw [clamped_eq _ _ _ this.1, clamped_eq _ _ _ this.2]
    omega
  · intro g hg
    have := idx g hg
    simp only [Rect.clamped]
    rw [clamped_eq _ _ _ this.1, clamped_eq _ _ _ this.2]
    omega
  · intro x hx' y hy'
    obtain ⟨a1, a2, a3⟩ := seg_cover w d x hd hx'
    obtain ⟨b1, b2, b3⟩ := seg_cover h d y hd hy'
    have c1 := (hx (x / d)).mpr a1
    have c2 := (hy (y / d)).mpr b1
    have e1 : (y / d * nx + x / d) % nx = x / d := by rw [Nat.mul_comm, Nat.mul_add_mod]; exact Nat.mod_eq_of_lt c1
    have e2 : (y / d * nx + x / d) / nx = y / d := by
      rw [Nat.add_comm, Nat.add_mul_div_right _ _ (by omega), Nat.div_eq_of_lt c1, Nat.zero_add]
    refine ⟨y / d * nx + x / d, ?_, ?_⟩
    · have : (y / d + 1) * nx ≤ ny * nx := Nat.mul_le_mul_right _ c2
      rw [Nat.add_mul, Nat.mul_comm ny] at this
      omega
    · simp only [Rect.Has, Rect.clamped, e1, e2]
      exact ⟨a2, a3, b2, b3⟩
  · intro g hg g' hg' x y h1 h2
    have i1 := idx g hg
    have i2 := idx g' hg'
    simp only [Rect.Has, Rect.clamped] at h1 h2
    have x1 := (seg_mem w d _ x i1.1 ⟨h1.1, h1.2.1⟩).2
    have x2 := (seg_mem w d _ x i2.1 ⟨h2.1, h2.2.1⟩).2
    have y1 := (seg_mem h d _ y i1.2 ⟨h1.2.2.1, h1.2.2.2⟩).2
    have y2 := (seg_mem h d _ y i2.2 ⟨h2.2.2.1, h2.2.2.2⟩).2
    have e := Nat.div_add_mod g nx
    have e' := Nat.div_add_mod g' nx
    rw [← e, ← e', ← y1, ← y2, ← x1, ← x2]

end Jxl.FrameDim
