import Verif.Spec.AcStrategy
/-! Lemmas for the layout of transforms. -/
namespace Jxl.AcStrategy
open CoeffOrder Spec

/-- Reading order of cells. -/
def CellLt (a b : Nat × Nat) : Prop := a.2 < b.2 ∨ (a.2 = b.2 ∧ a.1 < b.1)

theorem mem_offsets {w h : Nat} {c : Nat × Nat} : c ∈ offsets w h ↔ c.1 < w ∧ c.2 < h := by
  unfold offsets
  rw [List.mem_flatMap]
  constructor
  · rintro ⟨iy, h1, h2⟩
    rw [List.mem_map] at h2
    obtain ⟨ix, h3, h4⟩ := h2
    rw [List.mem_range] at h1 h3
    subst h4
    exact ⟨h3, h1⟩
  · rintro ⟨h1, h2⟩
    exact ⟨c.2, List.mem_range.2 h2, List.mem_map.2 ⟨c.1, List.mem_range.2 h1, rfl⟩⟩

theorem offsets_sorted (w h : Nat) : (offsets w h).Pairwise CellLt := by
  unfold offsets
  rw [List.pairwise_flatMap]
  constructor
  · intro iy _
    rw [List.pairwise_map]
    exact List.pairwise_lt_range.imp fun h => Or.inr ⟨rfl, h⟩
  · refine List.pairwise_lt_range.imp ?_
    intro a b hab x hx y hy
    rw [List.mem_map] at hx hy
    obtain ⟨_, _, rfl⟩ := hx
    obtain ⟨_, _, rfl⟩ := hy
    exact Or.inl hab

theorem CellLt.irrefl {a : Nat × Nat} : ¬ CellLt a a := by
  rintro (h | h) <;> omega

theorem CellLt.asymm {a b : Nat × Nat} : CellLt a b → ¬ CellLt b a := by
  rintro (h | h) (h' | h') <;> omega

theorem offsets_nodup (w h : Nat) : (offsets w h).Nodup :=
  (offsets_sorted w h).imp fun h => by rintro rfl; exact CellLt.irrefl h

/-- In a list in reading order, the cells before `c` are exactly the smaller ones. -/
theorem mem_prefix {w h : Nat} {pre post : List (Nat × Nat)} {c : Nat × Nat}
    (e : offsets w h = pre ++ c :: post) (d : Nat × Nat) :
    d ∈ pre ↔ d.1 < w ∧ d.2 < h ∧ CellLt d c := by
  have hs := offsets_sorted w h
  rw [e, List.pairwise_append, List.pairwise_cons] at hs
  obtain ⟨_, ⟨h2, _⟩, h3⟩ := hs
  constructor
  · intro hd
    have : d ∈ offsets w h := by rw [e]; exact List.mem_append_left _ hd
    obtain ⟨a, b⟩ := mem_offsets.1 this
    exact ⟨a, b, h3 d hd c (List.mem_cons_self ..)⟩
  · rintro ⟨a, b, hl⟩
    have : d ∈ offsets w h := mem_offsets.2 ⟨a, b⟩
    rw [e, List.mem_append, List.mem_cons] at this
    rcases this with h | h | h
    · exact h
    · subst h; exact absurd hl CellLt.irrefl
    · exact absurd (h2 d h) (CellLt.asymm hl)

theorem covered_table (t : Nat) (h : t < 27) :
    0 < coveredX.getD t 0 ∧ 0 < coveredY.getD t 0 ∧ coveredX.getD t 0 ≤ 32 ∧ coveredY.getD t 0 ≤ 32 := by
  have : ∀ t : Fin 27, 0 < coveredX.getD t 0 ∧ 0 < coveredY.getD t 0 ∧ coveredX.getD t 0 ≤ 32 ∧
      coveredY.getD t 0 ≤ 32 := by decide
  exact this ⟨t, h⟩

/-- Whether all the cells are free. -/
def free (g : Layer) (x y : Nat) (cs : List (Nat × Nat)) : Prop := ∀ c ∈ cs, g (x + c.1) (y + c.2) = 255

/-- The layer after painting. -/
def paint (t x y : Nat) (cs : List (Nat × Nat)) (g : Layer) : Layer := fun a b =>
  if x ≤ a ∧ y ≤ b ∧ (a - x, b - y) ∈ cs then 2 * t + (if a = x ∧ b = y then 1 else 0) else g a b

theorem setCells_no_ub {W H t x y : Nat} : ∀ (cs : List (Nat × Nat)) (g : Layer),
    (∀ c ∈ cs, x + c.1 < W ∧ y + c.2 < H) → setCells W H t x y cs g ≠ .ub
  | [], _, _ => by simp [setCells]
  | (ix, iy) :: cs, g, hb => by
    rw [setCells, if_pos (hb (ix, iy) (List.mem_cons_self ..))]
    split
    · simp
    · exact setCells_no_ub cs _ fun c hc => hb c (List.mem_cons_of_mem _ hc)

theorem setCells_spec {W H t x y : Nat} : ∀ (cs : List (Nat × Nat)) (g g' : Layer), cs.Nodup →
    setCells W H t x y cs g = .ok g' → free g x y cs ∧ g' = paint t x y cs g
  | [], g, g', _, h => by
    simp only [setCells, Out.ok.injEq] at h
    subst h
    refine ⟨fun c hc => by simp at hc, ?_⟩
    funext a b
    simp [paint]
  | (ix, iy) :: cs, g, g', hn, h => by
    rw [setCells] at h
    rw [List.nodup_cons] at hn
    split at h
    · rename_i hb
      split at h
      · cases h
      · rename_i hv
        obtain ⟨h1, h2⟩ := setCells_spec cs _ _ hn.2 h
        have hv' : g (x + ix) (y + iy) = 255 := by omega
        refine ⟨fun c hc => ?_, ?_⟩
        · rcases List.mem_cons.1 hc with rfl | hc
          · exact hv'
          · have := h1 c hc
            unfold upd at this
            split at this
            · rename_i he
              have : c = (ix, iy) := by
                ext <;> simp <;> omega
              subst this
              exact absurd hc hn.1
            · exact this
        · subst h2
          funext a b
          unfold paint upd
          by_cases hm : x ≤ a ∧ y ≤ b ∧ (a - x, b - y) ∈ cs
          · rw [if_pos hm, if_pos (c := x ≤ a ∧ y ≤ b ∧ (a - x, b - y) ∈ (ix, iy) :: cs)
              ⟨hm.1, hm.2.1, List.mem_cons_of_mem _ hm.2.2⟩]
          · rw [if_neg hm]
            by_cases he : a = x + ix ∧ b = y + iy
            · have e1 : a - x = ix := by omega
              have e2 : b - y = iy := by omega
              rw [if_pos he, if_pos (c := x ≤ a ∧ y ≤ b ∧ (a - x, b - y) ∈ (ix, iy) :: cs)
                ⟨by omega, by omega, by rw [e1, e2]; exact List.mem_cons_self ..⟩]
              have e3 : (ix = 0 ∧ iy = 0) ↔ (a = x ∧ b = y) := by omega
              simp only [e3]
            · rw [if_neg he, if_neg]
              rintro ⟨h1, h2, h3⟩
              rcases List.mem_cons.1 h3 with h3 | h3
              · rw [Prod.mk.injEq] at h3; omega
              · exact hm ⟨h1, h2, h3⟩
    · cases h

theorem setCells_ok {W H t x y : Nat} : ∀ (cs : List (Nat × Nat)) (g : Layer), cs.Nodup →
    (∀ c ∈ cs, x + c.1 < W ∧ y + c.2 < H) → free g x y cs → ∃ g', setCells W H t x y cs g = .ok g'
  | [], g, _, _, _ => ⟨g, rfl⟩
  | (ix, iy) :: cs, g, hn, hb, hf => by
    rw [setCells, if_pos (hb (ix, iy) (List.mem_cons_self ..)),
      if_neg (by rw [hf (ix, iy) (List.mem_cons_self ..)]; simp)]
    rw [List.nodup_cons] at hn
    refine setCells_ok cs _ hn.2 (fun c hc => hb c (List.mem_cons_of_mem _ hc)) fun c hc => ?_
    unfold upd
    rw [if_neg]
    · exact hf c (List.mem_cons_of_mem _ hc)
    · intro he
      have : c = (ix, iy) := by ext <;> simp <;> omega
      subst this
      exact hn.1 hc

end Jxl.AcStrategy
