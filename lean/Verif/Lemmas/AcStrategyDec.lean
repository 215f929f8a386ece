import Verif.Lemmas.AcStrategy
/-! What an accepted layout looks like. -/
namespace Jxl.AcStrategy
open CoeffOrder Spec

theorem shift_testBit (u t k : Nat) : (u ||| (1 <<< t)).testBit k = (u.testBit k || decide (t = k)) := by
  rw [Nat.testBit_or, Nat.one_shiftLeft, Nat.testBit_two_pow]

/-- The offsets of a transform are the blocks it covers. -/
theorem covers_iff (b : Varblock) (x y : Nat) :
    b.Covers x y ↔ b.x ≤ x ∧ b.y ≤ y ∧ (x - b.x, y - b.y) ∈ offsets b.cx b.cy := by
  rw [mem_offsets]; unfold Varblock.Covers
  constructor
  · rintro ⟨h1, h2, h3, h4⟩; exact ⟨h1, h3, by simp; omega, by simp; omega⟩
  · rintro ⟨h1, h2, h3, h4⟩; simp at h3 h4; exact ⟨h1, by omega, h2, by omega⟩

/-- What placing a transform does. -/
theorem place_spec {W H : Nat} {is444 : Bool} {r : Rect} {x y : Nat} {raw q : Int} {s s' : State}
    (h : place W H is444 r x y raw q s = .ok s') (hx : r.x0 ≤ x) (hy : r.y0 ≤ y) :
    ∃ t : Nat, raw = (t : Int) ∧ Fits r ⟨x, y, t⟩ ∧
      (is444 = false → coveredX.getD t 0 = 1 ∧ coveredY.getD t 0 = 1) ∧
      (∀ a b, (Varblock.mk x y t).Covers a b → s.layer a b = 255) ∧
      (∀ a b, (Varblock.mk x y t).Covers a b → s'.layer a b = 2 * t + if a = x ∧ b = y then 1 else 0) ∧
      (∀ a b, ¬ (Varblock.mk x y t).Covers a b → s'.layer a b = s.layer a b) ∧
      s'.qf = upd s.qf x y (clampQf q) ∧ s'.epf = s.epf ∧ s'.num = s.num + 1 ∧
      (∀ k, s'.used.testBit k = (s.used.testBit k || decide (t = k))) := by
  unfold place at h
  by_cases h0 : 0 ≤ raw ∧ raw < 27
  · rw [if_neg (by simpa using h0)] at h
    have ht : raw.toNat < 27 := by omega
    obtain ⟨c1, c2, c3, c4⟩ := covered_table _ ht
    dsimp only at h
    by_cases h1 : (coveredX.getD raw.toNat 0 > 1 ∨ coveredY.getD raw.toNat 0 > 1) ∧ is444 = false
    · rw [if_pos h1] at h; cases h
    rw [if_neg h1] at h
    split at h
    · cases h
    rename_i h2
    split at h
    · cases h
    rename_i h3
    cases e : setCells W H raw.toNat x y (offsets (coveredX.getD raw.toNat 0) (coveredY.getD raw.toNat 0)) s.layer with
    | fail => rw [e] at h; cases h
    | ub => rw [e] at h; cases h
    | ok g =>
      rw [e] at h
      simp only [Out.ok.injEq] at h
      obtain ⟨g1, g2⟩ := setCells_spec _ _ _ (offsets_nodup _ _) e
      subst h
      refine ⟨raw.toNat, by omega, ?_, ?_, ?_, ?_, ?_, rfl, rfl, rfl, fun k => shift_testBit ..⟩
      · unfold Fits Varblock.cx Varblock.cy
        dsimp only
        refine ⟨ht, hx, by omega, hy, by omega, by omega, by omega⟩
      · intro hf
        have : ¬ (coveredX.getD raw.toNat 0 > 1 ∨ coveredY.getD raw.toNat 0 > 1) := fun hc => h1 ⟨hc, hf⟩
        omega
      · intro a b hc
        obtain ⟨d1, d2, d3⟩ := (covers_iff _ _ _).1 hc
        have := g1 _ d3
        dsimp only at this d1 d2
        rwa [Nat.add_sub_cancel' d1, Nat.add_sub_cancel' d2] at this
      · intro a b hc
        subst g2
        show paint _ _ _ _ _ a b = _
        unfold paint
        exact if_pos ((covers_iff _ _ _).1 hc)
      · intro a b hc
        subst g2
        show paint _ _ _ _ _ a b = _
        unfold paint
        exact if_neg (fun hh => hc ((covers_iff _ _ _).2 hh))
  · rw [if_pos (by simpa using h0)] at h; cases h

theorem place_no_ub {W H : Nat} {is444 : Bool} {r : Rect} {x y : Nat} {raw q : Int} {s : State} :
    place W H is444 r x y raw q s ≠ .ub := by
  unfold place
  split
  · simp
  dsimp only
  split
  · simp
  split
  · simp
  rename_i h2
  split
  · simp
  rename_i h3
  have := setCells_no_ub (W := W) (H := H) (t := raw.toNat) (x := x) (y := y)
    (offsets (coveredX.getD raw.toNat 0) (coveredY.getD raw.toNat 0)) s.layer (fun c hc => by
      have := mem_offsets.1 hc; omega)
  split
  · simp
  · simp
  · rename_i e; exact absurd e this

/-- The state of the decoder after the cells `pre`. -/
structure Inv (is444 : Bool) (r : Rect) (acs qs : List Int) (sharp : Nat → Nat → Int) (s0 : State)
    (pre : List (Nat × Nat)) (bs : List Varblock) (s : State) : Prop where
  fits : ∀ b ∈ bs, Fits r b
  sorted : bs.Pairwise Before
  unique : ∀ x y, ∀ b ∈ bs, ∀ b' ∈ bs, b.Covers x y → b'.Covers x y → b = b'
  shows : Shows s.layer bs
  free : ∀ x y, (∀ b ∈ bs, ¬ b.Covers x y) → s.layer x y = s0.layer x y
  done : ∀ c ∈ pre, ∃ b ∈ bs, b.Covers (r.x0 + c.1) (r.y0 + c.2)
  origins : ∀ b ∈ bs, (b.x - r.x0, b.y - r.y0) ∈ pre
  num : s.num = bs.length
  types : bs.map (fun b => (b.t : Int)) = acs.take bs.length
  quant : ∀ (i : Nat) (b : Varblock), bs[i]? = some b → ∃ q, qs[i]? = some q ∧ s.qf b.x b.y = clampQf q
  quant0 : ∀ x y, (∀ b ∈ bs, ¬ (b.x = x ∧ b.y = y)) → s.qf x y = s0.qf x y
  sharpOk : ∀ c ∈ pre, s.epf (r.x0 + c.1) (r.y0 + c.2) = sharp (r.x0 + c.1) (r.y0 + c.2) ∧
    0 ≤ sharp (r.x0 + c.1) (r.y0 + c.2) ∧ sharp (r.x0 + c.1) (r.y0 + c.2) < 8
  used : ∀ k, s.used.testBit k = true ↔ s0.used.testBit k = true ∨ ∃ b ∈ bs, b.t = k
  small : is444 = false → ∀ b ∈ bs, b.cx = 1 ∧ b.cy = 1

theorem shows_ne {g : Layer} {bs : List Varblock} {b : Varblock} {x y : Nat} (hs : Shows g bs) (hb : b ∈ bs)
    (ht : b.t < 27) (hc : b.Covers x y) : g x y ≠ 255 := by
  rw [hs b hb x y hc]
  split <;> omega

theorem fits_inside {r : Rect} {b : Varblock} {x y : Nat} (h : Fits r b) (hc : b.Covers x y) : Inside r x y := by
  obtain ⟨_, h1, h2, h3, h4, _⟩ := h
  obtain ⟨c1, c2, c3, c4⟩ := hc
  exact ⟨by omega, by omega, by omega, by omega⟩

theorem fits_origin {r : Rect} {b : Varblock} (h : Fits r b) : b.Covers b.x b.y := by
  obtain ⟨c1, c2, _, _⟩ := covered_table b.t h.1
  exact ⟨Nat.le_refl _, by unfold Varblock.cx; omega, Nat.le_refl _, by unfold Varblock.cy; omega⟩

theorem Inv.step {W H : Nat} {is444 : Bool} {r : Rect} {acs qs : List Int} {sharp : Nat → Nat → Int} {s0 : State}
    {pre post : List (Nat × Nat)} {c : Nat × Nat} {bs : List Varblock} {s s' : State}
    (e : offsets r.w r.h = pre ++ c :: post) (hf0 : ∀ x y, Inside r x y → s0.layer x y = 255)
    (hi : Inv is444 r acs qs sharp s0 pre bs s) (h : cell W H is444 r acs qs sharp c s = .ok s') :
    ∃ bs', Inv is444 r acs qs sharp s0 (pre ++ [c]) bs' s' := by
  obtain ⟨cw, ch⟩ := mem_offsets.1 (show c ∈ offsets r.w r.h by rw [e]; simp)
  unfold cell at h
  dsimp only at h
  split at h
  · cases h
  rename_i hsh
  have hin : Inside r (r.x0 + c.1) (r.y0 + c.2) := ⟨by omega, by omega, by omega, by omega⟩
  have hsharp : ∀ d ∈ pre ++ [c], upd s.epf (r.x0 + c.1) (r.y0 + c.2) (sharp (r.x0 + c.1) (r.y0 + c.2))
      (r.x0 + d.1) (r.y0 + d.2) = sharp (r.x0 + d.1) (r.y0 + d.2) ∧
      0 ≤ sharp (r.x0 + d.1) (r.y0 + d.2) ∧ sharp (r.x0 + d.1) (r.y0 + d.2) < 8 := by
    intro d hd
    unfold upd
    rcases List.mem_append.1 hd with hd | hd
    · obtain ⟨a1, a2, a3⟩ := hi.sharpOk d hd
      refine ⟨?_, a2, a3⟩
      split
      · rename_i he; rw [he.1, he.2]
      · exact a1
    · rw [List.mem_singleton] at hd
      subst hd
      rw [if_pos ⟨rfl, rfl⟩]
      exact ⟨rfl, by omega, by omega⟩
  split at h
  · rename_i hv
    simp only [Out.ok.injEq] at h
    subst h
    refine ⟨bs, hi.fits, hi.sorted, hi.unique, hi.shows, hi.free, ?_, ?_, hi.num, hi.types, hi.quant, hi.quant0,
      hsharp, hi.used, hi.small⟩
    · intro d hd
      rcases List.mem_append.1 hd with hd | hd
      · exact hi.done d hd
      · rw [List.mem_singleton] at hd
        subst hd
        apply Classical.byContradiction
        intro hno
        exact hv ((hi.free _ _ fun b hb hc => hno ⟨b, hb, hc⟩).trans (hf0 _ _ hin))
    · intro b hb
      exact List.mem_append_left _ (hi.origins b hb)
  · rename_i hv
    split at h
    · rename_i raw q e1 e2
      obtain ⟨t, ht, g1, g2, g3, g4, g5, g6, g7, g8, g9⟩ := place_spec h (by omega) (by omega)
      dsimp only at g3 g5 g6 g7 g8 g9
      refine ⟨bs ++ [⟨r.x0 + c.1, r.y0 + c.2, t⟩], ?_⟩
      have hnew : ∀ b ∈ bs, ∀ x y, (Varblock.mk (r.x0 + c.1) (r.y0 + c.2) t).Covers x y → ¬ b.Covers x y := by
        intro b hb x y hc hc'
        exact shows_ne hi.shows hb (hi.fits b hb).1 hc' (g3 x y hc)
      have hnum := hi.num
      refine ⟨?_, ?_, ?_, ?_, ?_, ?_, ?_, ?_, ?_, ?_, ?_, ?_, ?_, ?_⟩
      · intro b hb
        rcases List.mem_append.1 hb with hb | hb
        · exact hi.fits b hb
        · rw [List.mem_singleton] at hb; subst hb; exact g1
      · rw [List.pairwise_append]
        refine ⟨hi.sorted, List.pairwise_singleton _ _, ?_⟩
        intro a ha b hb
        rw [List.mem_singleton] at hb; subst hb
        obtain ⟨_, _, hl⟩ := (mem_prefix e _).1 (hi.origins a ha)
        obtain ⟨_, f1, _, f3, _⟩ := hi.fits a ha
        unfold CellLt at hl
        unfold Before
        dsimp only at hl ⊢
        omega
      · intro x y b hb b' hb' hc hc'
        rcases List.mem_append.1 hb with hb | hb <;> rcases List.mem_append.1 hb' with hb' | hb'
        · exact hi.unique x y b hb b' hb' hc hc'
        · rw [List.mem_singleton] at hb'; subst hb'; exact absurd hc (hnew b hb x y hc')
        · rw [List.mem_singleton] at hb; subst hb; exact absurd hc' (hnew b' hb' x y hc)
        · rw [List.mem_singleton] at hb hb'; rw [hb, hb']
      · intro b hb x y hc
        rcases List.mem_append.1 hb with hb | hb
        · rw [g5 x y fun hn => hnew b hb x y hn hc]
          exact hi.shows b hb x y hc
        · rw [List.mem_singleton] at hb; subst hb
          exact g4 x y hc
      · intro x y hno
        rw [g5 x y (hno _ (by simp))]
        exact hi.free x y fun b hb => hno b (by simp [hb])
      · intro d hd
        rcases List.mem_append.1 hd with hd | hd
        · obtain ⟨b, hb, hc⟩ := hi.done d hd
          exact ⟨b, by simp [hb], hc⟩
        · rw [List.mem_singleton] at hd
          subst hd
          exact ⟨_, List.mem_append_right _ (List.mem_singleton.2 rfl), fits_origin g1⟩
      · intro b hb
        rcases List.mem_append.1 hb with hb | hb
        · exact List.mem_append_left _ (hi.origins b hb)
        · rw [List.mem_singleton] at hb; subst hb
          simp
      · rw [g8, hnum, List.length_append]; rfl
      · rw [List.length_append, List.length_singleton, List.take_succ, List.map_append, hi.types, ← hnum, e1, ht]
        rfl
      · intro i b hb
        rw [g6]
        by_cases hlt : i < bs.length
        · rw [List.getElem?_append_left hlt] at hb
          obtain ⟨q', hq, hqf⟩ := hi.quant i b hb
          refine ⟨q', hq, ?_⟩
          unfold upd
          rw [if_neg]
          · exact hqf
          · rintro ⟨e3, e4⟩
            have hbm := List.mem_of_getElem? hb
            refine hnew b hbm (r.x0 + c.1) (r.y0 + c.2) (fits_origin g1) ?_
            have := fits_origin (hi.fits b hbm)
            rwa [e3, e4] at this
        · have : i = bs.length := by
            have := (List.getElem?_eq_some_iff.1 hb).1
            simp at this; omega
          subst this
          rw [List.getElem?_append_right (Nat.le_refl _), Nat.sub_self] at hb
          simp at hb
          subst hb
          refine ⟨q, by rw [← hnum]; exact e2, ?_⟩
          unfold upd
          rw [if_pos ⟨rfl, rfl⟩]
      · intro x y hno
        rw [g6]
        unfold upd
        rw [if_neg]
        · exact hi.quant0 x y fun b hb => hno b (by simp [hb])
        · have := hno ⟨r.x0 + c.1, r.y0 + c.2, t⟩ (by simp)
          dsimp only at this
          omega
      · rw [g7]; exact hsharp
      · intro k
        rw [g9 k, Bool.or_eq_true, hi.used k, decide_eq_true_eq, or_assoc]
        constructor
        · rintro (h | ⟨b, hb, h⟩ | h)
          · exact Or.inl h
          · exact Or.inr ⟨b, by simp [hb], h⟩
          · exact Or.inr ⟨_, List.mem_append_right _ (List.mem_singleton.2 rfl), h⟩
        · rintro (h | ⟨b, hb, h⟩)
          · exact Or.inl h
          · rcases List.mem_append.1 hb with hb | hb
            · exact Or.inr (Or.inl ⟨b, hb, h⟩)
            · rw [List.mem_singleton] at hb; subst hb
              exact Or.inr (Or.inr h)
      · intro h4 b hb
        rcases List.mem_append.1 hb with hb | hb
        · exact hi.small h4 b hb
        · rw [List.mem_singleton] at hb; subst hb
          exact g2 h4
    · cases h

theorem cell_no_ub {W H : Nat} {is444 : Bool} {r : Rect} {acs qs : List Int} {sharp : Nat → Nat → Int}
    {c : Nat × Nat} {s : State} : cell W H is444 r acs qs sharp c s ≠ .ub := by
  unfold cell
  dsimp only
  split
  · simp
  split
  · simp
  split
  · exact place_no_ub
  · simp

theorem cells_no_ub {W H : Nat} {is444 : Bool} {r : Rect} {acs qs : List Int} {sharp : Nat → Nat → Int} :
    ∀ (cs : List (Nat × Nat)) (s : State), cells W H is444 r acs qs sharp cs s ≠ .ub
  | [], s => by simp [cells]
  | c :: cs, s => by
    rw [cells]
    split
    · exact cells_no_ub cs _
    · simp
    · rename_i e; exact absurd e cell_no_ub

theorem cells_inv {W H : Nat} {is444 : Bool} {r : Rect} {acs qs : List Int} {sharp : Nat → Nat → Int} {s0 : State}
    (hf0 : ∀ x y, Inside r x y → s0.layer x y = 255) :
    ∀ (post pre : List (Nat × Nat)) (bs : List Varblock) (s s' : State), offsets r.w r.h = pre ++ post →
      Inv is444 r acs qs sharp s0 pre bs s → cells W H is444 r acs qs sharp post s = .ok s' →
      ∃ bs', Inv is444 r acs qs sharp s0 (offsets r.w r.h) bs' s'
  | [], pre, bs, s, s', e, hi, h => by
    rw [cells, Out.ok.injEq] at h
    subst h
    rw [List.append_nil] at e
    rw [e]
    exact ⟨bs, hi⟩
  | c :: cs, pre, bs, s, s', e, hi, h => by
    rw [cells] at h
    split at h
    · rename_i s1 e1
      obtain ⟨bs', hi'⟩ := hi.step e hf0 e1
      exact cells_inv hf0 cs (pre ++ [c]) bs' s1 s' (by simp [e]) hi' h
    · cases h
    · cases h

theorem inv_start (is444 : Bool) (r : Rect) (acs qs : List Int) (sharp : Nat → Nat → Int) (s0 : State) :
    Inv is444 r acs qs sharp s0 [] [] { s0 with num := 0 } where
  fits := by simp
  sorted := List.Pairwise.nil
  unique := by simp
  shows := by simp [Shows]
  free := by simp
  done := by simp
  origins := by simp
  num := rfl
  types := by simp
  quant := by simp
  quant0 := by simp
  sharpOk := by simp
  used := by simp
  small := by simp

theorem Inv.tiling {is444 : Bool} {r : Rect} {acs qs : List Int} {sharp : Nat → Nat → Int} {s0 s : State}
    {bs : List Varblock} (h : Inv is444 r acs qs sharp s0 (offsets r.w r.h) bs s) : Tiling r bs where
  fits := h.fits
  sorted := h.sorted
  unique := h.unique
  covered := by
    intro x y ⟨h1, h2, h3, h4⟩
    obtain ⟨b, hb, hc⟩ := h.done (x - r.x0, y - r.y0) (mem_offsets.2 ⟨by simp; omega, by simp; omega⟩)
    dsimp only at hc
    rw [Nat.add_sub_cancel' h1, Nat.add_sub_cancel' h3] at hc
    exact ⟨b, hb, hc⟩

end Jxl.AcStrategy
