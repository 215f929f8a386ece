import Verif.Lemmas.AcStrategyEnc
/-! The decoder's walk visits the first blocks. -/
namespace Jxl.AcStrategy
open CoeffOrder Spec

/-- Part of a tiling in one group. -/
theorem tiling_group {r gr : Rect} {bs : List Varblock} (ht : Tiling r bs) (hgr : IsGroup r gr) :
    Tiling gr (inGroup gr bs) := by
  obtain ⟨g1, g2, g3, g4, g5, g6, g7, g8⟩ := hgr
  have key : ∀ b ∈ bs, ∀ x y, Inside gr x y → b.Covers x y → gr.x0 ≤ b.x ∧ b.x + b.cx ≤ gr.x0 + gr.w ∧ gr.y0 ≤ b.y ∧
      b.y + b.cy ≤ gr.y0 + gr.h := by
    intro b hb x y ⟨i1, i2, i3, i4⟩ ⟨c1, c2, c3, c4⟩
    obtain ⟨_, f1, f2, f3, f4, f5, f6⟩ := ht.fits b hb
    omega
  refine ⟨?_, ht.sorted.sublist List.filter_sublist, ?_, ?_⟩
  · intro b hb
    obtain ⟨hb, hd⟩ := List.mem_filter.1 hb
    rw [decide_eq_true_eq] at hd
    have hfb := ht.fits b hb
    have := key b hb b.x b.y hd (fits_origin hfb)
    exact ⟨hfb.1, this.1, this.2.1, this.2.2.1, this.2.2.2, hfb.2.2.2.2.2⟩
  · intro x y hin
    have hr : Inside r x y := by
      obtain ⟨i1, i2, i3, i4⟩ := hin
      exact ⟨by omega, by omega, by omega, by omega⟩
    obtain ⟨b, hb, hc⟩ := ht.covered x y hr
    refine ⟨b, List.mem_filter.2 ⟨hb, ?_⟩, hc⟩
    have h1 := key b hb x y hin hc
    obtain ⟨i1, i2, i3, i4⟩ := hin
    obtain ⟨c1, c2, c3, c4⟩ := hc
    rw [decide_eq_true_eq]
    omega
  · intro x y b hb b' hb' hc hc'
    exact ht.unique x y b (List.mem_filter.1 hb).1 b' (List.mem_filter.1 hb').1 hc hc'

theorem shows_group {gr : Rect} {g : Layer} {bs : List Varblock} (hg : Shows g bs) : Shows g (inGroup gr bs) :=
  fun b hb => hg b (List.mem_filter.1 hb).1

/-- A row as the walk sees it: `S` are the columns where a transform starts. -/
structure RowOk (row : Nat → Nat) (w : Nat) (S : Nat → Prop) : Prop where
  step : ∀ bx, S bx → bx < w → ∃ llf, coveredX[row bx / 2]? = some llf ∧ 0 < llf ∧ bx + llf ≤ w ∧ S (bx + llf) ∧
    ∀ j, bx < j → j < bx + llf → isFirst (row j) = false

theorem filter_range'_false {p : Nat → Bool} {a n : Nat} (h : ∀ j, a ≤ j → j < a + n → p j = false) :
    (List.range' a n).filter p = [] := by
  rw [List.filter_eq_nil_iff]
  intro j hj
  rw [List.mem_range'_1] at hj
  rw [h j hj.1 hj.2]
  simp

theorem walkTile_ok {row : Nat → Nat} {w lim : Nat} {S : Nat → Prop} (hr : RowOk row w S) :
    ∀ (fuel bx : Nat), w - bx < fuel → bx ≤ w → S bx →
      ∃ l e, walkTile row w lim fuel bx = some (l, e) ∧ bx ≤ e ∧ e ≤ w ∧ S e ∧ (w ≤ e ∨ lim ≤ e) ∧
        l = (List.range' bx (e - bx)).filter (fun j => isFirst (row j)) ∧ ∀ v ∈ l, bx ≤ v ∧ v < lim
  | 0, _, h, _, _ => by omega
  | fuel + 1, bx, h, hle, hs => by
    rw [walkTile]
    by_cases hc : bx < w ∧ bx < lim
    · rw [if_pos hc]
      obtain ⟨llf, e1, e2, e3, e4, e5⟩ := hr.step bx hs hc.1
      obtain ⟨l, e, h1, h2, h3, h4, h5, h6, h7⟩ := walkTile_ok hr (lim := lim) fuel (bx + llf) (by omega) e3 e4
      rw [e1, Option.bind_some, h1]
      refine ⟨_, _, rfl, by omega, h3, h4, h5, ?_, ?_⟩
      · have hn : e - bx = 1 + (llf - 1) + (e - (bx + llf)) := by omega
        dsimp only
        rw [hn, ← List.range'_append_1, ← List.range'_append_1, List.filter_append, List.filter_append,
          filter_range'_false (a := bx + 1) (fun j h1 h2 => e5 j (by omega) (by omega)), List.append_nil]
        have : bx + (1 + (llf - 1)) = bx + llf := by omega
        rw [this, ← h6]
        rw [show List.range' bx 1 = [bx] from rfl, List.filter_cons, List.filter_nil]
        split <;> rfl
      · intro v hv
        dsimp only at hv
        split at hv
        · rcases List.mem_cons.1 hv with rfl | hv
          · exact ⟨Nat.le_refl _, hc.2⟩
          · have := h7 v hv; omega
        · have := h7 v hv; omega
    · rw [if_neg hc]
      exact ⟨[], bx, rfl, Nat.le_refl _, hle, hs, by omega, by simp, by simp⟩

theorem walkRow_ok {row : Nat → Nat} {w : Nat} {S : Nat → Prop} (hr : RowOk row w S) :
    ∀ (m k bx : Nat), bx ≤ w → S bx → (k * 8 ≤ bx ∨ w ≤ bx) → w ≤ (k + m) * 8 →
      walkRow row w (List.range' k m) bx =
        some (((List.range' bx (w - bx)).filter (fun j => isFirst (row j))).map fun b => (b, b / 8))
  | 0, k, bx, h1, h2, h3, h4 => by
    have : w - bx = 0 := by omega
    rw [this]
    rfl
  | m + 1, k, bx, h1, h2, h3, h4 => by
    rw [List.range'_succ, walkRow]
    obtain ⟨l, e, g1, g2, g3, g4, g5, g6, g7⟩ := walkTile_ok hr (lim := (k + 1) * 8) (w + 1) bx (by omega) h1 h2
    rw [g1, Option.bind_some]
    rw [walkRow_ok hr m (k + 1) e g3 g4 (by omega) (by omega), Option.map_some]
    have hn : w - bx = (e - bx) + (w - e) := by omega
    have he : bx + (e - bx) = e := by omega
    rw [hn, ← List.range'_append_1, List.filter_append, List.map_append, he, ← g6]
    dsimp only
    congr 2
    apply List.map_congr_left
    intro v hv
    have hv' := g7 v hv
    have hlt : v < w := by
      rw [g6, List.mem_filter, List.mem_range'_1] at hv
      omega
    have : v / 8 = k := by omega
    rw [this]

theorem group_row {gr : Rect} {bs : List Varblock} {g : Layer} (ht : Tiling gr bs) (hg : Shows g bs) {iy : Nat}
    (hy : iy < gr.h) : RowOk (fun ix => g (gr.x0 + ix) (gr.y0 + iy)) gr.w
      (fun ix => ix < gr.w → ∃ b ∈ bs, b.Covers (gr.x0 + ix) (gr.y0 + iy) ∧ b.x = gr.x0 + ix) where
  step := by
    intro bx hs hlt
    obtain ⟨b, hb, hc, hbx⟩ := hs hlt
    obtain ⟨ht', f1, f2, f3, f4, f5, f6⟩ := ht.fits b hb
    obtain ⟨c1, c2, c3, c4⟩ := hc
    refine ⟨b.cx, ?_, ?_, by omega, ?_, ?_⟩
    · rw [hg b hb _ _ ⟨c1, c2, c3, c4⟩]
      have : (2 * b.t + if gr.x0 + bx = b.x ∧ gr.y0 + iy = b.y then 1 else 0) / 2 = b.t := by
        split <;> omega
      rw [this]
      unfold Varblock.cx
      rw [List.getD_eq_getElem?_getD]
      have : b.t < coveredX.length := by simpa [coveredX] using ht'
      rw [List.getElem?_eq_getElem this, Option.getD_some]
    · exact (covered_table _ ht').1
    · intro hlt2
      obtain ⟨b', hb', hc'⟩ := ht.covered (gr.x0 + (bx + b.cx)) (gr.y0 + iy) ⟨by omega, by omega, by omega, by omega⟩
      refine ⟨b', hb', hc', ?_⟩
      obtain ⟨d1, d2, d3, d4⟩ := hc'
      apply Classical.byContradiction
      intro hne
      have hpos : 0 < b.cx := (covered_table _ ht').1
      have hcov : b'.Covers (gr.x0 + bx + b.cx - 1) (gr.y0 + iy) := ⟨by omega, by omega, d3, d4⟩
      have hcov2 : b.Covers (gr.x0 + bx + b.cx - 1) (gr.y0 + iy) := ⟨by omega, by omega, c3, c4⟩
      have := ht.unique _ _ b hb b' hb' hcov2 hcov
      subst this
      omega
    · intro j h1 h2
      rw [hg b hb _ _ ⟨by omega, by omega, c3, c4⟩, if_neg (by omega)]
      simp [isFirst]

theorem walkRows_ok {gr : Rect} {bs : List Varblock} {g : Layer} (ht : Tiling gr bs) (hg : Shows g bs) :
    ∀ ys : List Nat, (∀ iy ∈ ys, iy < gr.h) → walkRows gr g ys =
      some ((ys.flatMap fun iy => ((List.range gr.w).map fun ix => (ix, iy)).filter fun c =>
        isFirst (g (gr.x0 + c.1) (gr.y0 + c.2))).map fun c => (c.1, c.2, c.1 / 8))
  | [], _ => rfl
  | iy :: ys, h => by
    have hy := h iy (List.mem_cons_self ..)
    rw [walkRows, List.range_eq_range', walkRow_ok (group_row ht hg hy) _ 0 0 (Nat.zero_le _) ?_ (by omega) (by omega),
      Option.bind_some, walkRows_ok ht hg ys fun i hi => h i (List.mem_cons_of_mem _ hi), Option.map_some,
      List.flatMap_cons, List.map_append, Nat.sub_zero, ← List.range_eq_range']
    · congr 2
      rw [List.map_map, List.filter_map, List.map_map]
      rfl
    · intro hlt
      obtain ⟨b, hb, hc⟩ := ht.covered (gr.x0 + 0) (gr.y0 + iy) ⟨by omega, by omega, by omega, by omega⟩
      refine ⟨b, hb, hc, ?_⟩
      obtain ⟨_, f1, _⟩ := ht.fits b hb
      have := hc.1
      omega

theorem decVisits_eq {gr : Rect} {bs : List Varblock} {g : Layer} (ht : Tiling gr bs) (hg : Shows g bs) :
    decVisits gr g = some ((encVisits gr g).map fun c => (c.1, c.2, c.1 / 8)) := by
  unfold decVisits encVisits offsets
  rw [walkRows_ok ht hg _ (fun iy h => List.mem_range.1 h), List.filter_flatMap]

/-- The encoder's list of visits, in terms of the transforms. -/
theorem encVisits_eq {gr : Rect} {bs : List Varblock} {g : Layer} (ht : Tiling gr bs) (hg : Shows g bs) :
    encVisits gr g = bs.map fun b => (b.x - gr.x0, b.y - gr.y0) := by
  have h := encode_tiling (qf := fun x y => ((x : Int) + 1)) ht hg
  have h' := encode_tiling (qf := fun x y => ((y : Int) + 1)) ht hg
  have e1 : (encVisits gr g).map (fun c => ((gr.x0 + c.1 : Nat) : Int)) =
      (encode gr g (fun x y => ((x : Int) + 1))).map Prod.snd := by
    unfold encVisits encode
    rw [List.map_filterMap]
    induction offsets gr.w gr.h with
    | nil => rfl
    | cons c cs ih =>
      rw [List.filter_cons, List.filterMap_cons]
      split
      · simp only [List.map_cons, ih, Option.map_some]
        congr 1; omega
      · simp only [ih, Option.map_none]
  have e2 : (encVisits gr g).map (fun c => ((gr.y0 + c.2 : Nat) : Int)) =
      (encode gr g (fun x y => ((y : Int) + 1))).map Prod.snd := by
    unfold encVisits encode
    rw [List.map_filterMap]
    induction offsets gr.w gr.h with
    | nil => rfl
    | cons c cs ih =>
      rw [List.filter_cons, List.filterMap_cons]
      split
      · simp only [List.map_cons, ih, Option.map_some]
        congr 1; omega
      · simp only [ih, Option.map_none]
  rw [h, List.map_map] at e1
  rw [h', List.map_map] at e2
  have hl : (encVisits gr g).length = bs.length := by
    have := congrArg List.length e1
    simpa using this
  apply List.ext_getElem
  · simpa using hl
  intro i h1 h2
  have hi : i < bs.length := by rw [← hl]; exact h1
  have f1 := congrArg (fun l => l[i]?) e1
  have f2 := congrArg (fun l => l[i]?) e2
  simp only [List.getElem?_map, List.getElem?_eq_getElem h1, List.getElem?_eq_getElem hi, Option.map_some,
    Option.some.injEq, Function.comp_apply] at f1 f2
  rw [List.getElem_map]
  ext
  · show _ = _
    dsimp only; omega
  · dsimp only; omega

/-- The areas of the transforms add up to the area of the rectangle. -/
theorem tiling_area {r : Rect} {bs : List Varblock} (ht : Tiling r bs) :
    (bs.map fun b => b.cx * b.cy).sum = r.w * r.h := by
  have hlen : ∀ w h : Nat, (offsets w h).length = w * h := by
    intro w h
    unfold offsets
    rw [List.length_flatMap]
    simp only [List.length_map, List.length_range, List.map_const', List.sum_replicate_nat]
    exact Nat.mul_comm _ _
  let cellsOf : Varblock → List (Nat × Nat) := fun b => (offsets b.cx b.cy).map fun c => (b.x + c.1, b.y + c.2)
  let all := (offsets r.w r.h).map fun c => (r.x0 + c.1, r.y0 + c.2)
  have hcov : ∀ b c, c ∈ cellsOf b ↔ b.Covers c.1 c.2 := by
    intro b c
    simp only [cellsOf, List.mem_map]
    rw [covers_iff]
    constructor
    · rintro ⟨d, hd, rfl⟩
      refine ⟨Nat.le_add_right _ _, Nat.le_add_right _ _, ?_⟩
      rw [Nat.add_sub_cancel_left, Nat.add_sub_cancel_left]
      exact hd
    · rintro ⟨h1, h2, h3⟩
      exact ⟨_, h3, by ext <;> dsimp only <;> omega⟩
  have hall : ∀ c, c ∈ all ↔ Inside r c.1 c.2 := by
    intro c
    simp only [all, List.mem_map, mem_offsets]
    constructor
    · rintro ⟨d, ⟨h1, h2⟩, rfl⟩
      exact ⟨by omega, by dsimp only; omega, by dsimp only; omega, by dsimp only; omega⟩
    · rintro ⟨h1, h2, h3, h4⟩
      exact ⟨(c.1 - r.x0, c.2 - r.y0), ⟨by dsimp only; omega, by dsimp only; omega⟩, by ext <;> dsimp only <;> omega⟩
  have hinj : ∀ (x y : Nat) (l : List (Nat × Nat)), l.Nodup → (l.map fun c => (x + c.1, y + c.2)).Nodup := by
    intro x y l hl
    unfold List.Nodup
    rw [List.pairwise_map]
    refine List.Pairwise.imp ?_ hl
    intro a b hab h
    rw [Prod.mk.injEq] at h
    exact hab (by ext <;> omega)
  have hn1 : (bs.flatMap cellsOf).Nodup := by
    unfold List.Nodup
    rw [List.pairwise_flatMap]
    refine ⟨fun b _ => hinj _ _ _ (offsets_nodup _ _), ?_⟩
    refine List.Pairwise.imp_of_mem ?_ ht.sorted
    intro a b ha hb hab x hx y hy hxy
    subst hxy
    have := ht.unique _ _ a ha b hb ((hcov a x).1 hx) ((hcov b x).1 hy)
    subst this
    unfold Before at hab
    omega
  have hn2 : all.Nodup := hinj _ _ _ (offsets_nodup _ _)
  have hp : (bs.flatMap cellsOf).Perm all := by
    rw [List.perm_ext_iff_of_nodup hn1 hn2]
    intro c
    rw [List.mem_flatMap, hall]
    constructor
    · rintro ⟨b, hb, hc⟩
      exact fits_inside (ht.fits b hb) ((hcov b c).1 hc)
    · intro hin
      obtain ⟨b, hb, hc⟩ := ht.covered _ _ hin
      exact ⟨b, hb, (hcov b c).2 hc⟩
  have := hp.length_eq
  rw [List.length_flatMap] at this
  simp only [cellsOf, all, List.length_map, hlen] at this
  exact this

end Jxl.AcStrategy
