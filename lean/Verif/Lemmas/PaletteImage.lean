import Verif.Lemmas.PaletteFwd
import Verif.Spec.Palette
/-! # Palette transforms of whole images -/
namespace Jxl.Modular.Palette

theorem mapOpt_congr {α β : Type} {f g : α → Option β} : ∀ {l : List α}, (∀ a ∈ l, f a = g a) → mapOpt f l = mapOpt g l := by
  intro l
  induction l with
  | nil => intro _; rfl
  | cons a l ih => intro h; rw [mapOpt, mapOpt, h a (by simp), ih (fun b hb => h b (by simp [hb]))]

theorem invPalette_eq {guess : Nat → List (List Px) → List Px → Int} {zero : Bool} {pal idx : Channel} {A B : List Channel}
    {m nbDeltas depth : Nat} (hm : 1 ≤ m) (hh : 1 ≤ pal.h) {rows : List (List (List Px))}
    (hr : mapOpt (invRows guess zero pal nbDeltas (min depth 24) idx) (List.range pal.h) = some rows) :
    invPalette guess zero (Image.mk (pal :: (A ++ idx :: B)) m) A.length nbDeltas depth =
      some ((invMeta m A.length pal.h).map fun k => Image.mk (A ++ rows.map (fun r => { idx with rows := r }) ++ B) k) := by
  unfold invPalette
  dsimp only
  rw [if_neg (by omega)]
  have h1 : (pal :: (A ++ idx :: B))[A.length + 1]? = some idx := by
    rw [List.getElem?_cons_succ, List.getElem?_append_right (by omega), Nat.sub_self]; rfl
  have h2 : ((pal :: (A ++ idx :: B)).take (A.length + 1)).drop 1 = A := by
    rw [List.take_succ_cons, List.drop_succ_cons, List.drop_zero, List.take_left' rfl]
  have h3 : (pal :: (A ++ idx :: B)).drop (A.length + 2) = B := by
    rw [List.drop_succ_cons, show A ++ idx :: B = (A ++ [idx]) ++ B by simp, List.drop_left' (by simp)]
  simp only [List.getElem?_cons_zero, h1]
  rw [if_neg (by omega), hr, Option.bind_some, h2, h3]

theorem split_at {l : List Channel} {i : Nat} {c : Channel} (h : l[i]? = some c) : l = l.take i ++ c :: l.drop (i + 1) ∧
    (l.take i).length = i := by
  obtain ⟨hi, he⟩ := List.getElem?_eq_some_iff.1 h
  refine ⟨?_, by rw [List.length_take]; omega⟩
  rw [← he, ← List.drop_eq_getElem_cons hi, List.take_append_drop]

theorem checkEqual_spec {img : Image} {b e : Nat} (h : checkEqualChannels img b e = true) :
    b ≤ e ∧ e < img.channel.length ∧ (b < img.nbMeta → e < img.nbMeta) ∧
      ∃ ch, img.channel[b]? = some ch ∧
        (img.channel.drop b).take (e + 1 - b) = ch :: (img.channel.drop (b + 1)).take (e - b) ∧
        (∀ c ∈ (img.channel.drop b).take (e + 1 - b), c.dims = ch.dims) ∧
        img.channel = img.channel.take b ++ (img.channel.drop b).take (e + 1 - b) ++ img.channel.drop (e + 1) := by
  unfold checkEqualChannels at h
  split at h
  · cases h
  · rename_i h1
    split at h
    · cases h
    · rename_i h2
      have hb : b < img.channel.length := by omega
      rw [List.getElem?_eq_getElem hb] at h ⊢
      simp only at h
      rw [List.all_eq_true] at h
      have hcons : (img.channel.drop b).take (e + 1 - b) = img.channel[b] :: (img.channel.drop (b + 1)).take (e - b) := by
        rw [List.drop_eq_getElem_cons hb, show e + 1 - b = (e - b) + 1 by omega, List.take_succ_cons]
      refine ⟨by omega, by omega, by omega, _, rfl, hcons, ?_, ?_⟩
      · intro c hc
        rw [hcons] at hc
        rcases List.mem_cons.1 hc with rfl | hc
        · rfl
        · have := h c hc
          simp only [Bool.and_eq_true, beq_iff_eq] at this
          obtain ⟨⟨⟨a1, a2⟩, a3⟩, a4⟩ := this
          unfold Channel.dims
          rw [a1, a2, a3, a4]
      · rw [List.append_assoc, show img.channel.drop (e + 1) = (img.channel.drop b).drop (e + 1 - b) by
          rw [List.drop_drop]; congr 1; omega, List.take_append_drop, List.take_append_drop]

/-- A plane is determined by its samples. -/
theorem rows_eq {c : Channel} (h : c.Wf) : c.rows = (List.range c.h).map fun y => (List.range c.w).map fun x =>
    (c.rows.getD y []).getD x 0 := by
  apply List.ext_getElem?
  intro y
  rw [List.getElem?_map]
  by_cases hy : y < c.h
  · have hy' : y < c.rows.length := by rw [h.1]; exact hy
    have hrl := h.2 _ (List.getElem_mem hy')
    rw [List.getElem?_range hy, List.getElem?_eq_getElem hy']
    simp only [Option.map_some, Option.some.injEq]
    apply List.ext_getElem?
    intro x
    rw [List.getElem?_map]
    by_cases hx : x < c.w
    · rw [List.getElem?_range hx, List.getElem?_eq_getElem (by omega)]
      simp only [Option.map_some, List.getD_eq_getElem?_getD, List.getElem?_eq_getElem hy', Option.getD_some]
      rw [List.getElem?_eq_getElem (by omega)]; rfl
    · rw [List.getElem?_eq_none (by omega), List.getElem?_eq_none (by simp; omega)]; rfl
  · rw [List.getElem?_eq_none (by have := h.1; omega), List.getElem?_eq_none (by simp; omega)]; rfl

/-- Undoing the palette of several channels. -/
theorem multi_round_trip {srt : List (List Px) → List (List Px)} (hsrt : ∀ l, (srt l).Perm l) {n d w h : Nat}
    {chs : List Channel} (hwf : ∀ c ∈ chs, c.Wf ∧ c.w = w ∧ c.h = h) (hn : n + 442 < 2147483648) (hd : d ≤ 31)
    (hlen : 2 ≤ chs.length) :
    ∃ r, multiPalette srt n d chs w h = some r ∧ ∀ pal idx, r = some (pal, idx) →
      (pal.getD 0 []).length + 64 < 2147483648 ∧
      ∀ (guess : Nat → List (List Px) → List Px → Int) (p i : Channel), p.rows = pal → p.w = (pal.getD 0 []).length →
        p.h = chs.length → i.w = w → i.h = h → i.rows = idx →
        mapOpt (invRows guess true p 0 d i) (List.range chs.length) = some (chs.map (·.rows)) := by
  obtain ⟨I, hI⟩ := implicitColors_some (nb := chs.length) hd
  unfold multiPalette
  rw [hI, Option.bind_some]
  dsimp only
  generalize hpx : (List.range h).flatMap (colorsRow chs w) = pixels
  cases hc : collect I n pixels [] [] 0 with
  | none => exact ⟨_, rfl, fun pal idx h => by cases h⟩
  | some ou =>
    obtain ⟨order, used⟩ := ou
    dsimp only
    by_cases h1 : order.length + used = 1
    · rw [if_pos h1]; exact ⟨_, rfl, fun pal idx h => by cases h⟩
    · rw [if_neg h1]
      refine ⟨_, rfl, ?_⟩
      intro pal idx h
      obtain ⟨c1, _, c3⟩ := collect_spec I n pixels [] [] 0 hc (by simp) (by simp)
      generalize hord : srt (order ++ I.filter fun c => 10 < pixels.count c) = ord at h
      have hperm : ord.Perm (order ++ I.filter fun c => 10 < pixels.count c) := by rw [← hord]; exact hsrt _
      have hol : ord.length ≤ n + 189 := by
        rw [hperm.length_eq, List.length_append]
        have := List.length_filter_le (fun c => decide (10 < pixels.count c)) I
        have := (implicitColors_get hI).1
        omega
      have hcol : ∀ col ∈ pixels, col ∈ ord ∨ col ∈ I := by
        intro col hcm
        rcases c3 col hcm with h | h
        · left; rw [hperm.mem_iff]; simp [h]
        · exact Or.inr h
      cases h
      have hp0 : (((List.range chs.length).map fun c => ord.map fun col => col.getD c 0).getD 0 []).length = ord.length := by
        rw [List.getD_eq_getElem?_getD, List.getElem?_map, List.getElem?_range (by omega)]; simp
      rw [hp0]
      refine ⟨by omega, ?_⟩
      intro guess p i hp1 hp2 hp3 hi1 hi2 hi3
      have key : mapOpt (invRows guess true p 0 d i) (List.range chs.length) =
          some ((List.range chs.length).map fun c => (chs.map (·.rows)).getD c []) := by
        apply mapOpt_map
        intro c hc'
        have hc := List.mem_range.1 hc'
        have hch : (chs.map (·.rows)).getD c [] = (chs[c]).rows := by
          rw [List.getD_eq_getElem?_getD, List.getElem?_map, List.getElem?_eq_getElem hc]; rfl
        rw [hch]
        obtain ⟨w1, w2, w3⟩ := hwf _ (List.getElem_mem hc)
        have hre := rows_eq w1
        rw [w2, w3] at hre
        unfold invRows
        by_cases hw : i.w = 0
        · rw [if_pos hw]
          have hw0 : w = 0 := by omega
          subst hw0
          congr 1
          rw [hre]
          simp only [List.range_zero, List.map_nil]
          split
          · rw [hi3]
            apply List.map_congr_left
            intro y _
            unfold colorsRow
            rfl
          · rw [hi2]
            apply List.ext_getElem?
            intro y
            rw [List.getElem?_replicate, List.getElem?_map]
            by_cases hy : y < h
            · rw [if_pos hy, List.getElem?_range hy]; rfl
            · rw [if_neg hy, List.getElem?_eq_none (by simp; omega)]; rfl
        · rw [if_neg hw, if_pos ⟨rfl, rfl⟩, if_neg (by omega)]
          unfold invC
          rw [hp1, hp2, hi3]
          rw [hre]
          have : ∀ (f : Px → Option Px) (g : Nat → List Px → Px) (k : Nat → List (List Px) ),
              (∀ y, y < h → ∀ x, x < w → f (g y ((k y).getD x [])) = some (((chs[c]).rows.getD y []).getD x 0)) →
              (∀ y, (k y).length = w) →
              mapOpt (mapOpt f) ((List.range h).map fun y => (k y).map (g y)) =
                some ((List.range h).map fun y => (List.range w).map fun x => ((chs[c]).rows.getD y []).getD x 0) := by
            intro f g k hf hk
            have inner : ∀ y, y < h → mapOpt f ((k y).map (g y)) =
                some ((List.range w).map fun x => ((chs[c]).rows.getD y []).getD x 0) := by
              intro y hy
              have e1 : (k y).map (g y) = (List.range w).map fun x => g y ((k y).getD x []) := by
                apply List.ext_getElem?
                intro x
                rw [List.getElem?_map, List.getElem?_map]
                by_cases hx : x < w
                · have hx' : x < (k y).length := by rw [hk y]; exact hx
                  rw [List.getElem?_range hx, List.getElem?_eq_getElem hx']
                  simp only [Option.map_some, List.getD_eq_getElem?_getD, List.getElem?_eq_getElem hx', Option.getD_some]
                · rw [List.getElem?_eq_none (by have := hk y; omega), List.getElem?_eq_none (by simp; omega)]; rfl
              rw [e1]
              have := mapOpt_map (f := fun x => f (g y ((k y).getD x [])))
                (g := fun x => ((chs[c]).rows.getD y []).getD x 0) (l := List.range w)
                (fun x hx => hf y hy x (List.mem_range.1 hx))
              rw [← this]
              clear this e1
              generalize List.range w = l
              induction l with
              | nil => rfl
              | cons a l ih => rw [List.map_cons, mapOpt, mapOpt, ih]
            have := mapOpt_map (f := fun y => mapOpt f ((k y).map (g y)))
              (g := fun y => (List.range w).map fun x => ((chs[c]).rows.getD y []).getD x 0) (l := List.range h)
              (fun y hy => inner y (List.mem_range.1 hy))
            rw [← this]
            clear this inner
            generalize List.range h = l
            induction l with
            | nil => rfl
            | cons a l ih => rw [List.map_cons, mapOpt, mapOpt, ih]
          apply this _ (fun _ col => BitVec.ofNat 32 (invPal I ord col)) (fun y => colorsRow chs w y)
          · intro y hy x hx
            have hcr : (colorsRow chs w y).getD x [] = chs.map fun ch => (ch.rows.getD y []).getD x 0 := by
              unfold colorsRow
              rw [List.getD_eq_getElem?_getD, List.getElem?_map, List.getElem?_range hx]; rfl
            rw [hcr]
            have hmem : (chs.map fun ch => (ch.rows.getD y []).getD x 0) ∈ pixels := by
              rw [← hpx, List.mem_flatMap]
              exact ⟨y, List.mem_range.2 hy, List.mem_map.2 ⟨x, List.mem_range.2 hx, rfl⟩⟩
            rw [color_round_trip hI (hcol _ hmem) (by simp) (by omega) hc, List.getElem?_map, List.getElem?_eq_getElem hc]
            rfl
          · intro y; simp [colorsRow]
      rw [key]
      congr 1
      apply List.ext_getElem?
      intro c
      rw [List.getElem?_map]
      by_cases hc : c < chs.length
      · rw [List.getElem?_range hc, List.getElem?_map, List.getElem?_eq_getElem hc]
        simp only [Option.map_some, List.getD_eq_getElem?_getD, List.getElem?_map, List.getElem?_eq_getElem hc, Option.getD_some]
      · rw [List.getElem?_eq_none (by simp; omega), List.getElem?_eq_none (by simp; omega)]; rfl

/-- Undoing a channel palette. -/
theorem channel_undo {pal : List Int} {rows : List (List Px)} {idx : List (List Nat)} {f : Px → Option Nat} {d : Nat}
    (h : mapOpt (mapOpt f) rows = some idx) (hl : pal.length + 64 < 2147483648)
    (hf : ∀ row ∈ rows, ∀ p ∈ row, ∃ i, f p = some i ∧ pal[i]? = some p.toInt) :
    inv1 [pal.map (BitVec.ofInt 32)] pal.length d (idx.map (List.map (BitVec.ofNat 32))) = some rows := by
  unfold inv1
  have hpx : ∀ row ∈ rows, ∀ p ∈ row, ∀ i, f p = some i →
      getPaletteValue [pal.map (BitVec.ofInt 32)] (clamp1 (BitVec.ofNat 32 i).toInt 0 ((pal.length : Int) - 1)) 0 pal.length d =
        some p := by
    intro row hr p hp i hi
    obtain ⟨j, h1, h2⟩ := hf row hr p hp
    rw [hi] at h1; cases h1
    have hlt := (List.getElem?_eq_some_iff.1 h2).1
    rw [toInt_ofNat_small (by omega), clamp1_id (by omega) (by omega),
      getPaletteValue_explicit (by omega) (by omega) (by omega)]
    simp only [List.getElem?_cons_zero, Option.bind_some, Int.toNat_natCast]
    rw [List.getElem?_map, h2, Option.map_some, BitVec.ofInt_toInt]
  have inner : ∀ (row : List Px) (ir : List Nat), mapOpt f row = some ir → (∀ p ∈ row, ∀ i, f p = some i →
      getPaletteValue [pal.map (BitVec.ofInt 32)] (clamp1 (BitVec.ofNat 32 i).toInt 0 ((pal.length : Int) - 1)) 0 pal.length d =
        some p) →
      mapOpt (fun p : Px => getPaletteValue [pal.map (BitVec.ofInt 32)] (clamp1 p.toInt 0 ((pal.length : Int) - 1)) 0 pal.length d)
        (ir.map (BitVec.ofNat 32)) = some row := by
    intro row
    induction row with
    | nil => intro ir h _; cases h; rfl
    | cons p row ih =>
      intro ir h hp
      rw [mapOpt] at h
      obtain ⟨i, h1, h⟩ := Option.bind_eq_some_iff.1 h
      obtain ⟨is, h2, rfl⟩ := Option.map_eq_some_iff.1 h
      rw [List.map_cons, mapOpt, hp p (by simp) i h1, Option.bind_some, ih is h2 (fun q hq => hp q (by simp [hq]))]
      rfl
  clear hf
  induction rows generalizing idx with
  | nil => cases h; rfl
  | cons row rows ih =>
    rw [mapOpt] at h
    obtain ⟨ir, h1, h⟩ := Option.bind_eq_some_iff.1 h
    obtain ⟨irs, h2, rfl⟩ := Option.map_eq_some_iff.1 h
    rw [List.map_cons, mapOpt, inner row ir h1 (hpx row (by simp)), Option.bind_some,
      ih h2 (fun r hr => hpx r (by simp [hr]))]
    rfl

end Jxl.Modular.Palette
