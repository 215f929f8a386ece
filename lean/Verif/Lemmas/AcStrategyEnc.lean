import Verif.Lemmas.AcStrategyDec
/-! The layout written by the encoder is read back. -/
namespace Jxl.AcStrategy
open CoeffOrder Spec

/-- The entry the encoder writes for a cell, if any. -/
def entry (r : Rect) (g : Layer) (qf : Nat → Nat → Int) (c : Nat × Nat) : Option (Int × Int) :=
  if isFirst (g (r.x0 + c.1) (r.y0 + c.2)) then
    some (((g (r.x0 + c.1) (r.y0 + c.2) / 2 : Nat) : Int), qf (r.x0 + c.1) (r.y0 + c.2) - 1)
  else none

theorem encode_eq (r : Rect) (g : Layer) (qf : Nat → Nat → Int) :
    encode r g qf = (offsets r.w r.h).filterMap (entry r g qf) := rfl

theorem entry_first {r : Rect} {bs : List Varblock} {g : Layer} {qf : Nat → Nat → Int} {b : Varblock} {c : Nat × Nat}
    (hg : Shows g bs) (hb : b ∈ bs) (hc : b.Covers (r.x0 + c.1) (r.y0 + c.2))
    (hor : b.x = r.x0 + c.1 ∧ b.y = r.y0 + c.2) : entry r g qf c = some ((b.t : Int), qf b.x b.y - 1) := by
  have e : g (r.x0 + c.1) (r.y0 + c.2) = 2 * b.t + 1 := by
    rw [hg b hb _ _ hc, if_pos (by omega)]
  have e1 : isFirst (2 * b.t + 1) = true := by simp [isFirst]
  have e2 : (2 * b.t + 1) / 2 = b.t := by omega
  unfold entry
  rw [e, if_pos e1, e2, hor.1, hor.2]

theorem entry_rest {r : Rect} {bs : List Varblock} {g : Layer} {qf : Nat → Nat → Int} {b : Varblock} {c : Nat × Nat}
    (hg : Shows g bs) (hb : b ∈ bs) (hc : b.Covers (r.x0 + c.1) (r.y0 + c.2))
    (hor : ¬ (b.x = r.x0 + c.1 ∧ b.y = r.y0 + c.2)) : entry r g qf c = none := by
  have e : g (r.x0 + c.1) (r.y0 + c.2) = 2 * b.t := by
    rw [hg b hb _ _ hc, if_neg (by omega)]
    rfl
  have e1 : isFirst (2 * b.t) = false := by simp [isFirst]
  unfold entry
  rw [e, e1]
  rfl

theorem place_ok {W H : Nat} {is444 : Bool} {r : Rect} {x y t : Nat} {q : Int} {s : State}
    (hW : r.x0 + r.w ≤ W) (hH : r.y0 + r.h ≤ H) (hf : Fits r ⟨x, y, t⟩)
    (hs : is444 = false → coveredX.getD t 0 = 1 ∧ coveredY.getD t 0 = 1)
    (hfree : ∀ a b, (Varblock.mk x y t).Covers a b → s.layer a b = 255) :
    ∃ s', place W H is444 r x y (t : Int) q s = .ok s' := by
  obtain ⟨f1, f2, f3, f4, f5, f6, f7⟩ := hf
  unfold Varblock.cx Varblock.cy at *
  dsimp only at f1 f2 f3 f4 f5 f6 f7
  obtain ⟨c1, c2, c3, c4⟩ := covered_table _ f1
  unfold place
  rw [if_neg (by omega)]
  dsimp only [Int.toNat_natCast]
  have h1 : ¬ ((coveredX.getD t 0 > 1 ∨ coveredY.getD t 0 > 1) ∧ is444 = false) := by
    rintro ⟨a, b⟩
    have := hs b
    omega
  rw [if_neg h1, if_neg (by omega), if_neg (by omega)]
  obtain ⟨g', e⟩ := setCells_ok (W := W) (H := H) (t := t) (x := x) (y := y)
    (offsets (coveredX.getD t 0) (coveredY.getD t 0)) s.layer (offsets_nodup _ _)
    (fun c hc => by have := mem_offsets.1 hc; omega)
    (fun c hc => hfree _ _ (by
      have := mem_offsets.1 hc
      unfold Varblock.Covers Varblock.cx Varblock.cy
      dsimp only
      omega))
  rw [e]
  exact ⟨_, rfl⟩

/-- The state after the cells `pre` of a layout written by the encoder. -/
structure RInv (r : Rect) (bs : List Varblock) (g : Layer) (qf sharp : Nat → Nat → Int) (s0 : State)
    (pre : List (Nat × Nat)) (s : State) : Prop where
  placed : ∀ b ∈ bs, (b.x - r.x0, b.y - r.y0) ∈ pre → ∀ x y, b.Covers x y → s.layer x y = g x y
  others : ∀ x y, (∀ b ∈ bs, (b.x - r.x0, b.y - r.y0) ∈ pre → ¬ b.Covers x y) → s.layer x y = s0.layer x y
  num : s.num = (pre.filterMap (entry r g qf)).length
  quant : ∀ b ∈ bs, (b.x - r.x0, b.y - r.y0) ∈ pre → s.qf b.x b.y = qf b.x b.y
  quant0 : ∀ x y, (∀ b ∈ bs, ¬ (b.x = x ∧ b.y = y)) → s.qf x y = s0.qf x y
  sharpOk : ∀ c ∈ pre, s.epf (r.x0 + c.1) (r.y0 + c.2) = sharp (r.x0 + c.1) (r.y0 + c.2)

theorem RInv.step {W H : Nat} {is444 : Bool} {r : Rect} {bs : List Varblock} {g : Layer}
    {qf sharp : Nat → Nat → Int} {s0 : State} {acs qs xs ys : List Int}
    (hW : r.x0 + r.w ≤ W) (hH : r.y0 + r.h ≤ H) (ht : Tiling r bs) (hg : Shows g bs)
    (hs : is444 = false → ∀ b ∈ bs, b.cx = 1 ∧ b.cy = 1)
    (hq : ∀ b ∈ bs, 1 ≤ qf b.x b.y ∧ qf b.x b.y ≤ 256)
    (hsh : ∀ x y, Inside r x y → 0 ≤ sharp x y ∧ sharp x y < 8)
    (hf0 : ∀ x y, Inside r x y → s0.layer x y = 255)
    (ha : acs = (encode r g qf).map Prod.fst ++ xs) (hqs : qs = (encode r g qf).map Prod.snd ++ ys)
    {pre post : List (Nat × Nat)} {c : Nat × Nat} {s : State} (e : offsets r.w r.h = pre ++ c :: post)
    (hi : RInv r bs g qf sharp s0 pre s) :
    ∃ s', cell W H is444 r acs qs sharp c s = .ok s' ∧ RInv r bs g qf sharp s0 (pre ++ [c]) s' := by
  obtain ⟨cw, ch⟩ := mem_offsets.1 (show c ∈ offsets r.w r.h by rw [e]; simp)
  have hin : Inside r (r.x0 + c.1) (r.y0 + c.2) := ⟨by omega, by omega, by omega, by omega⟩
  have hsharp : ∀ d ∈ pre ++ [c], upd s.epf (r.x0 + c.1) (r.y0 + c.2) (sharp (r.x0 + c.1) (r.y0 + c.2))
      (r.x0 + d.1) (r.y0 + d.2) = sharp (r.x0 + d.1) (r.y0 + d.2) := by
    intro d hd
    unfold upd
    rcases List.mem_append.1 hd with hd | hd
    · split
      · rename_i he; rw [he.1, he.2]
      · exact hi.sharpOk d hd
    · rw [List.mem_singleton] at hd
      subst hd
      rw [if_pos ⟨rfl, rfl⟩]
  obtain ⟨b, hb, hc⟩ := ht.covered _ _ hin
  have hfb := ht.fits b hb
  have hcnot : c ∉ pre := fun hm => CellLt.irrefl ((mem_prefix e c).1 hm).2.2
  unfold cell
  dsimp only
  have := hsh _ _ hin
  rw [if_neg (by omega)]
  by_cases hp : (b.x - r.x0, b.y - r.y0) ∈ pre
  · -- already covered
    have hv : s.layer (r.x0 + c.1) (r.y0 + c.2) ≠ 255 := by
      rw [hi.placed b hb hp _ _ hc]
      exact shows_ne hg hb hfb.1 hc
    rw [if_pos hv]
    have hno : ¬ (r.x0 + c.1 = b.x ∧ r.y0 + c.2 = b.y) := by
      rintro ⟨e1, e2⟩
      rw [← e1, ← e2, Nat.add_sub_cancel_left, Nat.add_sub_cancel_left] at hp
      exact hcnot hp
    have hent : entry r g qf c = none := entry_rest hg hb hc fun h => hno ⟨h.1.symm, h.2.symm⟩
    have hmem : ∀ b' ∈ bs, (b'.x - r.x0, b'.y - r.y0) ∈ pre ++ [c] → (b'.x - r.x0, b'.y - r.y0) ∈ pre := by
      intro b' hb' hm
      rcases List.mem_append.1 hm with h | h
      · exact h
      · rw [List.mem_singleton] at h
        obtain ⟨_, f1, _, f3, _⟩ := ht.fits b' hb'
        have e1 : b'.x = r.x0 + c.1 := by rw [← h]; dsimp only; omega
        have e2 : b'.y = r.y0 + c.2 := by rw [← h]; dsimp only; omega
        have hcov := fits_origin (ht.fits b' hb')
        rw [e1, e2] at hcov
        have := ht.unique _ _ b hb b' hb' hc hcov
        subst this
        exact absurd ⟨e1.symm, e2.symm⟩ hno
    refine ⟨_, rfl, ?_, ?_, ?_, ?_, hi.quant0, hsharp⟩
    · intro b' hb' hm; exact hi.placed b' hb' (hmem b' hb' hm)
    · intro x y hx
      exact hi.others x y fun b' hb' hm => hx b' hb' (List.mem_append_left _ hm)
    · rw [List.filterMap_append, List.length_append]
      simp only [List.filterMap_cons, hent, List.filterMap_nil, List.length_nil, Nat.add_zero]
      exact hi.num
    · intro b' hb' hm; exact hi.quant b' hb' (hmem b' hb' hm)
  · -- the first block of `b`
    have hor : b.x = r.x0 + c.1 ∧ b.y = r.y0 + c.2 := by
      obtain ⟨_, f1, f2, f3, f4, _⟩ := hfb
      obtain ⟨k1, k2, k3, k4⟩ := hc
      by_cases hlt : CellLt (b.x - r.x0, b.y - r.y0) c
      · exact absurd ((mem_prefix e _).2 ⟨by dsimp only; omega, by dsimp only; omega, hlt⟩) hp
      · unfold CellLt at hlt
        dsimp only at hlt
        omega
    have hfree : ∀ x y, b.Covers x y → s.layer x y = 255 := by
      intro x y hxy
      rw [hi.others x y, hf0 x y (fits_inside hfb hxy)]
      intro b' hb' hm hc'
      rw [ht.unique x y b' hb' b hb hc' hxy] at hm
      exact hp hm
    have hent : entry r g qf c = some ((b.t : Int), qf b.x b.y - 1) := entry_first hg hb hc hor
    have hsplit : encode r g qf = pre.filterMap (entry r g qf) ++ ((b.t : Int), qf b.x b.y - 1) ::
        post.filterMap (entry r g qf) := by
      rw [encode_eq, e, List.filterMap_append, List.filterMap_cons, hent]
    have ea : acs[s.num]? = some (b.t : Int) := by
      rw [ha, hsplit, hi.num]
      simp
    have eq : qs[s.num]? = some (qf b.x b.y - 1) := by
      rw [hqs, hsplit, hi.num]
      simp
    rw [if_neg (by rw [hfree _ _ hc]; simp), ea, eq]
    dsimp only
    have hbe : b = ⟨r.x0 + c.1, r.y0 + c.2, b.t⟩ := by rw [← hor.1, ← hor.2]
    obtain ⟨s', hs'⟩ := place_ok (W := W) (H := H) (is444 := is444) (r := r) (x := r.x0 + c.1) (y := r.y0 + c.2)
      (t := b.t) (q := qf b.x b.y - 1)
      (s := { s with epf := upd s.epf (r.x0 + c.1) (r.y0 + c.2) (sharp (r.x0 + c.1) (r.y0 + c.2)) }) hW hH
      (by rw [← hbe]; exact hfb) (fun h => hs h b hb) (fun x y hxy => hfree x y (by rwa [hbe]))
    refine ⟨s', hs', ?_⟩
    obtain ⟨t, ht', _, _, _, g4, g5, g6, g7, g8, _⟩ := place_spec hs' (by omega) (by omega)
    have : t = b.t := by omega
    subst this
    rw [← hbe] at g4 g5
    dsimp only at g5 g6 g7 g8
    have hmem : ∀ b' ∈ bs, (b'.x - r.x0, b'.y - r.y0) ∈ pre ++ [c] →
        b' = b ∨ (b' ≠ b ∧ (b'.x - r.x0, b'.y - r.y0) ∈ pre) := by
      intro b' hb' hm
      by_cases he : b' = b
      · exact Or.inl he
      · refine Or.inr ⟨he, ?_⟩
        rcases List.mem_append.1 hm with h | h
        · exact h
        · rw [List.mem_singleton] at h
          obtain ⟨_, f1, _, f3, _⟩ := ht.fits b' hb'
          have e1 : b'.x = r.x0 + c.1 := by rw [← h]; dsimp only; omega
          have e2 : b'.y = r.y0 + c.2 := by rw [← h]; dsimp only; omega
          have hcov := fits_origin (ht.fits b' hb')
          rw [e1, e2] at hcov
          exact absurd (ht.unique _ _ b' hb' b hb hcov hc) he
    have hbm : (b.x - r.x0, b.y - r.y0) ∈ pre ++ [c] := by
      rw [hor.1, hor.2, Nat.add_sub_cancel_left, Nat.add_sub_cancel_left]
      simp
    refine ⟨?_, ?_, ?_, ?_, ?_, ?_⟩
    · intro b' hb' hm x y hxy
      rcases hmem b' hb' hm with h | ⟨h1, h2⟩
      · subst h
        rw [g4 x y hxy, hg b' hb' x y hxy, hor.1, hor.2]
      · rw [g5 x y fun hn => h1 (ht.unique x y b' hb' b hb hxy hn)]
        exact hi.placed b' hb' h2 x y hxy
    · intro x y hx
      rw [g5 x y (hx b hb hbm)]
      exact hi.others x y fun b' hb' hm => hx b' hb' (List.mem_append_left _ hm)
    · rw [g8, List.filterMap_append, List.length_append]
      simp only [List.filterMap_cons, hent, List.filterMap_nil, List.length_cons, List.length_nil]
      rw [hi.num]
    · intro b' hb' hm
      rw [g6]
      unfold upd
      rcases hmem b' hb' hm with h | ⟨h1, h2⟩
      · subst h
        rw [if_pos hor]
        have := hq b' hb'
        unfold clampQf
        omega
      · rw [if_neg]
        · exact hi.quant b' hb' h2
        · rintro ⟨e1, e2⟩
          have hcov := fits_origin (ht.fits b' hb')
          rw [e1, e2] at hcov
          exact h1 (ht.unique _ _ b' hb' b hb hcov hc)
    · intro x y hx
      rw [g6]
      unfold upd
      rw [if_neg]
      · exact hi.quant0 x y hx
      · rintro ⟨e1, e2⟩
        exact hx b hb ⟨hor.1.trans e1.symm, hor.2.trans e2.symm⟩
    · rw [g7]; exact hsharp

theorem cells_round_trip {W H : Nat} {is444 : Bool} {r : Rect} {bs : List Varblock} {g : Layer}
    {qf sharp : Nat → Nat → Int} {s0 : State} {acs qs xs ys : List Int}
    (hW : r.x0 + r.w ≤ W) (hH : r.y0 + r.h ≤ H) (ht : Tiling r bs) (hg : Shows g bs)
    (hs : is444 = false → ∀ b ∈ bs, b.cx = 1 ∧ b.cy = 1)
    (hq : ∀ b ∈ bs, 1 ≤ qf b.x b.y ∧ qf b.x b.y ≤ 256)
    (hsh : ∀ x y, Inside r x y → 0 ≤ sharp x y ∧ sharp x y < 8)
    (hf0 : ∀ x y, Inside r x y → s0.layer x y = 255)
    (ha : acs = (encode r g qf).map Prod.fst ++ xs) (hqs : qs = (encode r g qf).map Prod.snd ++ ys) :
    ∀ (post pre : List (Nat × Nat)) (s : State), offsets r.w r.h = pre ++ post → RInv r bs g qf sharp s0 pre s →
      ∃ s', cells W H is444 r acs qs sharp post s = .ok s' ∧ RInv r bs g qf sharp s0 (offsets r.w r.h) s'
  | [], pre, s, e, hi => by
    rw [List.append_nil] at e
    rw [e]
    exact ⟨s, rfl, hi⟩
  | c :: cs, pre, s, e, hi => by
    obtain ⟨s1, e1, hi1⟩ := hi.step hW hH ht hg hs hq hsh hf0 ha hqs e
    rw [cells, e1]
    exact cells_round_trip hW hH ht hg hs hq hsh hf0 ha hqs cs (pre ++ [c]) s1 (by simp [e]) hi1

theorem rinv_start (r : Rect) (bs : List Varblock) (g : Layer) (qf sharp : Nat → Nat → Int) (s0 : State) :
    RInv r bs g qf sharp s0 [] { s0 with num := 0 } where
  placed := by simp
  others := by simp
  num := rfl
  quant := by simp
  quant0 := by simp
  sharpOk := by simp

/-- The encoder writes the kinds of the transforms in reading order. -/
theorem encode_list {r : Rect} {bs : List Varblock} {g : Layer} {qf : Nat → Nat → Int} (ht : Tiling r bs)
    (hg : Shows g bs) : ∀ (post pre : List (Nat × Nat)), offsets r.w r.h = pre ++ post → ∀ bs1 bs2, bs = bs1 ++ bs2 →
      (∀ b ∈ bs1, (b.x - r.x0, b.y - r.y0) ∈ pre) → (∀ b ∈ bs2, (b.x - r.x0, b.y - r.y0) ∈ post) →
      post.filterMap (entry r g qf) = bs2.map fun b => ((b.t : Int), qf b.x b.y - 1)
  | [], pre, e, bs1, bs2, he, h1, h2 => by
    cases bs2 with
    | nil => rfl
    | cons b bs2 => exact absurd (h2 b (List.mem_cons_self ..)) (by simp)
  | c :: cs, pre, e, bs1, bs2, he, h1, h2 => by
    obtain ⟨cw, ch⟩ := mem_offsets.1 (show c ∈ offsets r.w r.h by rw [e]; simp)
    have hin : Inside r (r.x0 + c.1) (r.y0 + c.2) := ⟨by omega, by omega, by omega, by omega⟩
    obtain ⟨b, hb, hc⟩ := ht.covered _ _ hin
    have hcnot : c ∉ pre := fun hm => CellLt.irrefl ((mem_prefix e c).1 hm).2.2
    have hpos : ∀ b' ∈ bs, (b'.x - r.x0, b'.y - r.y0) = c → b'.x = r.x0 + c.1 ∧ b'.y = r.y0 + c.2 := by
      intro b' hb' h
      obtain ⟨_, f1, _, f3, _⟩ := ht.fits b' hb'
      constructor
      · rw [← h]; dsimp only; omega
      · rw [← h]; dsimp only; omega
    have e' : offsets r.w r.h = (pre ++ [c]) ++ cs := by simp [e]
    by_cases hor : b.x = r.x0 + c.1 ∧ b.y = r.y0 + c.2
    · have hent : entry r g qf c = some ((b.t : Int), qf b.x b.y - 1) := entry_first hg hb hc hor
      have hbc : (b.x - r.x0, b.y - r.y0) = c := by
        rw [hor.1, hor.2, Nat.add_sub_cancel_left, Nat.add_sub_cancel_left]
      have hb2 : b ∈ bs2 := by
        rw [he] at hb
        rcases List.mem_append.1 hb with h | h
        · exact absurd (hbc ▸ h1 b h) hcnot
        · exact h
      cases bs2 with
      | nil => simp at hb2
      | cons b2 bs3 =>
        have hb2e : b2 = b := by
          rcases List.mem_cons.1 hb2 with h | h
          · exact h.symm
          · -- `b2` comes before `b`, but its cell cannot
            have hs := ht.sorted
            rw [he, List.pairwise_append, List.pairwise_cons] at hs
            have hlt := hs.2.1.1 b h
            have hm := h2 b2 (List.mem_cons_self ..)
            have hb2s : b2 ∈ bs := by rw [he]; simp
            obtain ⟨_, f1, _, f3, _⟩ := ht.fits b2 hb2s
            have hcs := offsets_sorted r.w r.h
            rw [e, List.pairwise_append, List.pairwise_cons] at hcs
            rcases List.mem_cons.1 hm with hm | hm
            · obtain ⟨p1, p2⟩ := hpos b2 hb2s hm
              exact absurd hlt (by unfold Before; omega)
            · have := hcs.2.1.1 _ hm
              unfold CellLt at this
              unfold Before at hlt
              dsimp only at this
              omega
        subst hb2e
        rw [List.filterMap_cons, hent, List.map_cons]
        dsimp only
        congr 1
        refine encode_list ht hg cs (pre ++ [c]) e' (bs1 ++ [b2]) bs3 (by simp [he]) ?_ ?_
        · intro b' hb'
          rcases List.mem_append.1 hb' with h | h
          · exact List.mem_append_left _ (h1 b' h)
          · rw [List.mem_singleton] at h; subst h; rw [hbc]; simp
        · intro b' hb'
          have := h2 b' (List.mem_cons_of_mem _ hb')
          rcases List.mem_cons.1 this with h | h
          · have hb's : b' ∈ bs := by rw [he]; simp [hb']
            obtain ⟨p1, p2⟩ := hpos b' hb's h
            have hs := ht.sorted
            rw [he, List.pairwise_append, List.pairwise_cons] at hs
            have hlt := hs.2.1.1 b' hb'
            exact absurd hlt (by unfold Before; omega)
          · exact h
    · have hent : entry r g qf c = none := entry_rest hg hb hc hor
      rw [List.filterMap_cons, hent]
      refine encode_list ht hg cs (pre ++ [c]) e' bs1 bs2 he
        (fun b' h => List.mem_append_left _ (h1 b' h)) ?_
      intro b' hb'
      rcases List.mem_cons.1 (h2 b' hb') with h | h
      · have hb's : b' ∈ bs := by rw [he]; simp [hb']
        obtain ⟨p1, p2⟩ := hpos b' hb's h
        have hcov := fits_origin (ht.fits b' hb's)
        rw [p1, p2] at hcov
        have := ht.unique _ _ b hb b' hb's hc hcov
        subst this
        exact absurd ⟨p1, p2⟩ hor
      · exact h

theorem encode_tiling {r : Rect} {bs : List Varblock} {g : Layer} {qf : Nat → Nat → Int} (ht : Tiling r bs)
    (hg : Shows g bs) : encode r g qf = bs.map fun b => ((b.t : Int), qf b.x b.y - 1) := by
  rw [encode_eq]
  refine encode_list ht hg _ [] rfl [] bs rfl (by simp) fun b hb => ?_
  obtain ⟨ht', f1, f2, f3, f4, _⟩ := ht.fits b hb
  obtain ⟨c1, c2, _⟩ := covered_table _ ht'
  unfold Varblock.cx Varblock.cy at *
  exact mem_offsets.2 ⟨by dsimp only; omega, by dsimp only; omega⟩

end Jxl.AcStrategy
