import Verif.Lemmas.Palette
/-! # The lossless forward palette transform -/
namespace Jxl.Modular.Palette

/-! ## Several channels -/

theorem collect_spec (implicit : List (List Px)) (n : Nat) : ∀ (ps seen order : List (List Px)) (used : Nat)
    {order' : List (List Px)} {used' : Nat}, collect implicit n ps seen order used = some (order', used') →
    order.length ≤ n → (∀ c ∈ seen, c ∈ order ∨ c ∈ implicit) →
    order'.length ≤ n ∧ (∀ c ∈ order, c ∈ order') ∧ ∀ c ∈ ps, c ∈ order' ∨ c ∈ implicit := by
  intro ps
  induction ps with
  | nil =>
    intro seen order used order' used' h hl _
    rw [collect] at h; cases h
    exact ⟨hl, fun _ h => h, fun c hc => by cases hc⟩
  | cons p ps ih =>
    intro seen order used order' used' h hl hs
    rw [collect] at h
    by_cases h1 : p ∈ seen
    · rw [if_pos h1] at h
      obtain ⟨a, b, c⟩ := ih seen order used h hl hs
      refine ⟨a, b, fun q hq => ?_⟩
      rcases List.mem_cons.1 hq with rfl | hq
      · rcases hs q h1 with h | h
        · exact Or.inl (b q h)
        · exact Or.inr h
      · exact c q hq
    · rw [if_neg h1] at h
      by_cases h2 : p ∈ implicit
      · rw [if_pos h2] at h
        obtain ⟨a, b, c⟩ := ih (p :: seen) order (used + 1) h hl (by
          intro q hq
          rcases List.mem_cons.1 hq with rfl | hq
          · exact Or.inr h2
          · exact hs q hq)
        refine ⟨a, b, fun q hq => ?_⟩
        rcases List.mem_cons.1 hq with rfl | hq
        · exact Or.inr h2
        · exact c q hq
      · rw [if_neg h2] at h
        by_cases h3 : n < order.length + 1
        · rw [if_pos h3] at h; cases h
        · rw [if_neg h3] at h
          obtain ⟨a, b, c⟩ := ih (p :: seen) (order ++ [p]) used h (by simp; omega) (by
            intro q hq
            rcases List.mem_cons.1 hq with rfl | hq
            · left; simp
            · rcases hs q hq with h | h
              · left; simp [h]
              · exact Or.inr h)
          refine ⟨a, fun q hq => b q (by simp [hq]), fun q hq => ?_⟩
          rcases List.mem_cons.1 hq with rfl | hq
          · left; exact b q (by simp)
          · exact c q hq

theorem invPal_spec {implicit order : List (List Px)} {col : List Px} (h : col ∈ order ∨ col ∈ implicit) :
    order[invPal implicit order col]? = some col ∨
      ∃ k, invPal implicit order col = order.length + k ∧ implicit[k]? = some col := by
  unfold invPal
  cases hf : (order.zipIdx.reverse ++ (implicit.zipIdx order.length).reverse).find? (fun e => e.1 == col) with
  | none =>
    rw [List.find?_eq_none] at hf
    exfalso
    rcases h with h | h
    · obtain ⟨i, hi⟩ := List.mem_iff_getElem?.1 h
      have := hf (col, i) (by
        rw [List.mem_append, List.mem_reverse, List.mem_zipIdx_iff_getElem?]; exact Or.inl hi)
      simp at this
    · obtain ⟨i, hi⟩ := List.mem_iff_getElem?.1 h
      have := hf (col, order.length + i) (by
        rw [List.mem_append]
        right
        rw [List.mem_reverse, List.mk_mem_zipIdx_iff_le_and_getElem?_sub]
        exact ⟨by omega, by rw [show order.length + i - order.length = i by omega]; exact hi⟩)
      simp at this
  | some e =>
    have h1 := List.mem_of_find?_eq_some hf
    have h2 := List.find?_some hf
    simp only [Option.map_some, Option.getD_some]
    obtain ⟨c, i⟩ := e
    have h2' : c = col := by simpa using h2
    subst h2'
    rw [List.mem_append, List.mem_reverse, List.mem_reverse, List.mem_zipIdx_iff_getElem?,
      List.mk_mem_zipIdx_iff_le_and_getElem?_sub] at h1
    rcases h1 with h1 | ⟨h1, h3⟩
    · exact Or.inl h1
    · exact Or.inr ⟨i - order.length, by simp only; omega, h3⟩

theorem implicitColors_some {nb d : Nat} (hd : d ≤ 31) : ∃ I, implicitColors nb d = some I := by
  unfold implicitColors
  apply mapOpt_some
  intro k _
  apply mapOpt_some
  intro c _
  have := getPaletteValue_implicit [] k c 0 d (by omega)
  rw [Nat.zero_add] at this
  rw [this]
  by_cases h3 : 3 ≤ c
  · rw [if_pos h3]; exact ⟨_, rfl⟩
  · rw [if_neg h3]
    by_cases h : k < 64
    · rw [if_pos h, smallCube_eq _ _ hd]; exact ⟨_, rfl⟩
    · rw [if_neg h, largeCube_eq _ _ hd]; exact ⟨_, rfl⟩

theorem implicitColors_get {nb d : Nat} {I : List (List Px)} (h : implicitColors nb d = some I) :
    I.length = 189 ∧ ∀ (k : Nat) (col : List Px), I[k]? = some col → ∀ c, c < nb →
      col[c]? = getPaletteValue [] (k : Int) c 0 d := by
  obtain ⟨h1, h2⟩ := mapOpt_get h
  rw [List.length_range] at h1
  refine ⟨h1, fun k col hk c hc => ?_⟩
  have hkl : k < 189 := by
    have := (List.getElem?_eq_some_iff.1 hk).1; omega
  obtain ⟨b, e1, e2⟩ := h2 k k (List.getElem?_range hkl)
  rw [hk] at e2; cases e2
  obtain ⟨v, e3, e4⟩ := (mapOpt_get e1).2 c c (List.getElem?_range hc)
  rw [e4, e3]

theorem toInt_ofNat_small {n : Nat} (h : n < 2147483648) : (BitVec.ofNat 32 n).toInt = (n : Int) := by
  rw [BitVec.toInt_eq_toNat_of_lt]
  · rw [BitVec.toNat_ofNat, Nat.mod_eq_of_lt (by omega)]
  · rw [BitVec.toNat_ofNat, Nat.mod_eq_of_lt (by omega)]; omega

/-- One colour there and back. -/
theorem color_round_trip {implicit order : List (List Px)} {nb d : Nat} (hI : implicitColors nb d = some implicit)
    {col : List Px} (h : col ∈ order ∨ col ∈ implicit) (hl : col.length = nb) (ho : order.length + 253 < 2147483648)
    {c : Nat} (hc : c < nb) :
    getPaletteValue ((List.range nb).map fun c => order.map fun col => col.getD c 0)
      (BitVec.ofNat 32 (invPal implicit order col)).toInt c order.length d = col[c]? := by
  obtain ⟨hIl, hIg⟩ := implicitColors_get hI
  rcases invPal_spec h with h | ⟨k, h1, h2⟩
  · have hlt := (List.getElem?_eq_some_iff.1 h).1
    rw [toInt_ofNat_small (by omega), getPaletteValue_explicit (by omega) (by omega) (by omega)]
    rw [List.getElem?_map, List.getElem?_range hc]
    simp only [Option.map_some, Option.bind_some, Int.toNat_natCast]
    rw [List.getElem?_map, h, Option.map_some, List.getD_eq_getElem?_getD, List.getElem?_eq_getElem (by omega)]
    rfl
  · have hk := (List.getElem?_eq_some_iff.1 h2).1
    rw [h1, toInt_ofNat_small (by omega), getPaletteValue_shift _ _ _ _ _ (by omega), hIg k col h2 c hc]

/-! ## One channel -/

theorem minMax_spec : ∀ (ps : List Int) (m : Int × Int), (∀ p ∈ ps, -2147483648 ≤ p ∧ p ≤ 2147483647) →
    let r := ps.foldl (fun m p => (if p < m.1 then p else m.1, if p > m.2 then p else m.2)) m
    r.1 ≤ m.1 ∧ m.2 ≤ r.2 ∧ (∀ p ∈ ps, r.1 ≤ p ∧ p ≤ r.2) ∧
      (-2147483648 ≤ m.1 → -2147483648 ≤ r.1) ∧ (m.2 ≤ 2147483647 → r.2 ≤ 2147483647) := by
  intro ps
  induction ps with
  | nil => intro m _; exact ⟨Int.le_refl _, Int.le_refl _, fun p hp => (by cases hp), id, id⟩
  | cons p ps ih =>
    intro m h
    obtain ⟨h1, h2, h3, h4, h5⟩ := ih (if p < m.1 then p else m.1, if p > m.2 then p else m.2)
      (fun q hq => h q (by simp [hq]))
    have hp := h p (by simp)
    rw [List.foldl_cons]
    dsimp only at *
    generalize List.foldl _ _ ps = r at *
    have a1 : (if p < m.1 then p else m.1) ≤ m.1 ∧ (if p < m.1 then p else m.1) ≤ p ∧
      (-2147483648 ≤ m.1 → -2147483648 ≤ (if p < m.1 then p else m.1)) := by split <;> omega
    have a2 : m.2 ≤ (if p > m.2 then p else m.2) ∧ p ≤ (if p > m.2 then p else m.2) ∧
      (m.2 ≤ 2147483647 → (if p > m.2 then p else m.2) ≤ 2147483647) := by split <;> omega
    refine ⟨by omega, by omega, ?_, fun h => h4 (a1.2.2 h), fun h => h5 (a2.2.2 h)⟩
    intro q hq
    rcases List.mem_cons.1 hq with rfl | hq
    · omega
    · exact h3 q hq

theorem minMax_ok (ps : List Int) (h : ∀ p ∈ ps, -2147483648 ≤ p ∧ p ≤ 2147483647) :
    (∀ p ∈ ps, (minMax ps).1 ≤ p ∧ p ≤ (minMax ps).2) ∧ -2147483648 ≤ (minMax ps).1 ∧ (minMax ps).2 ≤ 2147483647 := by
  have := minMax_spec ps (2147483647, -2147483648) h
  exact ⟨this.2.2.1, this.2.2.2.1 (by decide), this.2.2.2.2 (by decide)⟩

theorem mem_insertSet (x y : Int) : ∀ l, y ∈ insertSet x l ↔ y = x ∨ y ∈ l := by
  intro l
  induction l with
  | nil => simp [insertSet]
  | cons z l ih =>
    rw [insertSet]
    split
    · simp
    · split
      · rename_i h; subst h; simp
      · simp only [List.mem_cons, ih]; grind

theorem insertSet_length (x : Int) : ∀ l, x ∉ l → (insertSet x l).length = l.length + 1 := by
  intro l
  induction l with
  | nil => intro _; rfl
  | cons z l ih =>
    intro h
    rw [insertSet]
    have h1 : x ≠ z := fun e => h (by simp [e])
    split
    · rfl
    · rw [List.length_cons, ih (fun e => h (by simp [e])), List.length_cons]

theorem collectSet_spec (n : Nat) : ∀ (ps s : List Int) {pal : List Int}, collectSet n ps s = some pal → s.length ≤ n →
    pal.length ≤ n ∧ (∀ p ∈ s, p ∈ pal) ∧ ∀ p ∈ ps, p ∈ pal := by
  intro ps
  induction ps with
  | nil =>
    intro s pal h hl
    rw [collectSet] at h; cases h
    exact ⟨hl, fun _ h => h, fun p hp => by cases hp⟩
  | cons p ps ih =>
    intro s pal h hl
    rw [collectSet] at h
    by_cases h1 : p ∈ s
    · rw [if_pos h1] at h
      obtain ⟨a, b, c⟩ := ih s h hl
      refine ⟨a, b, fun q hq => ?_⟩
      rcases List.mem_cons.1 hq with rfl | hq
      · exact b q h1
      · exact c q hq
    · rw [if_neg h1] at h
      by_cases h2 : n < s.length + 1
      · rw [if_pos h2] at h; cases h
      · rw [if_neg h2] at h
        obtain ⟨a, b, c⟩ := ih (insertSet p s) h (by rw [insertSet_length p s h1]; omega)
        refine ⟨a, fun q hq => b q ((mem_insertSet p q s).2 (Or.inr hq)), fun q hq => ?_⟩
        rcases List.mem_cons.1 hq with rfl | hq
        · exact b q ((mem_insertSet q q s).2 (Or.inl rfl))
        · exact c q hq

theorem searchFrom_spec (pal : List Int) (p : Int) : ∀ (fuel i : Nat), pal.length < fuel + i → p ∈ pal.drop i →
    ∃ j, searchFrom pal p fuel i = some j ∧ pal[j]? = some p := by
  intro fuel
  induction fuel with
  | zero =>
    intro i hf hp
    rw [List.drop_eq_nil_of_le (by omega)] at hp; cases hp
  | succ fuel ih =>
    intro i hf hp
    have hi : i < pal.length := by
      rcases Nat.lt_or_ge i pal.length with h | h
      · exact h
      · rw [List.drop_eq_nil_of_le h] at hp; cases hp
    rw [searchFrom, List.getElem?_eq_getElem hi, Option.bind_some]
    by_cases h : p = pal[i]
    · rw [if_neg (fun hh => hh.1 h)]
      exact ⟨i, rfl, by rw [List.getElem?_eq_getElem hi, h]⟩
    · rw [if_pos ⟨h, hi⟩]
      apply ih (i + 1) (by omega)
      rw [List.drop_eq_getElem_cons hi] at hp
      rcases List.mem_cons.1 hp with hp | hp
      · exact absurd hp h
      · exact hp

theorem countP_set_one {t : List Nat} {j : Nat} (h : t[j]? = some 0) :
    (t.set j 1).countP (fun v => v != 0) = t.countP (fun v => v != 0) + 1 := by
  induction t generalizing j with
  | nil => cases h
  | cons a t ih =>
    cases j with
    | zero =>
      simp only [List.getElem?_cons_zero, Option.some.injEq] at h
      subst h
      simp [List.set]
    | succ j =>
      simp only [List.getElem?_cons_succ] at h
      rw [List.set_cons_succ, List.countP_cons, List.countP_cons, ih h]
      omega

/-- Marking stays inside the table, marks every sample, and counts the marks. -/
theorem markUsed_spec (n : Nat) (mn : Int) : ∀ (ps : List Int) (t : List Nat) (k : Nat),
    (∀ p ∈ ps, mn ≤ p ∧ (p - mn).toNat < t.length) → k = t.countP (fun v => v != 0) → k ≤ n →
    ∃ r, markUsed n mn ps t k = some r ∧ ∀ t' k', r = some (t', k') →
      t'.length = t.length ∧ k' ≤ n ∧ k' = t'.countP (fun v => v != 0) ∧ (∀ i : Nat, t.getD i 0 ≠ 0 → t'.getD i 0 ≠ 0) ∧
        ∀ p ∈ ps, t'.getD (p - mn).toNat 0 ≠ 0 := by
  intro ps
  induction ps with
  | nil =>
    intro t k _ hk hn
    refine ⟨_, rfl, fun t' k' h => ?_⟩
    cases h
    exact ⟨rfl, hn, hk, fun _ h => h, fun p hp => by cases hp⟩
  | cons p ps ih =>
    intro t k hps hk hn
    have hp := (hps p (by simp)).2
    have hg : t.getD (p - mn).toNat 0 = t[(p - mn).toNat] := by
      rw [List.getD_eq_getElem?_getD, List.getElem?_eq_getElem hp]; rfl
    rw [markUsed, List.getElem?_eq_getElem hp, Option.bind_some]
    by_cases h0 : t[(p - mn).toNat] = 0
    · rw [if_pos h0]
      by_cases hk1 : n < k + 1
      · rw [if_pos hk1]; exact ⟨_, rfl, fun t' k' h => by cases h⟩
      · rw [if_neg hk1]
        obtain ⟨r, e, hr⟩ := ih (t.set (p - mn).toNat 1) (k + 1)
          (fun q hq => by rw [List.length_set]; exact hps q (by simp [hq]))
          (by rw [countP_set_one (by rw [List.getElem?_eq_getElem hp, h0]), hk]) (by omega)
        refine ⟨r, e, fun t' k' h => ?_⟩
        obtain ⟨g1, g2, g3, g4, g5⟩ := hr t' k' h
        have hset : ∀ i : Nat, t.getD i 0 ≠ 0 ∨ i = (p - mn).toNat → (t.set (p - mn).toNat 1).getD i 0 ≠ 0 := by
          intro i hi
          rw [List.getD_eq_getElem?_getD, List.getElem?_set]
          by_cases hij : (p - mn).toNat = i
          · rw [if_pos hij, if_pos (by omega)]; simp
          · rw [if_neg hij, ← List.getD_eq_getElem?_getD]
            rcases hi with hi | hi
            · exact hi
            · exact absurd hi.symm hij
        refine ⟨by rw [g1, List.length_set], g2, g3, fun i hi => g4 i (hset i (Or.inl hi)), fun q hq => ?_⟩
        rcases List.mem_cons.1 hq with rfl | hq
        · exact g4 _ (hset _ (Or.inr rfl))
        · exact g5 q hq
    · rw [if_neg h0]
      obtain ⟨r, e, hr⟩ := ih t k (fun q hq => hps q (by simp [hq])) hk hn
      refine ⟨r, e, fun t' k' h => ?_⟩
      obtain ⟨g1, g2, g3, g4, g5⟩ := hr t' k' h
      refine ⟨g1, g2, g3, g4, fun q hq => ?_⟩
      rcases List.mem_cons.1 hq with rfl | hq
      · exact g4 _ (by rw [hg]; exact h0)
      · exact g5 q hq

/-- Numbering: after `m` entries. -/
theorem number_spec (mn : Int) (t : List Nat) : ∀ m, m ≤ t.length →
    let s := (List.range m).foldl (numberStep mn) ([], t, 0)
    s.1.length = (t.take m).countP (fun v => v != 0) ∧ s.2.2 = s.1.length ∧ s.2.1.length = t.length ∧
      (∀ i, m ≤ i → s.2.1[i]? = t[i]?) ∧
      ∀ i, i < m → t.getD i 0 ≠ 0 → ∃ j : Nat, s.2.1[i]? = some j ∧ s.1[j]? = some ((i : Int) + mn) := by
  intro m
  induction m with
  | zero => intro _; exact ⟨rfl, rfl, rfl, fun _ _ => rfl, fun i h => by omega⟩
  | succ m ih =>
    intro hm
    obtain ⟨h1, h2, h3, h4, h5⟩ := ih (by omega)
    rw [List.range_succ, List.foldl_append]
    generalize (List.range m).foldl (numberStep mn) ([], t, 0) = s at *
    obtain ⟨pal, tab, k⟩ := s
    dsimp only at *
    simp only [List.foldl_cons, List.foldl_nil]
    have htm : t.getD m 0 = t[m] := by rw [List.getD_eq_getElem?_getD, List.getElem?_eq_getElem (by omega)]; rfl
    have htake : (t.take (m + 1)).countP (fun v => v != 0) = (t.take m).countP (fun v => v != 0) + if t[m] != 0 then 1 else 0 := by
      rw [List.take_add_one, List.getElem?_eq_getElem (by omega), List.countP_append]
      simp [List.countP_cons]
    have hget : tab.getD m 0 = t[m] := by
      rw [List.getD_eq_getElem?_getD, h4 m (Nat.le_refl _), List.getElem?_eq_getElem (by omega)]; rfl
    unfold numberStep
    dsimp only
    rw [hget, htake]
    by_cases h0 : t[m] = 0
    · rw [if_neg (by omega)]
      dsimp only
      refine ⟨by simp [h1, h0], h2, h3, fun i hi => h4 i (by omega), fun i hi hne => ?_⟩
      rcases Nat.lt_or_ge i m with h | h
      · exact h5 i h hne
      · have : i = m := by omega
        subst this; rw [htm] at hne; exact absurd h0 hne
    · rw [if_pos h0]
      dsimp only
      refine ⟨by simp [h1, h0], by simp [h2], by simp [h3], fun i hi => ?_, fun i hi hne => ?_⟩
      · rw [List.getElem?_set_ne (by omega)]; exact h4 i (by omega)
      · rcases Nat.lt_or_ge i m with h | h
        · obtain ⟨j, j1, j2⟩ := h5 i h hne
          refine ⟨j, by rw [List.getElem?_set_ne (by omega)]; exact j1, ?_⟩
          rw [List.getElem?_append_left (List.getElem?_eq_some_iff.1 j2).1]; exact j2
        · have : i = m := by omega
          subst this
          refine ⟨k, by rw [List.getElem?_set_self (by omega)], ?_⟩
          rw [List.getElem?_append_right (by omega), h2, Nat.sub_self]; rfl

/-- The channel palette is defined, and its indices point at the samples. -/
theorem channelPalette_spec (n : Nat) (rows : List (List Px)) :
    ∃ r, channelPalette n rows = some r ∧ ∀ pal idx, r = some (pal, idx) → pal.length ≤ n ∧
      ∃ f : Px → Option Nat, mapOpt (mapOpt f) rows = some idx ∧
        ∀ row ∈ rows, ∀ p ∈ row, ∃ i, f p = some i ∧ pal[i]? = some p.toInt := by
  have hmem : ∀ row ∈ rows, ∀ p ∈ row, p.toInt ∈ rows.flatten.map BitVec.toInt := by
    intro row hr p hp
    exact List.mem_map_of_mem (List.mem_flatten.2 ⟨row, hr, hp⟩)
  unfold channelPalette
  dsimp only
  have hmm := minMax_ok (rows.flatten.map BitVec.toInt) (by
    intro p hp
    obtain ⟨q, _, rfl⟩ := List.mem_map.1 hp
    have h1 := BitVec.le_toInt q
    have h2 := BitVec.toInt_lt (x := q)
    simp only [Nat.add_one_sub_one] at h1 h2
    omega)
  generalize rows.flatten.map BitVec.toInt = ps at *
  generalize minMax ps = mm at *
  obtain ⟨mn, mx⟩ := mm
  dsimp only at *
  obtain ⟨h3, h4, h5⟩ := hmm
  by_cases hbig : 65536 < (mx - mn + 1) % 2 ^ 64
  · rw [if_pos hbig]
    cases hc : collectSet n ps [] with
    | none => exact ⟨_, rfl, fun pal idx h => by cases h⟩
    | some pal =>
      obtain ⟨g1, _, g3⟩ := collectSet_spec n ps [] hc (by simp)
      have hsearch : ∀ row ∈ rows, ∀ p ∈ row, ∃ i, searchFrom pal (BitVec.toInt p) (pal.length + 1) 0 = some i ∧
          pal[i]? = some p.toInt := fun row hr p hp =>
        searchFrom_spec pal _ _ 0 (by omega) (by rw [List.drop_zero]; exact g3 _ (hmem row hr p hp))
      obtain ⟨idx, hidx⟩ : ∃ idx, mapOpt (mapOpt fun p => searchFrom pal (BitVec.toInt p) (pal.length + 1) 0) rows = some idx :=
        mapOpt_some fun row hr => mapOpt_some fun p hp => by
          obtain ⟨i, hi, _⟩ := hsearch row hr p hp
          exact ⟨i, hi⟩
      dsimp only
      rw [hidx]
      refine ⟨_, rfl, fun pal' idx' h => ?_⟩
      cases h
      exact ⟨g1, _, hidx, hsearch⟩
  · rw [if_neg hbig]
    have hrange : ∀ p ∈ ps, mn ≤ p ∧ (p - mn).toNat < ((mx - mn + 1) % 2 ^ 64).toNat := by
      intro p hp
      obtain ⟨a, b⟩ := h3 p hp
      omega
    generalize ((mx - mn + 1) % 2 ^ 64).toNat = size at *
    obtain ⟨r, e, hr⟩ := markUsed_spec n mn ps (List.replicate size 0) 0
      (by intro p hp; rw [List.length_replicate]; exact hrange p hp)
      (by rw [Eq.comm, List.countP_eq_zero]; intro a ha; rw [List.eq_of_mem_replicate ha]; simp) (by omega)
    rw [e, Option.bind_some]
    cases r with
    | none => exact ⟨_, rfl, fun pal idx h => by cases h⟩
    | some tk =>
      obtain ⟨t, k⟩ := tk
      obtain ⟨g1, g2, g3, _, g5⟩ := hr t k rfl
      rw [List.length_replicate] at g1
      obtain ⟨n1, n2, n3, _, n5⟩ := number_spec mn t size (by omega)
      dsimp only at *
      generalize (List.range size).foldl (numberStep mn) ([], t, 0) = s at *
      rw [List.take_of_length_le (by omega)] at n1
      rw [if_pos (by omega)]
      have hlook : ∀ row ∈ rows, ∀ p ∈ row, ∃ i, s.2.1[(BitVec.toInt p - mn).toNat]? = some i ∧ s.1[i]? = some p.toInt := by
        intro row hrow p hp
        have hm := hmem row hrow p hp
        obtain ⟨a, b⟩ := hrange _ hm
        obtain ⟨j, j1, j2⟩ := n5 _ b (g5 _ hm)
        refine ⟨j, j1, by rw [j2]; congr 1; omega⟩
      obtain ⟨idx, hidx⟩ : ∃ idx, mapOpt (mapOpt fun p => s.2.1[(BitVec.toInt p - mn).toNat]?) rows = some idx :=
        mapOpt_some fun row hr => mapOpt_some fun p hp => by
          obtain ⟨i, hi, _⟩ := hlook row hr p hp
          exact ⟨i, hi⟩
      rw [hidx]
      refine ⟨_, rfl, fun pal' idx' h => ?_⟩
      cases h
      exact ⟨by omega, _, hidx, hlook⟩

end Jxl.Modular.Palette
