import Verif.Model.Lz77
/-! # The LZ77 window decoder: safety, refinement, checkpoints -/
namespace Jxl.Lz77

theorem mask (x : Nat) : x &&& (W - 1) = x % W := Nat.and_two_pow_sub_one_eq_mod x 20

theorem W_eq : W = 1048576 := rfl
theorem p32 : (2 : Nat) ^ 32 = 4294967296 := rfl
theorem reach_eq : reach = 1048576 := rfl
theorem mod_lt (x : Nat) : x % W < W := Nat.mod_lt _ (by decide)

theorem getD_get? (l : List Nat) (i d : Nat) (h : i < l.length) : l[i]? = some (l.getD i d) := by
  rw [List.getD_eq_getElem?_getD, List.getElem?_eq_getElem h]; rfl

theorem getD_app (l : List Nat) (v i d : Nat) : (l ++ [v]).getD i d = if i < l.length then l.getD i d else if i = l.length then v else d := by
  simp only [List.getD_eq_getElem?_getD, List.getElem?_append]
  split
  · rfl
  · split
    · next h => simp [h]
    · next h1 h2 =>
      have : (i - l.length) ≠ 0 := by omega
      cases e : i - l.length with
      | zero => exact absurd e this
      | succ k => simp

theorem wadd_eq {a b : Nat} (h : a + b < 2 ^ 32) : wadd a b = a + b := Nat.mod_eq_of_lt h
theorem wadd_lt (a b : Nat) : wadd a b < 2 ^ 32 := Nat.mod_lt _ (by decide)
theorem wsub_eq {a b : Nat} (h : b ≤ a) (ha : a < 2 ^ 32) : wsub a b = a - b := by
  unfold wsub
  rw [show a + 2 ^ 32 - b = (a - b) + 2 ^ 32 by omega, Nat.add_mod_right, Nat.mod_eq_of_lt (by omega)]

/-! ## Distances -/

theorem specialDistance_pos (i m : Nat) : 1 ≤ specialDistance i m := by
  unfold specialDistance; simp only; split <;> omega

theorem decodeDistance_pos (m d : Nat) : 1 ≤ decodeDistance m d := by
  unfold decodeDistance
  split
  · exact specialDistance_pos _ _
  · omega

theorem specialTable_length : specialTable.length = 120 := by decide

theorem decodeDistance_eq (m d : Nat) : decodeDistance m d = codeDistance m d := by
  unfold decodeDistance codeDistance numSpecial
  by_cases hm : m = 0
  · simp [hm]
  · simp only [hm, if_false]
    by_cases hd : d < 120
    · rw [if_pos hd, List.getElem?_eq_getElem (by rw [specialTable_length]; exact hd)]
      unfold specialDistance
      simp only [List.getD_eq_getElem?_getD, List.getElem?_eq_getElem (show d < specialTable.length by rw [specialTable_length]; exact hd), Option.getD_some]
      split
      · congr 1; omega
      · congr 1; omega
    · rw [if_neg hd, List.getElem?_eq_none (by rw [specialTable_length]; omega)]
      simp only; omega

theorem clamp_eq (d n : Nat) : clampDistance d n = usable d n := by
  unfold clampDistance usable
  simp only [W_eq, reach_eq]
  split <;> split <;> omega

theorem clamp_le (d n : Nat) : clampDistance d n ≤ n ∧ clampDistance d n ≤ W := by
  rw [clamp_eq]; unfold usable; rw [W_eq, reach_eq]; omega

theorem clamp_zero {d n : Nat} (hd : 1 ≤ d) (h : clampDistance d n = 0) : n = 0 := by
  rw [clamp_eq] at h; unfold usable at h; rw [reach_eq] at h; omega

/-! ## Steps -/

theorem push_eq (s : State) (v : Nat) : push s v =
    some { s with win := fun j => if j = s.num % W then some (v % 2 ^ 32) else s.win j, num := wadd s.num 1 } := by
  unfold push store
  rw [mask, if_pos (mod_lt _)]; rfl

theorem copyStep_eq (s : State) (v : Nat) (h : s.win (s.copyPos % W) = some v) : copyStep s = some (v,
    { s with win := fun j => if j = s.num % W then some (v % 2 ^ 32) else s.win j, num := wadd s.num 1, copyPos := wadd s.copyPos 1, toCopy := wsub s.toCopy 1 }) := by
  unfold copyStep load
  rw [mask, if_pos (mod_lt _), h]
  simp only [Option.bind_some, push_eq, Option.map_some]

theorem copyStep_win (s : State) (v : Nat) (t : State) (h : copyStep s = some (v, t)) : s.win (s.copyPos % W) = some v := by
  unfold copyStep load at h
  rw [mask, if_pos (mod_lt _)] at h
  rw [Option.bind_eq_some_iff] at h
  obtain ⟨a, h1, h2⟩ := h
  rw [push_eq] at h2
  simp only [Option.map_some, Option.some.injEq, Prod.mk.injEq] at h2
  rw [h1, h2.1]

/-! ## Any stream: never undefined, and only what was written matters -/

/-- Two decoders hold the same value, and hold one, at a place of the window. -/
def Same (s t : State) (i : Nat) : Prop := s.win i = t.win i ∧ (s.win i).isSome = true

/-- Two decoders that differ only in window entries no read can reach. -/
structure Rel (s t : State) : Prop where
  num : s.num = t.num
  toCopy : s.toCopy = t.toCopy
  copyPos : s.copyPos = t.copyPos
  next : s.next = t.next
  bad : s.bad = t.bad
  win : (∀ i, i < W → Same s t i) ∨
    (s.num < W ∧ (∀ i, i < s.num → Same s t i) ∧
      (s.toCopy > 0 → s.copyPos < s.num ∨ (s.copyPos = s.num ∧ ∀ i, i < W → i < s.num + s.toCopy → Same s t i)))

theorem push_rel {s t : State} (h : Rel s t) (h0 : s.toCopy = 0) (v : Nat) : ∃ s' t', push s v = some s' ∧ push t v = some t' ∧ Rel s' t' := by
  refine ⟨_, _, push_eq s v, push_eq t v, ?_⟩
  obtain ⟨hn, ht, hc, hx, hb, hw⟩ := h
  refine ⟨by simp [hn], ht, hc, hx, hb, ?_⟩
  rcases hw with hw | ⟨h1, h2, _⟩
  · left
    intro i hi
    have := hw i hi
    unfold Same at *
    simp only [← hn]
    split
    · simp
    · exact this
  · have e1 : s.num % W = s.num := Nat.mod_eq_of_lt h1
    have e2 : wadd s.num 1 = s.num + 1 := wadd_eq (by rw [W_eq] at h1; rw [p32]; omega)
    have key : ∀ i, i < s.num + 1 → Same { s with win := fun j => if j = s.num % W then some (v % 2 ^ 32) else s.win j, num := wadd s.num 1 } { t with win := fun j => if j = t.num % W then some (v % 2 ^ 32) else t.win j, num := wadd t.num 1 } i := by
      intro i hi
      unfold Same
      simp only [← hn, e1]
      split
      · simp
      · exact h2 i (by omega)
    by_cases hl : s.num + 1 < W
    · right
      exact ⟨by simp only [e2]; exact hl, by simp only [e2]; exact key, by simp [h0]⟩
    · left
      intro i hi
      exact key i (by omega)

theorem copyStep_rel {s t : State} (h : Rel s t) (h0 : s.toCopy > 0) (h1 : s.toCopy < 2 ^ 32) :
    ∃ v s' t', copyStep s = some (v, s') ∧ copyStep t = some (v, t') ∧ Rel s' t' ∧ s'.toCopy = s.toCopy - 1 := by
  have hs := h
  obtain ⟨hn, ht, hc, hx, hb, hw⟩ := h
  have hread : Same s t (s.copyPos % W) := by
    rcases hw with hw | ⟨a, b, c⟩
    · exact hw _ (mod_lt _)
    · rcases c h0 with c | ⟨c, d⟩
      · rw [Nat.mod_eq_of_lt (by omega)]; exact b _ c
      · rw [Nat.mod_eq_of_lt (by omega)]; exact d _ (by omega) (by omega)
  obtain ⟨v, hv⟩ := Option.isSome_iff_exists.1 hread.2
  have hv' : t.win (t.copyPos % W) = some v := by rw [← hc, ← hread.1, hv]
  have et : wsub s.toCopy 1 = s.toCopy - 1 := wsub_eq h0 h1
  refine ⟨v, _, _, copyStep_eq s v hv, copyStep_eq t v hv', ?_, et⟩
  refine ⟨by simp [hn], by simp [ht], by simp [hc], hx, hb, ?_⟩
  rcases hw with hw | ⟨a, b, c⟩
  · left
    intro i hi
    have := hw i hi
    unfold Same at *
    simp only [← hn]
    split
    · simp
    · exact this
  · have e1 : s.num % W = s.num := Nat.mod_eq_of_lt a
    have e2 : wadd s.num 1 = s.num + 1 := wadd_eq (by rw [W_eq] at a; rw [p32]; omega)
    have e3 : s.copyPos ≤ s.num := by rcases c h0 with c | ⟨c, _⟩ <;> omega
    have e4 : wadd s.copyPos 1 = s.copyPos + 1 := wadd_eq (by rw [W_eq] at a; rw [p32]; omega)
    by_cases hl : s.num + 1 < W
    · right
      refine ⟨by simp only [e2]; exact hl, ?_, ?_⟩
      · intro i hi
        simp only [e2] at hi
        unfold Same
        simp only [← hn, e1]
        split
        · simp
        · exact b i (by omega)
      · simp only [e2, e4, et]
        intro hk
        rcases c h0 with c | ⟨c, d⟩
        · left; omega
        · right
          refine ⟨by omega, ?_⟩
          intro i hi1 hi2
          unfold Same
          simp only [← hn, e1]
          split
          · simp
          · exact d i hi1 (by omega)
    · left
      intro i hi
      unfold Same
      simp only [← hn, e1]
      split
      · simp
      · exact b i (by omega)

theorem startCopy_rel {s t : State} (p : Params) (h : Rel s t) (h0 : s.toCopy = 0) (len dist : Nat) :
    ∃ s' t', startCopy p s len dist = some s' ∧ startCopy p t len dist = some t' ∧ Rel s' t' ∧ s'.toCopy = wadd len p.minLen := by
  obtain ⟨hn, ht, hc, hx, hb, hw⟩ := h
  unfold startCopy
  simp only [← hn]
  have hle := clamp_le (decodeDistance p.mult dist) s.num
  by_cases hd : clampDistance (decodeDistance p.mult dist) s.num = 0
  · have hz : s.num = 0 := clamp_zero (decodeDistance_pos _ _) hd
    simp only [hd, if_true, fill]
    rw [if_pos (Nat.min_le_right _ _), if_pos (Nat.min_le_right _ _)]
    refine ⟨_, _, rfl, rfl, ?_, rfl⟩
    refine ⟨rfl, rfl, rfl, hx, hb, ?_⟩
    rcases hw with hw | ⟨a, b, c⟩
    · left
      intro i hi
      have := hw i hi
      unfold Same at *
      simp only
      split
      · simp
      · exact this
    · right
      refine ⟨a, ?_, ?_⟩
      · intro i hi
        simp only [hz] at hi
        omega
      · intro _
        right
        refine ⟨?_, ?_⟩
        · rw [hz]; exact wsub_eq (Nat.le_refl 0) (by decide)
        · intro i hi1 hi2
          simp only [hz, Nat.zero_add] at hi2
          unfold Same
          simp only
          have hi3 : i < min (wadd len p.minLen) W := by omega
          simp [hi3]
  · simp only [hd, if_false]
    refine ⟨_, _, rfl, rfl, ?_, rfl⟩
    refine ⟨rfl, rfl, rfl, hx, hb, ?_⟩
    rcases hw with hw | ⟨a, b, c⟩
    · left; exact hw
    · right
      refine ⟨a, b, fun _ => ?_⟩
      left
      have hb' : s.num < 2 ^ 32 := by rw [W_eq] at a; rw [p32]; omega
      show wsub s.num _ < s.num
      rw [wsub_eq hle.1 hb']
      omega

theorem read_rel (p : Params) (hp : p.minLen < 2 ^ 32) (hp1 : 1 ≤ p.minLen) (ops : Nat → Op) {s t : State} (h : Rel s t) (hc : s.toCopy < 2 ^ 32) :
    ∃ v s' t', read p ops s = some (v, s') ∧ read p ops t = some (v, t') ∧ Rel s' t' ∧ s'.toCopy < 2 ^ 32 := by
  unfold read
  rw [← h.toCopy, ← h.next]
  by_cases h0 : s.toCopy > 0
  · simp only [h0, if_true]
    obtain ⟨v, s', t', a, b, c, d⟩ := copyStep_rel h h0 hc
    exact ⟨v, s', t', a, b, c, by omega⟩
  · simp only [h0, if_false]
    have h0' : s.toCopy = 0 := by omega
    have h1 : Rel { s with next := s.next + 1 } { t with next := s.next + 1 } := ⟨h.num, h.toCopy, h.copyPos, rfl, h.bad, h.win⟩
    have h2 : { t with toCopy := s.toCopy, next := s.next + 1 } = { t with next := s.next + 1 } := by rw [h.toCopy]
    cases ops s.next with
    | lit v =>
      simp only
      obtain ⟨s', t', a, b, c⟩ := push_rel h1 h0' v
      rw [a, h2, b]
      refine ⟨v, s', t', rfl, rfl, c, ?_⟩
      rw [push_eq] at a
      injection a with a
      rw [← a]; exact hc
    | copy len dist =>
      simp only
      obtain ⟨s', t', a, b, c, d⟩ := startCopy_rel p h1 h0' len dist
      rw [a, h2, b]
      simp only [Option.bind_some, ← c.toCopy]
      have hlt : s'.toCopy < 2 ^ 32 := by rw [d]; exact wadd_lt _ _
      by_cases hm : s'.toCopy < p.minLen
      · simp only [hm, if_true]
        refine ⟨0, _, _, rfl, rfl, ⟨c.num, rfl, c.copyPos, c.next, rfl, ?_⟩, (by decide : (0:Nat) < 2 ^ 32)⟩
        rcases c.win with w | ⟨w1, w2, _⟩
        · left; exact w
        · right; exact ⟨w1, w2, by simp⟩
      · simp only [hm, if_false]
        obtain ⟨v, s'', t'', a', b', c', d'⟩ := copyStep_rel c (by omega) hlt
        exact ⟨v, s'', t'', a', b', c', by omega⟩

theorem readN_rel (p : Params) (hp : p.minLen < 2 ^ 32) (hp1 : 1 ≤ p.minLen) (ops : Nat → Op) (n : Nat) : ∀ {s t : State}, Rel s t → s.toCopy < 2 ^ 32 →
    ∃ vs s' t', readN p ops n s = some (vs, s') ∧ readN p ops n t = some (vs, t') ∧ Rel s' t' ∧ s'.toCopy < 2 ^ 32 := by
  induction n with
  | zero => intro s t h hc; exact ⟨[], s, t, rfl, rfl, h, hc⟩
  | succ n ih =>
    intro s t h hc
    obtain ⟨v, s1, t1, a, b, c, d⟩ := read_rel p hp hp1 ops h hc
    obtain ⟨vs, s2, t2, a', b', c', d'⟩ := ih c d
    refine ⟨v :: vs, s2, t2, ?_, ?_, c', d'⟩
    · simp only [readN, a, Option.bind_some, a', Option.map_some]
    · simp only [readN, b, Option.bind_some, b', Option.map_some]

theorem start_rel : Rel start start := ⟨rfl, rfl, rfl, rfl, rfl, Or.inr ⟨by decide, fun i hi => absurd hi (Nat.not_lt_zero i), fun h => absurd h (by decide)⟩⟩

end Jxl.Lz77
