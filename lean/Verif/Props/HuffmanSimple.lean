import Verif.Lemmas.HuffmanSimple
/-!
# C15: simple prefix codes (one to four symbols)
-/
namespace Jxl.Props
open Jxl.Huffman

/-- Lengths of the announced symbols, in the order announced; the bit chooses between the two codes with four symbols. -/
def simpleLens : Nat → Bool → List Nat
  | 1, _ => [0]
  | 2, _ => [1, 1]
  | 3, _ => [1, 2, 2]
  | 4, false => [2, 2, 2, 2]
  | 4, true => [1, 2, 3, 3]
  | _, _ => []

/-- What a table must do: with one symbol, answer it without reading; otherwise decode the canonical code with the announced lengths. -/
def SimpleTable (n : Nat) (syms : List Nat) (skew : Bool) (t : List Entry) : Prop :=
  (∃ y, syms = [y] ∧ ∀ s, readSymbol t s = some (y, s)) ∨
  (2 ≤ syms.length ∧ ∃ lens : List Nat, lens.length = n ∧ Prefix.Complete lens ∧
    (∀ (i y : Nat), syms[i]? = some y → lens[y]? = (simpleLens syms.length skew)[i]?) ∧ (∀ (y : Nat), y < n → y ∉ syms → lens[y]? = some 0) ∧
    ∀ s : List Bool, ∃ (y l : Nat), lens[y]? = some l ∧ 0 < l ∧ (s ++ List.replicate 15 false).take l = Prefix.word lens y ∧
      readSymbol t s = some (y, s.drop l))

theorem table_of {n : Nat} {A B C : List Nat} (h : Lists n A B C) (hw : 4 * A.length + 2 * B.length + C.length = 8)
    {syms : List Nat} {skew : Bool} {es : List Entry} {log : Nat} (hlog : log ≤ 3) {t : List Entry} (ht : ∀ i < 256, t[i]? = es[i % 2 ^ log]?)
    (h2 : 2 ≤ syms.length)
    (hs : ∀ (i y : Nat), syms[i]? = some y → ∃ l, (simpleLens syms.length skew)[i]? = some l ∧ 1 ≤ l ∧ y ∈ ofLen A B C l)
    (hn : ∀ y, y ∉ syms → y ∉ A ∧ y ∉ B ∧ y ∉ C)
    (hes : ∀ j < 2 ^ log, ∃ (l k y : Nat), es[j]? = some ⟨l, y⟩ ∧ 1 ≤ l ∧ l ≤ log ∧ (ofLen A B C l)[k]? = some y ∧
      j % 2 ^ l = rev l (code (fun l => (ofLen A B C l).length) l k)) : SimpleTable n syms skew t := by
  refine Or.inr ⟨h2, lens3 n A B C, by simp [lens3], lens3_complete h hw, ?_, ?_, simple_read h es log hlog t ht hes⟩
  · intro i y hi
    obtain ⟨l, h1, h2, h3⟩ := hs i y hi
    rw [h1]
    exact lens3_get h h2 h3
  · intro y hy hm
    obtain ⟨h1, h2, h3⟩ := hn y hm
    rw [lens3, List.getElem?_map, List.getElem?_range hy]
    simp [h1, h2, h3]

theorem swapIf01 (a b c d : Nat) : swapIf 0 1 [a, b, c, d] = [min a b, max a b, c, d] := by
  unfold swapIf
  by_cases h : a > b
  · simp [h]; omega
  · simp [h]; omega

theorem swapIf02 (a b c d : Nat) : swapIf 0 2 [a, b, c, d] = [min a c, b, max a c, d] := by
  unfold swapIf
  by_cases h : a > c
  · simp [h]; omega
  · simp [h]; omega

theorem swapIf03 (a b c d : Nat) : swapIf 0 3 [a, b, c, d] = [min a d, b, c, max a d] := by
  unfold swapIf
  by_cases h : a > d
  · simp [h]; omega
  · simp [h]; omega

theorem swapIf12 (a b c d : Nat) : swapIf 1 2 [a, b, c, d] = [a, min b c, max b c, d] := by
  unfold swapIf
  by_cases h : b > c
  · simp [h]; omega
  · simp [h]; omega

theorem swapIf13 (a b c d : Nat) : swapIf 1 3 [a, b, c, d] = [a, min b d, c, max b d] := by
  unfold swapIf
  by_cases h : b > d
  · simp [h]; omega
  · simp [h]; omega

theorem swapIf23 (a b c d : Nat) : swapIf 2 3 [a, b, c, d] = [a, b, min c d, max c d] := by
  unfold swapIf
  by_cases h : c > d
  · simp [h]; omega
  · simp [h]; omega

/-- One exchange: the pair is ordered, stays distinct from the other two, and has the same members. -/
theorem exch_spec (a b c d : Nat) (h : a ≠ b ∧ a ≠ c ∧ a ≠ d ∧ b ≠ c ∧ b ≠ d ∧ c ≠ d) :
    (min a b < max a b ∧ min a b ≠ c ∧ min a b ≠ d ∧ max a b ≠ c ∧ max a b ≠ d) ∧
    (min a b ≤ a ∧ min a b ≤ b ∧ a ≤ max a b ∧ b ≤ max a b) ∧
    (∀ z, z < a → z < b → z < min a b) ∧ (∀ z, z < a → z < b → z < max a b) ∧
    ∀ y, (y = min a b ∨ y = max a b) ↔ (y = a ∨ y = b) := by
  refine ⟨by omega, by omega, by omega, by omega, by omega⟩

theorem sort4_spec (a b c d : Nat) (h : [a, b, c, d].Nodup) :
    ∃ p q r s, sort4 [a, b, c, d] = [p, q, r, s] ∧ p < q ∧ q < r ∧ r < s ∧ (∀ y, y ∈ [p, q, r, s] ↔ y ∈ [a, b, c, d]) := by
  simp only [List.nodup_cons, List.mem_cons, List.not_mem_nil, or_false, not_or, not_false_eq_true, List.nodup_nil, and_true] at h
  unfold sort4
  rw [swapIf01, swapIf02, swapIf03, swapIf12, swapIf13, swapIf23]
  refine ⟨_, _, _, _, rfl, ?_⟩
  obtain ⟨n1, m1, l1, u1, g1⟩ := exch_spec a b c d ⟨by omega, by omega, by omega, by omega, by omega, by omega⟩
  generalize min a b = a1 at *
  generalize max a b = b1 at *
  obtain ⟨n2, m2, l2, u2, g2⟩ := exch_spec a1 c b1 d ⟨by omega, by omega, by omega, by omega, by omega, by omega⟩
  generalize min a1 c = a2 at *
  generalize max a1 c = c2 at *
  obtain ⟨n3, m3, l3, u3, g3⟩ := exch_spec a2 d b1 c2 ⟨by omega, by omega, by omega, by omega, by omega, by omega⟩
  generalize min a2 d = a3 at *
  generalize max a2 d = d3 at *
  obtain ⟨n4, m4, l4, u4, g4⟩ := exch_spec b1 c2 a3 d3 ⟨by omega, by omega, by omega, by omega, by omega, by omega⟩
  have k4 := l4 a3 (by omega) (by omega)
  generalize min b1 c2 = b4 at *
  generalize max b1 c2 = c4 at *
  obtain ⟨n5, m5, l5, u5, g5⟩ := exch_spec b4 d3 a3 c4 ⟨by omega, by omega, by omega, by omega, by omega, by omega⟩
  have k5 := l5 a3 (by omega) (by omega)
  generalize min b4 d3 = b5 at *
  generalize max b4 d3 = d5 at *
  obtain ⟨n6, m6, l6, u6, g6⟩ := exch_spec c4 d5 a3 b5 ⟨by omega, by omega, by omega, by omega, by omega, by omega⟩
  have k6 := l6 b5 (by omega) (by omega)
  generalize min c4 d5 = c6 at *
  generalize max c4 d5 = d6 at *
  refine ⟨k5, k6, n6.1, fun y => ?_⟩
  have g1 := g1 y
  have g2 := g2 y
  have g3 := g3 y
  have g4 := g4 y
  have g5 := g5 y
  have g6 := g6 y
  simp only [List.mem_cons, List.not_mem_nil, or_false]
  clear n1 n2 n3 n4 n5 n6 m1 m2 m3 m4 m5 m6 l1 l2 l3 l4 l5 l6 u1 u2 u3 u4 u5 u6 k4 k5 k6 h
  grind

theorem simple_table (n : Nat) (syms : List Nat) (hnd : syms.Nodup) (hlt : ∀ y ∈ syms, y < n) (skew : Bool) (hl : 1 ≤ syms.length ∧ syms.length ≤ 4)
    (t0 : List Entry) (ht0 : t0.length = 256) :
    ∃ log es t, simpleEntries (if syms.length = 4 then 4 + skew.toNat else syms.length) syms = some (log, es) ∧
      doubleUp (es ++ t0.drop es.length) log (8 - log) = some t ∧ SimpleTable n syms skew t := by
  have dbl : ∀ (es : List Entry) (log : Nat), log ≤ 3 → es.length = 2 ^ log →
      ∃ t, doubleUp (es ++ t0.drop es.length) log (8 - log) = some t ∧ ∀ i < 256, t[i]? = es[i % 2 ^ log]? := by
    intro es log h1 h2
    have h8 : log + (8 - log) = 8 := by omega
    have hp : (2:Nat) ^ log ≤ 2 ^ 3 := Nat.pow_le_pow_right (by omega) h1
    obtain ⟨t, e1, _, e3⟩ := doubleUp_spec (8 - log) log (es ++ t0.drop es.length) (by
      rw [h8, List.length_append, List.length_drop, ht0]; omega)
    rw [h8] at e3
    refine ⟨t, e1, fun i hi => ?_⟩
    rw [e3 i hi, List.getElem?_append_left (by rw [h2]; exact Nat.mod_lt _ (Nat.two_pow_pos _))]
  match syms, hl with
  | [a], _ =>
    obtain ⟨t, e1, e2⟩ := dbl [⟨0, a⟩] 0 (by omega) rfl
    refine ⟨0, [⟨0, a⟩], t, rfl, e1, Or.inl ⟨a, rfl, fun s => ?_⟩⟩
    unfold readSymbol
    rw [e2 _ (by have := ofBits_take_lt s 8; omega)]
    simp [Nat.mod_one]
  | [a, b], _ =>
    have core : ∀ p q, p < q → (p = a ∧ q = b ∨ p = b ∧ q = a) → ∃ t, doubleUp ([⟨1, p⟩, ⟨1, q⟩] ++ t0.drop 2) 1 (8 - 1) = some t ∧ SimpleTable n [a, b] skew t := by
      intro p q hpq hor
      obtain ⟨t, e1, e2⟩ := dbl [⟨1, p⟩, ⟨1, q⟩] 1 (by omega) rfl
      have hm : ∀ y, y ∈ [p, q] ↔ y ∈ [a, b] := by intro y; simp; omega
      refine ⟨t, e1, table_of (A := [p, q]) (B := []) (C := []) ⟨by simp [hpq], .nil, .nil, by simp, by simp, by simp, ?_⟩ rfl (by omega) e2 (by simp) ?_ ?_ ?_⟩
      · rintro y (h | h | h)
        · exact hlt y ((hm y).mp h)
        · cases h
        · cases h
      · intro i y hi
        have hy := (hm y).mpr (List.mem_of_getElem? hi)
        match i, hi with
        | 0, _ => exact ⟨1, rfl, by omega, hy⟩
        | 1, _ => exact ⟨1, rfl, by omega, hy⟩
      · intro y hy
        exact ⟨mt (hm y).mp hy, by simp, by simp⟩
      · intro j hj
        match j, hj with
        | 0, _ => exact ⟨1, 0, p, rfl, by omega, by omega, rfl, by simp [code, first, rev, ofLen]⟩
        | 1, _ => exact ⟨1, 1, q, rfl, by omega, by omega, rfl, by simp [code, first, rev, ofLen]⟩
    have hne : a ≠ b := by simpa using hnd
    by_cases hab : a > b
    · obtain ⟨t, e1, e2⟩ := core b a hab (Or.inr ⟨rfl, rfl⟩)
      exact ⟨1, _, t, by simp [simpleEntries, swapIf, hab], e1, e2⟩
    · obtain ⟨t, e1, e2⟩ := core a b (by omega) (Or.inl ⟨rfl, rfl⟩)
      exact ⟨1, _, t, by simp [simpleEntries, swapIf, hab], e1, e2⟩
  | [a, b, c], _ =>
    simp only [List.nodup_cons, List.mem_cons, List.not_mem_nil, or_false, not_or, not_false_eq_true, List.nodup_nil, and_true] at hnd
    have core : ∀ p q, p < q → (p = b ∧ q = c ∨ p = c ∧ q = b) → ∃ t, doubleUp ([⟨1, a⟩, ⟨2, p⟩, ⟨1, a⟩, ⟨2, q⟩] ++ t0.drop 4) 2 (8 - 2) = some t ∧ SimpleTable n [a, b, c] skew t := by
      intro p q hpq hor
      obtain ⟨t, e1, e2⟩ := dbl [⟨1, a⟩, ⟨2, p⟩, ⟨1, a⟩, ⟨2, q⟩] 2 (by omega) rfl
      have hm : ∀ y, y ∈ [p, q] ↔ y ∈ [b, c] := by intro y; simp; omega
      refine ⟨t, e1, table_of (A := [a]) (B := [p, q]) (C := []) ⟨by simp, by simp [hpq], .nil, ?_, by simp, by simp, ?_⟩ rfl (by omega) e2 (by simp) ?_ ?_ ?_⟩
      · simp; omega
      · rintro y (h | h | h)
        · exact hlt y (by simp at h; simp [h])
        · exact hlt y (List.mem_cons_of_mem _ ((hm y).mp h))
        · cases h
      · intro i y hi
        match i, hi with
        | 0, hi => exact ⟨1, rfl, by omega, by simp at hi; simp [ofLen, hi]⟩
        | 1, hi => exact ⟨2, rfl, by omega, (hm y).mpr (by simp at hi; simp [hi])⟩
        | 2, hi => exact ⟨2, rfl, by omega, (hm y).mpr (by simp at hi; simp [hi])⟩
      · intro y hy
        refine ⟨by simp at hy; simp [hy], mt (hm y).mp (by simp at hy; simp [hy]), by simp⟩
      · intro j hj
        match j, hj with
        | 0, _ => exact ⟨1, 0, a, rfl, by omega, by omega, rfl, by simp [code, first, rev, ofLen]⟩
        | 1, _ => exact ⟨2, 0, p, rfl, by omega, by omega, rfl, by simp [code, first, rev, ofLen]⟩
        | 2, _ => exact ⟨1, 0, a, rfl, by omega, by omega, rfl, by simp [code, first, rev, ofLen]⟩
        | 3, _ => exact ⟨2, 1, q, rfl, by omega, by omega, rfl, by simp [code, first, rev, ofLen]⟩
    by_cases hab : b > c
    · obtain ⟨t, e1, e2⟩ := core c b hab (Or.inr ⟨rfl, rfl⟩)
      exact ⟨2, _, t, by simp [simpleEntries, swapIf, hab], e1, e2⟩
    · obtain ⟨t, e1, e2⟩ := core b c (by omega) (Or.inl ⟨rfl, rfl⟩)
      exact ⟨2, _, t, by simp [simpleEntries, swapIf, hab], e1, e2⟩
  | [a, b, c, d], _ =>
    cases skew with
    | false =>
      obtain ⟨p, q, r, s, e0, h1, h2, h3, hm⟩ := sort4_spec a b c d hnd
      obtain ⟨t, e1, e2⟩ := dbl [⟨2, p⟩, ⟨2, r⟩, ⟨2, q⟩, ⟨2, s⟩] 2 (by omega) rfl
      refine ⟨2, _, t, by simp [simpleEntries, e0], e1, table_of (A := []) (B := [p, q, r, s]) (C := []) ⟨.nil, ?_, .nil, by simp, by simp, by simp, ?_⟩ rfl (by omega) e2 (by simp) ?_ ?_ ?_⟩
      · simp; omega
      · rintro y (h | h | h)
        · cases h
        · exact hlt y ((hm y).mp h)
        · cases h
      · intro i y hi
        have hy := (hm y).mpr (List.mem_of_getElem? hi)
        match i, hi with
        | 0, _ => exact ⟨2, rfl, by omega, hy⟩
        | 1, _ => exact ⟨2, rfl, by omega, hy⟩
        | 2, _ => exact ⟨2, rfl, by omega, hy⟩
        | 3, _ => exact ⟨2, rfl, by omega, hy⟩
      · intro y hy
        exact ⟨by simp, mt (hm y).mp hy, by simp⟩
      · intro j hj
        match j, hj with
        | 0, _ => exact ⟨2, 0, p, rfl, by omega, by omega, rfl, by simp [code, first, rev, ofLen]⟩
        | 1, _ => exact ⟨2, 2, r, rfl, by omega, by omega, rfl, by simp [code, first, rev, ofLen]⟩
        | 2, _ => exact ⟨2, 1, q, rfl, by omega, by omega, rfl, by simp [code, first, rev, ofLen]⟩
        | 3, _ => exact ⟨2, 3, s, rfl, by omega, by omega, rfl, by simp [code, first, rev, ofLen]⟩
    | true =>
      simp only [List.nodup_cons, List.mem_cons, List.not_mem_nil, or_false, not_or, not_false_eq_true, List.nodup_nil, and_true] at hnd
      have core : ∀ p q, p < q → (p = c ∧ q = d ∨ p = d ∧ q = c) →
          ∃ t, doubleUp ([⟨1, a⟩, ⟨2, b⟩, ⟨1, a⟩, ⟨3, p⟩, ⟨1, a⟩, ⟨2, b⟩, ⟨1, a⟩, ⟨3, q⟩] ++ t0.drop 8) 3 (8 - 3) = some t ∧ SimpleTable n [a, b, c, d] true t := by
        intro p q hpq hor
        obtain ⟨t, e1, e2⟩ := dbl [⟨1, a⟩, ⟨2, b⟩, ⟨1, a⟩, ⟨3, p⟩, ⟨1, a⟩, ⟨2, b⟩, ⟨1, a⟩, ⟨3, q⟩] 3 (by omega) rfl
        have hm : ∀ y, y ∈ [p, q] ↔ y ∈ [c, d] := by intro y; simp; omega
        refine ⟨t, e1, table_of (A := [a]) (B := [b]) (C := [p, q]) ⟨by simp, by simp, by simp [hpq], ?_, ?_, ?_, ?_⟩ rfl (by omega) e2 (by simp) ?_ ?_ ?_⟩
        · simp; omega
        · simp; omega
        · simp; omega
        · rintro y (h | h | h)
          · exact hlt y (by simp at h; simp [h])
          · exact hlt y (by simp at h; simp [h])
          · exact hlt y (List.mem_cons_of_mem _ (List.mem_cons_of_mem _ ((hm y).mp h)))
        · intro i y hi
          match i, hi with
          | 0, hi => exact ⟨1, rfl, by omega, by simp at hi; simp [ofLen, hi]⟩
          | 1, hi => exact ⟨2, rfl, by omega, by simp at hi; simp [ofLen, hi]⟩
          | 2, hi => exact ⟨3, rfl, by omega, (hm y).mpr (by simp at hi; simp [hi])⟩
          | 3, hi => exact ⟨3, rfl, by omega, (hm y).mpr (by simp at hi; simp [hi])⟩
        · intro y hy
          refine ⟨by simp at hy; simp [hy], by simp at hy; simp [hy], mt (hm y).mp (by simp at hy; simp [hy])⟩
        · intro j hj
          match j, hj with
          | 0, _ => exact ⟨1, 0, a, rfl, by omega, by omega, rfl, by simp [code, first, rev, ofLen]⟩
          | 1, _ => exact ⟨2, 0, b, rfl, by omega, by omega, rfl, by simp [code, first, rev, ofLen]⟩
          | 2, _ => exact ⟨1, 0, a, rfl, by omega, by omega, rfl, by simp [code, first, rev, ofLen]⟩
          | 3, _ => exact ⟨3, 0, p, rfl, by omega, by omega, rfl, by simp [code, first, rev, ofLen]⟩
          | 4, _ => exact ⟨1, 0, a, rfl, by omega, by omega, rfl, by simp [code, first, rev, ofLen]⟩
          | 5, _ => exact ⟨2, 0, b, rfl, by omega, by omega, rfl, by simp [code, first, rev, ofLen]⟩
          | 6, _ => exact ⟨1, 0, a, rfl, by omega, by omega, rfl, by simp [code, first, rev, ofLen]⟩
          | 7, _ => exact ⟨3, 1, q, rfl, by omega, by omega, rfl, by simp [code, first, rev, ofLen]⟩
      by_cases hab : c > d
      · obtain ⟨t, e1, e2⟩ := core d c hab (Or.inr ⟨rfl, rfl⟩)
        exact ⟨3, _, t, by simp [simpleEntries, swapIf, hab], e1, e2⟩
      · obtain ⟨t, e1, e2⟩ := core c d (by omega) (Or.inl ⟨rfl, rfl⟩)
        exact ⟨3, _, t, by simp [simpleEntries, swapIf, hab], e1, e2⟩

theorem maxBits_spec (n : Nat) (hn : 1 ≤ n) : n ≤ 2 ^ maxBits n ∧ ∀ v, n ≤ 2 ^ v → maxBits n ≤ v := by
  unfold maxBits
  by_cases h : n > 1
  · rw [if_pos h]
    have h1 := Nat.lt_log2_self (n := n - 1)
    have h2 := Nat.log2_self_le (n := n - 1) (by omega)
    refine ⟨by omega, fun v hv => ?_⟩
    have : 2 ^ Nat.log2 (n - 1) < 2 ^ v := by omega
    have := (Nat.pow_lt_pow_iff_right (by omega : 1 < 2)).mp this
    omega
  · rw [if_neg h]
    exact ⟨by simp; omega, fun v _ => Nat.zero_le _⟩

theorem readSyms_spec (n : Nat) : ∀ (k : Nat) (s : List Bool) (syms : List Nat) (rest : List Bool),
    readSyms n k s = some (syms, rest) ↔
      syms.length = k ∧ (∀ y ∈ syms, y < n) ∧ (∀ (i y : Nat), syms[i]? = some y → y = ofBits ((s.drop (maxBits n * i)).take (maxBits n))) ∧
      rest = s.drop (maxBits n * k)
  | 0, s, syms, rest => by
    unfold readSyms
    constructor
    · intro h
      injection h with h
      injection h with h1 h2
      subst h1; subst h2
      simp
    · rintro ⟨h1, _, _, h2⟩
      rw [List.eq_nil_of_length_eq_zero h1, h2]
      simp
  | k + 1, s, syms, rest => by
    rw [readSyms]
    generalize hw : maxBits n = w
    have ih := readSyms_spec n k (s.drop w)
    rw [hw] at ih
    by_cases hge : ofBits (s.take w) ≥ n
    · rw [if_pos hge]
      constructor
      · intro h; cases h
      · rintro ⟨h1, h2, h3, _⟩
        cases syms with
        | nil => cases h1
        | cons y ys =>
          have a := h3 0 y rfl
          have b := h2 y (by simp)
          rw [Nat.mul_zero, List.drop_zero] at a
          omega
    · rw [if_neg hge]
      cases hr : readSyms n k (s.drop w) with
      | none =>
        constructor
        · intro h; cases h
        · rintro ⟨h1, h2, h3, h4⟩
          cases syms with
          | nil => cases h1
          | cons y ys =>
            have := (ih ys rest).mpr ⟨by simpa using h1, fun y hy => h2 y (by simp [hy]), fun i z hi => by
              rw [h3 (i + 1) z (by simpa using hi), List.drop_drop, show w * (i + 1) = w + w * i by rw [Nat.mul_succ, Nat.add_comm]], by
              rw [h4, List.drop_drop, show w * (k + 1) = w + w * k by rw [Nat.mul_succ, Nat.add_comm]]⟩
            rw [hr] at this
            cases this
      | some p =>
        obtain ⟨ys, r⟩ := p
        obtain ⟨i1, i2, i3, i4⟩ := (ih ys r).mp hr
        simp only [Option.map_some, Option.some.injEq, Prod.mk.injEq]
        constructor
        · rintro ⟨rfl, rfl⟩
          refine ⟨by simp [i1], ?_, ?_, ?_⟩
          · intro y hy
            rcases List.mem_cons.mp hy with rfl | hy
            · omega
            · exact i2 y hy
          · intro i y hi
            cases i with
            | zero => simp at hi; simp [hi]
            | succ i =>
              rw [i3 i y (by simpa using hi), List.drop_drop, show w * (i + 1) = w + w * i by rw [Nat.mul_succ, Nat.add_comm]]
          · rw [i4, List.drop_drop, show w * (k + 1) = w + w * k by rw [Nat.mul_succ, Nat.add_comm]]
        · rintro ⟨h1, h2, h3, h4⟩
          cases syms with
          | nil => cases h1
          | cons y zs =>
            have e0 := h3 0 y rfl
            rw [Nat.mul_zero, List.drop_zero] at e0
            have := (ih zs rest).mpr ⟨by simpa using h1, fun y hy => h2 y (by simp [hy]), fun i z hi => by
              rw [h3 (i + 1) z (by simpa using hi), List.drop_drop, show w * (i + 1) = w + w * i by rw [Nat.mul_succ, Nat.add_comm]], by
              rw [h4, List.drop_drop, show w * (k + 1) = w + w * k by rw [Nat.mul_succ, Nat.add_comm]]⟩
            rw [hr] at this
            injection this with this
            injection this with t1 t2
            exact ⟨by rw [e0, t1], t2⟩

/-- The header of a simple code, with zeros past the end of the stream: two bits for the number of symbols, the symbols in `w` bits each,
and one more bit after four symbols. -/
structure SimpleHeader (n w : Nat) (s : List Bool) (syms : List Nat) (skew : Bool) (rest : List Bool) : Prop where
  count : syms.length = ofBits (s.take 2) + 1
  announced : ∀ (i y : Nat), syms[i]? = some y → y = ofBits ((s.drop (2 + w * i)).take w)
  shape : skew = (syms.length == 4 && ((s.drop (2 + w * 4)).take 1 == [true]))
  left : rest = s.drop (2 + w * syms.length + if syms.length = 4 then 1 else 0)
  small : ∀ y ∈ syms, y < n
  distinct : syms.Nodup

theorem bit_toNat (s : List Bool) : ofBits (s.take 1) = (s.take 1 == [true]).toNat := by
  cases s with
  | nil => rfl
  | cons b s => cases b <;> simp [ofBits]

/-- **C15, simple codes.**  `w` being the number of bits that can hold every symbol below `n`: the reader accepts a header exactly if its
symbols are below `n` and distinct; the table it then leaves answers a single symbol without reading anything, and otherwise decodes the
canonical code in which the announced symbols have the announced lengths, which is complete. -/
theorem C15_simple_codes (t0 : List Entry) (ht0 : t0.length = 256) (n w : Nat) (hn : 1 ≤ n) (hw : n ≤ 2 ^ w) (hmin : ∀ v, n ≤ 2 ^ v → w ≤ v)
    (s : List Bool) :
    (∀ t rest, readSimple t0 n s = some (some (t, rest)) → ∃ syms skew, SimpleHeader n w s syms skew rest ∧ SimpleTable n syms skew t) ∧
    (∀ syms skew rest, SimpleHeader n w s syms skew rest → ∃ t, readSimple t0 n s = some (some (t, rest))) := by
  have hwm : maxBits n = w := by
    have h := maxBits_spec n hn
    have a := h.2 w hw
    have b := hmin _ h.1
    omega
  have four : ofBits (s.take 2) + 1 ≤ 4 := by have := ofBits_take_lt s 2; omega
  have key : ∀ syms s1, readSyms n (ofBits (s.take 2) + 1) (s.drop 2) = some (syms, s1) → syms.Nodup →
      ∃ t skew rest, readSimple t0 n s = some (some (t, rest)) ∧ SimpleHeader n w s syms skew rest ∧ SimpleTable n syms skew t := by
    intro syms s1 hr hnd
    obtain ⟨h1, h2, h3, h4⟩ := (readSyms_spec n _ _ _ _).mp hr
    rw [hwm] at h3 h4
    generalize hsk : (syms.length == 4 && ((s.drop (2 + w * 4)).take 1 == [true])) = skew
    obtain ⟨log, es, t, e1, e2, e3⟩ := simple_table n syms hnd h2 skew ⟨by omega, by omega⟩ t0 ht0
    have hk : kindOf syms.length s1 = (if syms.length = 4 then 4 + skew.toNat else syms.length,
        s.drop (2 + w * syms.length + if syms.length = 4 then 1 else 0)) := by
      unfold kindOf
      rw [h4, ← h1, List.drop_drop]
      by_cases hf : syms.length = 4
      · rw [if_pos hf, if_pos hf, if_pos hf, List.drop_drop, hf, bit_toNat, ← hsk, hf]
        simp
      · rw [if_neg hf, if_neg hf, if_neg hf, Nat.add_zero]
    refine ⟨t, skew, s.drop (2 + w * syms.length + if syms.length = 4 then 1 else 0), ?_, ⟨h1, ?_, hsk.symm, rfl, h2, hnd⟩, e3⟩
    · unfold readSimple
      rw [hr]
      dsimp only
      rw [if_neg (by simpa using hnd), hk]
      dsimp only
      rw [e1]
      dsimp only
      rw [e2, Option.map_some]
    · intro i y hi
      rw [h3 i y hi, List.drop_drop]
  constructor
  · intro t rest h
    have h0 := h
    unfold readSimple at h
    cases hr : readSyms n (ofBits (s.take 2) + 1) (s.drop 2) with
    | none => rw [hr] at h; cases h
    | some p =>
      obtain ⟨syms, s1⟩ := p
      rw [hr] at h
      dsimp only at h
      by_cases hnd : syms.Nodup
      · obtain ⟨t', skew, rest', k1, k2, k3⟩ := key syms s1 hr hnd
        rw [h0] at k1
        injection k1 with k1
        injection k1 with k1
        injection k1 with k1 k1'
        subst k1; subst k1'
        exact ⟨syms, skew, k2, k3⟩
      · rw [if_pos hnd] at h
        cases h
  · intro syms skew rest hh
    have hr : readSyms n (ofBits (s.take 2) + 1) (s.drop 2) = some (syms, (s.drop 2).drop (w * (ofBits (s.take 2) + 1))) := by
      rw [readSyms_spec, hwm]
      refine ⟨hh.count, hh.small, ?_, rfl⟩
      intro i y hi
      rw [hh.announced i y hi, List.drop_drop]
    obtain ⟨t', skew', rest', k1, k2, k3⟩ := key syms _ hr hh.distinct
    refine ⟨t', ?_⟩
    rw [k1, hh.left, k2.left]

/-- Four symbols 5, 0, 3, 2 below 6, with the skewed shape: announced in 3 bits each and accepted. -/
def simpleBits : List Bool :=
  [true, true] ++ [true, false, true] ++ [false, false, false] ++ [true, true, false] ++ [false, true, false] ++ [true] ++ [true, true]

example : SimpleHeader 6 3 simpleBits [5, 0, 3, 2] true [true, true] ∧
    ((readSimple (List.replicate 256 ⟨0, 0⟩) 6 simpleBits).map (Option.map fun p => (p.1.take 8, p.2))) =
      some (some ([⟨1, 5⟩, ⟨2, 0⟩, ⟨1, 5⟩, ⟨3, 2⟩, ⟨1, 5⟩, ⟨2, 0⟩, ⟨1, 5⟩, ⟨3, 3⟩], [true, true])) := by
  refine ⟨⟨by decide, ?_, by decide, by decide, by decide, by decide⟩, by decide +kernel⟩
  intro i y h
  match i, h with
  | 0, h => injection h with h; rw [← h]; rfl
  | 1, h => injection h with h; rw [← h]; rfl
  | 2, h => injection h with h; rw [← h]; rfl
  | 3, h => injection h with h; rw [← h]; rfl

end Jxl.Props
