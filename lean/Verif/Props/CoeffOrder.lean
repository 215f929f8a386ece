import Verif.Lemmas.CoeffOrderDecode
/-!
# C40: coefficient orders are permutations
-/
namespace Jxl.Props
open CoeffOrder

/-- The natural order, and the lookup table that inverts it, for every transform whose longer side is a power of two
times the shorter one. Nothing else in the buffer changes. -/
theorem C40_natural_order (bx by' k : Nat) (out : List Nat) (h0 : 0 < min by' bx)
    (h1 : max by' bx = min by' bx * 2 ^ k) (h2 : 64 * (bx * by') ≤ out.length) :
    ∃ nat lut, coeffOrderAndLut false bx by' out = some (nat ++ out.drop (64 * (bx * by'))) ∧
      coeffOrderAndLut true bx by' out = some (lut ++ out.drop (64 * (bx * by'))) ∧
      IsNatural (max by' bx) (min by' bx) (2 ^ k) nat ∧ lut.length = 64 * (bx * by') ∧
      (∀ i p : Nat, nat[i]? = some p → lut[p]? = some i) ∧
      (∀ p : Nat, p < 64 * (bx * by') → ∃ i : Nat, lut[p]? = some i ∧ nat[i]? = some p) := by
  have hm : bx * by' = max by' bx * min by' bx := by
    rcases Nat.le_total by' bx with h | h
    · rw [Nat.max_eq_right h, Nat.min_eq_left h]
    · rw [Nat.max_eq_left h, Nat.min_eq_right h, Nat.mul_comm]
  rw [hm] at h2 ⊢
  have ht := target_natural h0 h1
  have hi := inverse_spec ht.perm
  exact ⟨_, _, natural_order h0 h1 out h2, natural_lut h0 h1 out h2, ht, hi⟩

/-- Every transform of the format meets the hypotheses. -/
theorem C40_all_strategies (o : Nat) (ho : o < 27) :
    0 < min (coveredY.getD o 0) (coveredX.getD o 0) ∧
      ∃ k, max (coveredY.getD o 0) (coveredX.getD o 0) = min (coveredY.getD o 0) (coveredX.getD o 0) * 2 ^ k :=
  ⟨(tables o ho).1, _, (tables o ho).2.1⟩

/-- Decoding never goes outside the arrays. If it accepts, then each transform in use has, for each channel, an order
that visits every coefficient once with the low frequencies first, whatever integers the stream contained and whatever
the array held before. Orders that are not sent are natural. -/
theorem C40_decoded (usedOrders usedAcs : Nat) (order ts : List Nat) (hl : order.length = 6156 * 64) :
    ∃ r, decodeCoeffOrders usedOrders usedAcs order ts = some r ∧
      ∀ order' rest, r = some (order', rest) → order'.length = 6156 * 64 ∧
        ∀ o, o < 27 → bit usedAcs o = true → ∀ c, c < 3 →
          ∃ vs, Slice order' (offsetOf (strategyOrder.getD o 0) c) vs ∧ GoodOrder o vs ∧
            (bit usedOrders (strategyOrder.getD o 0) = false →
              ∃ k, cxOf o = cyOf o * 2 ^ k ∧ IsNatural (cxOf o) (cyOf o) (2 ^ k) vs) := by
  obtain ⟨r, e, h⟩ := ordersLoop_spec usedOrders (acsMask usedAcs) (List.range 27) 0 [] order ts
    (fun o ho => List.mem_range.1 ho) hl (fun o _ hb _ => by rw [bit_eq, Nat.zero_testBit] at hb; cases hb)
  refine ⟨r, e, fun order' rest hr => ?_⟩
  obtain ⟨h1, h2⟩ := h (order', rest) hr
  refine ⟨h1, fun o ho hb c hc => ?_⟩
  obtain ⟨vs, g1, g2, g3⟩ := h2 o ho (Or.inr ⟨o, List.mem_range.2 ho, rfl⟩) (acsMask_bit ho hb) c hc
  exact ⟨vs, g1, g2, fun hu => ⟨_, (tables o ho).2.1, by rw [g3 hu]; exact naturalOf_isNatural ho⟩⟩

/-- Any order with the low frequencies first survives writing and reading. -/
theorem C40_round_trip (o : Nat) (ho : o < 27) (order rest : List Nat) (h : GoodOrder o order) :
    ∃ nat lut ts p, coeffOrderAndLut false (coveredX.getD o 0) (coveredY.getD o 0)
        (List.replicate (64 * (cxOf o * cyOf o)) 0) = some nat ∧
      coeffOrderAndLut true (coveredX.getD o 0) (coveredY.getD o 0)
        (List.replicate (64 * (cxOf o * cyOf o)) 0) = some lut ∧
      encodeCoeffOrder (cxOf o * cyOf o) lut order = some ts ∧
      Lehmer.readPermutation (cxOf o * cyOf o) (64 * (cxOf o * cyOf o)) (ts ++ rest) = some (p, rest) ∧
      compose nat p = some order := by
  obtain ⟨ht0, ht1, ht2, _⟩ := tables o ho
  have hpos : 0 < cxOf o * cyOf o := by
    have : 0 < cxOf o := by rw [ht1]; exact Nat.mul_pos ht0 (Nat.pow_pos (by omega))
    exact Nat.mul_pos this ht0
  obtain ⟨nat, lut, e1, e2, hn, hl, hi1, hi2⟩ := C40_natural_order (coveredX.getD o 0) (coveredY.getD o 0) _
    (List.replicate (64 * (cxOf o * cyOf o)) 0) ht0 ht1 (by rw [llf_eq, List.length_replicate]; omega)
  rw [llf_eq] at e1 e2 hl hi2
  rw [List.drop_eq_nil_of_le (by simp), List.append_nil] at e1 e2
  change IsNatural (cxOf o) (cyOf o) _ nat at hn
  generalize hN : cxOf o * cyOf o = llf at *
  have hnl : nat.length = 64 * llf := by rw [hn.perm.length_eq, List.length_range, hN]
  have hnp : nat.Perm (List.range (64 * llf)) := by have := hn.perm; rwa [hN] at this
  have hop : order.Perm (List.range (64 * llf)) := by have := h.1; rwa [hN] at this
  have hof := Lehmer.perm_facts hop
  -- the table is a permutation too
  have hlp : lut.Perm (List.range (64 * llf)) := by
    apply Lehmer.perm_range _ _ hl
    · unfold List.Nodup
      rw [List.pairwise_iff_getElem]
      intro i j hi hj hij heq
      replace heq : lut[i]? = lut[j]? := by rw [List.getElem?_eq_getElem hi, List.getElem?_eq_getElem hj, heq]
      obtain ⟨a, ha, ha'⟩ := hi2 i (by omega)
      obtain ⟨b, hb, hb'⟩ := hi2 j (by omega)
      rw [ha, hb] at heq
      cases heq
      rw [ha'] at hb'; cases hb'; omega
    · intro x hx
      obtain ⟨p, hp⟩ := List.mem_iff_getElem?.1 hx
      have hpl : p < lut.length := by
        rcases Nat.lt_or_ge p lut.length with h | h
        · exact h
        · rw [List.getElem?_eq_none h] at hp; cases hp
      obtain ⟨i, h1, h2⟩ := hi2 p (by omega)
      rw [hp] at h1; cases h1
      rcases Nat.lt_or_ge x nat.length with h | h
      · omega
      · rw [List.getElem?_eq_none h] at h2; cases h2
  obtain ⟨z, c1, c2, c3, c4⟩ := compose_perm (r := []) hlp hop
  rw [List.append_nil] at c1
  have hz : ∀ k x : Nat, order[k]? = some x → ∃ i, z[k]? = some i ∧ nat[i]? = some x := by
    intro k x hk
    obtain ⟨i, h1, h2⟩ := hi2 x (hof.2.1 x (List.mem_of_getElem? hk))
    exact ⟨i, by rw [c4 k x hk, h1], h2⟩
  obtain ⟨ts, t1, t2⟩ := C08_tokens_round_trip (64 * llf) llf z rest (by omega) (by omega) (by omega) c2 (by
    intro k hk
    have h1 := h.2 k (by rw [hN]; exact hk)
    rw [c4 k _ h1]
    exact hi1 k _ (hn.low k (by rw [hN]; exact hk)))
  obtain ⟨vs, v1, v2, v3, v4⟩ := compose_perm (r := []) hnp c2
  rw [List.append_nil] at v1
  refine ⟨nat, lut, ts, z, e1, e2, by unfold encodeCoeffOrder; rw [c1]; exact t1, t2, ?_⟩
  rw [v1]
  congr 1
  apply List.ext_getElem?
  intro k
  by_cases hk : k < order.length
  · obtain ⟨i, h1, h2⟩ := hz k _ (List.getElem?_eq_getElem hk)
    rw [v4 k i h1, h2, List.getElem?_eq_getElem hk]
  · rw [List.getElem?_eq_none (by omega), List.getElem?_eq_none (by omega)]

-- the order of the 8x8 transform and its table
example : coeffOrderAndLut false 1 1 (List.replicate 64 0) = some
    [0, 1, 8, 16, 9, 2, 3, 10, 17, 24, 32, 25, 18, 11, 4, 5, 12, 19, 26, 33, 40, 48, 41, 34, 27, 20, 13, 6, 7, 14, 21,
     28, 35, 42, 49, 56, 57, 50, 43, 36, 29, 22, 15, 23, 30, 37, 44, 51, 58, 59, 52, 45, 38, 31, 39, 46, 53, 60, 61, 54,
     47, 55, 62, 63] := by decide +kernel
-- 8x16 and 16x8 share an order; the two low frequencies come first
example : (coeffOrderAndLut false 1 2 (List.replicate 128 0)).map (List.take 6) = some [0, 1, 16, 2, 3, 17] ∧
    coeffOrderAndLut false 1 2 (List.replicate 128 0) = coeffOrderAndLut false 2 1 (List.replicate 128 0) := by
  decide +kernel
-- a custom order swapping two coefficients
example : Lehmer.readPermutation 1 64 [2, 1, 0] = some
    ([0, 2, 1] ++ (List.range 61).map (· + 3), []) := by decide +kernel
-- three channels of the 8x8 transform: the first with a custom order, the others with the natural one
example : (ordersLoop 1 1 [0] 0 [] (List.replicate 192 7) [2, 1, 0, 0, 0, 99]).map
    (Option.map fun q => (q.1.take 4, (q.1.drop 64).take 4, q.1.length, q.2)) =
    some (some ([0, 8, 1, 16], [0, 1, 8, 16], 192, [99])) := by decide +kernel

end Jxl.Props
