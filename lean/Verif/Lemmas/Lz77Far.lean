import Verif.Lemmas.Lz77Enc
/-! # The hash-map encoder on values that repeat after more than the decoder's window -/
namespace Jxl.Lz77

/-- Four values, `L` alternating ones, the four values again and a last one. -/
def farData (L : Nat) : List Nat := [1, 2, 3, 4] ++ (List.range L).map (fun i => 10 + i % 2) ++ [1, 2, 3, 4, 5]

theorem farData_length (L : Nat) : (farData L).length = L + 9 := by simp [farData]

theorem far_head (L i : Nat) (h : i < 4) : (farData L).getD i 0 = i + 1 := by
  unfold farData
  rw [List.getD_eq_getElem?_getD, List.append_assoc, List.getElem?_append_left (by simpa using h)]
  rcases i with _ | _ | _ | _ | i <;> first | rfl | omega

theorem far_mid (L i : Nat) (h : i < L) : (farData L).getD (4 + i) 0 = 10 + i % 2 := by
  unfold farData
  rw [List.getD_eq_getElem?_getD, List.append_assoc, List.getElem?_append_right (by simp), List.getElem?_append_left (by simp; omega)]
  simp [h]

theorem far_tail (L i : Nat) (h : i < 5) : (farData L).getD (4 + L + i) 0 = i + 1 := by
  unfold farData
  rw [List.getD_eq_getElem?_getD, List.getElem?_append_right (by simp; omega)]
  simp only [List.length_append, List.length_map, List.length_range, List.length_cons, List.length_nil]
  rw [show 4 + L + i - (0 + 1 + 1 + 1 + 1 + L) = i by omega]
  rcases i with _ | _ | _ | _ | _ | i <;> first | rfl | omega

/-- The bucket of three values. -/
def bucket3 (a b c : Nat) : Nat := finish (mixStep (mixStep (mixStep 0 a) b) c) &&& (2 ^ 14 - 1)

theorem bucketOf_eq (data : List Nat) (p : Nat) (h : p + 3 ≤ data.length) :
    bucketOf data p = bucket3 (data.getD p 0) (data.getD (p + 1) 0) (data.getD (p + 2) 0) := by
  unfold bucketOf getHash bucket3; rw [if_pos h]

theorem b123 : bucket3 1 2 3 = 10436 := by decide
theorem b234 : bucket3 2 3 4 = 2156 := by decide
theorem b34a : bucket3 3 4 10 = 5169 := by decide
theorem b4ab : bucket3 4 10 11 = 547 := by decide
theorem baba : bucket3 10 11 10 = 4870 := by decide
theorem bbab : bucket3 11 10 11 = 4553 := by decide
theorem bab1 : bucket3 10 11 1 = 14880 := by decide
theorem bb12 : bucket3 11 1 2 = 14954 := by decide

theorem far_at (L p a : Nat) (hL : 8 ≤ L)
    (h : (p < 4 ∧ a = p + 1) ∨ (4 ≤ p ∧ p < 4 + L ∧ a = 10 + p % 2) ∨ (4 + L ≤ p ∧ p < 9 + L ∧ a = p - (4 + L) + 1)) : (farData L).getD p 0 = a := by
  rcases h with ⟨h, e⟩ | ⟨h1, h2, e⟩ | ⟨h1, h2, e⟩
  · rw [far_head L p h, e]
  · have := far_mid L (p - 4) (by omega)
    rw [show 4 + (p - 4) = p by omega] at this
    rw [this, e]; omega
  · have := far_tail L (p - (4 + L)) (by omega)
    rw [show 4 + L + (p - (4 + L)) = p by omega] at this
    rw [this, e]

theorem far_bucket (L p a b c : Nat) (hL : 8 ≤ L) (hp : p < L + 6)
    (ha : (p < 4 ∧ a = p + 1) ∨ (4 ≤ p ∧ p < 4 + L ∧ a = 10 + p % 2) ∨ (4 + L ≤ p ∧ p < 9 + L ∧ a = p - (4 + L) + 1))
    (hb : (p + 1 < 4 ∧ b = p + 1 + 1) ∨ (4 ≤ p + 1 ∧ p + 1 < 4 + L ∧ b = 10 + (p + 1) % 2) ∨ (4 + L ≤ p + 1 ∧ p + 1 < 9 + L ∧ b = p + 1 - (4 + L) + 1))
    (hc : (p + 2 < 4 ∧ c = p + 2 + 1) ∨ (4 ≤ p + 2 ∧ p + 2 < 4 + L ∧ c = 10 + (p + 2) % 2) ∨ (4 + L ≤ p + 2 ∧ p + 2 < 9 + L ∧ c = p + 2 - (4 + L) + 1)) :
    bucketOf (farData L) p = bucket3 a b c := by
  rw [bucketOf_eq _ _ (by rw [farData_length]; omega), far_at L p a hL ha, far_at L (p + 1) b hL hb, far_at L (p + 2) c hL hc]

/-- Where every position before the repetition goes. -/
theorem far_buckets (L p : Nat) (hL : 8 ≤ L) (he : L % 2 = 0) (hp : p < L + 5) : bucketOf (farData L) p =
    if p = 0 then 10436 else if p = 1 then 2156 else if p = 2 then 5169 else if p = 3 then 547
    else if p = L + 4 then 10436 else if p = L + 3 then 14954 else if p = L + 2 then 14880
    else if p % 2 = 0 then 4870 else 4553 := by
  by_cases h0 : p = 0
  · subst h0; rw [if_pos rfl, ← b123]; exact far_bucket L 0 1 2 3 hL (by omega) (by omega) (by omega) (by omega)
  rw [if_neg h0]
  by_cases h1 : p = 1
  · subst h1; rw [if_pos rfl, ← b234]; exact far_bucket L 1 2 3 4 hL (by omega) (by omega) (by omega) (by omega)
  rw [if_neg h1]
  by_cases h2 : p = 2
  · subst h2; rw [if_pos rfl, ← b34a]; exact far_bucket L 2 3 4 10 hL (by omega) (by omega) (by omega) (by omega)
  rw [if_neg h2]
  by_cases h3 : p = 3
  · subst h3; rw [if_pos rfl, ← b4ab]; exact far_bucket L 3 4 10 11 hL (by omega) (by omega) (by omega) (by omega)
  rw [if_neg h3]
  by_cases h4 : p = L + 4
  · rw [if_pos h4, ← b123]; exact far_bucket L p 1 2 3 hL (by omega) (by omega) (by omega) (by omega)
  rw [if_neg h4]
  by_cases h5 : p = L + 3
  · rw [if_pos h5, ← bb12]; exact far_bucket L p 11 1 2 hL (by omega) (by omega) (by omega) (by omega)
  rw [if_neg h5]
  by_cases h6 : p = L + 2
  · rw [if_pos h6, ← bab1]; exact far_bucket L p 10 11 1 hL (by omega) (by omega) (by omega) (by omega)
  rw [if_neg h6]
  by_cases h7 : p % 2 = 0
  · rw [if_pos h7, ← baba]; exact far_bucket L p 10 11 10 hL (by omega) (by omega) (by omega) (by omega)
  · rw [if_neg h7, ← bbab]; exact far_bucket L p 11 10 11 hL (by omega) (by omega) (by omega) (by omega)

theorem far_find_none (L B p : Nat) (hB : 1 ≤ B) (hL : 8 ≤ L) (he : L % 2 = 0) (hp : p < 6) :
    findMatch (farData L) 0 [] 3 B (tblAt (farData L) B p) p = some ((0, 0), tblAt (farData L) B (p + 1)) := by
  have hempty : tblAt (farData L) B p (bucketOf (farData L) p) = Bucket.empty B := by
    apply tblAt_empty
    intro q hq
    rw [far_buckets L q hL he (by omega), far_buckets L p hL he (by omega)]
    have h4 : p ≠ L + 4 ∧ p ≠ L + 3 ∧ p ≠ L + 2 := by omega
    have h4' : q ≠ L + 4 ∧ q ≠ L + 3 ∧ q ≠ L + 2 := by omega
    simp only [h4, h4', if_false]
    clear h4 h4'
    rcases p with _ | _ | _ | _ | _ | _ | p <;> rcases q with _ | _ | _ | _ | _ | _ | q <;> first | omega | decide
  unfold findMatch
  rw [hempty, update_at _ B hB]
  rfl

theorem insT_single (B q : Nat) (hB : 1 ≤ B) : (insT B (Bucket.empty B) q).size = 1 ∧ (insT B (Bucket.empty B) q).data[0]? = some (some q) := by
  refine ⟨?_, ?_⟩
  · show min (0 + 1) B = 1; omega
  · show ((List.replicate B none).set 0 (some q))[0]? = some (some q)
    exact List.getElem?_set_self (by rw [List.length_replicate]; exact hB)

theorem find_single (data : List Nat) (B p q n : Nat) (hB : 1 ≤ B) (hq : q < p) (hn3 : 3 ≤ n) (hk : bucketOf data q = bucketOf data p)
    (hno : ∀ r, r < p → r ≠ q → bucketOf data r ≠ bucketOf data p) (hm : matchGo data (data.length - p) q p = n) :
    findMatch data 0 [] 3 B (tblAt data B p) p = some ((n, p - q - 1), tblAt data B (p + 1)) := by
  have hb := tblAt_single data B p (bucketOf data p) q hq hk hno
  obtain ⟨s1, s2⟩ := insT_single B q hB
  unfold findMatch
  rw [hb, s1, update_at data B hB]
  unfold scan
  rw [s2]
  simp only [matchLength, hq, if_true, Option.bind_some, hm]
  rw [if_neg (by omega)]
  simp only [scan, distSymbol, List.getD_nil, numSpecial, if_true]
  rw [if_neg (by omega), Option.bind_some, Option.map_some]
  congr 3; omega

/-- What the encoder writes. -/
def farOps (L : Nat) : List Op := [.lit 1, .lit 2, .lit 3, .lit 4, .lit 10, .lit 11, .copy (L - 5) 1, .copy 1 (L + 3), .lit 5]

theorem far_encode (L B : Nat) (hB : 1 ≤ B) (hL : 8 ≤ L) (he : L % 2 = 0) :
    hashEncode 3 0 B (fun _ _ _ => true) (farData L) = some (farOps L) := by
  unfold hashEncode
  have h0 : specialTab 0 = some [] := rfl
  rw [h0, Option.bind_some]
  have hlen := farData_length L
  have start : (fun _ : Nat => Bucket.empty B) = tblAt (farData L) B 0 := rfl
  rw [start]
  -- a literal
  have lit : ∀ p, p < 6 → ∀ f, hashGo (farData L) 0 3 B [] (fun _ _ _ => true) (f + 1) p (tblAt (farData L) B p) =
      (hashGo (farData L) 0 3 B [] (fun _ _ _ => true) f (p + 1) (tblAt (farData L) B (p + 1))).map (.lit ((farData L).getD p 0) :: ·) := by
    intro p hp f
    rw [hashGo, if_neg (by omega), if_neg (by omega), far_find_none L B p hB hL he hp, Option.bind_some]
    rfl
  -- a copy
  have copy : ∀ p q n, q < p → 3 ≤ n → p + 3 < L + 9 → bucketOf (farData L) q = bucketOf (farData L) p →
      (∀ r, r < p → r ≠ q → bucketOf (farData L) r ≠ bucketOf (farData L) p) → matchGo (farData L) ((farData L).length - p) q p = n → ∀ f,
      hashGo (farData L) 0 3 B [] (fun _ _ _ => true) (f + 1) p (tblAt (farData L) B p) =
        (hashGo (farData L) 0 3 B [] (fun _ _ _ => true) f (p + n) (tblAt (farData L) B (p + n))).map (.copy (n - 3) (p - q - 1) :: ·) := by
    intro p q n hq hn hp hk hno hm f
    rw [hashGo, if_neg (by omega), if_neg (by omega), find_single (farData L) B p q n hB hq hn hk hno hm, Option.bind_some]
    simp only
    rw [if_neg (by omega), updates_at _ B hB, Option.bind_some, if_pos trivial, show p + 1 + (n - 1) = p + n by omega]
  rw [show (farData L).length = (L + 8) + 1 by omega, lit 0 (by omega)]
  rw [show L + 8 = (L + 7) + 1 by omega, lit 1 (by omega)]
  rw [show L + 7 = (L + 6) + 1 by omega, lit 2 (by omega)]
  rw [show L + 6 = (L + 5) + 1 by omega, lit 3 (by omega)]
  rw [show L + 5 = (L + 4) + 1 by omega, lit 4 (by omega)]
  rw [show L + 4 = (L + 3) + 1 by omega, lit 5 (by omega)]
  rw [show L + 3 = (L + 2) + 1 by omega, show 5 + 1 = 6 from rfl]
  rw [copy 6 4 (L - 2) (by omega) (by omega) (by omega) ?_ ?_ ?_]
  · rw [show 6 + (L - 2) = L + 4 by omega, show L + 2 = (L + 1) + 1 by omega]
    rw [copy (L + 4) 0 4 (by omega) (by omega) (by omega) ?_ ?_ ?_]
    · rw [show L + 4 + 4 = L + 8 by omega, show L + 1 = L + 1 by omega]
      rw [hashGo, if_neg (by omega), if_pos (by omega)]
      rw [show hashGo (farData L) 0 3 B [] (fun _ _ _ => true) L (L + 8 + 1) (tblAt (farData L) B (L + 8)) = some [] from ?_]
      · rw [far_head L 0 (by omega), far_head L 1 (by omega), far_head L 2 (by omega), far_head L 3 (by omega)]
        have e4 : (farData L).getD 4 0 = 10 := far_mid L 0 (by omega)
        have e5 : (farData L).getD 5 0 = 11 := far_mid L 1 (by omega)
        have e8 : (farData L).getD (L + 8) 0 = 5 := by rw [show L + 8 = 4 + L + 4 by omega]; exact far_tail L 4 (by omega)
        rw [e4, e5, e8]
        unfold farOps
        simp only [Option.map_some]
        rw [show L - 2 - 3 = L - 5 by omega, show L + 4 - 0 - 1 = L + 3 by omega]
      · obtain ⟨k, hk⟩ : ∃ k, L = k + 1 := ⟨L - 1, by omega⟩
        generalize hf : L = f
        rw [← hf]
        conv => lhs; arg 7; rw [hk]
        rw [hashGo, if_pos (by omega)]
    · rw [far_buckets L 0 hL he (by omega), far_buckets L (L + 4) hL he (by omega)]
      rw [if_pos rfl, if_neg (by omega), if_neg (by omega), if_neg (by omega), if_neg (by omega), if_pos rfl]
    · intro r hr hr0
      rw [far_buckets L r hL he (by omega), far_buckets L (L + 4) hL he (by omega)]
      rw [if_neg hr0]
      rw [if_neg (show ¬ L + 4 = 0 by omega), if_neg (show ¬ L + 4 = 1 by omega), if_neg (show ¬ L + 4 = 2 by omega), if_neg (show ¬ L + 4 = 3 by omega), if_pos rfl]
      rw [if_neg (show ¬ r = L + 4 by omega)]
      repeat (first | decide | split)
    · apply matchGo_eq _ 4 _ _ _ (by omega)
      · intro i hi
        refine ⟨by omega, ?_⟩
        rw [far_at L (0 + i) (i + 1) hL (by omega), far_at L (L + 4 + i) (i + 1) hL (by omega)]
      · rw [far_at L (0 + 4) 10 hL (by omega), far_at L (L + 4 + 4) 5 hL (by omega)]
        decide
  · rw [far_buckets L 4 hL he (by omega), far_buckets L 6 hL he (by omega)]
    have h4 : 6 ≠ L + 4 ∧ 6 ≠ L + 3 ∧ 6 ≠ L + 2 := by omega
    have h4' : 4 ≠ L + 4 ∧ 4 ≠ L + 3 ∧ 4 ≠ L + 2 := by omega
    have hL0 : L ≠ 0 := by omega
    simp [h4, h4', hL0]
  · intro r hr hr4
    rw [far_buckets L r hL he (by omega), far_buckets L 6 hL he (by omega)]
    have h4 : 6 ≠ L + 4 ∧ 6 ≠ L + 3 ∧ 6 ≠ L + 2 := by omega
    have h4' : r ≠ L + 4 ∧ r ≠ L + 3 ∧ r ≠ L + 2 := by omega
    simp only [h4, h4', if_false]
    clear h4 h4'
    rcases r with _ | _ | _ | _ | _ | _ | r <;> first | omega | decide
  · apply matchGo_eq _ (L - 2) _ _ _ (by omega)
    · intro i hi
      refine ⟨by omega, ?_⟩
      rw [far_at L (4 + i) (10 + i % 2) hL (by omega), far_at L (6 + i) (10 + i % 2) hL (by omega)]
    · rw [far_at L (4 + (L - 2)) 10 hL (by omega), far_at L (6 + (L - 2)) 1 hL (by omega)]
      decide

/-- What those entries stand for: the value `L + 4` places from the start comes from the alternating part. -/
theorem far_expand (L : Nat) (hL : 8 ≤ L) (he : L % 2 = 0) (hr : L = reach) : (expand (meaning 3 0) [] (farOps L)).getD (L + 4) 0 = 10 := by
  have hlen := farData_length L
  -- the first part is right
  have h6 : expand (meaning 3 0) [] [.lit 1, .lit 2, .lit 3, .lit 4, .lit 10, .lit 11] = [1, 2, 3, 4, 10, 11] := by
    simp [expand, expandOp]
  have t6 : (farData L).take 6 = [1, 2, 3, 4, 10, 11] := by
    have e4 : (farData L).getD 4 0 = 10 := far_mid L 0 (by omega)
    have e5 : (farData L).getD 5 0 = 11 := far_mid L 1 (by omega)
    rw [take_succ_getD _ 5 (by omega), take_succ_getD _ 4 (by omega), take_succ_getD _ 3 (by omega), take_succ_getD _ 2 (by omega),
      take_succ_getD _ 1 (by omega), take_succ_getD _ 0 (by omega), far_head L 0 (by omega), far_head L 1 (by omega), far_head L 2 (by omega), far_head L 3 (by omega), e4, e5]
    rfl
  have h7 : expandOp (meaning 3 0) ((farData L).take 6) (.copy (L - 5) 1) = (farData L).take (L + 4) := by
    simp only [expandOp, meaning]
    have hl : ((farData L).take 6).length = 6 := by rw [List.length_take]; omega
    rw [hl, show usable (codeDistance 0 1) 6 = 2 from rfl, show L - 5 + 3 = L - 2 by omega]
    rw [copyFrom_match (farData L) 2 (L - 2) (by omega) 6 (by omega) (by omega) ?_]
    · rw [show 6 + (L - 2) = L + 4 by omega]
    · intro i hi
      rw [far_at L (6 - 2 + i) (10 + i % 2) hL (by omega), far_at L (6 + i) (10 + i % 2) hL (by omega)]
  have h8 : (expandOp (meaning 3 0) ((farData L).take (L + 4)) (.copy 1 (L + 3))).getD (L + 4) 0 = 10 := by
    simp only [expandOp, meaning]
    have hl : ((farData L).take (L + 4)).length = L + 4 := by rw [List.length_take]; omega
    rw [hl, show codeDistance 0 (L + 3) = L + 4 by unfold codeDistance; rw [if_pos rfl]]
    rw [show usable (L + 4) (L + 4) = L by unfold usable; omega, show 1 + 3 = 3 + 1 from rfl, copyFrom_succ]
    have hb : back ((farData L).take (L + 4)) L = 10 := by
      unfold back
      rw [if_neg (by omega), hl, show L + 4 - L = 4 by omega, List.getD_eq_getElem?_getD, List.getElem?_take_of_lt (by omega), ← List.getD_eq_getElem?_getD]
      exact far_mid L 0 (by omega)
    rw [hb]
    obtain ⟨t, ht⟩ := copyFrom_prefix 3 L ((farData L).take (L + 4) ++ [10])
    rw [← ht, List.getD_eq_getElem?_getD, List.getElem?_append_left (by rw [List.length_append, hl]; simp),
      List.getElem?_append_right (by omega), hl, Nat.sub_self]
    rfl
  have split : farOps L = [.lit 1, .lit 2, .lit 3, .lit 4, .lit 10, .lit 11] ++ [.copy (L - 5) 1, .copy 1 (L + 3), .lit 5] := rfl
  rw [split, expand_append, h6, ← t6, expand_cons, h7, expand_cons]
  generalize hh : expandOp (meaning 3 0) ((farData L).take (L + 4)) (.copy 1 (L + 3)) = h at h8
  have hlh : L + 4 < h.length := by
    rw [← hh]
    simp only [expandOp, copyFrom_length, List.length_take]
    omega
  show (h ++ [5]).getD (L + 4) 0 = 10
  rw [getD_app, if_pos hlh]
  exact h8

end Jxl.Lz77
