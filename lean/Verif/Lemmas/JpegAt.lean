import Verif.Lemmas.JpegHuffRead
/-!
# The bits the JPEG parser has consumed

`At d pre S C r`: inside the segment that starts after `pre` and holds the bytes `S`, the reader has consumed exactly
the bits `C` (which run on past the segment if the parser reads too far).
-/
namespace Jxl.Jpeg

/-- The reader has consumed exactly the bits `C` of the segment. -/
def At (d pre S : List Nat) (C : List Bool) (r : Reader) : Prop :=
  ∃ T, RInv d pre S T r ∧ used T r = C.length ∧ (bitsMsb T).take C.length = C

theorem at_extend {d pre S T X : List Nat} {r' : Reader} {C D : List Bool} (h' : RInv d pre S (T ++ X) r')
    (hC : (bitsMsb T).take C.length = C) (hCl : C.length ≤ 8 * T.length)
    (hu : used (T ++ X) r' = C.length + D.length)
    (hD : ((bitsMsb (T ++ X)).drop C.length).take D.length = D) : At d pre S (C ++ D) r' := by
  refine ⟨T ++ X, h', by rw [hu, List.length_append], ?_⟩
  rw [List.length_append, List.take_add, hD, bitsMsb_append,
    List.take_append_of_le_length (by rw [bitsMsb_length]; exact hCl), hC]

theorem at_len {d pre S T : List Nat} {r : Reader} (C : List Bool) (hu : used T r = C.length) : C.length ≤ 8 * T.length := by
  rw [← hu]; unfold used; omega

theorem at_reset {d pre S : List Nat} (hp : Placed d pre S) :
    ∃ r, Reader.reset d pre.length = some r ∧ At d pre S [] r := by
  obtain ⟨r, X, h1, h2, h3⟩ := reset_inv hp
  exact ⟨r, h1, X, h2, by simpa using h3, rfl⟩

theorem at_bits {d pre S : List Nat} {C r} (hp : Placed d pre S) (h : At d pre S C r) (n : Nat) (hn : n ≤ 16) :
    ∃ v r', readBits d r n = some (v, r') ∧ v < 2 ^ n ∧ At d pre S (C ++ msb n v) r' := by
  obtain ⟨T, hT, hu, hC⟩ := h
  obtain ⟨v, r', X, e1, e2, e3, e4, e5⟩ := readBits_inv hp hT n hn
  have hl : (((bitsMsb (T ++ X)).drop (used T r)).take n).length = n := by
    rw [List.length_take, List.length_drop, bitsMsb_length]; omega
  have hm : msb n v = ((bitsMsb (T ++ X)).drop (used T r)).take n := by
    have := msb_valMsb (((bitsMsb (T ++ X)).drop (used T r)).take n)
    rw [hl, ← e4] at this; exact this
  have hlt := valMsb_lt (((bitsMsb (T ++ X)).drop (used T r)).take n)
  rw [hl, ← e4] at hlt
  refine ⟨v, r', e1, hlt, at_extend e2 hC (at_len (d := d) (pre := pre) (S := S) C hu) ?_ ?_⟩
  · rw [e3, msb_length, hu]
  · rw [msb_length, ← hu, hm]

theorem at_symbol {d pre S : List Nat} {C r} (hp : Placed d pre S) (h : At d pre S C r) {x : List Code × List LutEntry}
    (hx : FromFile x) :
    ∃ v r', readSymbol d x.2 r = some (v, r') ∧
      (v < 256 → (codeTable x.1).depth v ≠ 127 ∧
        At d pre S (C ++ msb ((codeTable x.1).depth v) ((codeTable x.1).code v)) r') := by
  obtain ⟨T, hT, hu, hC⟩ := h
  obtain ⟨v, r', X, e1, e2, _, _, e5, _⟩ := symbol_step hp hT hx
  refine ⟨v, r', e1, fun hv => ?_⟩
  obtain ⟨k1, k2, k3⟩ := e5 hv
  refine ⟨k1, at_extend e2 hC (at_len (d := d) (pre := pre) (S := S) C hu) ?_ ?_⟩
  · rw [k2, msb_length, hu]
  · rw [msb_length, ← hu, k3]

theorem packBytes_bitsMsb : ∀ (S : List Nat), (∀ b ∈ S, b < 256) → packBytes (bitsMsb S) = S := by
  intro S
  induction S with
  | nil => intro _; rfl
  | cons b S ih =>
    intro h
    have h8 : (msb 8 b).length = 8 := msb_length _ _
    have e : bitsMsb (b :: S) = msb 8 b ++ bitsMsb S := rfl
    rw [e, packBytes_append _ _ 1 (by omega), packBytes_single _ h8, ih fun c hc => h c (by simp [hc]),
      valMsb_msb _ _ (h b (by simp))]
    rfl

theorem pad_list (Q : List Bool) :
    ((List.range Q.length).reverse.map fun i => (valMsb Q >>> i) &&& 1) = Q.map bit01 := by
  have e := msb_valMsb Q
  conv => rhs; rw [← e]
  apply List.ext_getElem?
  intro i
  by_cases hi : i < Q.length
  · have hq : Q.map bit01 = (msb Q.length (valMsb Q)).map bit01 := by rw [e]
    rw [← hq, List.getElem?_map, List.getElem?_map, List.getElem?_reverse (by simpa using hi), List.length_range,
      List.getElem?_range (by omega)]
    simp only [Option.map_some]
    have hone := valMsb_drop_take Q i 1 (by omega)
    rw [List.getElem?_eq_getElem hi]
    have hd : (Q.drop i).take 1 = [Q[i]] := by rw [List.drop_eq_getElem_cons hi]; rfl
    rw [hd] at hone
    have : Q.length - 1 - i = Q.length - i - 1 := by omega
    rw [this, Nat.shiftRight_eq_div_pow, Nat.and_one_is_mod]
    rw [Nat.pow_one] at hone
    rw [← hone]
    simp [bit01, valMsb, ofBits]
  · rw [List.getElem?_eq_none (by simp; omega), List.getElem?_eq_none (by simp; omega)]

/-- The end of a segment: refused, or the padding up to the next byte boundary is returned and the position is the
one after exactly the consumed bits and the padding. -/
theorem at_finish {d pre S : List Nat} {C r} (hp : Placed d pre S) (h : At d pre S C r) :
    finishStream d r = some none ∨
    ∃ Q j, j ≤ S.length ∧ Q.length = (8 - C.length % 8) % 8 ∧ bitsMsb (S.take j) = C ++ Q ∧
      finishStream d r = some (some (Q.map bit01, pre.length + (stuff (S.take j)).length)) := by
  obtain ⟨T, h, hu, hC⟩ := h
  have hle := h.left
  have hCl := at_len (d := d) (pre := pre) (S := S) C hu
  unfold used at hu
  obtain ⟨j, hj⟩ : ∃ j, j = (C.length + 7) / 8 := ⟨_, rfl⟩
  have hjT : j ≤ T.length := by omega
  have hsh : r.left >>> 3 = T.length - j := by rw [Nat.shiftRight_eq_div_pow]; omega
  have hpos : r.pos = posAt pre S (j + (T.length - j)) := by
    rw [h.pos]; unfold posAt
    have : j + (T.length - j) = T.length := by omega
    rw [this]
  have hmk : r.marker ≥ mark pre S := by
    rcases Nat.lt_or_ge S.length T.length with hh | hh
    · rw [h.high hh]; exact Nat.le_refl _
    · rw [h.low hh]; have := hp.length; omega
  have hmk2 : S.length < j + (T.length - j) → r.marker = mark pre S := fun hh => h.high (by omega)
  have hun := unread_inv hp r.marker (T.length - j) j hmk2 hmk
  unfold finishStream
  simp only
  rw [hsh, hpos, hun]
  simp only [Option.bind_some]
  by_cases hjS : S.length < j
  · left
    have : posAt pre S j > r.marker := by
      rw [h.high (by omega)]; unfold posAt mark
      rw [List.take_of_length_le (by omega)]; omega
    rw [if_pos this]
  · right
    have hj2 : j ≤ S.length := by omega
    have hTj : T.take j = S.take j := by
      have := congrArg (List.take j) h.agree
      rwa [List.take_take, List.take_take, Nat.min_eq_left hj2, Nat.min_eq_left hjT] at this
    have hposj : posAt pre S j = pre.length + (stuff (S.take j)).length := by unfold posAt; omega
    have hle2 := stuff_take_le S j
    have hT : T = S.take j ++ T.drop j := by
      conv => lhs; rw [← List.take_append_drop j T]
      rw [hTj]
    have hlj : (S.take j).length = j := by rw [List.length_take]; omega
    have hb : (bitsMsb T).take (8 * j) = bitsMsb (S.take j) := by
      conv => lhs; rw [hT]
      rw [bitsMsb_append, List.take_append_of_le_length (by rw [bitsMsb_length, hlj]; omega),
        List.take_of_length_le (by rw [bitsMsb_length, hlj]; omega)]
    have hbl : (bitsMsb (S.take j)).length = 8 * j := by rw [bitsMsb_length, hlj]
    obtain ⟨Q, hQ⟩ : ∃ Q, Q = (bitsMsb (S.take j)).drop C.length := ⟨_, rfl⟩
    have hCQ : bitsMsb (S.take j) = C ++ Q := by
      rw [hQ]
      have : C = (bitsMsb (S.take j)).take C.length := by
        rw [← hb, List.take_take, Nat.min_eq_left (by omega), hC]
      conv => rhs; lhs; rw [this]
      rw [List.take_append_drop]
    have hQl : Q.length = 8 * j - C.length := by rw [hQ, List.length_drop, hbl]
    have hleft : r.left = Q.length + 8 * (T.length - j) := by omega
    have hnp : r.left % 8 = Q.length := by omega
    refine ⟨Q, j, hj2, by omega, hCQ, ?_⟩
    rw [if_neg (by rw [hposj]; unfold mark at hmk; omega), hnp, hposj]
    have hval : (r.val >>> (r.left - Q.length)) &&& (2 ^ Q.length - 1) = valMsb Q := by
      rw [Nat.and_two_pow_sub_one_eq_mod, Nat.shiftRight_eq_div_pow]
      have e2 : r.val % 2 ^ r.left / 2 ^ (r.left - Q.length) = r.val / 2 ^ (r.left - Q.length) % 2 ^ Q.length := by
        have : (2 : Nat) ^ r.left = 2 ^ (r.left - Q.length) * 2 ^ Q.length := by rw [← Nat.pow_add]; congr 1; omega
        rw [this, Nat.mod_mul_right_div_self]
      rw [← e2, h.val]
      have e3 : (bitsMsb T).drop (8 * T.length - r.left) = Q ++ bitsMsb (T.drop j) := by
        rw [hu]
        conv => lhs; rw [hT]
        rw [bitsMsb_append, List.drop_append_of_le_length (by omega), hQ]
      have hl3 : (bitsMsb (T.drop j)).length = r.left - Q.length := by
        rw [bitsMsb_length, List.length_drop]; omega
      have hlt := valMsb_lt (bitsMsb (T.drop j))
      rw [hl3] at hlt
      rw [e3, valMsb_append, hl3, Nat.mul_comm, Nat.mul_add_div (Nat.two_pow_pos _), Nat.div_eq_of_lt hlt, Nat.add_zero]
    rw [hval, pad_list]

/-! ## Every position before a marker starts a segment -/

/-- The first marker at or after the start of a list, and the stuffed bytes before it. -/
theorem split_marker : ∀ (n : Nat) (l : List Nat) (p : Nat) (m : Nat), l.length ≤ n → (∀ b ∈ l, b < 256) →
    l[p]? = some 255 → l[p + 1]? = some m → m ≠ 0 →
    ∃ S m' rest, m' ≠ 0 ∧ l = stuff S ++ 255 :: m' :: rest ∧ (∀ b ∈ S, b < 256) ∧ (stuff S).length ≤ p := by
  intro n
  induction n with
  | zero => intro l p m hn _ h1; have : l = [] := List.length_eq_zero_iff.mp (by omega); subst this; cases h1
  | succ n ih =>
    intro l p m hn hb h1 h2 hm
    cases l with
    | nil => cases h1
    | cons c l =>
      by_cases hc : c = 255
      · cases l with
        | nil => simp at h2
        | cons e l =>
          by_cases he : e = 0
          · have hp2 : 2 ≤ p := by
              rcases p with _ | _ | p
              · simp at h2; omega
              · simp at h1; omega
              · omega
            obtain ⟨q, rfl⟩ : ∃ q, p = q + 2 := ⟨p - 2, by omega⟩
            obtain ⟨S, m', rest, k1, k2, k3, k4⟩ := ih l q m (by simp at hn; omega)
              (fun b hb' => hb b (by simp [hb'])) (by simpa using h1) (by simpa using h2) hm
            refine ⟨255 :: S, m', rest, k1, ?_, ?_, ?_⟩
            · rw [stuff, if_pos rfl, hc, he, k2]; rfl
            · intro b hb'
              rcases List.mem_cons.mp hb' with rfl | hb'
              · omega
              · exact k3 b hb'
            · rw [stuff, if_pos rfl]; simp only [List.length_cons]; omega
          · exact ⟨[], e, l, he, by rw [hc]; rfl, by simp, by simp [stuff]⟩
      · have hp1 : 1 ≤ p := by
          rcases p with _ | p
          · simp at h1; omega
          · omega
        obtain ⟨q, rfl⟩ : ∃ q, p = q + 1 := ⟨p - 1, by omega⟩
        obtain ⟨S, m', rest, k1, k2, k3, k4⟩ := ih l q m (by simp at hn; omega)
          (fun b hb' => hb b (by simp [hb'])) (by simpa using h1) (by simpa using h2) hm
        refine ⟨c :: S, m', rest, k1, ?_, ?_, ?_⟩
        · rw [stuff, if_neg hc, k2]; rfl
        · intro b hb'
          rcases List.mem_cons.mp hb' with rfl | hb'
          · exact hb b (by simp)
          · exact k3 b hb'
        · rw [stuff, if_neg hc]; simp only [List.length_cons]; omega

/-- Every position of a file that has a marker at or after it starts a segment. -/
theorem placed_of_marker {d : List Nat} {pos p m : Nat} (hb : ∀ b ∈ d, b < 256) (h0 : 0 < pos) (hpp : pos ≤ p)
    (hl : d[pos - 1]? ≠ some 255) (h1 : d[p]? = some 255) (h2 : d[p + 1]? = some m) (hm : m ≠ 0) :
    ∃ S, Placed d (d.take pos) S ∧ (d.take pos).length = pos ∧ mark (d.take pos) S ≤ p := by
  have hpl : p < d.length := by
    rcases Nat.lt_or_ge p d.length with h | h
    · exact h
    · rw [List.getElem?_eq_none h] at h1; cases h1
  have hlen : (d.take pos).length = pos := by rw [List.length_take]; omega
  obtain ⟨S, m', rest, k1, k2, k3, k4⟩ := split_marker _ (d.drop pos) (p - pos) m (Nat.le_refl _)
    (fun b hb' => hb b (List.mem_of_mem_drop hb'))
    (by rw [List.getElem?_drop]; have : pos + (p - pos) = p := by omega
        rw [this]; exact h1)
    (by rw [List.getElem?_drop]; have : pos + (p - pos + 1) = p + 1 := by omega
        rw [this]; exact h2) hm
  refine ⟨S, ⟨⟨m', rest, k1, ?_⟩, k3, ?_, ?_⟩, hlen, by unfold mark; omega⟩
  · conv => lhs; rw [← List.take_append_drop pos d]
    rw [k2]
  · intro hn; rw [hn] at hlen; simp at hlen; omega
  · rw [List.getLast?_eq_getElem?, hlen, List.getElem?_take_of_lt (by omega)]; exact hl

end Jxl.Jpeg
