import Verif.Model.JpegBits
/-!
# Lemmas about the JPEG bit writer
-/
namespace Jxl.Jpeg

/-! ## Bit strings, most significant bit first -/

@[simp] theorem msb_length (n v : Nat) : (msb n v).length = n := by simp [msb]

theorem valMsb_lt (l : List Bool) : valMsb l < 2 ^ l.length := by
  have := ofBits_lt l.reverse
  simpa [valMsb] using this

theorem valMsb_append (a b : List Bool) : valMsb (a ++ b) = valMsb a * 2 ^ b.length + valMsb b := by
  unfold valMsb
  rw [List.reverse_append, ofBits_append, List.length_reverse, Nat.mul_comm, Nat.add_comm]

theorem valMsb_msb (n v : Nat) (h : v < 2 ^ n) : valMsb (msb n v) = v := by
  unfold valMsb msb; rw [List.reverse_reverse, ofBits_bitsOf_lt h]

theorem msb_valMsb (l : List Bool) : msb l.length (valMsb l) = l := by
  unfold valMsb msb
  have := bitsOf_ofBits l.reverse
  rw [List.length_reverse] at this
  rw [this, List.reverse_reverse]

theorem msb_add (a b v : Nat) : msb (a + b) v = msb a (v / 2 ^ b) ++ msb b v := by
  unfold msb
  rw [Nat.add_comm, bitsOf_add, List.reverse_append]

theorem msb_mod (n v : Nat) : msb n (v % 2 ^ n) = msb n v := by unfold msb; rw [bitsOf_mod]

@[simp] theorem msb_zero (v : Nat) : msb 0 v = [] := rfl
@[simp] theorem valMsb_nil : valMsb [] = 0 := rfl

/-- A piece of a bit string, as a number. -/
theorem valMsb_drop_take (l : List Bool) (i n : Nat) (h : i + n ≤ l.length) :
    valMsb ((l.drop i).take n) = valMsb l / 2 ^ (l.length - i - n) % 2 ^ n := by
  have e : l = l.take i ++ ((l.drop i).take n ++ l.drop (i + n)) := by
    rw [← List.drop_drop, List.take_append_drop, List.take_append_drop]
  have h1 : ((l.drop i).take n).length = n := by simp; omega
  have h2 : (l.drop (i + n)).length = l.length - i - n := by simp; omega
  have h3 := valMsb_lt (l.drop (i + n))
  have h4 := valMsb_lt ((l.drop i).take n)
  rw [h2] at h3; rw [h1] at h4
  have h5 : valMsb l = (valMsb (l.take i) * 2 ^ n + valMsb ((l.drop i).take n)) * 2 ^ (l.length - i - n)
      + valMsb (l.drop (i + n)) := by
    conv => lhs; rw [e]
    rw [valMsb_append, valMsb_append, List.length_append, h1, h2, Nat.pow_add, Nat.add_mul]
    simp only [Nat.mul_assoc, Nat.add_assoc]
  rw [h5, Nat.add_comm, Nat.add_mul_div_right _ _ (Nat.two_pow_pos _), Nat.div_eq_of_lt h3, Nat.zero_add,
    Nat.mul_add_mod_self_right, Nat.mod_eq_of_lt h4]

/-! ## Packing -/

@[simp] theorem packBytes_nil : packBytes [] = [] := rfl

theorem packBytes_append (a b : List Bool) (k : Nat) (h : a.length = 8 * k) :
    packBytes (a ++ b) = packBytes a ++ packBytes b := by
  unfold packBytes
  have e : (a ++ b).length / 8 = k + b.length / 8 := by simp [h]; omega
  rw [e, List.range_add, List.map_append]
  have ea : a.length / 8 = k := by omega
  rw [ea]
  congr 1
  · apply List.map_congr_left
    intro i hi
    rw [List.mem_range] at hi
    rw [List.drop_append_of_le_length (by omega), List.take_append_of_le_length (by simp; omega)]
  · rw [List.map_map]
    apply List.map_congr_left
    intro i _
    show valMsb (((a ++ b).drop (8 * (k + i))).take 8) = _
    rw [List.drop_append, List.drop_of_length_le (by omega), List.nil_append, h]
    congr 3; omega

theorem packBytes_single (l : List Bool) (h : l.length = 8) : packBytes l = [valMsb l] := by
  unfold packBytes
  rw [h]
  show [valMsb ((l.drop 0).take 8)] = _
  rw [List.drop_zero, ← h, List.take_length]

theorem packBytes_length (l : List Bool) : (packBytes l).length = l.length / 8 := by simp [packBytes]

theorem packBytes_lt (l : List Bool) : ∀ b ∈ packBytes l, b < 256 := by
  intro b hb
  unfold packBytes at hb
  rw [List.mem_map] at hb
  obtain ⟨i, hi, rfl⟩ := hb
  rw [List.mem_range] at hi
  have := valMsb_lt ((l.drop (8 * i)).take 8)
  have e : ((l.drop (8 * i)).take 8).length = 8 := by simp; omega
  rwa [e] at this

/-- The packed bytes of a whole word, read off the number. -/
theorem packBytes_word (l : List Bool) (k : Nat) (h : l.length = 8 * k) :
    packBytes l = ((List.range k).map fun i => valMsb l / 2 ^ (8 * i) % 256).reverse := by
  have hk : l.length / 8 = k := by omega
  apply List.ext_getElem?
  intro j
  unfold packBytes
  rw [hk, ← List.map_reverse]
  by_cases hj : j < k
  · rw [List.getElem?_map, List.getElem?_map, List.getElem?_range hj, List.getElem?_reverse (by simpa using hj)]
    simp only [List.length_range, Option.map_some]
    rw [List.getElem?_range (by omega)]
    simp only [Option.map_some]
    rw [valMsb_drop_take l (8 * j) 8 (by omega)]
    congr 4; omega
  · rw [List.getElem?_eq_none (by simp; omega), List.getElem?_eq_none (by simp; omega)]

/-! ## Stuffing -/

theorem stuff_append (a b : List Nat) : stuff (a ++ b) = stuff a ++ stuff b := by
  induction a with
  | nil => rfl
  | cons x a ih => simp only [List.cons_append, stuff, ih]; split <;> simp

theorem stuff_id (a : List Nat) (h : ∀ b ∈ a, b ≠ 255) : stuff a = a := by
  induction a with
  | nil => rfl
  | cons x a ih =>
    rw [stuff, if_neg (h x (by simp)), ih (fun b hb => h b (by simp [hb]))]

theorem stuff_length_le (a : List Nat) : (stuff a).length ≤ 2 * a.length := by
  induction a with
  | nil => simp [stuff]
  | cons x a ih => simp only [stuff]; split <;> simp <;> omega

/-! ## `HasZeroByte` -/

/-- A number from its bytes, least significant first. -/
def leVal : List Nat → Nat
  | [] => 0
  | b :: l => b + 256 * leVal l

/-- `0x0101..01` with `n` bytes. -/
def ones : Nat → Nat
  | 0 => 0
  | n + 1 => 1 + 256 * ones n

theorem leVal_lt (l : List Nat) (h : ∀ b ∈ l, b < 256) : leVal l < 256 ^ l.length := by
  induction l with
  | nil => simp [leVal]
  | cons b l ih =>
    have := ih (fun c hc => h c (by simp [hc]))
    have := h b (by simp)
    simp only [leVal, List.length_cons, Nat.pow_succ]; omega

theorem ones_lt (n : Nat) : ones n < 256 ^ n := by
  induction n with
  | zero => simp [ones]
  | succ n ih => simp only [ones, Nat.pow_succ]; omega

/-- Some marker bit is set exactly when some byte is zero. -/
theorem zero_byte_iff (l : List Nat) (h : ∀ b ∈ l, b < 256) :
    (∃ i, i < l.length ∧ ((leVal l + 256 ^ l.length - ones l.length) % 256 ^ l.length).testBit (8 * i + 7) = true ∧
      (leVal l).testBit (8 * i + 7) = false) ↔ 0 ∈ l := by
  induction l with
  | nil => simp
  | cons b l ih =>
    have ih := ih (fun c hc => h c (by simp [hc]))
    have hb := h b (by simp)
    have hl := leVal_lt l (fun c hc => h c (by simp [hc]))
    have ho := ones_lt l.length
    have sub : ∀ y i, (y : Nat) / 256 = i → ∀ j, y.testBit (8 * (j + 1) + 7) = i.testBit (8 * j + 7) := by
      intro y i e j
      have : (256 : Nat) = 2 ^ 8 := rfl
      rw [← e, this, Nat.testBit_div_two_pow]
      congr 1
    have low : ∀ y c, (y : Nat) % 256 = c → y.testBit 7 = decide (128 ≤ c) := by
      intro y c e
      have : (256 : Nat) = 2 ^ 8 := rfl
      have h1 : y.testBit 7 = c.testBit 7 := by rw [← e, this, Nat.testBit_mod_two_pow]; simp
      rw [h1, Nat.testBit_eq_decide_div_mod_eq]
      have : c < 256 := by omega
      have e2 : (c / 2 ^ 7 % 2 = 1) = (128 ≤ c) := by rw [eq_iff_iff]; omega
      simp only [e2]
    simp only [leVal, List.length_cons, ones, Nat.pow_succ]
    generalize 256 ^ l.length = M at *
    generalize ones l.length = O at *
    generalize leVal l = L at *
    by_cases b0 : b = 0
    · subst b0
      constructor
      · intro _; simp
      · intro _
        refine ⟨0, by omega, ?_, ?_⟩
        · rw [Nat.mul_zero, low _ 255]
          · rfl
          · by_cases hc : L ≤ O
            · rw [Nat.mod_eq_of_lt (b := M * 256) (by omega)]; omega
            · rw [Nat.mod_eq_sub_mod (b := M * 256) (by omega), Nat.mod_eq_of_lt (b := M * 256) (by omega)]; omega
        · rw [Nat.mul_zero, low _ 0 (by omega)]; rfl
    · have e1 : ((b + 256 * L + M * 256 - (1 + 256 * O)) % (M * 256)) / 256 = (L + M - O) % M := by
        by_cases hc : L < O
        · rw [Nat.mod_eq_of_lt (b := M * 256) (by omega), Nat.mod_eq_of_lt (b := M) (by omega)]; omega
        · rw [Nat.mod_eq_sub_mod (b := M * 256) (by omega), Nat.mod_eq_of_lt (b := M * 256) (by omega),
            Nat.mod_eq_sub_mod (b := M) (by omega), Nat.mod_eq_of_lt (b := M) (by omega)]; omega
      have e2 : ((b + 256 * L + M * 256 - (1 + 256 * O)) % (M * 256)) % 256 = b - 1 := by
        by_cases hc : L < O
        · rw [Nat.mod_eq_of_lt (b := M * 256) (by omega)]; omega
        · rw [Nat.mod_eq_sub_mod (b := M * 256) (by omega), Nat.mod_eq_of_lt (b := M * 256) (by omega)]; omega
      have e3 : (b + 256 * L) / 256 = L := by omega
      have e4 : (b + 256 * L) % 256 = b := by omega
      constructor
      · rintro ⟨i, hi, h1, h2⟩
        cases i with
        | zero =>
          rw [Nat.mul_zero, low _ _ e2] at h1
          rw [Nat.mul_zero, low _ _ e4] at h2
          simp at h1 h2; omega
        | succ i =>
          rw [sub _ _ e1] at h1
          rw [sub _ _ e3] at h2
          exact List.mem_cons_of_mem _ (ih.mp ⟨i, by omega, h1, h2⟩)
      · intro hm
        have hm : 0 ∈ l := by
          rcases List.mem_cons.mp hm with e | e
          · exact absurd e.symm b0
          · exact e
        obtain ⟨i, hi, h1, h2⟩ := ih.mpr hm
        exact ⟨i + 1, by omega, by rw [sub _ _ e1]; exact h1, by rw [sub _ _ e3]; exact h2⟩

theorem mask_testBit : ∀ i, i < 64 → (0x8080808080808080 : Nat).testBit i = decide (i % 8 = 7) := by decide

theorem mask_high (i : Nat) (h : 64 ≤ i) : (0x8080808080808080 : Nat).testBit i = false :=
  Nat.testBit_lt_two_pow (Nat.lt_of_lt_of_le (by decide) (Nat.pow_le_pow_right (by decide) h))

/-- The bytes of a 64-bit number, least significant first. -/
def bytes8 (x : Nat) : List Nat := (List.range 8).map fun i => x / 2 ^ (8 * i) % 256

theorem bytes8_lt (x : Nat) : ∀ b ∈ bytes8 x, b < 256 := by
  intro b hb
  unfold bytes8 at hb
  rw [List.mem_map] at hb
  obtain ⟨i, _, rfl⟩ := hb
  exact Nat.mod_lt _ (by decide)

theorem leVal_bytes8 (x : Nat) (h : x < 2 ^ 64) : leVal (bytes8 x) = x := by
  show leVal [x / 2 ^ 0 % 256, x / 2 ^ 8 % 256, x / 2 ^ 16 % 256, x / 2 ^ 24 % 256, x / 2 ^ 32 % 256,
    x / 2 ^ 40 % 256, x / 2 ^ 48 % 256, x / 2 ^ 56 % 256] = x
  simp only [leVal]
  omega

theorem hasZeroByte_iff (x : Nat) (h : x < 2 ^ 64) : hasZeroByte x = true ↔ 0 ∈ bytes8 x := by
  have key := zero_byte_iff (bytes8 x) (bytes8_lt x)
  rw [leVal_bytes8 x h] at key
  rw [← key]
  have el : (bytes8 x).length = 8 := rfl
  have eo : ones 8 = 0x0101010101010101 := by decide
  have ep : 256 ^ 8 = 2 ^ 64 := by decide
  rw [el, eo, ep]
  unfold hasZeroByte
  rw [bne_iff_ne]
  generalize (x + 2 ^ 64 - 0x0101010101010101) % 2 ^ 64 = y
  have hnot : ∀ i, i < 64 → (2 ^ 64 - 1 - x).testBit i = !(x.testBit i) := by
    intro i hi
    have := Nat.testBit_two_pow_sub_succ h i
    have e : 2 ^ 64 - (x + 1) = 2 ^ 64 - 1 - x := by omega
    rw [e] at this
    rw [this]; simp [hi]
  constructor
  · intro hne
    obtain ⟨i, hi⟩ := Nat.exists_testBit_of_ne_zero hne
    rw [Nat.testBit_and, Nat.testBit_and] at hi
    simp only [Bool.and_eq_true] at hi
    obtain ⟨⟨h1, h2⟩, h3⟩ := hi
    by_cases h64 : i < 64
    · rw [mask_testBit i h64] at h3
      have h3 := of_decide_eq_true h3
      rw [hnot i h64] at h2
      have e : 8 * (i / 8) + 7 = i := by omega
      refine ⟨i / 8, by omega, by rw [e]; exact h1, by rw [e]; simpa using h2⟩
    · rw [mask_high i (by omega)] at h3; cases h3
  · rintro ⟨i, hi, h1, h2⟩ h0
    have : (y &&& (2 ^ 64 - 1 - x) &&& 0x8080808080808080).testBit (8 * i + 7) = false := by rw [h0]; simp
    rw [Nat.testBit_and, Nat.testBit_and, mask_testBit _ (by omega), hnot _ (by omega), h1, h2] at this
    simp at this

/-- No byte equal to `0xFF` when the test of the complement is negative. -/
theorem no_ff (v : Nat) (h : v < 2 ^ 64) (hz : hasZeroByte (2 ^ 64 - 1 - v) = false) :
    ∀ b ∈ be64Rev v, b ≠ 255 := by
  have hn : ¬ 0 ∈ bytes8 (2 ^ 64 - 1 - v) := by
    rw [← hasZeroByte_iff _ (by omega), hz]; simp
  intro b hb e
  subst e
  apply hn
  unfold be64Rev at hb
  unfold bytes8
  rw [List.mem_map] at hb ⊢
  obtain ⟨i, hi, e⟩ := hb
  refine ⟨i, hi, ?_⟩
  rw [List.mem_range] at hi
  have hi : i = 0 ∨ i = 1 ∨ i = 2 ∨ i = 3 ∨ i = 4 ∨ i = 5 ∨ i = 6 ∨ i = 7 := by omega
  rcases hi with rfl | rfl | rfl | rfl | rfl | rfl | rfl | rfl <;> omega

end Jxl.Jpeg
