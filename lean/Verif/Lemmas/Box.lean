import Verif.Model.Box
namespace Jxl.Box

theorem be_length (n x : Nat) : (be n x).length = n := by
  induction n with
  | zero => rfl
  | succ n ih => simp [be, ih]

theorem load_cons (l : List UInt8) (a : Nat) : l.foldl (fun a b => a <<< 8 ||| b.toNat) a = a * 2 ^ (8 * l.length) + load l := by
  induction l generalizing a with
  | nil => simp [load]
  | cons b l ih =>
    have hb : b.toNat < 2 ^ 8 := b.toNat_lt
    have e : a <<< 8 ||| b.toNat = a * 256 + b.toNat := by
      rw [Nat.shiftLeft_eq, Nat.mul_comm, ← Nat.two_pow_add_eq_or_of_lt hb]
    have e0 : (0 : Nat) <<< 8 ||| b.toNat = b.toNat := by simp
    simp only [load, List.foldl_cons]
    rw [ih, ih (0 <<< 8 ||| b.toNat), e, e0, List.length_cons, Nat.mul_add, Nat.pow_add]
    generalize 2 ^ (8 * l.length) = P
    simp only [show 2 ^ (8 * 1) = 256 from rfl]
    grind

theorem load_cons' (b : UInt8) (l : List UInt8) : load (b :: l) = b.toNat * 2 ^ (8 * l.length) + load l := by
  have : load (b :: l) = l.foldl (fun a b => a <<< 8 ||| b.toNat) (0 <<< 8 ||| b.toNat) := rfl
  rw [this, load_cons]; simp

theorem load_be (n x : Nat) : load (be n x) = x % 2 ^ (8 * n) := by
  induction n with
  | zero => simp [be, load, Nat.mod_one]
  | succ n ih =>
    rw [be, load_cons', ih, be_length, Nat.shiftRight_eq_div_pow,
      show (0xff : Nat) = 2 ^ 8 - 1 from rfl, Nat.and_two_pow_sub_one_eq_mod, UInt8.toNat_ofNat',
      Nat.mod_mod, Nat.mul_add, Nat.pow_add, Nat.mod_mul]
    grind

theorem load_lt (l : List UInt8) : load l < 2 ^ (8 * l.length) := by
  induction l with
  | nil => simp [load]
  | cons b l ih =>
    rw [load_cons', List.length_cons, Nat.mul_add, Nat.pow_add]
    have hb : b.toNat < 2 ^ 8 := b.toNat_lt
    generalize 2 ^ (8 * l.length) = P at ih
    have : b.toNat * P ≤ 255 * P := Nat.mul_le_mul_right _ (by omega)
    simp only [show 2 ^ (8 * 1) = 256 from rfl]
    omega

theorem outOfBounds_eq (a b size : Nat) (ha : a + b < 2 ^ 64) : outOfBounds a b size = decide (a + b > size) := by
  unfold outOfBounds w64
  simp only
  rw [Nat.mod_eq_of_lt ha]
  split
  · simp_all
  · rw [if_neg (by omega)]; simp; omega

/-- Parsing at position 0 without machine arithmetic. -/
theorem parse_eq (inp : List UInt8) (filePos : Nat) (hf : filePos < 2 ^ 64) : parse inp 0 filePos =
    (if inp.length < 8 then .needMore 8
     else if load (inp.take 4) = 1 then
       if inp.length < 16 then .needMore 16
       else if (0 < load ((inp.drop 8).take 8) ∧ load ((inp.drop 8).take 8) < 16) ∨ 2 ^ 64 ≤ filePos + load ((inp.drop 8).take 8) then .error
       else .ok ((inp.drop 4).take 4) (load ((inp.drop 8).take 8)) 16
     else if (0 < load (inp.take 4) ∧ load (inp.take 4) < 8) ∨ 2 ^ 64 ≤ filePos + load (inp.take 4) then .error
     else .ok ((inp.drop 4).take 4) (load (inp.take 4)) 8) := by
  unfold parse
  rw [outOfBounds_eq _ _ _ (by omega), outOfBounds_eq _ _ _ (by omega)]
  have h8 : load ((inp.drop 8).take 8) < 2 ^ 64 := by
    refine Nat.lt_of_lt_of_le (load_lt _) (Nat.pow_le_pow_right (by omega) ?_)
    simp only [List.length_take]; omega
  have h4 : load (inp.take 4) < 2 ^ 32 := by
    refine Nat.lt_of_lt_of_le (load_lt _) (Nat.pow_le_pow_right (by omega) ?_)
    simp only [List.length_take]; omega
  have wrap : ∀ x, x < 2 ^ 64 → (w64 (filePos + x) < filePos ↔ 2 ^ 64 ≤ filePos + x) := by
    intro x hx; unfold w64; omega
  simp only [Nat.zero_add, List.drop_zero, decide_eq_true_eq, gt_iff_lt, wrap _ h8, wrap _ (show load (inp.take 4) < 2 ^ 64 by omega)]
  by_cases hl : inp.length < 8
  · rw [if_pos hl, if_pos hl]
  · rw [if_neg hl, if_neg hl]
    by_cases h1 : load (inp.take 4) = 1
    · rw [if_pos h1, if_pos h1]
      by_cases hl2 : inp.length < 16
      · rw [if_pos hl2, if_pos hl2]
      · rw [if_neg hl2, if_neg hl2]
        by_cases a : 0 < load ((inp.drop 8).take 8) ∧ load ((inp.drop 8).take 8) < 16
        · rw [if_pos a, if_pos (Or.inl a)]
        · rw [if_neg a]
          simp only [a, false_or]
    · rw [if_neg h1, if_neg h1]
      by_cases a : 0 < load (inp.take 4) ∧ load (inp.take 4) < 8
      · rw [if_pos a, if_pos (Or.inl a)]
      · rw [if_neg a]
        simp only [a, false_or]

theorem writeHeader_unbounded (type : List UInt8) (size : Nat) (f : Bool) : writeHeader type size true f = be 4 0 ++ type := by
  simp [writeHeader]

theorem writeHeader_small (type : List UInt8) (size : Nat) : writeHeader type size false false = be 4 (w64 (size + 8)) ++ type := by
  simp [writeHeader, largeThreshold, smallHeader]

theorem writeHeader_large (type : List UInt8) (size : Nat) : writeHeader type size false true = be 4 1 ++ type ++ be 8 (w64 (size + 16)) := by
  simp [writeHeader, largeHeader]

/-- A short header, parsed. -/
theorem parse_short (type rest : List UInt8) (x filePos : Nat) (ht : type.length = 4) (hf : filePos < 2 ^ 64) (hx : x < 2 ^ 32) (h1 : x ≠ 1) :
    parse (be 4 x ++ type ++ rest) 0 filePos =
      if (0 < x ∧ x < 8) ∨ 2 ^ 64 ≤ filePos + x then .error else .ok type x 8 := by
  rw [parse_eq _ _ hf]
  have e1 : (be 4 x ++ type ++ rest).take 4 = be 4 x := by
    rw [List.append_assoc, List.take_append_of_le_length (by rw [be_length]; omega), List.take_of_length_le (by rw [be_length]; omega)]
  have e2 : ((be 4 x ++ type ++ rest).drop 4).take 4 = type := by
    rw [List.append_assoc, List.drop_append_of_le_length (by rw [be_length]; omega), List.drop_eq_nil_of_le (by rw [be_length]; omega),
      List.nil_append, List.take_append_of_le_length (by omega), List.take_of_length_le (by omega)]
  rw [e1, e2, load_be, Nat.mod_eq_of_lt (by omega), if_neg (by simp [be_length, ht]; omega), if_neg h1]

/-- A long header, parsed. -/
theorem parse_long (type rest : List UInt8) (x filePos : Nat) (ht : type.length = 4) (hf : filePos < 2 ^ 64) (hx : x < 2 ^ 64) :
    parse (be 4 1 ++ type ++ be 8 x ++ rest) 0 filePos =
      if (0 < x ∧ x < 16) ∨ 2 ^ 64 ≤ filePos + x then .error else .ok type x 16 := by
  rw [parse_eq _ _ hf]
  have e1 : (be 4 1 ++ type ++ be 8 x ++ rest).take 4 = be 4 1 := by
    rw [List.append_assoc, List.append_assoc, List.take_append_of_le_length (by rw [be_length]; omega),
      List.take_of_length_le (by rw [be_length]; omega)]
  have e2 : ((be 4 1 ++ type ++ be 8 x ++ rest).drop 4).take 4 = type := by
    rw [List.append_assoc, List.append_assoc, List.drop_append_of_le_length (by rw [be_length]; omega),
      List.drop_eq_nil_of_le (by rw [be_length]; omega),
      List.nil_append, List.take_append_of_le_length (by omega), List.take_of_length_le (by omega)]
  have e3 : ((be 4 1 ++ type ++ be 8 x ++ rest).drop 8).take 8 = be 8 x := by
    rw [List.append_assoc, List.drop_append_of_le_length (by simp [be_length, ht]),
      List.drop_eq_nil_of_le (by simp [be_length, ht]),
      List.nil_append, List.take_append_of_le_length (by rw [be_length]; omega), List.take_of_length_le (by rw [be_length]; omega)]
  rw [e1, e2, e3, load_be, load_be, Nat.mod_eq_of_lt hx, if_neg (by simp [be_length, ht]; omega), if_pos rfl,
    if_neg (by simp [be_length, ht]; omega)]

end Jxl.Box
