import Verif.Model.F16
import Verif.Spec.F16
namespace Jxl.F16
open Spec

theorem and_mask (v n : Nat) : v &&& (2 ^ n - 1) = v % 2 ^ n := Nat.and_two_pow_sub_one_eq_mod v n

theorem or_add {a b k : Nat} (hb : b < 2 ^ k) : (a <<< k) ||| b = a * 2 ^ k + b := by
  rw [← Nat.shiftLeft_add_eq_or_of_lt hb, Nat.shiftLeft_eq]

/-- `(s << p) | (e << q) | m` is a sum when the fields do not overlap. -/
theorem pack3 {s e m p q : Nat} (hq : q ≤ p) (he : e < 2 ^ (p - q)) (hm : m < 2 ^ q) :
    (s <<< p) ||| (e <<< q) ||| m = s * 2 ^ p + e * 2 ^ q + m := by
  have hp : (2 : Nat) ^ p = 2 ^ (p - q) * 2 ^ q := by rw [← Nat.pow_add]; congr 1; omega
  have h1 : e * 2 ^ q + m < 2 ^ p := by
    rw [hp]
    have : (e + 1) * 2 ^ q ≤ 2 ^ (p - q) * 2 ^ q := Nat.mul_le_mul_right _ he
    rw [Nat.add_mul] at this; omega
  rw [Nat.or_assoc, or_add hm, or_add h1]; omega

theorem xor_sign {x : Nat} (h : x < 2 ^ 31) : x ^^^ 2 ^ 31 = 2 ^ 31 + x := by
  have : (1 <<< 31) + x = (1 <<< 31) ||| x := Nat.shiftLeft_add_eq_or_of_lt h 1
  rw [Nat.one_shiftLeft] at this
  rw [this]
  apply Nat.eq_of_testBit_eq
  intro i
  rw [Nat.testBit_xor, Nat.testBit_or, Nat.testBit_two_pow]
  by_cases hi : 31 = i
  · subst hi; rw [Nat.testBit_lt_two_pow h]; simp
  · simp [hi]

/-- The mathematical form of `decode`. -/
theorem decode_eq (h : Nat) : decode h =
    if h / 2 ^ 10 % 32 = 31 then none
    else if h / 2 ^ 10 % 32 = 0 then
      some (if h / 2 ^ 15 ≠ 0 then subnormalPattern (h % 2 ^ 10) ^^^ 2 ^ 31 else subnormalPattern (h % 2 ^ 10))
    else some (h / 2 ^ 15 * 2 ^ 31 + (h / 2 ^ 10 % 32 + 112) * 2 ^ 23 + h % 2 ^ 10 * 2 ^ 13) := by
  unfold decode
  simp only [Nat.shiftRight_eq_div_pow]
  rw [show (0x1F : Nat) = 2 ^ 5 - 1 from rfl, show (0x3FF : Nat) = 2 ^ 10 - 1 from rfl, and_mask, and_mask]
  rw [show (2 : Nat) ^ 5 = 32 from rfl]
  have h1 := Nat.mod_lt (h / 2 ^ 10) (show 0 < 32 by decide)
  have h2 := Nat.mod_lt h (show 0 < 2 ^ 10 by decide)
  rw [show (h % 2 ^ 10) <<< (23 - 10) = h % 2 ^ 10 * 2 ^ 13 from Nat.shiftLeft_eq _ _]
  rw [pack3 (p := 31) (q := 23) (by decide) (by omega) (by omega)]

theorem sub_facts : ∀ m : Fin 1024, subnormalPattern m.val < 2 ^ 31 ∧ mag32 (subnormalPattern m.val) = m.val * 2 ^ 125 ∧
    (m.val = 0 ∨ encode (subnormalPattern m.val) = some m.val ∧
      encode (2 ^ 31 + subnormalPattern m.val) = some (2 ^ 15 + m.val)) ∧
    canEncode (subnormalPattern m.val) = true ∧ canEncode (2 ^ 31 + subnormalPattern m.val) = true := by
  decide +kernel

/-- The mathematical form of `encode` on 32-bit patterns. -/
theorem encode_eq (b : Nat) (hb : b < 2 ^ 32) : encode b =
    let e := b / 2 ^ 23 % 256
    let m := b % 2 ^ 23
    if e > 142 then none
    else if e < 103 then some 0
    else if e < 113 then some (b / 2 ^ 31 * 2 ^ 15 + (2 ^ (e - 103) + m / 2 ^ (126 - e)))
    else some (b / 2 ^ 31 * 2 ^ 15 + (e - 112) * 2 ^ 10 + m / 2 ^ 13) := by
  unfold encode
  simp only [Nat.shiftRight_eq_div_pow]
  rw [show (0xFF : Nat) = 2 ^ 8 - 1 from rfl, show (0x7FFFFF : Nat) = 2 ^ 23 - 1 from rfl, and_mask, and_mask]
  rw [show (2 : Nat) ^ 8 = 256 from rfl]
  have h1 := Nat.mod_lt (b / 2 ^ 23) (show 0 < 256 by decide)
  have h2 := Nat.mod_lt b (show 0 < 2 ^ 23 by decide)
  have h3 : b / 2 ^ 31 < 2 := by omega
  generalize b / 2 ^ 23 % 256 = e at *
  generalize b % 2 ^ 23 = m at *
  generalize b / 2 ^ 31 = sg at *
  by_cases c1 : e > 142
  · rw [if_pos c1, if_pos (by omega)]
  rw [if_neg c1, if_neg (by omega)]
  by_cases c2 : e < 103
  · rw [if_pos c2, if_pos (by omega)]
  rw [if_neg c2, if_neg (by omega)]
  by_cases c3 : e < 113
  · rw [if_pos c3, if_pos (by omega)]
    have hs : (-14 - ((e : Int) - 127)).toNat = 113 - e := by omega
    rw [hs, if_pos (by omega)]
    simp only [Nat.one_shiftLeft]
    rw [show 10 - (113 - e) = e - 103 by omega, show 13 + (113 - e) = 126 - e by omega]
    have hpp : (2 : Nat) ^ 23 = 2 ^ (e - 103) * 2 ^ (126 - e) := by rw [← Nat.pow_add]; congr 1; omega
    have hmd : m / 2 ^ (126 - e) < 2 ^ (e - 103) := by
      rw [Nat.div_lt_iff_lt_mul (Nat.two_pow_pos _), ← hpp]; exact h2
    have hle : (2 : Nat) ^ (e - 103) ≤ 2 ^ 9 := Nat.pow_le_pow_right (by decide) (by omega)
    rw [if_pos (by omega), pack3 (p := 15) (q := 10) (by decide) (by decide) (by omega)]
    rw [if_pos (by omega)]
    simp
  · rw [if_neg c3, if_neg (by omega)]
    have hs : ((e : Int) - 127 + 15).toNat = e - 112 := by omega
    rw [hs, if_pos (by omega)]
    simp only
    rw [if_pos (by omega), pack3 (p := 15) (q := 10) (by decide) (by omega) (by omega)]
    rw [if_pos (by omega)]

theorem canEncode_iff (b : Nat) : canEncode b = true ↔ b % 2 ^ 31 ≤ 0x477FE000 := by
  simp only [canEncode, Nat.shiftRight_eq_div_pow]
  rw [show (0xFF : Nat) = 2 ^ 8 - 1 from rfl, show (0x7FFFFFFF : Nat) = 2 ^ 31 - 1 from rfl, and_mask, and_mask]
  simp only [Bool.and_eq_true, decide_eq_true_eq]
  omega

end Jxl.F16
