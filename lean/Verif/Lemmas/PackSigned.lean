import Verif.Model.PackSigned
namespace Jxl

theorem xor_allOnes {w : Nat} (x : BitVec w) : x ^^^ BitVec.allOnes w = ~~~x := by
  rw [BitVec.xor_allOnes]

/-- The code of a non-negative value (below 2^31) is its double. -/
theorem packSigned_nonneg (v : BitVec 32) (h : v.toNat < 2 ^ 31) : (packSigned v).toNat = 2 * v.toNat := by
  have h1 : ((~~~v) >>> 31) - 1#32 = 0#32 := by
    apply BitVec.eq_of_toNat_eq
    simp only [BitVec.toNat_sub, BitVec.toNat_ushiftRight, BitVec.toNat_not, Nat.shiftRight_eq_div_pow, BitVec.toNat_ofNat]
    omega
  rw [packSigned, h1, BitVec.xor_zero, BitVec.toNat_shiftLeft, Nat.shiftLeft_eq]
  omega

/-- The code of a negative value `v - 2^32`. -/
theorem packSigned_neg (v : BitVec 32) (h : 2 ^ 31 ≤ v.toNat) : (packSigned v).toNat = 2 * (2 ^ 32 - v.toNat) - 1 := by
  have hv := v.isLt
  have h1 : ((~~~v) >>> 31) - 1#32 = BitVec.allOnes 32 := by
    apply BitVec.eq_of_toNat_eq
    simp only [BitVec.toNat_sub, BitVec.toNat_ushiftRight, BitVec.toNat_not, Nat.shiftRight_eq_div_pow, BitVec.toNat_ofNat,
      BitVec.toNat_allOnes]
    omega
  rw [packSigned, h1, xor_allOnes, BitVec.toNat_not, BitVec.toNat_shiftLeft, Nat.shiftLeft_eq]
  omega

theorem unpackSigned_even (v : BitVec 64) (h : v.toNat % 2 = 0) (hv : v.toNat < 2 ^ 32) :
    (unpackSigned v).toNat = v.toNat / 2 := by
  have h1 : ((~~~v) &&& 1#64) - 1#64 = 0#64 := by
    apply BitVec.eq_of_toNat_eq
    simp only [BitVec.toNat_sub, BitVec.toNat_and, BitVec.toNat_not, BitVec.toNat_ofNat]
    rw [show 1 % 2 ^ 64 = 2 ^ 1 - 1 from rfl, Nat.and_two_pow_sub_one_eq_mod]
    omega
  rw [unpackSigned, h1, BitVec.xor_zero, BitVec.toNat_setWidth, BitVec.toNat_ushiftRight, Nat.shiftRight_eq_div_pow]
  omega

theorem unpackSigned_odd (v : BitVec 64) (h : v.toNat % 2 = 1) (hv : v.toNat < 2 ^ 32) :
    (unpackSigned v).toNat = 2 ^ 32 - 1 - v.toNat / 2 := by
  have h1 : ((~~~v) &&& 1#64) - 1#64 = BitVec.allOnes 64 := by
    apply BitVec.eq_of_toNat_eq
    simp only [BitVec.toNat_sub, BitVec.toNat_and, BitVec.toNat_not, BitVec.toNat_ofNat, BitVec.toNat_allOnes]
    rw [show 1 % 2 ^ 64 = 2 ^ 1 - 1 from rfl, Nat.and_two_pow_sub_one_eq_mod]
    omega
  rw [unpackSigned, h1, xor_allOnes, BitVec.toNat_setWidth, BitVec.toNat_not, BitVec.toNat_ushiftRight, Nat.shiftRight_eq_div_pow]
  omega

end Jxl
