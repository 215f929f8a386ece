import Verif.Lemmas.PackSigned
/-!
# C07: the mapping between signed residuals and unsigned codes is a bijection
-/
namespace Jxl.Props

/-- Specification: `0, -1, 1, -2, 2, ...` are numbered `0, 1, 2, 3, 4, ...`. -/
def zigzag (v : Int) : Int := if 0 ≤ v then 2 * v else -2 * v - 1

theorem C07_pack_value (v : BitVec 32) : ((packSigned v).toNat : Int) = zigzag v.toInt := by
  have hv := v.isLt
  unfold zigzag
  rw [BitVec.toInt_eq_toNat_cond]
  by_cases h : v.toNat < 2 ^ 31
  · rw [packSigned_nonneg v h]; split <;> split <;> omega
  · rw [packSigned_neg v (by omega)]; split <;> split <;> omega

/-- Unpacking (through the 64-bit parameter the code uses) is the inverse, and packing is the inverse of unpacking. -/
theorem C07_bijection : (∀ v : BitVec 32, unpackSigned ((packSigned v).setWidth 64) = v) ∧
    (∀ u : BitVec 32, packSigned (unpackSigned (u.setWidth 64)) = u) := by
  constructor
  · intro v
    have hv := v.isLt
    have hw : ((packSigned v).setWidth 64).toNat = (packSigned v).toNat := by
      rw [BitVec.toNat_setWidth]; have := (packSigned v).isLt; omega
    apply BitVec.eq_of_toNat_eq
    by_cases h : v.toNat < 2 ^ 31
    · have e := packSigned_nonneg v h
      rw [unpackSigned_even _ (by rw [hw, e]; omega) (by rw [hw, e]; omega), hw, e]; omega
    · have e := packSigned_neg v (by omega)
      rw [unpackSigned_odd _ (by rw [hw, e]; omega) (by rw [hw, e]; omega), hw, e]; omega
  · intro u
    have hu := u.isLt
    have hw : (u.setWidth 64).toNat = u.toNat := by rw [BitVec.toNat_setWidth]; omega
    apply BitVec.eq_of_toNat_eq
    by_cases h : u.toNat % 2 = 0
    · have e := unpackSigned_even (u.setWidth 64) (by rw [hw]; exact h) (by rw [hw]; omega)
      rw [hw] at e
      rw [packSigned_nonneg _ (by rw [e]; omega), e]; omega
    · have e := unpackSigned_odd (u.setWidth 64) (by rw [hw]; omega) (by rw [hw]; omega)
      rw [hw] at e
      rw [packSigned_neg _ (by rw [e]; omega), e]; omega

/-- Small magnitudes have small codes. -/
theorem C07_small (v : BitVec 32) (m : Nat) : v.toInt.natAbs ≤ m → (packSigned v).toNat ≤ 2 * m := by
  intro h
  have := C07_pack_value v
  unfold zigzag at this
  split at this <;> omega

example : packSigned (BitVec.ofInt 32 (-3)) = 5#32 ∧ packSigned (BitVec.intMin 32) = 0xFFFFFFFF#32 ∧
    unpackSigned 6#64 = 3#32 := by decide

end Jxl.Props
