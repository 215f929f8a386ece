import Verif.Model.Memory
namespace Jxl.Memory

theorem safeAdd_spec (a b : Nat) (ha : a < 2 ^ 64) (hb : b < 2 ^ 64) : safeAdd a b = if a + b < 2 ^ 64 then some (a + b) else none := by
  unfold safeAdd w64
  simp only
  by_cases h : a + b < 2 ^ 64
  · rw [Nat.mod_eq_of_lt h, if_pos (by omega), if_pos h]
  · have : (a + b) % 2 ^ 64 = a + b - 2 ^ 64 := by omega
    rw [this, if_neg (by omega), if_neg h]

theorem safeMul_spec (a b : Nat) : safeMul a b = if a * b < 2 ^ 64 then some (a * b) else none := by
  unfold safeMul w64
  by_cases h0 : a = 0 ∨ b = 0
  · rw [if_pos h0]
    rcases h0 with rfl | rfl <;> simp
  · rw [if_neg h0]
    have ha : 0 < a := by omega
    by_cases h : b > (2 ^ 64 - 1) / a
    · rw [if_pos h, if_neg]
      rw [gt_iff_lt, Nat.div_lt_iff_lt_mul ha, Nat.mul_comm] at h
      omega
    · rw [if_neg h]
      have h' : b ≤ (2 ^ 64 - 1) / a := Nat.le_of_not_lt h
      rw [Nat.le_div_iff_mul_le ha, Nat.mul_comm] at h'
      rw [if_pos (by omega), Nat.mod_eq_of_lt (by omega)]

/-- The smallest multiple of `align` from `what` on. -/
def roundUp (what align : Nat) : Nat := what + (align - what % align) % align

theorem roundUp_dvd (what align : Nat) (h : 0 < align) : align ∣ roundUp what align := by
  unfold roundUp
  have := Nat.mod_lt what h
  rcases Nat.eq_zero_or_pos (what % align) with h0 | h0
  · rw [h0, Nat.sub_zero, Nat.mod_self, Nat.add_zero]; exact Nat.dvd_of_mod_eq_zero h0
  · rw [Nat.mod_eq_of_lt (a := align - what % align) (by omega)]
    refine ⟨what / align + 1, ?_⟩
    have := Nat.div_add_mod what align
    rw [Nat.mul_add, Nat.mul_one]; omega

theorem roundUp_bounds (what align : Nat) (h : 0 < align) : what ≤ roundUp what align ∧ roundUp what align < what + align := by
  unfold roundUp
  have := Nat.mod_lt (align - what % align) h
  omega

theorem safeRoundUpTo_spec (what align : Nat) (hw : what < 2 ^ 64) (ha : align < 2 ^ 64) (h0 : 0 < align) :
    safeRoundUpTo what align = if roundUp what align < 2 ^ 64 then some (roundUp what align) else none := by
  unfold safeRoundUpTo
  by_cases h1 : align < 2
  · have : align = 1 := by omega
    subst this
    simp [roundUp, Nat.mod_one, hw]
  · rw [if_neg h1]
    by_cases h2 : what % align = 0
    · rw [if_pos h2, roundUp, h2, Nat.sub_zero, Nat.mod_self, Nat.add_zero, if_pos hw]
    · have := Nat.mod_lt what h0
      rw [if_neg h2, safeAdd_spec _ _ hw (by omega), roundUp, Nat.mod_eq_of_lt (a := align - what % align) (by omega)]

end Jxl.Memory
