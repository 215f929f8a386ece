import Verif.Lemmas.F16
/-!
# C04: half-precision header floats
-/
namespace Jxl.Props
open Jxl F16.Spec

/-- **C04, reader.**  Exactly the finite patterns are accepted, and the float delivered has the same value and sign. -/
theorem C04_read_value (h : Nat) (hh : h < 2 ^ 16) :
    (¬ finite16 h → F16.decode h = none) ∧
    (finite16 h → ∃ b, F16.decode h = some b ∧ b < 2 ^ 32 ∧ finite32 b ∧ mag32 b = mag16 h * 2 ^ 125 ∧
      b / 2 ^ 31 = h / 2 ^ 15) := by
  rw [F16.decode_eq]
  constructor
  · intro hn; rw [if_pos (by simpa [finite16] using hn)]
  · intro hf
    rw [if_neg hf]
    by_cases he : h / 2 ^ 10 % 32 = 0
    · rw [if_pos he]
      obtain ⟨f1, f2, _⟩ := F16.sub_facts ⟨h % 2 ^ 10, Nat.mod_lt _ (by decide)⟩
      simp only at f1 f2
      have hm : mag16 h = h % 2 ^ 10 := by simp [mag16, he]
      by_cases hs : h / 2 ^ 15 ≠ 0
      · rw [if_pos hs, F16.xor_sign f1]
        refine ⟨_, rfl, by omega, ?_, ?_, by omega⟩
        · simp only [finite32]
          intro h255
          have : mag32 (F16.subnormalPattern (h % 2 ^ 10)) ≥ 2 ^ 23 * 2 ^ 254 := by
            simp only [mag32]
            have e1 : F16.subnormalPattern (h % 2 ^ 10) / 2 ^ 23 % 256 = 255 := by omega
            rw [e1, if_neg (by decide)]
            exact Nat.mul_le_mul (by omega) (Nat.le_refl _)
          rw [f2] at this
          have hlt : h % 2 ^ 10 < 2 ^ 10 := Nat.mod_lt _ (by decide)
          have : h % 2 ^ 10 * 2 ^ 125 < 2 ^ 10 * 2 ^ 125 := Nat.mul_lt_mul_of_pos_right hlt (by decide)
          omega
        · rw [hm, ← f2]
          simp only [mag32]
          rw [show (2 ^ 31 + F16.subnormalPattern (h % 2 ^ 10)) / 2 ^ 23 % 256
                = F16.subnormalPattern (h % 2 ^ 10) / 2 ^ 23 % 256 by omega,
              show (2 ^ 31 + F16.subnormalPattern (h % 2 ^ 10)) % 2 ^ 23
                = F16.subnormalPattern (h % 2 ^ 10) % 2 ^ 23 by omega]
      · rw [if_neg hs]
        refine ⟨_, rfl, by omega, ?_, by rw [hm]; exact f2, by omega⟩
        simp only [finite32]
        intro h255
        have : mag32 (F16.subnormalPattern (h % 2 ^ 10)) ≥ 2 ^ 23 * 2 ^ 254 := by
          simp only [mag32]
          rw [h255, if_neg (by decide)]
          exact Nat.mul_le_mul (by omega) (Nat.le_refl _)
        rw [f2] at this
        have hlt : h % 2 ^ 10 < 2 ^ 10 := Nat.mod_lt _ (by decide)
        have : h % 2 ^ 10 * 2 ^ 125 < 2 ^ 10 * 2 ^ 125 := Nat.mul_lt_mul_of_pos_right hlt (by decide)
        omega
    · rw [if_neg he]
      simp only [finite16] at hf
      refine ⟨_, rfl, by omega, ?_, ?_, by omega⟩
      · simp only [finite32]; omega
      · simp only [mag32, mag16]
        rw [if_neg he]
        rw [show (h / 2 ^ 15 * 2 ^ 31 + (h / 2 ^ 10 % 32 + 112) * 2 ^ 23 + h % 2 ^ 10 * 2 ^ 13) / 2 ^ 23 % 256
            = h / 2 ^ 10 % 32 + 112 by omega,
          show (h / 2 ^ 15 * 2 ^ 31 + (h / 2 ^ 10 % 32 + 112) * 2 ^ 23 + h % 2 ^ 10 * 2 ^ 13) % 2 ^ 23
            = h % 2 ^ 10 * 2 ^ 13 by omega]
        rw [if_neg (by omega)]
        rw [show 2 ^ 23 + h % 2 ^ 10 * 2 ^ 13 = (2 ^ 10 + h % 2 ^ 10) * 2 ^ 13 by omega]
        rw [Nat.mul_assoc, Nat.mul_assoc, ← Nat.pow_add, ← Nat.pow_add]
        congr 2; omega

/-- **C04, round trip.**  Every finite pattern except negative zero is written back bit-exactly. -/
theorem C04_round_trip (h : Nat) (hh : h < 2 ^ 16) (hf : finite16 h) (hz : h ≠ 0x8000) (rest : List Bool) :
    ∃ b w, F16.read (bitsOf 16 h ++ rest) = some (b, rest) ∧ F16.canEncode b = true ∧ F16.write b = some w ∧
      w.length = 16 ∧ F16.read (w ++ rest) = some (b, rest) ∧ w = bitsOf 16 h := by
  have key : ∃ b, F16.decode h = some b ∧ F16.canEncode b = true ∧ F16.encode b = some h := by
    rw [F16.decode_eq, if_neg hf]
    by_cases he : h / 2 ^ 10 % 32 = 0
    · rw [if_pos he]
      obtain ⟨f1, f2, f3, f4, f5⟩ := F16.sub_facts ⟨h % 2 ^ 10, Nat.mod_lt _ (by decide)⟩
      simp only at f1 f2 f3 f4 f5
      by_cases hs : h / 2 ^ 15 ≠ 0
      · rw [if_pos hs, F16.xor_sign f1]
        refine ⟨_, rfl, f5, ?_⟩
        rcases f3 with h0 | ⟨_, h1⟩
        · omega
        · rw [h1]; congr 1; omega
      · rw [if_neg hs]
        refine ⟨_, rfl, f4, ?_⟩
        rcases f3 with h0 | ⟨h1, _⟩
        · have : h = 0 := by omega
          subst this; decide
        · rw [h1]; congr 1; omega
    · rw [if_neg he]
      simp only [finite16] at hf
      refine ⟨_, rfl, ?_, ?_⟩
      · rw [F16.canEncode_iff]; omega
      · rw [F16.encode_eq _ (by omega)]
        simp only
        rw [show (h / 2 ^ 15 * 2 ^ 31 + (h / 2 ^ 10 % 32 + 112) * 2 ^ 23 + h % 2 ^ 10 * 2 ^ 13) / 2 ^ 23 % 256
            = h / 2 ^ 10 % 32 + 112 by omega,
          show (h / 2 ^ 15 * 2 ^ 31 + (h / 2 ^ 10 % 32 + 112) * 2 ^ 23 + h % 2 ^ 10 * 2 ^ 13) % 2 ^ 23
            = h % 2 ^ 10 * 2 ^ 13 by omega,
          show (h / 2 ^ 15 * 2 ^ 31 + (h / 2 ^ 10 % 32 + 112) * 2 ^ 23 + h % 2 ^ 10 * 2 ^ 13) / 2 ^ 31 = h / 2 ^ 15 by omega]
        rw [if_neg (by omega), if_neg (by omega), if_neg (by omega)]
        congr 1; omega
  obtain ⟨b, k1, k2, k3⟩ := key
  have hr : F16.read (bitsOf 16 h ++ rest) = some (b, rest) := by
    simp only [F16.read, rdBits_append hh, Option.bind_eq_bind, Option.bind_some, k1]
  exact ⟨b, bitsOf 16 h, hr, k2, by simp [F16.write, k3], by simp, hr, rfl⟩

example : 0xFBFF / 2 ^ 10 % 32 ≠ 31 ∧ F16.decode 0xFBFF = some 0xC77FE000 := by decide
example : F16.decode 0x0001 = some 0x33800000 := by decide +kernel

/-- **C04, writer.**  Every float the encoder claims to support (`|v| ≤ 65504`) is written, as the largest
half-precision magnitude that does not exceed it (truncation towards zero); the sign survives whenever the result is non-zero.  Floats of magnitude
at least 65536, infinities and NaNs are refused. -/
theorem C04_write_value (b : Nat) (hb : b < 2 ^ 32) :
    (F16.canEncode b = true ↔ b % 2 ^ 31 ≤ 0x477FE000) ∧
    (F16.encode b = none ↔ 65536 * 2 ^ 149 ≤ mag32 b ∨ ¬ finite32 b) ∧
    (∀ h, F16.encode b = some h → h < 2 ^ 16 ∧ finite16 h ∧ mag16 h * 2 ^ 125 ≤ mag32 b ∧
      (∀ h', finite16 h' → mag16 h' * 2 ^ 125 ≤ mag32 b → mag16 h' ≤ mag16 h) ∧
      (mag16 h ≠ 0 → h / 2 ^ 15 = b / 2 ^ 31)) := by
  refine ⟨F16.canEncode_iff b, ?_, ?_⟩
  · rw [F16.encode_eq b hb]
    simp only [mag32, finite32]
    have h1 := Nat.mod_lt (b / 2 ^ 23) (show 0 < 256 by decide)
    have h2 := Nat.mod_lt b (show 0 < 2 ^ 23 by decide)
    generalize b / 2 ^ 23 % 256 = e at *
    generalize b % 2 ^ 23 = m at *
    by_cases c1 : e > 142
    · rw [if_pos c1, if_neg (by omega)]
      simp only [true_iff]; left
      calc 65536 * 2 ^ 149 = 2 ^ 23 * 2 ^ 142 := by decide
        _ ≤ (2 ^ 23 + m) * 2 ^ (e - 1) := Nat.mul_le_mul (by omega) (Nat.pow_le_pow_right (by decide) (by omega))
    · rw [if_neg c1]
      have : ¬ ((65536 * 2 ^ 149 ≤ if e = 0 then m else (2 ^ 23 + m) * 2 ^ (e - 1)) ∨ ¬ e ≠ 255) := by
        intro hor
        rcases hor with hor | hor
        · split at hor
          · omega
          · have : (2 ^ 23 + m) * 2 ^ (e - 1) < 2 ^ 24 * 2 ^ 141 :=
              Nat.mul_lt_mul_of_lt_of_le (by omega) (Nat.pow_le_pow_right (by decide) (by omega)) (by decide)
            omega
        · omega
      simp only [this, iff_false]
      repeat' split
      all_goals simp
  · intro h hh
    rw [F16.encode_eq b hb] at hh
    simp only [mag32] at *
    have h1 := Nat.mod_lt (b / 2 ^ 23) (show 0 < 256 by decide)
    have h2 := Nat.mod_lt b (show 0 < 2 ^ 23 by decide)
    have h3 : b / 2 ^ 31 < 2 := by omega
    generalize b / 2 ^ 23 % 256 = e at *
    generalize b % 2 ^ 23 = m at *
    generalize b / 2 ^ 31 = sg at *
    by_cases c1 : e > 142
    · rw [if_pos c1] at hh; cases hh
    rw [if_neg c1] at hh
    by_cases c2 : e < 103
    · rw [if_pos c2] at hh
      simp only [Option.some.injEq] at hh
      subst hh
      have hlt : (if e = 0 then m else (2 ^ 23 + m) * 2 ^ (e - 1)) < 2 ^ 125 := by
        split
        · omega
        · calc (2 ^ 23 + m) * 2 ^ (e - 1) < 2 ^ 24 * 2 ^ 101 :=
                Nat.mul_lt_mul_of_lt_of_le (by omega) (Nat.pow_le_pow_right (by decide) (by omega)) (by decide)
            _ = 2 ^ 125 := by decide
      refine ⟨by decide, by simp [finite16], by simp [mag16], ?_, by simp [mag16]⟩
      intro h' _ hm
      have : mag16 h' < 1 := Nat.lt_of_mul_lt_mul_right (a := 2 ^ 125) (by omega)
      omega
    rw [if_neg c2] at hh
    by_cases c3 : e < 113
    · rw [if_pos c3] at hh
      simp only [Option.some.injEq] at hh
      have hpp : (2 : Nat) ^ 23 = 2 ^ (e - 103) * 2 ^ (126 - e) := by rw [← Nat.pow_add]; congr 1; omega
      have hmd : m / 2 ^ (126 - e) < 2 ^ (e - 103) := by
        rw [Nat.div_lt_iff_lt_mul (Nat.two_pow_pos _), ← hpp]; exact h2
      have hle : (2 : Nat) ^ (e - 103) ≤ 2 ^ 9 := Nat.pow_le_pow_right (by decide) (by omega)
      have hval : 2 ^ (e - 103) + m / 2 ^ (126 - e) = (2 ^ 23 + m) * 2 ^ (e - 1) / 2 ^ 125 := by
        have h125 : (2 : Nat) ^ 125 = 2 ^ (126 - e) * 2 ^ (e - 1) := by rw [← Nat.pow_add]; congr 1; omega
        rw [h125, Nat.mul_div_mul_right _ _ (Nat.two_pow_pos _), hpp, Nat.mul_comm (2 ^ (e - 103)),
          Nat.mul_add_div (Nat.two_pow_pos _)]
      subst hh
      have e0 : (sg * 2 ^ 15 + (2 ^ (e - 103) + m / 2 ^ (126 - e))) / 2 ^ 10 % 32 = 0 := by omega
      have hmag : mag16 (sg * 2 ^ 15 + (2 ^ (e - 103) + m / 2 ^ (126 - e))) = (2 ^ 23 + m) * 2 ^ (e - 1) / 2 ^ 125 := by
        simp only [mag16]; rw [if_pos e0, ← hval]; omega
      rw [if_neg (by omega)]
      refine ⟨by omega, ?_, ?_, ?_, ?_⟩
      · simp only [finite16]; omega
      · rw [hmag]; exact Nat.div_mul_le_self _ _
      · intro h' _ hm
        rw [hmag]
        exact (Nat.le_div_iff_mul_le (by decide)).mpr hm
      · intro _; omega
    · rw [if_neg c3] at hh
      simp only [Option.some.injEq] at hh
      subst hh
      have e0 : (sg * 2 ^ 15 + (e - 112) * 2 ^ 10 + m / 2 ^ 13) / 2 ^ 10 % 32 = e - 112 := by omega
      have e1 : (sg * 2 ^ 15 + (e - 112) * 2 ^ 10 + m / 2 ^ 13) % 2 ^ 10 = m / 2 ^ 13 := by omega
      have hmag : mag16 (sg * 2 ^ 15 + (e - 112) * 2 ^ 10 + m / 2 ^ 13) = (2 ^ 10 + m / 2 ^ 13) * 2 ^ (e - 113) := by
        simp only [mag16]; rw [e0, e1, if_neg (by omega)]; rfl
      have hs : (2 : Nat) ^ (e - 1) = 2 ^ (e - 113) * 2 ^ 112 := by rw [← Nat.pow_add]; congr 1; omega
      have hq : m / 2 ^ 13 < 2 ^ 10 := by omega
      rw [if_neg (by omega), hmag, hs]
      refine ⟨by omega, ?_, ?_, ?_, ?_⟩
      · simp only [finite16]; omega
      · calc (2 ^ 10 + m / 2 ^ 13) * 2 ^ (e - 113) * 2 ^ 125
            = ((2 ^ 10 + m / 2 ^ 13) * 2 ^ 13) * (2 ^ (e - 113) * 2 ^ 112) := by
              rw [show (2 : Nat) ^ 125 = 2 ^ 13 * 2 ^ 112 by decide]; ac_rfl
          _ ≤ (2 ^ 23 + m) * (2 ^ (e - 113) * 2 ^ 112) := Nat.mul_le_mul_right _ (by omega)
      · intro h' _ hm
        have hub : (2 ^ 23 + m) * (2 ^ (e - 113) * 2 ^ 112) < (2 ^ 10 + m / 2 ^ 13 + 1) * 2 ^ (e - 113) * 2 ^ 125 :=
          calc (2 ^ 23 + m) * (2 ^ (e - 113) * 2 ^ 112)
              < ((2 ^ 10 + m / 2 ^ 13 + 1) * 2 ^ 13) * (2 ^ (e - 113) * 2 ^ 112) :=
                Nat.mul_lt_mul_of_pos_right (by omega) (Nat.mul_pos (Nat.two_pow_pos _) (by decide))
            _ = (2 ^ 10 + m / 2 ^ 13 + 1) * 2 ^ (e - 113) * 2 ^ 125 := by
                rw [show (2 : Nat) ^ 125 = 2 ^ 13 * 2 ^ 112 by decide]; ac_rfl
        have hlt : mag16 h' < (2 ^ 10 + m / 2 ^ 13 + 1) * 2 ^ (e - 113) :=
          Nat.lt_of_mul_lt_mul_right (Nat.lt_of_le_of_lt hm hub)
        generalize m / 2 ^ 13 = q at *
        generalize e - 113 = k at *
        simp only [mag16] at hlt ⊢
        have hm' := Nat.mod_lt h' (show 0 < 2 ^ 10 by decide)
        by_cases hk : h' / 2 ^ 10 % 32 = 0 ∨ h' / 2 ^ 10 % 32 - 1 < k
        · rcases hk with hk | hk
          · rw [if_pos hk]
            have : (2 ^ 10 + q) * 1 ≤ (2 ^ 10 + q) * 2 ^ k := Nat.mul_le_mul_left _ (Nat.two_pow_pos _)
            omega
          · split
            · have : (2 ^ 10 + q) * 1 ≤ (2 ^ 10 + q) * 2 ^ k := Nat.mul_le_mul_left _ (Nat.two_pow_pos _)
              omega
            · have hkk : (2 : Nat) ^ k = 2 * 2 ^ (k - 1) := by
                rw [← Nat.pow_succ']; congr 1; omega
              calc (2 ^ 10 + h' % 2 ^ 10) * 2 ^ (h' / 2 ^ 10 % 32 - 1)
                  ≤ 2 ^ 11 * 2 ^ (k - 1) := Nat.mul_le_mul (by omega) (Nat.pow_le_pow_right (by decide) (by omega))
                _ = 2 ^ 10 * 2 ^ k := by rw [hkk, ← Nat.mul_assoc]
                _ ≤ (2 ^ 10 + q) * 2 ^ k := Nat.mul_le_mul_right _ (by omega)
        · have hne : ¬ h' / 2 ^ 10 % 32 = 0 := fun hx => hk (Or.inl hx)
          rw [if_neg hne] at hlt ⊢
          have hs2 : (2 : Nat) ^ (h' / 2 ^ 10 % 32 - 1) = 2 ^ (h' / 2 ^ 10 % 32 - 1 - k) * 2 ^ k := by
            rw [← Nat.pow_add]; congr 1; omega
          rw [hs2, ← Nat.mul_assoc] at hlt ⊢
          exact Nat.mul_le_mul_right _ (Nat.le_of_lt_succ (Nat.lt_of_mul_lt_mul_right hlt))
      · intro _; omega

/-- **C04, exception.**  Negative zero is accepted by the reader but written back as positive zero: the sign of
zero (and of floats that round to zero) is lost. -/
theorem C04_negative_zero_lost :
    F16.decode 0x8000 = some 0x80000000 ∧ F16.canEncode 0x80000000 = true ∧ F16.encode 0x80000000 = some 0 := by
  decide +kernel

end Jxl.Props
