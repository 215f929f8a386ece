import Verif.Model.HybridUint
import Verif.Lemmas.Lehmer
namespace Jxl.Hybrid

/-- The pieces of a value with leading power `2^n = A·B·K`. -/
theorem pieces (A B K mm : Nat) (hA : 0 < A) (hK : 0 < K) (h : mm < A * B * K) :
    mm = ((mm / (A * K)) * K + (mm / A) % K) * A + mm % A ∧ mm / (A * K) < B ∧ (mm / A) % K < K ∧ mm % A < A := by
  refine ⟨?_, ?_, Nat.mod_lt _ hK, Nat.mod_lt _ hA⟩
  · have h1 := Nat.div_add_mod mm A
    have h2 := Nat.div_add_mod (mm / A) K
    rw [Nat.div_div_eq_div_mul] at h2
    have h3 : mm / (A * K) * K + mm / A % K = mm / A := by rw [Nat.mul_comm]; exact h2
    rw [h3, Nat.mul_comm]; omega
  · apply Nat.div_lt_of_lt_mul
    calc mm < A * B * K := h
      _ = A * K * B := by rw [Nat.mul_assoc, Nat.mul_assoc, Nat.mul_comm B K]

theorem encode_big (c : Config) (value : Nat) (hc : c.msb + c.lsb ≤ c.splitExp) (h : c.splitToken ≤ value) (hv : value < 2 ^ 32) :
    ∃ n hi mid low C, c.splitExp ≤ n ∧ n < 32 ∧ hi < 2 ^ c.msb ∧ mid < 2 ^ (n - c.msb - c.lsb) ∧ low < 2 ^ c.lsb ∧
      2 ^ c.splitExp = 2 ^ c.lsb * 2 ^ c.msb * C ∧
      value = ((2 ^ c.msb + hi) * 2 ^ (n - c.msb - c.lsb) + mid) * 2 ^ c.lsb + low ∧
      encode c value = (2 ^ c.lsb * 2 ^ c.msb * C + ((n - c.splitExp) * 2 ^ c.msb + hi) * 2 ^ c.lsb + low, n - c.msb - c.lsb, mid) := by
  obtain ⟨s, m, l⟩ := c
  simp only [Config.splitToken] at *
  have hpos : value ≠ 0 := by have := Nat.two_pow_pos s; omega
  obtain ⟨n, hlog⟩ : ∃ n, Nat.log2 value = n := ⟨_, rfl⟩
  have hn1 : 2 ^ n ≤ value := hlog ▸ Nat.log2_self_le hpos
  have hn2 : value < 2 ^ (n + 1) := hlog ▸ Nat.lt_log2_self
  have hsn : s ≤ n := by
    have : 2 ^ s < 2 ^ (n + 1) := by omega
    have := (Nat.pow_lt_pow_iff_right (by omega)).mp this; omega
  have hn32 : n < 32 := by
    have : 2 ^ n < 2 ^ 32 := by omega
    exact (Nat.pow_lt_pow_iff_right (by omega)).mp this
  have hpow : 2 ^ n = 2 ^ l * 2 ^ m * 2 ^ (n - m - l) := by rw [← Nat.pow_add, ← Nat.pow_add]; congr 1; omega
  have hpows : 2 ^ s = 2 ^ l * 2 ^ m * 2 ^ (s - m - l) := by rw [← Nat.pow_add, ← Nat.pow_add]; congr 1; omega
  have hmm : value - 2 ^ n < 2 ^ l * 2 ^ m * 2 ^ (n - m - l) := by rw [← hpow]; rw [Nat.pow_succ] at hn2; omega
  obtain ⟨p1, p2, p3, p4⟩ := pieces (2 ^ l) (2 ^ m) (2 ^ (n - m - l)) (value - 2 ^ n) (Nat.two_pow_pos _) (Nat.two_pow_pos _) hmm
  refine ⟨n, _, _, _, 2 ^ (s - m - l), hsn, hn32, p2, p3, p4, hpows, ?_, ?_⟩
  · have h1 : 2 ^ m * 2 ^ (n - m - l) * 2 ^ l = 2 ^ n := by
      rw [hpow, Nat.mul_comm (2 ^ m * _), Nat.mul_assoc]
    generalize hA : (value - 2 ^ n) / (2 ^ l * 2 ^ (n - m - l)) = hi at *
    generalize (value - 2 ^ n) / 2 ^ l % 2 ^ (n - m - l) = mid at *
    generalize (value - 2 ^ n) % 2 ^ l = low at *
    simp only [Nat.add_mul] at p1 ⊢
    omega
  · simp only [encode, Config.splitToken]
    rw [if_neg (by omega), hlog]
    have e1 : (value - 2 ^ n) >>> (n - m) = (value - 2 ^ n) / (2 ^ l * 2 ^ (n - m - l)) := by
      rw [Nat.shiftRight_eq_div_pow, ← Nat.pow_add]; congr 2; omega
    have e2 : (value - 2 ^ n) &&& (2 ^ l - 1) = (value - 2 ^ n) % 2 ^ l := Nat.and_two_pow_sub_one_eq_mod _ _
    have e3 : (value >>> l) &&& (2 ^ (n - m - l) - 1) = (value - 2 ^ n) / 2 ^ l % 2 ^ (n - m - l) := by
      rw [Nat.and_two_pow_sub_one_eq_mod, Nat.shiftRight_eq_div_pow]
      have : value = (value - 2 ^ n) + 2 ^ l * (2 ^ m * 2 ^ (n - m - l)) := by rw [← Nat.mul_assoc, ← hpow]; omega
      rw [this, Nat.add_mul_div_left _ _ (Nat.two_pow_pos _), Nat.add_mul_mod_self_right, ← this]
    rw [e1, e2, e3, Nat.shiftLeft_eq, Nat.shiftLeft_eq]
    generalize (value - 2 ^ n) / (2 ^ l * 2 ^ (n - m - l)) = hi at *
    generalize (value - 2 ^ n) % 2 ^ l = low at *
    have e4 : (n - s) * 2 ^ (m + l) = (n - s) * 2 ^ m * 2 ^ l := by rw [Nat.pow_add, Nat.mul_assoc]
    rw [e4]
    have e5 : ((n - s) * 2 ^ m + hi) * 2 ^ l = (n - s) * 2 ^ m * 2 ^ l + hi * 2 ^ l := Nat.add_mul _ _ _
    rw [e5, ← hpows, ← Nat.add_assoc, Nat.mod_eq_of_lt]
    -- the token fits in 32 bits
    have h1 : hi * 2 ^ l + low < 2 ^ s := by
      calc hi * 2 ^ l + low < hi * 2 ^ l + 2 ^ l := by omega
        _ = (hi + 1) * 2 ^ l := by rw [Nat.add_mul, Nat.one_mul]
        _ ≤ 2 ^ m * 2 ^ l := Nat.mul_le_mul_right _ p2
        _ ≤ 2 ^ s := by rw [← Nat.pow_add]; exact Nat.pow_le_pow_right (by omega) (by omega)
    have h2 : (n - s) * 2 ^ m * 2 ^ l ≤ (n - s) * 2 ^ s := by
      rw [Nat.mul_assoc, ← Nat.pow_add]
      exact Nat.mul_le_mul_left _ (Nat.pow_le_pow_right (by omega) (by omega))
    have h3 : (31 - s + 2) * 2 ^ s ≤ 2 ^ 32 := by
      have : s ≤ 31 := by omega
      have : ∀ s : Fin 32, (31 - s.val + 2) * 2 ^ s.val ≤ 2 ^ 32 := by decide
      exact this ⟨s, by omega⟩
    have h4 : (n - s) * 2 ^ s ≤ (31 - s) * 2 ^ s := Nat.mul_le_mul_right _ (by omega)
    rw [Nat.add_mul] at h3
    omega

theorem or_low {a x n : Nat} (hx : x < 2 ^ n) : (a <<< n) ||| x = a * 2 ^ n + x := by
  rw [Nat.shiftLeft_eq, Nat.mul_comm, ← Nat.two_pow_add_eq_or_of_lt hx]

theorem read_big (c : Config) (n hi mid low C : Nat) (hc : c.msb + c.lsb ≤ c.splitExp) (h1 : c.splitExp ≤ n) (h2 : n < 32)
    (h3 : hi < 2 ^ c.msb) (h4 : mid < 2 ^ (n - c.msb - c.lsb)) (h5 : low < 2 ^ c.lsb)
    (h6 : 2 ^ c.splitExp = 2 ^ c.lsb * 2 ^ c.msb * C) (rest : List Bool) :
    read c (2 ^ c.lsb * 2 ^ c.msb * C + ((n - c.splitExp) * 2 ^ c.msb + hi) * 2 ^ c.lsb + low) (bitsOf (n - c.msb - c.lsb) mid ++ rest) =
      some ((((2 ^ c.msb + hi) * 2 ^ (n - c.msb - c.lsb) + mid) * 2 ^ c.lsb + low) % 2 ^ 32, rest) := by
  obtain ⟨s, m, l⟩ := c
  simp only at *
  have htok : 2 ^ l * 2 ^ m * C + ((n - s) * 2 ^ m + hi) * 2 ^ l + low = (2 ^ m * (C + (n - s)) + hi) * 2 ^ l + low := by
    rw [Nat.add_mul, Nat.add_mul, Nat.mul_add, Nat.add_mul, Nat.mul_comm (2 ^ l) (2 ^ m), Nat.mul_right_comm (2 ^ m) (2 ^ l) C,
      Nat.mul_comm (n - s) (2 ^ m)]
    omega
  have hdiv : ((2 ^ m * (C + (n - s)) + hi) * 2 ^ l + low) >>> l = 2 ^ m * (C + (n - s)) + hi := by
    rw [Nat.shiftRight_eq_div_pow, Nat.mul_comm, Nat.mul_add_div (Nat.two_pow_pos _), Nat.div_eq_of_lt h5, Nat.add_zero]
  have hlow : ((2 ^ m * (C + (n - s)) + hi) * 2 ^ l + low) &&& (2 ^ l - 1) = low := by
    rw [Nat.and_two_pow_sub_one_eq_mod, Nat.mul_comm, Nat.mul_add_mod, Nat.mod_eq_of_lt h5]
  have hhi : (2 ^ m * (C + (n - s)) + hi) &&& (2 ^ m - 1) = hi := by
    rw [Nat.and_two_pow_sub_one_eq_mod, Nat.mul_add_mod, Nat.mod_eq_of_lt h3]
  have hsub : ((2 ^ m * (C + (n - s)) + hi) * 2 ^ l + low - 2 ^ s) >>> (m + l) = n - s := by
    rw [← htok, h6, Nat.add_assoc, Nat.add_sub_cancel_left, Nat.add_comm m l, Nat.shiftRight_add, Nat.shiftRight_eq_div_pow,
      Nat.shiftRight_eq_div_pow, Nat.mul_comm, Nat.mul_add_div (Nat.two_pow_pos _), Nat.div_eq_of_lt h5, Nat.add_zero,
      Nat.mul_comm, Nat.mul_add_div (Nat.two_pow_pos _), Nat.div_eq_of_lt h3, Nat.add_zero]
  have hge : ¬ ((2 ^ m * (C + (n - s)) + hi) * 2 ^ l + low < 2 ^ s) := by rw [← htok, h6]; omega
  have hnb : (s - (m + l) + (n - s)) % 2 ^ 32 &&& 31 = n - m - l := by
    rw [show s - (m + l) + (n - s) = n - m - l by omega, Nat.mod_eq_of_lt (by omega), show (31 : Nat) = 2 ^ 5 - 1 from rfl,
      Nat.and_two_pow_sub_one_eq_mod, Nat.mod_eq_of_lt (by omega)]
  rw [htok]
  simp only [read, Config.splitToken]
  rw [if_neg hge, hsub, hnb, rdBits_append h4]
  simp only [Option.map_some, hdiv, hhi, hlow]
  have hor : 2 ^ m ||| hi = 2 ^ m + hi := by
    have := Nat.two_pow_add_eq_or_of_lt h3 1
    rw [Nat.mul_one] at this; exact this.symm
  rw [hor, or_low h4, or_low h5]


end Jxl.Hybrid
