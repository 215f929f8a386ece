import Verif.Lemmas.Coders
/-!
# C03: header integer codings
-/
namespace Jxl.Props
open Jxl

/-- **C03, fixed-width fields.** -/
theorem C03_bits (n v : Nat) (rest : List Bool) :
    (v < 2 ^ n → ∃ b, writeBitsField n v = some b ∧ canEncodeBits n v = some b.length ∧
      rdBits n (b ++ rest) = some (v, rest)) ∧
    (2 ^ n ≤ v → writeBitsField n v = none ∧ canEncodeBits n v = none) := by
  constructor
  · intro h
    refine ⟨bitsOf n v, ?_, ?_, rdBits_append h rest⟩
    · rw [writeBitsField, if_neg (by omega)]
    · rw [canEncodeBits, if_neg (by omega)]; simp
  · intro h
    simp [writeBitsField, canEncodeBits, h]

/-- **C03, U32.**  For every quadruple of distributions and every 32-bit value: the encoder accepts the value iff one
of the four distributions stands for it; then it announces `n` bits, writes exactly `n` bits, no distribution would
have been shorter, and the reader returns the value and leaves the rest of the stream. -/
theorem C03_u32 (e : U32.Enc) (v : Nat) (hv : v < 2 ^ 32) (rest : List Bool) :
    ((∃ t < 4, U32.Represents (e.get t) v) →
      ∃ b, U32.write e v = some b ∧ U32.canEncode e v = some b.length ∧ U32.read e (b ++ rest) = some (v, rest) ∧
        (∀ t < 4, U32.Represents (e.get t) v → b.length ≤ 2 + U32.payload (e.get t)) ∧
        b.length ≤ U32.maxEncodedBits e) ∧
    ((¬ ∃ t < 4, U32.Represents (e.get t) v) → U32.write e v = none ∧ U32.canEncode e v = none) := by
  constructor
  · rintro ⟨t, ht, hr⟩
    rcases hc : U32.chooseSelector e v with _ | ⟨sel, total⟩
    · exact absurd hr (U32.chooseSelector_none.mp hc t ht)
    · obtain ⟨b, h1, h2, h3⟩ := U32.write_read hv hc rest
      obtain ⟨_, _, _, h4⟩ := U32.chooseSelector_some hc
      refine ⟨b, h1, by simp [U32.canEncode, hc, h2], h3, by rw [h2]; exact h4, by rw [h2]; exact U32.total_le_max hc⟩
  · intro h
    have hc : U32.chooseSelector e v = none := U32.chooseSelector_none.mpr fun t ht hr => h ⟨t, ht, hr⟩
    exact ⟨U32.write_none.mpr hc, by simp [U32.canEncode, hc]⟩

-- The size field of `SizeHeader`: the value 300 takes 2 + 9 bits although 2 + 30 would do as well.
example : U32.write ⟨U32.bitsOffset 9 1, U32.bitsOffset 13 1, U32.bitsOffset 18 1, U32.bitsOffset 30 1⟩ 300 =
    some (bitsOf 2 0 ++ bitsOf 9 299) := by decide +kernel
example : U32.write ⟨U32.bitsOffset 9 1, U32.val 0, U32.val 7, U32.bitsOffset 10 1⟩ 5000 = none := by decide +kernel

/-- The named constructors of distributions mean what they say. -/
theorem C03_distr_meaning (v : Nat) :
    (∀ x, x < 2 ^ 31 → (U32.Represents (U32.val x) v ↔ v = x)) ∧
    (∀ n o, 1 ≤ n → n ≤ 32 → o < 2 ^ 26 → (U32.Represents (U32.bitsOffset n o) v ↔ o ≤ v ∧ v < o + 2 ^ n)) := by
  constructor
  · intro x hx
    have h1 : U32.isDirect (U32.val x) = true := by
      simp only [U32.isDirect, U32.val, bne_iff_ne, ne_eq]
      intro h
      have := congrArg (·.testBit 31) h
      have h31 : Nat.testBit 2147483648 31 = true := by decide
      simp [Nat.testBit_or, Nat.testBit_and, h31] at this
    have h2 : U32.direct (U32.val x) = x := by
      simp only [U32.direct, U32.val]
      rw [show (0x7FFFFFFF : Nat) = 2 ^ 31 - 1 from rfl, Nat.and_two_pow_sub_one_eq_mod]
      rw [Nat.or_comm, show (0x80000000 : Nat) = 1 <<< 31 from rfl, ← Nat.shiftLeft_add_eq_or_of_lt hx]
      simp [Nat.shiftLeft_eq]; omega
    simp [U32.Represents, h1, h2]
  · intro n o h1 h2 h3
    have e1 : (n - 1) &&& 0x1F = n - 1 := by
      rw [show (0x1F : Nat) = 2 ^ 5 - 1 from rfl, Nat.and_two_pow_sub_one_eq_mod]; omega
    have e2 : o &&& 0x3FFFFFF = o := by
      rw [show (0x3FFFFFF : Nat) = 2 ^ 26 - 1 from rfl, Nat.and_two_pow_sub_one_eq_mod]; omega
    have e : U32.bitsOffset n o = (n - 1) + 32 * o := by
      simp only [U32.bitsOffset, e1, e2, Nat.shiftLeft_eq]; omega
    have hd : U32.isDirect (U32.bitsOffset n o) = false := by
      simp only [U32.isDirect, e, bne_eq_false_iff_eq]
      apply Nat.eq_of_testBit_eq
      intro i
      rw [Nat.testBit_and, Nat.zero_testBit]
      by_cases hi : i = 31
      · subst hi
        rw [Nat.testBit_lt_two_pow (by omega)]; rfl
      · rw [show (0x80000000 : Nat) = 2 ^ 31 from rfl, Nat.testBit_two_pow]
        simp; intro _; omega
    have hx : U32.extraBits (U32.bitsOffset n o) = n := by
      simp only [U32.extraBits, e]
      rw [show (0x1F : Nat) = 2 ^ 5 - 1 from rfl, Nat.and_two_pow_sub_one_eq_mod]; omega
    have ho : U32.offset (U32.bitsOffset n o) = o := by
      simp only [U32.offset, e, Nat.shiftRight_eq_div_pow]
      rw [show (0x3FFFFFF : Nat) = 2 ^ 26 - 1 from rfl, Nat.and_two_pow_sub_one_eq_mod]; omega
    simp [U32.Represents, hd, hx, ho]

/-- **C03, U64.**  All 2^64 values round trip, in exactly the announced number of bits (at most 73). -/
theorem C03_u64 (v : Nat) (hv : v < 2 ^ 64) (rest : List Bool) :
    U64.read (U64.write v ++ rest) = some (v, rest) ∧ (U64.write v).length = U64.encodedBits v ∧
      U64.encodedBits v ≤ 73 :=
  ⟨U64.write_read v hv rest, U64.write_length v, U64.encodedBits_le v⟩

example : (U64.write (2 ^ 64 - 1)).length = 73 := by decide +kernel

/-- **C03, enums.**  `bits` is the set of valid values; exactly the valid values below 64 are written and read back,
and the reader never returns an invalid one. -/
theorem C03_enum (bits v : Nat) (rest : List Bool) :
    ((v < 64 ∧ bits.testBit v) → ∃ b, EnumField.write bits v = some b ∧ EnumField.read bits (b ++ rest) = some (v, rest)) ∧
    (¬ (v < 64 ∧ bits.testBit v) → EnumField.write bits v = none) ∧
    (∀ s r, EnumField.read bits s = some (v, r) → v < 64 ∧ bits.testBit v) := by
  refine ⟨?_, ?_, ?_⟩
  · rintro ⟨h1, h2⟩
    rcases hc : U32.chooseSelector EnumField.enc v with _ | ⟨sel, total⟩
    · exact absurd hc (EnumField.enc_ok v h1)
    · obtain ⟨b, e1, e2, e3⟩ := U32.write_read (by omega) hc rest
      refine ⟨b, ?_, ?_⟩
      · simp [EnumField.write, e1, EnumField.valid, h1, h2]
      · simp [EnumField.read, e3, EnumField.valid, h1, h2]
  · intro h
    simp only [EnumField.write, EnumField.valid]
    cases U32.write EnumField.enc v with
    | none => rfl
    | some b => simpa using h
  · intro s r h
    simp only [EnumField.read, Option.bind_eq_bind] at h
    obtain ⟨⟨w, s1⟩, h1, h2⟩ := Option.bind_eq_some_iff.mp h
    simp only at h2
    by_cases hv : EnumField.valid bits w = true
    · rw [if_pos hv] at h2
      simp only [Option.some.injEq, Prod.mk.injEq] at h2
      rw [← h2.1]; simpa [EnumField.valid] using hv
    · rw [if_neg hv] at h2; cases h2

-- ColorSpace has values 0..3.
example : EnumField.write 0b1111 3 = some (bitsOf 2 2 ++ bitsOf 4 1) := by decide +kernel

end Jxl.Props
