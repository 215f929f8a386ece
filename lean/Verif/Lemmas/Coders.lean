import Verif.Model.Coders
namespace Jxl

namespace U32

/-- Independent meaning of a distribution: the set of values it stands for. -/
def Represents (d : Nat) (v : Nat) : Prop :=
  if isDirect d then v = direct d else offset d ≤ v ∧ v < offset d + 2 ^ extraBits d

/-- Payload bits of a distribution. -/
def payload (d : Nat) : Nat := if isDirect d then 0 else extraBits d

theorem extraBits_pos (d : Nat) : 1 ≤ extraBits d := by simp [extraBits]
theorem extraBits_le (d : Nat) : extraBits d ≤ 32 := Nat.succ_le_succ (Nat.and_le_right (n := d) (m := 0x1F))
theorem direct_lt (d : Nat) : direct d < 2 ^ 32 := by
  exact Nat.lt_of_le_of_lt (Nat.and_le_right (n := d) (m := 0x7FFFFFFF)) (by decide)

theorem chooseLoop_spec (e : Enc) (v : Nat) (ss : List Nat) (best : Nat × Nat) (hb : 3 ≤ best.2) :
    ((chooseLoop e v ss best = best ∧ (∀ s ∈ ss, Represents (e.get s) v → best.2 ≤ 2 + payload (e.get s))) ∨
     (∃ s ∈ ss, chooseLoop e v ss best = (s, 2 + payload (e.get s)) ∧ Represents (e.get s) v ∧
        2 + payload (e.get s) < best.2 ∧
        ∀ t ∈ ss, Represents (e.get t) v → 2 + payload (e.get s) ≤ 2 + payload (e.get t))) := by
  induction ss generalizing best with
  | nil => left; exact ⟨rfl, by simp⟩
  | cons s ss ih =>
    simp only [chooseLoop]
    by_cases hd : isDirect (e.get s) = true
    · rw [if_pos hd]
      by_cases hv : direct (e.get s) = v
      · rw [if_pos hv]; right
        refine ⟨s, by simp, ?_, ?_, ?_, ?_⟩
        · simp [payload, hd]
        · simp [Represents, hd, hv]
        · simp [payload, hd]; omega
        · intro t _ _; simp [payload, hd]
      · rw [if_neg hv]
        have hn : ¬ Represents (e.get s) v := by simp only [Represents, hd, if_true]; omega
        rcases ih best hb with ⟨e1, h2⟩ | ⟨t, ht, e1, h2, h3, h4⟩
        · left; exact ⟨e1, fun t ht hq => by
            rcases List.mem_cons.mp ht with rfl | ht
            · exact absurd hq hn
            · exact h2 t ht hq⟩
        · right; exact ⟨t, by simp [ht], e1, h2, h3, fun u hu hq => by
            rcases List.mem_cons.mp hu with rfl | hu
            · exact absurd hq hn
            · exact h4 u hu hq⟩
    · rw [if_neg hd]
      by_cases hr : v < offset (e.get s) ∨ v ≥ offset (e.get s) + 2 ^ extraBits (e.get s)
      · rw [if_pos hr]
        have hn : ¬ Represents (e.get s) v := by simp only [Represents, hd]; simp; omega
        rcases ih best hb with ⟨e1, h2⟩ | ⟨t, ht, e1, h2, h3, h4⟩
        · left; exact ⟨e1, fun t ht hq => by
            rcases List.mem_cons.mp ht with rfl | ht
            · exact absurd hq hn
            · exact h2 t ht hq⟩
        · right; exact ⟨t, by simp [ht], e1, h2, h3, fun u hu hq => by
            rcases List.mem_cons.mp hu with rfl | hu
            · exact absurd hq hn
            · exact h4 u hu hq⟩
      · rw [if_neg hr]
        have hp : payload (e.get s) = extraBits (e.get s) := by simp [payload, hd]
        have hR : Represents (e.get s) v := by simp only [Represents, hd]; simp; omega
        have hx := extraBits_pos (e.get s)
        by_cases hl : 2 + extraBits (e.get s) < best.2
        · rw [if_pos hl]; right
          rcases ih (s, 2 + extraBits (e.get s)) (by simp only; omega) with ⟨e1, h2⟩ | ⟨t, ht, e1, h2, h3, h4⟩
          · refine ⟨s, by simp, by rw [e1, hp], hR, by rw [hp]; exact hl, fun t ht hr => ?_⟩
            rcases List.mem_cons.mp ht with rfl | ht
            · exact Nat.le_refl _
            · rw [hp]; exact h2 t ht hr
          · simp only at h3
            refine ⟨t, by simp [ht], e1, h2, by omega, fun u hu hr => ?_⟩
            rcases List.mem_cons.mp hu with rfl | hu
            · omega
            · exact h4 u hu hr
        · rw [if_neg hl]
          rcases ih best hb with ⟨e1, h2⟩ | ⟨t, ht, e1, h2, h3, h4⟩
          · left; exact ⟨e1, fun t ht hr => by
              rcases List.mem_cons.mp ht with rfl | ht
              · omega
              · exact h2 t ht hr⟩
          · right; exact ⟨t, by simp [ht], e1, h2, h3, fun u hu hr => by
              rcases List.mem_cons.mp hu with rfl | hu
              · omega
              · exact h4 u hu hr⟩

theorem chooseSelector_some {e : Enc} {v sel total : Nat} (h : chooseSelector e v = some (sel, total)) :
    sel < 4 ∧ total = 2 + payload (e.get sel) ∧ Represents (e.get sel) v ∧
    ∀ t < 4, Represents (e.get t) v → total ≤ 2 + payload (e.get t) := by
  simp only [chooseSelector] at h
  split at h
  · cases h
  · rename_i hne
    simp only [Option.some.injEq] at h
    rcases chooseLoop_spec e v [0, 1, 2, 3] (0, 64) (by simp) with ⟨e1, _⟩ | ⟨s, hs, e1, h2, h3, h4⟩
    · rw [e1] at hne; simp at hne
    · rw [h] at e1
      simp only [Prod.mk.injEq] at e1
      obtain ⟨rfl, rfl⟩ := e1
      refine ⟨?_, rfl, h2, fun t ht => h4 t ?_⟩
      · simp at hs; omega
      · simp; omega

theorem chooseSelector_none {e : Enc} {v : Nat} :
    chooseSelector e v = none ↔ ∀ t < 4, ¬ Represents (e.get t) v := by
  constructor
  · intro h t ht hr
    simp only [chooseSelector] at h
    split at h
    · rename_i he
      rcases chooseLoop_spec e v [0, 1, 2, 3] (0, 64) (by simp) with ⟨e1, h2⟩ | ⟨s, hs, e1, h2, h3, h4⟩
      · have := h2 t (by simp; omega) hr
        have h5 : payload (e.get t) ≤ 32 := by
          have := extraBits_le (e.get t)
          simp only [payload]; split <;> omega
        simp only at this; omega
      · rw [e1] at he; simp only at *; omega
    · cases h
  · intro h
    simp only [chooseSelector]
    rcases chooseLoop_spec e v [0, 1, 2, 3] (0, 64) (by simp) with ⟨e1, _⟩ | ⟨s, hs, e1, h2, h3, h4⟩
    · rw [e1]; rfl
    · exact absurd h2 (h s (by simp at hs; omega))

theorem write_read {e : Enc} {v sel total : Nat} (hv : v < 2 ^ 32) (h : chooseSelector e v = some (sel, total))
    (rest : List Bool) : ∃ b, write e v = some b ∧ b.length = total ∧ read e (b ++ rest) = some (v, rest) := by
  obtain ⟨h1, h2, h3, _⟩ := chooseSelector_some h
  simp only [write, h, Option.bind_eq_bind, Option.bind_some]
  by_cases hd : isDirect (e.get sel) = true
  · rw [if_pos hd]
    refine ⟨_, rfl, by simp [h2, payload, hd], ?_⟩
    simp only [read, rdBits_append (n := 2) h1, Option.bind_eq_bind, Option.bind_some]
    rw [if_pos hd]
    simp only [Represents, hd, if_true] at h3
    rw [h3]
  · simp only [Represents, hd] at h3
    simp only [Bool.false_eq_true, if_false] at h3
    have hp : payload (e.get sel) = extraBits (e.get sel) := by simp [payload, hd]
    rw [if_neg hd, if_neg (by omega)]
    refine ⟨_, rfl, by simp [h2], ?_⟩
    have ht : total - 2 = extraBits (e.get sel) := by omega
    simp only [read, List.append_assoc, rdBits_append (n := 2) h1, Option.bind_eq_bind, Option.bind_some]
    rw [if_neg hd, ht, rdBits_append (by omega)]
    simp only [Option.bind_some]
    rw [show v - offset (e.get sel) + offset (e.get sel) = v by omega, Nat.mod_eq_of_lt hv]

theorem write_none {e : Enc} {v : Nat} : write e v = none ↔ chooseSelector e v = none := by
  constructor
  · intro h
    rcases hc : chooseSelector e v with _ | ⟨sel, total⟩
    · rfl
    · obtain ⟨h1, h2, h3, _⟩ := chooseSelector_some hc
      simp only [write, hc, Option.bind_eq_bind, Option.bind_some] at h
      split at h
      · cases h
      · rename_i hd
        simp only [Represents, hd] at h3
        simp only [Bool.false_eq_true, if_false] at h3
        rw [if_neg (by omega)] at h; cases h
  · intro h; simp [write, h]

theorem total_le_max {e : Enc} {v sel total : Nat} (h : chooseSelector e v = some (sel, total)) :
    total ≤ maxEncodedBits e := by
  obtain ⟨h1, h2, _, _⟩ := chooseSelector_some h
  have : ∀ t < 4, payload (e.get t) + 2 ≤ maxEncodedBits e := by
    intro t ht
    simp only [maxEncodedBits, List.foldl, payload]
    rcases (by omega : t = 0 ∨ t = 1 ∨ t = 2 ∨ t = 3) with rfl | rfl | rfl | rfl <;>
      (repeat' split) <;> omega
  have := this sel h1; omega

theorem read_lt {e : Enc} {s r : List Bool} {v : Nat} (h : read e s = some (v, r)) : v < 2 ^ 32 := by
  simp only [read, Option.bind_eq_bind] at h
  obtain ⟨⟨sel, s1⟩, h1, h2⟩ := Option.bind_eq_some_iff.mp h
  simp only at h2
  split at h2
  · simp only [Option.some.injEq, Prod.mk.injEq] at h2
    rw [← h2.1]; exact direct_lt _
  · obtain ⟨⟨x, s2⟩, h3, h4⟩ := Option.bind_eq_some_iff.mp h2
    simp only [Option.some.injEq, Prod.mk.injEq] at h4
    rw [← h4.1]; exact Nat.mod_lt _ (by decide)

end U32

namespace U64

theorem and_mask (v n : Nat) : v &&& (2 ^ n - 1) = v % 2 ^ n := Nat.and_two_pow_sub_one_eq_mod v n

theorem or_shift {a x shift w : Nat} (ha : a < 2 ^ shift) (hx : x < 2 ^ w) (hw : shift + w ≤ 64) :
    a ||| (x <<< shift) % 2 ^ 64 = a + x * 2 ^ shift := by
  have h1 : x <<< shift < 2 ^ 64 := by
    rw [Nat.shiftLeft_eq]
    calc x * 2 ^ shift < 2 ^ w * 2 ^ shift := Nat.mul_lt_mul_of_pos_right hx (Nat.two_pow_pos _)
      _ = 2 ^ (w + shift) := by rw [Nat.pow_add]
      _ ≤ 2 ^ 64 := Nat.pow_le_pow_right (by omega) (by omega)
  rw [Nat.mod_eq_of_lt h1, Nat.or_comm, ← Nat.shiftLeft_add_eq_or_of_lt ha, Nat.shiftLeft_eq]; omega

/-- `fuel` iterations are enough from `shift = 12 + 8 * k`. -/
theorem tail_round_trip (fuel k v acc : Nat) (hk : k + fuel = 8) (hk1 : k ≤ 6) (hf : 0 < fuel)
    (hacc : acc < 2 ^ (12 + 8 * k)) (hv : v * 2 ^ (12 + 8 * k) < 2 ^ 64) (rest : List Bool) :
    readTail fuel acc (12 + 8 * k) (writeTail fuel v (12 + 8 * k) ++ rest) = some (acc + v * 2 ^ (12 + 8 * k), rest) := by
  induction fuel generalizing k v acc with
  | zero => omega
  | succ fuel ih =>
    simp only [writeTail]
    by_cases h1 : v > 0 ∧ 12 + 8 * k < 60
    · rw [if_pos h1]
      simp only [readTail, List.append_assoc]
      rw [rdBits_append (by decide)]
      simp only [Option.bind_eq_bind, Option.bind_some]
      rw [if_neg (by omega), if_neg (by omega)]
      rw [show (255 : Nat) = 2 ^ 8 - 1 from rfl, and_mask, rdBits_append (Nat.mod_lt _ (by decide))]
      simp only [Option.bind_some]
      rw [or_shift hacc (Nat.mod_lt v (by decide)) (by omega)]
      have hp : (2 : Nat) ^ (12 + 8 * (k + 1)) = 2 ^ (12 + 8 * k) * 256 := by
        rw [show 12 + 8 * (k + 1) = (12 + 8 * k) + 8 by omega, Nat.pow_add]
      have hdm := Nat.div_add_mod v (2 ^ 8)
      have hml := Nat.mod_lt v (show 0 < 2 ^ 8 by decide)
      rw [Nat.shiftRight_eq_div_pow, show 12 + 8 * k + 8 = 12 + 8 * (k + 1) by omega]
      rw [ih (k + 1) (v / 2 ^ 8) _ (by omega) (by omega) (by omega)]
      · simp only [Option.some.injEq, Prod.mk.injEq, and_true]
        rw [hp]
        generalize 2 ^ (12 + 8 * k) = P at *
        generalize v % 2 ^ 8 = m at *
        generalize v / 2 ^ 8 = q at *
        subst hdm
        rw [Nat.add_mul, Nat.add_assoc, Nat.add_comm (m * P)]
        congr 2
        rw [Nat.mul_comm P 256, ← Nat.mul_assoc, Nat.mul_comm q]
      · rw [hp]
        generalize 2 ^ (12 + 8 * k) = P at *
        have : (v % 2 ^ 8 + 1) * P ≤ 256 * P := Nat.mul_le_mul_right P (by omega)
        rw [Nat.add_mul] at this
        omega
      · rw [hp]
        generalize 2 ^ (12 + 8 * k) = P at *
        calc v / 2 ^ 8 * (P * 256) = (v / 2 ^ 8 * 256) * P := by
              rw [Nat.mul_comm P, Nat.mul_assoc]
          _ ≤ v * P := Nat.mul_le_mul_right P (by omega)
          _ < 2 ^ 64 := hv
    · rw [if_neg h1]
      by_cases h2 : v > 0
      · rw [if_pos h2]
        have hk6 : k = 6 := by omega
        subst hk6
        have hv16 : v < 16 := by
          have h64 : (2 : Nat) ^ 64 = 16 * 2 ^ (12 + 8 * 6) := by decide
          rw [h64] at hv
          exact Nat.lt_of_mul_lt_mul_right hv
        simp only [readTail, List.append_assoc]
        rw [rdBits_append (by decide)]
        simp only [Option.bind_eq_bind, Option.bind_some]
        rw [if_neg (by omega), if_pos trivial, show (15 : Nat) = 2 ^ 4 - 1 from rfl, and_mask,
          rdBits_append (Nat.mod_lt _ (by decide))]
        simp only [Option.bind_some]
        rw [Nat.mod_eq_of_lt hv16, or_shift hacc (w := 4) hv16 (by omega)]
      · rw [if_neg h2]
        have : v = 0 := by omega
        subst this
        simp only [readTail]
        rw [rdBits_append (by decide)]
        simp

theorem write_read (v : Nat) (hv : v < 2 ^ 64) (rest : List Bool) : read (write v ++ rest) = some (v, rest) := by
  unfold write
  split
  · rename_i h; subst h
    simp only [read]; rw [rdBits_append (by decide)]; rfl
  · split
    · simp only [read, List.append_assoc]; rw [rdBits_append (by decide)]
      simp only [Option.bind_eq_bind, Option.bind_some]
      rw [if_neg (by decide), if_pos trivial, rdBits_append (by omega)]
      simp only [Option.bind_some]
      rw [show 1 + (v - 1) = v by omega]
    · split
      · simp only [read, List.append_assoc]; rw [rdBits_append (by decide)]
        simp only [Option.bind_eq_bind, Option.bind_some]
        rw [if_neg (by decide), if_neg (by decide), if_pos trivial, rdBits_append (by omega)]
        simp only [Option.bind_some]
        rw [show 17 + (v - 17) = v by omega]
      · simp only [read, List.append_assoc]; rw [rdBits_append (by decide)]
        simp only [Option.bind_eq_bind, Option.bind_some]
        rw [if_neg (by decide), if_neg (by decide), if_neg (by decide), show (4095 : Nat) = 2 ^ 12 - 1 from rfl, and_mask,
          rdBits_append (Nat.mod_lt _ (by decide))]
        simp only [Option.bind_some]
        have := tail_round_trip 8 0 (v >>> 12) (v % 2 ^ 12) rfl (by decide) (by decide) (Nat.mod_lt _ (by decide))
          (by rw [Nat.shiftRight_eq_div_pow]; omega) rest
        simp only [Nat.mul_zero, Nat.add_zero] at this
        rw [this, Nat.shiftRight_eq_div_pow]
        congr 2; omega

theorem sizeTail_eq (fuel v shift : Nat) : (writeTail fuel v shift).length = sizeTail fuel v shift := by
  induction fuel generalizing v shift with
  | zero => rfl
  | succ fuel ih =>
    simp only [writeTail, sizeTail]
    split
    · simp [ih]; omega
    · split <;> simp

theorem write_length (v : Nat) : (write v).length = encodedBits v := by
  unfold write encodedBits
  repeat' split
  all_goals simp [sizeTail_eq]
  all_goals omega

theorem sizeTail_le (fuel k v : Nat) (hk : k + fuel = 8) (hk1 : k ≤ 6) : sizeTail fuel v (12 + 8 * k) ≤ 9 * (6 - k) + 5 := by
  induction fuel generalizing v k with
  | zero => omega
  | succ fuel ih =>
    simp only [sizeTail]
    split
    · have := ih (k + 1) (v >>> 8) (by omega) (by omega)
      rw [show 12 + 8 * (k + 1) = 12 + 8 * k + 8 by omega] at this
      omega
    · split <;> omega

theorem encodedBits_le (v : Nat) : encodedBits v ≤ 2 + 12 + 6 * (8 + 1) + (4 + 1) := by
  have := sizeTail_le 8 0 (v >>> 12) rfl (by decide)
  unfold encodedBits
  simp only [Nat.mul_zero, Nat.add_zero] at this
  repeat' split
  all_goals omega

end U64

theorem EnumField.enc_ok (v : Nat) (hv : v < 64) : U32.chooseSelector EnumField.enc v ≠ none := by
  have : ∀ v : Fin 64, U32.chooseSelector EnumField.enc v.val ≠ none := by decide +kernel
  exact this ⟨v, hv⟩

end Jxl
