import Verif.Model.VarInt
import Verif.Spec.VarInt
import Verif.Lemmas.PaddedBytes
namespace Jxl.VarInt
open Spec PaddedBytes

theorem byte_cont (v : Nat) : (v &&& 127) ||| 128 = v % 128 + 128 := by
  have h1 : v &&& 127 = v % 128 := Nat.and_two_pow_sub_one_eq_mod v 7
  have := Nat.two_pow_add_eq_or_of_lt (i := 7) (b := v % 128) (by omega) 1
  rw [h1, Nat.or_comm]
  simp only [Nat.mul_one] at this
  rw [show (128 : Nat) = 2 ^ 7 from rfl, ← this]; omega

theorem byte_last (v : Nat) (h : v ≤ 127) : v &&& 127 = v := by
  have h1 : v &&& 127 = v % 128 := Nat.and_two_pow_sub_one_eq_mod v 7
  omega

theorem varint_big {v : Nat} (h : v > 127) : varint v = UInt8.ofNat (v % 128 + 128) :: varint (v / 128) := by
  rw [varint, dif_pos h]

theorem varint_small {v : Nat} (h : ¬ v > 127) : varint v = [UInt8.ofNat v] := by
  rw [varint, dif_neg h]

theorem varint_length_pos (v : Nat) : 0 < (varint v).length := by
  by_cases h : v > 127
  · rw [varint_big h]; simp
  · rw [varint_small h]; simp

theorem varint_length_le (k v : Nat) (h : v < 128 ^ (k + 1)) : (varint v).length ≤ k + 1 := by
  induction k generalizing v with
  | zero => rw [varint_small (by omega)]; simp
  | succ k ih =>
    by_cases hv : v > 127
    · rw [varint_big hv]
      have := ih (v / 128) (by rw [Nat.div_lt_iff_lt_mul (by omega)]; rw [Nat.pow_succ] at h; omega)
      simp; omega
    · rw [varint_small hv]; simp

theorem blit_set (mem : List UInt8) (pos : Nat) (x : UInt8) (r : List UInt8) (h : pos < mem.length) :
    blit (mem.set pos x) (pos + 1) r = blit mem pos (x :: r) := by
  unfold blit
  rw [List.drop_set_of_lt (by omega), List.take_set, List.set_eq_take_append_cons_drop]
  simp only [List.length_take, List.length_cons, if_pos (show pos < min (pos + 1) mem.length by omega), List.take_take]
  rw [Nat.min_eq_left (by omega), List.drop_eq_nil_of_le (by simp; omega)]
  simp [Nat.add_comm, Nat.add_left_comm]

theorem blit_one (mem : List UInt8) (pos : Nat) (x : UInt8) (h : pos < mem.length) : mem.set pos x = blit mem pos [x] := by
  unfold blit
  rw [List.set_eq_take_append_cons_drop, if_pos h]
  simp

theorem encLoop_spec (outSize : Nat) (v pos : Nat) (mem : List UInt8) (h1 : pos + (varint v).length ≤ outSize + 1)
    (h2 : pos + (varint v).length ≤ mem.length) :
    encLoop outSize mem pos v = some (true, blit mem pos (varint v), pos + (varint v).length) := by
  induction v using Nat.strongRecOn generalizing pos mem with
  | _ v ih =>
    rw [encLoop]
    by_cases hv : v > 127
    · rw [dif_pos hv]
      rw [varint_big hv] at h1 h2 ⊢
      simp only [List.length_cons] at h1 h2 ⊢
      rw [if_neg (by omega), if_neg (by omega), byte_cont, Nat.shiftRight_eq_div_pow,
        ih (v / 2 ^ 7) (by omega) _ _ (by simp only [show 2 ^ 7 = 128 from rfl]; omega)
          (by simp only [show 2 ^ 7 = 128 from rfl, List.length_set]; omega)]
      simp only [show 2 ^ 7 = 128 from rfl]
      rw [blit_set _ _ _ _ (by omega)]
      simp only [Option.some.injEq, Prod.mk.injEq, true_and]
      omega
    · rw [dif_neg hv]
      rw [varint_small hv] at h1 h2 ⊢
      simp only [List.length_cons, List.length_nil] at h1 h2 ⊢
      rw [if_neg (by omega), if_neg (by omega), byte_last v (by omega), blit_one _ _ _ (by omega)]

/-! ## Decoder -/

theorem toNat_cont (v : Nat) : (UInt8.ofNat (v % 128 + 128)).toNat = v % 128 + 128 := by
  rw [UInt8.toNat_ofNat']; omega

theorem and7f (n : Nat) : n &&& 0x7f = n % 128 := Nat.and_two_pow_sub_one_eq_mod n 7

theorem and80 (n : Nat) (h : n < 256) : n &&& 0x80 = if n < 128 then 0 else 128 := by
  have : ∀ n < 256, n &&& 0x80 = if n < 128 then 0 else 128 := by decide +kernel
  exact this n h

theorem and7e (n : Nat) (h : n < 2) : n &&& 0x7e = 0 := by
  have : ∀ n < 2, n &&& 0x7e = 0 := by decide
  exact this n h

theorem and1 (n : Nat) : n &&& 1 = n % 2 := Nat.and_two_pow_sub_one_eq_mod n 1

theorem or_shift (ret x s : Nat) (h : ret < 2 ^ s) : ret ||| (x <<< s) = ret + x * 2 ^ s := by
  have := Nat.two_pow_add_eq_or_of_lt h x
  rw [Nat.or_comm, Nat.shiftLeft_eq, Nat.mul_comm x, ← this]; omega

theorem decLoop_spec (inp : List UInt8) (k pos ret v : Nat) (hk : k ≤ 9) (hret : ret < 2 ^ (7 * (9 - k))) (rest : List UInt8)
    (hi : inp.drop pos = varint v ++ rest) (hv : v < 2 ^ (64 - 7 * (9 - k))) :
    decLoop inp k pos ret = some (ret + v * 2 ^ (7 * (9 - k)), pos + (varint v).length) := by
  induction k generalizing pos ret v with
  | zero =>
    have hv' : v < 2 := by simpa using hv
    rw [varint_small (by omega)] at hi ⊢
    have hg : inp[pos]? = some (UInt8.ofNat v) := by
      have := congrArg List.head? hi
      simpa [List.head?_drop] using this
    have ht : (UInt8.ofNat v).toNat = v := by rw [UInt8.toNat_ofNat']; omega
    simp only [decLoop, hg, ht]
    rw [and80 v (by omega), and7e v hv', and1, if_pos (show v < 128 by omega)]
    rw [or_shift _ _ _ (by simpa using hret)]
    simp [Nat.mod_eq_of_lt hv']
  | succ k ih =>
    have e : 8 - k = 9 - (k + 1) := by omega
    by_cases hv2 : v > 127
    · rw [varint_big hv2] at hi ⊢
      have hg : inp[pos]? = some (UInt8.ofNat (v % 128 + 128)) := by
        have := congrArg List.head? hi
        simpa [List.head?_drop] using this
      have hd : inp.drop (pos + 1) = varint (v / 128) ++ rest := by
        have := congrArg List.tail hi
        simpa [List.tail_drop] using this
      simp only [decLoop, hg, toNat_cont]
      rw [and80 _ (by omega), if_neg (show ¬ (v % 128 + 128 < 128) by omega), if_neg (by omega), and7f,
        show (v % 128 + 128) % 128 = v % 128 by omega, e, or_shift _ _ _ hret]
      have e2 : 7 * (9 - k) = 7 * (9 - (k + 1)) + 7 := by omega
      rw [ih _ _ (v / 128) (by omega) _ hd]
      · rw [e2, Nat.pow_add]
        generalize 2 ^ (7 * (9 - (k + 1))) = P
        have : v = v % 128 + 128 * (v / 128) := by omega
        simp only [show 2 ^ 7 = 128 from rfl, List.length_cons]
        congr 1
        congr 1
        · conv => rhs; rw [this]
          grind
        · omega
      · rw [Nat.div_lt_iff_lt_mul (by omega)]
        refine Nat.lt_of_lt_of_le hv ?_
        rw [show (128 : Nat) = 2 ^ 7 from rfl, ← Nat.pow_add]
        exact Nat.pow_le_pow_right (by omega) (by omega)
      · rw [e2, Nat.pow_add]
        have : v % 128 < 128 := Nat.mod_lt _ (by omega)
        generalize 2 ^ (7 * (9 - (k + 1))) = P at hret
        have h3 : v % 128 * P ≤ 127 * P := Nat.mul_le_mul_right _ (by omega)
        simp only [show 2 ^ 7 = 128 from rfl]
        omega
    · rw [varint_small hv2] at hi ⊢
      have hg : inp[pos]? = some (UInt8.ofNat v) := by
        have := congrArg List.head? hi
        simpa [List.head?_drop] using this
      have ht : (UInt8.ofNat v).toNat = v := by rw [UInt8.toNat_ofNat']; omega
      simp only [decLoop, hg, ht]
      rw [and80 v (by omega), if_pos (show v < 128 by omega), if_pos rfl, and7f, e, or_shift _ _ _ hret,
        Nat.mod_eq_of_lt (by omega)]
      rfl

theorem decLoop_bounds (inp : List UInt8) (k pos ret : Nat) (hk : k ≤ 9) (hret : ret < 2 ^ (7 * (9 - k))) (v pos' : Nat)
    (h : decLoop inp k pos ret = some (v, pos')) : pos < pos' ∧ pos' ≤ pos + k + 1 ∧ pos' ≤ inp.length ∧ v < 2 ^ 64 := by
  induction k generalizing pos ret with
  | zero =>
    simp only [decLoop] at h
    split at h
    · cases h
    · rename_i b hb
      have hl := (List.getElem?_eq_some_iff.mp hb).1
      split at h
      · cases h
      · split at h
        · cases h
        · simp only [Option.some.injEq, Prod.mk.injEq] at h
          rw [or_shift _ _ _ (by simpa using hret), and1] at h
          have hret' : ret < 2 ^ 63 := by simpa using hret
          omega
  | succ k ih =>
    simp only [decLoop] at h
    split at h
    · cases h
    · rename_i b hb
      have hl := (List.getElem?_eq_some_iff.mp hb).1
      have e : 8 - k = 9 - (k + 1) := by omega
      have e2 : 7 * (9 - k) = 7 * (9 - (k + 1)) + 7 := by omega
      have hlt : ret ||| ((b.toNat &&& 0x7f) <<< (7 * (8 - k))) < 2 ^ (7 * (9 - k)) := by
        rw [e, or_shift _ _ _ hret, and7f, e2, Nat.pow_add]
        have : b.toNat % 128 < 128 := Nat.mod_lt _ (by omega)
        generalize 2 ^ (7 * (9 - (k + 1))) = P at hret
        have h3 : b.toNat % 128 * P ≤ 127 * P := Nat.mul_le_mul_right _ (by omega)
        simp only [show 2 ^ 7 = 128 from rfl]
        omega
      split at h
      · simp only [Option.some.injEq, Prod.mk.injEq] at h
        have : (2 : Nat) ^ (7 * (9 - k)) ≤ 2 ^ 64 := Nat.pow_le_pow_right (by omega) (by omega)
        omega
      · have := ih (pos + 1) _ (by omega) hlt h
        omega

theorem decLoop_trunc (inp : List UInt8) (k pos ret v : Nat) (rest : List UInt8)
    (hi : inp.drop pos ++ rest = varint v) (hr : rest ≠ []) : decLoop inp k pos ret = none := by
  induction k generalizing pos ret v with
  | zero =>
    simp only [decLoop]
    by_cases hn : inp.drop pos = []
    · rw [List.getElem?_eq_none (by simpa using hn)]
    · by_cases hv : v > 127
      · rw [varint_big hv] at hi
        have hg : inp[pos]? = some (UInt8.ofNat (v % 128 + 128)) := by
          obtain ⟨x, xs, hx⟩ := List.exists_cons_of_ne_nil hn
          rw [hx] at hi
          have := congrArg List.head? hx
          simp only [List.head?_drop, List.head?_cons, List.cons_append, List.cons.injEq] at this hi
          rw [this, hi.1]
        simp only [hg, toNat_cont]
        rw [and80 _ (by omega), if_neg (show ¬ (v % 128 + 128 < 128) by omega), if_pos (by omega)]
      · rw [varint_small hv] at hi
        have := congrArg List.length hi
        have h1 := List.length_pos_iff.mpr hn
        have h2 := List.length_pos_iff.mpr hr
        simp only [List.length_append, List.length_cons, List.length_nil] at this
        omega
  | succ k ih =>
    simp only [decLoop]
    by_cases hn : inp.drop pos = []
    · rw [List.getElem?_eq_none (by simpa using hn)]
    · by_cases hv : v > 127
      · rw [varint_big hv] at hi
        have hg : inp[pos]? = some (UInt8.ofNat (v % 128 + 128)) := by
          obtain ⟨x, xs, hx⟩ := List.exists_cons_of_ne_nil hn
          rw [hx] at hi
          have := congrArg List.head? hx
          simp only [List.head?_drop, List.head?_cons, List.cons_append, List.cons.injEq] at this hi
          rw [this, hi.1]
        simp only [hg, toNat_cont]
        rw [and80 _ (by omega), if_neg (show ¬ (v % 128 + 128 < 128) by omega), if_neg (by omega)]
        apply ih _ _ (v / 128)
        have := congrArg List.tail hi
        rw [List.tail_append_of_ne_nil hn, List.tail_drop] at this
        simpa using this
      · rw [varint_small hv] at hi
        have := congrArg List.length hi
        have h1 := List.length_pos_iff.mpr hn
        have h2 := List.length_pos_iff.mpr hr
        simp only [List.length_append, List.length_cons, List.length_nil] at this
        omega

end Jxl.VarInt
