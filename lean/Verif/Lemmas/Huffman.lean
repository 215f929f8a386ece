import Verif.Model.Huffman
import Verif.Spec.Prefix
/-! # Bit reversal and the arithmetic of canonical codes -/
namespace Jxl.Huffman

/-- Reversal of the `n` low bits. -/
def rev : Nat → Nat → Nat
  | 0, _ => 0
  | n + 1, x => (x % 2) * 2 ^ n + rev n (x / 2)

theorem rev_lt (n x : Nat) : rev n x < 2 ^ n := by
  induction n generalizing x with
  | zero => simp [rev]
  | succ n ih =>
    have := ih (x / 2)
    have h2 : x % 2 < 2 := Nat.mod_lt _ (by omega)
    simp only [rev, Nat.pow_succ]
    rcases Nat.mod_two_eq_zero_or_one x with h | h <;> rw [h] <;> omega

theorem rev_zero_right (n : Nat) : rev n 0 = 0 := by
  induction n with
  | zero => rfl
  | succ n ih => simp [rev, ih]

theorem rev_split (l d x : Nat) : rev (l + d) x = rev l x * 2 ^ d + rev d (x / 2 ^ l) := by
  induction l generalizing x with
  | zero => simp [rev]
  | succ l ih =>
    rw [show l + 1 + d = (l + d) + 1 by omega]
    simp only [rev, ih, Nat.pow_succ, Nat.pow_add, Nat.div_div_eq_div_mul]
    rw [Nat.mul_comm 2 (2 ^ l)]
    grind

theorem rev_one (x : Nat) : rev 1 x = x % 2 := by simp [rev]

theorem rev_mod (n x : Nat) : rev n (x % 2 ^ n) = rev n x := by
  induction n generalizing x with
  | zero => rfl
  | succ n ih =>
    simp only [rev]
    have h1 : x % 2 ^ (n + 1) % 2 = x % 2 := by
      rw [Nat.pow_succ, Nat.mul_comm, Nat.mod_mul_right_mod]
    have h2 : x % 2 ^ (n + 1) / 2 = x / 2 % 2 ^ n := by
      rw [Nat.pow_succ, Nat.mul_comm, Nat.mod_mul]
      omega
    rw [h1, h2, ih]

theorem rev_rev (n x : Nat) : rev n (rev n x) = x % 2 ^ n := by
  induction n generalizing x with
  | zero => simp [rev, Nat.mod_one]
  | succ n ih =>
    have h0 : rev (n + 1) x = (x % 2) * 2 ^ n + rev n (x / 2) := rfl
    have hl := rev_lt n (x / 2)
    rw [show n + 1 = n + 1 from rfl, rev_split n 1 (rev (n + 1) x), rev_one]
    have h1 : rev n (rev (n + 1) x) = (x / 2) % 2 ^ n := by
      rw [← rev_mod, h0, Nat.mul_comm, Nat.mul_add_mod, Nat.mod_eq_of_lt hl, ih]
    have h2 : rev (n + 1) x / 2 ^ n = x % 2 := by
      rw [h0, Nat.mul_comm, Nat.mul_add_div (Nat.two_pow_pos n), Nat.div_eq_of_lt hl]; omega
    rw [h1, h2, Nat.pow_succ 2 n, Nat.mul_comm (2 ^ n) 2, Nat.mod_mul]
    omega

theorem rev_inj {n a b : Nat} (ha : a < 2 ^ n) (hb : b < 2 ^ n) (h : rev n a = rev n b) : a = b := by
  have := congrArg (rev n) h
  rwa [rev_rev, rev_rev, Nat.mod_eq_of_lt ha, Nat.mod_eq_of_lt hb] at this

/-- The low bits of a reversed word are the reversed leading bits. -/
theorem rev_add_mod (l d c : Nat) : rev (l + d) c % 2 ^ l = rev l (c / 2 ^ d) := by
  rw [Nat.add_comm, rev_split, Nat.mul_comm, Nat.mul_add_mod, Nat.mod_eq_of_lt (rev_lt _ _)]

theorem rev_add_div (l d c : Nat) : rev (l + d) c / 2 ^ l = rev d c := by
  rw [Nat.add_comm, rev_split, Nat.mul_comm, Nat.mul_add_div (Nat.two_pow_pos l),
    Nat.div_eq_of_lt (rev_lt _ _)]
  omega

theorem rev_double (n c : Nat) : rev (n + 1) (2 * c) = rev n c := by
  simp [rev]

/-- `GetNextKey` is an increment in reversed bit order. -/
theorem nextKey_rev (n : Nat) (hi c : Nat) (h : c + 1 < 2 ^ n) :
    nextKey (hi * 2 ^ n + rev n c) n = rev n (c + 1) := by
  induction n generalizing hi c with
  | zero => simp at h
  | succ n ih =>
    have hl := rev_lt n (c / 2)
    have hp := Nat.two_pow_pos n
    have hpow : 2 ^ (n + 1) = 2 * 2 ^ n := by rw [Nat.pow_succ, Nat.mul_comm]
    have hk : hi * 2 ^ (n + 1) + rev (n + 1) c = (hi * 2 + c % 2) * 2 ^ n + rev n (c / 2) := by
      rw [show rev (n + 1) c = (c % 2) * 2 ^ n + rev n (c / 2) from rfl, hpow]; grind
    rw [hk]
    have hbit : ((hi * 2 + c % 2) * 2 ^ n + rev n (c / 2)).testBit n = decide (c % 2 = 1) := by
      rw [Nat.testBit_eq_decide_div_mod_eq]
      rw [Nat.mul_comm, Nat.mul_add_div hp, Nat.div_eq_of_lt hl]
      congr 1
      rw [Nat.add_zero, Nat.mul_comm hi 2, Nat.mul_add_mod, Nat.mod_mod]
    unfold nextKey
    rw [hbit]
    rcases Nat.mod_two_eq_zero_or_one c with h0 | h1
    · rw [if_neg (by simp [h0])]
      have hm : ((hi * 2 + c % 2) * 2 ^ n + rev n (c / 2)) % 2 ^ n = rev n (c / 2) := by
        rw [Nat.mul_comm, Nat.mul_add_mod, Nat.mod_eq_of_lt hl]
      rw [hm]
      have e1 : (c + 1) % 2 = 1 := by omega
      have e2 : (c + 1) / 2 = c / 2 := by omega
      show _ = (c + 1) % 2 * 2 ^ n + rev n ((c + 1) / 2)
      rw [e1, e2]; omega
    · rw [if_pos (by simp [h1]), ih _ _ (by omega)]
      have e1 : (c + 1) % 2 = 0 := by omega
      have e2 : (c + 1) / 2 = c / 2 + 1 := by omega
      show _ = (c + 1) % 2 * 2 ^ n + rev n ((c + 1) / 2)
      rw [e1, e2]; omega

/-! ## Positions of canonical words -/

/-- Units taken by the words shorter than `l`. -/
def base (cnt : Nat → Nat) : Nat → Nat
  | 0 => 0
  | l + 1 => base cnt l + if l = 0 then 0 else cnt l * 2 ^ (15 - l)

theorem base_one (cnt : Nat → Nat) : base cnt 1 = 0 := by simp [base]

theorem base_succ (cnt : Nat → Nat) {l : Nat} (h : 1 ≤ l) :
    base cnt (l + 1) = base cnt l + cnt l * 2 ^ (15 - l) := by
  rw [base, if_neg (by omega)]

theorem offsets_succ (cnt : Nat → Nat) {l : Nat} (h : 1 ≤ l) :
    offsets cnt (l + 1) = offsets cnt l + cnt l := by
  rw [offsets, if_neg (by omega)]

theorem base_mono (cnt : Nat → Nat) {a b : Nat} (h : a ≤ b) : base cnt a ≤ base cnt b := by
  induction b with
  | zero => rw [Nat.le_zero.mp h]; exact Nat.le_refl _
  | succ b ih =>
    rcases Nat.lt_or_ge a (b + 1) with h1 | h1
    · exact Nat.le_trans (ih (by omega)) (by rw [base]; omega)
    · rw [show a = b + 1 by omega]; exact Nat.le_refl _

theorem offsets_mono (cnt : Nat → Nat) {a b : Nat} (h : a ≤ b) : offsets cnt a ≤ offsets cnt b := by
  induction b with
  | zero => rw [Nat.le_zero.mp h]; exact Nat.le_refl _
  | succ b ih =>
    rcases Nat.lt_or_ge a (b + 1) with h1 | h1
    · exact Nat.le_trans (ih (by omega)) (by rw [offsets]; omega)
    · rw [show a = b + 1 by omega]; exact Nat.le_refl _

/-- The first word of length `l`. -/
def first (cnt : Nat → Nat) : Nat → Nat
  | 0 => 0
  | l + 1 => (first cnt l + if l = 0 then 0 else cnt l) * 2

theorem pow_15_sub {l : Nat} (h : l < 15) : 2 ^ (15 - l) = 2 * 2 ^ (15 - (l + 1)) := by
  rw [show 15 - l = (15 - (l + 1)) + 1 by omega, Nat.pow_succ, Nat.mul_comm]

theorem base_eq_first (cnt : Nat → Nat) {l : Nat} (h : l ≤ 15) : base cnt l = first cnt l * 2 ^ (15 - l) := by
  induction l with
  | zero => simp [base, first]
  | succ l ih =>
    rw [base, first, ih (by omega), pow_15_sub (by omega)]
    split <;> grind

/-- Word number `m` of length `l`. -/
def code (cnt : Nat → Nat) (l m : Nat) : Nat := first cnt l + m

/-- Its left end. -/
def pos (cnt : Nat → Nat) (l m : Nat) : Nat := base cnt l + m * 2 ^ (15 - l)

theorem pos_eq (cnt : Nat → Nat) {l : Nat} (h : l ≤ 15) (m : Nat) :
    pos cnt l m = code cnt l m * 2 ^ (15 - l) := by
  rw [pos, code, base_eq_first cnt h, Nat.add_mul]

theorem pos_zero (cnt : Nat → Nat) (l : Nat) : pos cnt l 0 = base cnt l := by simp [pos]

theorem pos_cnt (cnt : Nat → Nat) {l : Nat} (h : 1 ≤ l) : pos cnt l (cnt l) = base cnt (l + 1) := by
  rw [pos, base_succ cnt h]

theorem pos_succ (cnt : Nat → Nat) (l m : Nat) : pos cnt l (m + 1) = pos cnt l m + 2 ^ (15 - l) := by
  simp [pos, Nat.add_mul]; omega

theorem pos_mono (cnt : Nat → Nat) (l : Nat) {a b : Nat} (h : a ≤ b) : pos cnt l a ≤ pos cnt l b := by
  unfold pos; exact Nat.add_le_add_left (Nat.mul_le_mul_right _ h) _

theorem code_next (cnt : Nat → Nat) {l : Nat} (h : 1 ≤ l) : code cnt (l + 1) 0 = 2 * code cnt l (cnt l) := by
  rw [code, code, first, if_neg (by omega)]; omega

/-- The word `(l, k)` comes before the word `(len, m)`. -/
def Before (cnt : Nat → Nat) (l k len m : Nat) : Prop := (l < len ∧ k < cnt l) ∨ (l = len ∧ k < m)

theorem before_pos (cnt : Nat → Nat) {l k len m : Nat} (hl : 1 ≤ l) (h : Before cnt l k len m) :
    pos cnt l k + 2 ^ (15 - l) ≤ pos cnt len m := by
  rw [← pos_succ]
  rcases h with ⟨h1, h2⟩ | ⟨h1, h2⟩
  · calc pos cnt l (k + 1) ≤ pos cnt l (cnt l) := pos_mono cnt l h2
      _ = base cnt (l + 1) := pos_cnt cnt hl
      _ ≤ base cnt len := base_mono cnt h1
      _ ≤ pos cnt len m := by rw [pos]; omega
  · subst h1; exact pos_mono cnt l h2

theorem code_lt {cnt : Nat → Nat} (hc : base cnt 16 = 2 ^ 15) {l k : Nat} (h1 : 1 ≤ l) (h2 : l ≤ 15)
    (hk : k < cnt l) : code cnt l k < 2 ^ l := by
  have ha := pos_succ cnt l k
  have hb : pos cnt l (k + 1) ≤ base cnt 16 := by
    calc pos cnt l (k + 1) ≤ pos cnt l (cnt l) := pos_mono cnt l hk
      _ = base cnt (l + 1) := pos_cnt cnt h1
      _ ≤ base cnt 16 := base_mono cnt (by omega)
  rw [hc, pos_eq cnt h2] at hb
  have he : (2:Nat) ^ 15 = 2 ^ l * 2 ^ (15 - l) := by rw [← Nat.pow_add]; congr 1; omega
  rw [he] at hb
  have := Nat.le_of_mul_le_mul_right hb (Nat.two_pow_pos _)
  unfold code at *; omega

/-- Two words on one path coincide with their positions in order: an earlier word is not a prefix. -/
theorem not_both {cnt : Nat → Nat} (hc : base cnt 16 = 2 ^ 15) {l k len m i : Nat} (h1 : 1 ≤ l)
    (h3 : len ≤ 15) (hm : m < cnt len) (h4 : 1 ≤ len) (hb : Before cnt l k len m)
    (ha : i % 2 ^ l = rev l (code cnt l k)) (hd : i % 2 ^ len = rev len (code cnt len m)) : False := by
  have hle : l ≤ len := by rcases hb with h | h <;> omega
  have hk : k < cnt l := by
    rcases hb with h | ⟨h, h'⟩
    · exact h.2
    · subst h; omega
  obtain ⟨d, rfl⟩ : ∃ d, len = l + d := ⟨len - l, by omega⟩
  have hp := before_pos cnt h1 hb
  rw [← pos_succ, pos_eq cnt (by omega), pos_eq cnt h3] at hp
  have e : i % 2 ^ l = rev l (code cnt (l + d) m / 2 ^ d) := by
    rw [← rev_add_mod, ← hd, Nat.pow_add, Nat.mod_mul_right_mod]
  rw [ha] at e
  have hlt := code_lt hc h1 (by omega) hk
  have hlt2 := code_lt hc h4 h3 hm
  have hq : code cnt (l + d) m / 2 ^ d < 2 ^ l := by
    apply Nat.div_lt_of_lt_mul
    rwa [Nat.mul_comm, ← Nat.pow_add]
  have := rev_inj hlt hq e
  have hpow : (2:Nat) ^ (15 - l) = 2 ^ d * 2 ^ (15 - (l + d)) := by
    rw [← Nat.pow_add]; congr 1; omega
  rw [hpow, ← Nat.mul_assoc] at hp
  have hp2 := Nat.le_of_mul_le_mul_right hp (Nat.two_pow_pos _)
  have hp3 : code cnt l (k + 1) ≤ code cnt (l + d) m / 2 ^ d :=
    (Nat.le_div_iff_mul_le (Nat.two_pow_pos d)).mpr hp2
  rw [← this] at hp3
  unfold code at hp3; omega

theorem before_total (cnt : Nat → Nat) {l k l' k' : Nat} (hk : k < cnt l) (hk' : k' < cnt l') :
    Before cnt l k l' k' ∨ Before cnt l' k' l k ∨ (l = l' ∧ k = k') := by
  unfold Before
  rcases Nat.lt_trichotomy l l' with h | h | h
  · exact Or.inl (Or.inl ⟨h, hk⟩)
  · rcases Nat.lt_trichotomy k k' with g | g | g
    · exact Or.inl (Or.inr ⟨h, g⟩)
    · exact Or.inr (Or.inr ⟨h, g⟩)
    · exact Or.inr (Or.inl (Or.inr ⟨h.symm, g⟩))
  · exact Or.inr (Or.inl (Or.inl ⟨h, hk'⟩))

/-- No word is a prefix of another. -/
theorem code_unique {cnt : Nat → Nat} (hc : base cnt 16 = 2 ^ 15) {l k l' k' i : Nat} (h1 : 1 ≤ l) (h2 : l ≤ 15)
    (hk : k < cnt l) (h1' : 1 ≤ l') (h2' : l' ≤ 15) (hk' : k' < cnt l')
    (ha : i % 2 ^ l = rev l (code cnt l k)) (hd : i % 2 ^ l' = rev l' (code cnt l' k')) : l = l' ∧ k = k' := by
  rcases before_total cnt hk hk' with h | h | h
  · exact (not_both hc h1 h2' hk' h1' h ha hd).elim
  · exact (not_both hc h1' h2 hk h1 h hd ha).elim
  · exact h

theorem cover_pos (cnt : Nat → Nat) (L v : Nat) (h : v < base cnt L) :
    ∃ l k, 1 ≤ l ∧ l < L ∧ k < cnt l ∧ pos cnt l k ≤ v ∧ v < pos cnt l (k + 1) := by
  induction L with
  | zero => simp [base] at h
  | succ L ih =>
    rcases Nat.lt_or_ge v (base cnt L) with h1 | h1
    · obtain ⟨l, k, a, b, c⟩ := ih h1
      exact ⟨l, k, a, by omega, c⟩
    · have hL : 1 ≤ L := by
        rcases Nat.eq_zero_or_pos L with h0 | h0
        · subst h0; simp [base] at h
        · exact h0
      rw [base_succ cnt hL] at h
      have hp := Nat.two_pow_pos (15 - L)
      refine ⟨L, (v - base cnt L) / 2 ^ (15 - L), hL, by omega, ?_, ?_, ?_⟩
      · apply Nat.div_lt_of_lt_mul; rw [Nat.mul_comm]; omega
      · have := Nat.div_mul_le_self (v - base cnt L) (2 ^ (15 - L)); unfold pos; omega
      · have := Nat.lt_div_mul_add (a := v - base cnt L) hp
        rw [pos_succ, pos]; omega

/-- Every bit string runs into a word. -/
theorem cover {cnt : Nat → Nat} (hc : base cnt 16 = 2 ^ 15) (x : Nat) :
    ∃ l k, 1 ≤ l ∧ l ≤ 15 ∧ k < cnt l ∧ x % 2 ^ l = rev l (code cnt l k) := by
  have hv : rev 15 x < base cnt 16 := by rw [hc]; exact rev_lt _ _
  obtain ⟨l, k, h1, h2, hk, ha, hb⟩ := cover_pos cnt 16 _ hv
  refine ⟨l, k, h1, by omega, hk, ?_⟩
  rw [pos_eq cnt (by omega)] at ha hb
  have he : rev 15 x = rev l x * 2 ^ (15 - l) + rev (15 - l) (x / 2 ^ l) := by
    rw [← rev_split]; congr 1; omega
  have hr := rev_lt (15 - l) (x / 2 ^ l)
  have hp := Nat.two_pow_pos (15 - l)
  have e1 : rev l x = code cnt l k := by
    have : rev 15 x / 2 ^ (15 - l) = rev l x := by
      rw [he, Nat.mul_comm, Nat.mul_add_div hp, Nat.div_eq_of_lt hr]; omega
    rw [← this]
    have h3 : code cnt l (k + 1) = code cnt l k + 1 := rfl
    rw [h3] at hb
    exact Nat.div_eq_of_lt_le ha hb
  rw [← e1, rev_rev]

end Jxl.Huffman
