/-!
# Bit strings (specification vocabulary)

A bit stream is a `List Bool`, first bit first.  JPEG XL packs integers least significant bit first, so
`bitsOf n v` is the `n`-bit string of `v` and `ofBits` its inverse.
-/
namespace Jxl

/-- The `n` low bits of `v`, least significant first. -/
def bitsOf : Nat → Nat → List Bool
  | 0, _ => []
  | n + 1, v => (v % 2 == 1) :: bitsOf n (v / 2)

/-- The number whose binary digits, least significant first, are the given bits. -/
def ofBits : List Bool → Nat
  | [] => 0
  | b :: bs => b.toNat + 2 * ofBits bs

/-- The bits of a byte string, in stream order. -/
def bitsOfBytes (bytes : List UInt8) : List Bool :=
  bytes.flatMap fun b => bitsOf 8 b.toNat

/-- Bits `[pos, pos + n)` of a stream, where everything past the end counts as zero. -/
def readAt (s : List Bool) (pos n : Nat) : Nat := ofBits ((s.drop pos).take n)

@[simp] theorem bitsOf_length (n v : Nat) : (bitsOf n v).length = n := by
  induction n generalizing v with
  | zero => rfl
  | succ n ih => simp [bitsOf, ih]

@[simp] theorem bitsOf_zero (v : Nat) : bitsOf 0 v = [] := rfl
@[simp] theorem ofBits_nil : ofBits [] = 0 := rfl

theorem ofBits_lt (l : List Bool) : ofBits l < 2 ^ l.length := by
  induction l with
  | nil => simp [ofBits]
  | cons b l ih =>
    have : b.toNat ≤ 1 := Bool.toNat_le b
    simp only [ofBits, List.length_cons, Nat.pow_succ]; omega

theorem ofBits_bitsOf (n v : Nat) : ofBits (bitsOf n v) = v % 2 ^ n := by
  induction n generalizing v with
  | zero => simp [bitsOf, Nat.mod_one]
  | succ n ih =>
    simp only [bitsOf, ofBits, ih]
    have h1 : (v % 2 == 1).toNat = v % 2 := by
      rcases Nat.mod_two_eq_zero_or_one v with h | h <;> simp [h]
    rw [h1, Nat.pow_succ, Nat.mul_comm (2 ^ n) 2, Nat.mod_mul]

theorem ofBits_bitsOf_lt {n v : Nat} (h : v < 2 ^ n) : ofBits (bitsOf n v) = v := by
  rw [ofBits_bitsOf, Nat.mod_eq_of_lt h]

theorem bitsOf_ofBits (l : List Bool) : bitsOf l.length (ofBits l) = l := by
  induction l with
  | nil => rfl
  | cons b l ih =>
    simp only [List.length_cons, bitsOf, ofBits]
    have h2 : (b.toNat + 2 * ofBits l) / 2 = ofBits l := by
      have : b.toNat ≤ 1 := Bool.toNat_le b
      omega
    have h1 : ((b.toNat + 2 * ofBits l) % 2 == 1) = b := by
      cases b <;> simp [Nat.add_mod]
    rw [h1, h2, ih]

theorem ofBits_append (a b : List Bool) : ofBits (a ++ b) = ofBits a + 2 ^ a.length * ofBits b := by
  induction a with
  | nil => simp
  | cons x a ih =>
    simp only [List.cons_append, ofBits, ih, List.length_cons, Nat.pow_succ, Nat.mul_add]
    rw [Nat.mul_comm (2 ^ a.length) 2, Nat.mul_assoc]; omega

theorem bitsOf_add (a b v : Nat) : bitsOf (a + b) v = bitsOf a v ++ bitsOf b (v / 2 ^ a) := by
  induction a generalizing v with
  | zero => simp
  | succ a ih =>
    rw [Nat.succ_add, bitsOf, bitsOf, ih, List.cons_append, Nat.div_div_eq_div_mul, Nat.pow_succ,
      Nat.mul_comm 2]

theorem bitsOf_mod (n v : Nat) : bitsOf n (v % 2 ^ n) = bitsOf n v := by
  have := bitsOf_ofBits (bitsOf n v)
  rwa [bitsOf_length, ofBits_bitsOf] at this

theorem bitsOf_inj {n a b : Nat} (ha : a < 2 ^ n) (hb : b < 2 ^ n) (h : bitsOf n a = bitsOf n b) : a = b := by
  have := congrArg ofBits h
  rwa [ofBits_bitsOf_lt ha, ofBits_bitsOf_lt hb] at this

@[simp] theorem bitsOfBytes_nil : bitsOfBytes [] = [] := rfl

@[simp] theorem bitsOfBytes_cons (b : UInt8) (bs : List UInt8) :
    bitsOfBytes (b :: bs) = bitsOf 8 b.toNat ++ bitsOfBytes bs := rfl

@[simp] theorem bitsOfBytes_append (a b : List UInt8) :
    bitsOfBytes (a ++ b) = bitsOfBytes a ++ bitsOfBytes b := by
  simp [bitsOfBytes]

@[simp] theorem bitsOfBytes_length (bs : List UInt8) : (bitsOfBytes bs).length = 8 * bs.length := by
  induction bs with
  | nil => rfl
  | cons b bs ih => simp [ih]; omega

/-- Dropping/taking whole bytes. -/
theorem bitsOfBytes_drop (bs : List UInt8) (k : Nat) :
    (bitsOfBytes bs).drop (8 * k) = bitsOfBytes (bs.drop k) := by
  induction k generalizing bs with
  | zero => simp
  | succ k ih =>
    cases bs with
    | nil => simp
    | cons b bs =>
      rw [bitsOfBytes_cons, List.drop_succ_cons, ← ih, Nat.mul_succ,
        show 8 * k + 8 = (bitsOf 8 b.toNat).length + 8 * k by simp; omega, List.drop_append]
      simp

theorem bitsOfBytes_take (bs : List UInt8) (k : Nat) :
    (bitsOfBytes bs).take (8 * k) = bitsOfBytes (bs.take k) := by
  induction k generalizing bs with
  | zero => simp
  | succ k ih =>
    cases bs with
    | nil => simp
    | cons b bs =>
      rw [bitsOfBytes_cons, List.take_succ_cons, bitsOfBytes_cons, ← ih, Nat.mul_succ, List.take_append]
      simp only [bitsOf_length]
      rw [List.take_of_length_le (by simp), show 8 * k + 8 - 8 = 8 * k by omega]

theorem ofBits_replicate_false (n : Nat) : ofBits (List.replicate n false) = 0 := by
  induction n with
  | zero => rfl
  | succ n ih => simp [List.replicate_succ, ofBits, ih]

theorem ofBits_drop (l : List Bool) (k : Nat) : ofBits (l.drop k) = ofBits l / 2 ^ k := by
  induction k generalizing l with
  | zero => simp
  | succ k ih =>
    cases l with
    | nil => simp
    | cons b l =>
      rw [List.drop_succ_cons, ih, ofBits, Nat.pow_succ, Nat.mul_comm (2 ^ k), ← Nat.div_div_eq_div_mul]
      congr 1
      have : b.toNat ≤ 1 := Bool.toNat_le b
      omega

theorem ofBits_take (l : List Bool) (k : Nat) : ofBits (l.take k) = ofBits l % 2 ^ k := by
  induction k generalizing l with
  | zero => simp [Nat.mod_one]
  | succ k ih =>
    cases l with
    | nil => simp
    | cons b l =>
      rw [List.take_succ_cons, ofBits, ofBits, ih, Nat.pow_succ, Nat.mul_comm (2 ^ k), Nat.mod_mul]
      have : b.toNat ≤ 1 := Bool.toNat_le b
      have h1 : (b.toNat + 2 * ofBits l) % 2 = b.toNat := by omega
      have h2 : (b.toNat + 2 * ofBits l) / 2 = ofBits l := by omega
      rw [h1, h2]

theorem readAt_eq (s : List Bool) (pos n : Nat) : readAt s pos n = ofBits s / 2 ^ pos % 2 ^ n := by
  rw [readAt, ofBits_take, ofBits_drop]

end Jxl
