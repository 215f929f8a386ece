import Verif.Spec.Rect
/-! Segments, one axis at a time. -/
namespace Jxl.Rects
open Stream (Out)

theorem conv_id {k : Kind} {v : Int} (h : k = .unsigned → 0 ≤ v) (h1 : -2 ^ 62 ≤ v) (h2 : v ≤ 2 ^ 62) : k.conv v = v := by
  cases k with
  | unsigned => have := h rfl; show v % 2 ^ 64 = v; omega
  | signed => show (v + 2 ^ 63) % 2 ^ 64 - 2 ^ 63 = v; omega

theorem arith_id {k : Kind} {v : Int} (h : k = .unsigned → 0 ≤ v) (h1 : -2 ^ 62 ≤ v) (h2 : v ≤ 2 ^ 62) : k.arith v = .ok v := by
  cases k with
  | unsigned => have := h rfl; show Out.ok (v % 2 ^ 64) = _; rw [Int.emod_eq_of_lt this (by omega)]
  | signed => show (if _ then Out.ok v else _) = _; rw [if_pos (by omega)]

theorem size_id {v : Int} (h : 0 ≤ v) (h2 : v ≤ 2 ^ 62) : size v = v.toNat := by
  unfold size
  rw [Int.emod_eq_of_lt h (by omega)]

theorem x1_id {k : Kind} {s : Seg} (h : s.Ok k) : s.x1 k = s.x0 + s.len := by
  obtain ⟨a, b, c, d⟩ := h
  exact conv_id (fun e => by have := a e; omega) (by omega) (by omega)

theorem inter_seg {k : Kind} {a b : Seg} (ha : a.Ok k) (hb : b.Ok k) : ∃ s, a.inter k b = .ok s ∧ s.Ok k ∧ s.x0 = max a.x0 b.x0 ∧ ∀ p, s.Has p ↔ a.Has p ∧ b.Has p := by
  have e1 := x1_id ha
  have e2 := x1_id hb
  obtain ⟨a1, a2, a3, a4⟩ := ha
  obtain ⟨b1, b2, b3, b4⟩ := hb
  unfold Seg.inter clampedSize
  rw [e1, e2]
  have hm : k = .unsigned → 0 ≤ max a.x0 b.x0 := fun e => by have := a1 e; omega
  rw [conv_id (fun e => by have := hm e; omega) (by omega) (by omega)]
  have fin : ∀ n : Nat, n ≤ 2 ^ 60 → (∀ p, (max a.x0 b.x0 ≤ p ∧ p < max a.x0 b.x0 + n) ↔ (a.x0 ≤ p ∧ p < a.x0 + a.len) ∧ b.x0 ≤ p ∧ p < b.x0 + b.len) →
      ∃ s, (Out.ok n).bind (fun n => Out.ok (Seg.mk (max a.x0 b.x0) n)) = .ok s ∧ s.Ok k ∧ s.x0 = max a.x0 b.x0 ∧ ∀ p, s.Has p ↔ a.Has p ∧ b.Has p :=
    fun n hn h => ⟨⟨max a.x0 b.x0, n⟩, rfl, ⟨hm, by dsimp only; omega, by dsimp only; omega, hn⟩, rfl, h⟩
  by_cases c1 : max a.x0 b.x0 + (a.len : Int) ≤ min (a.x0 + a.len) (b.x0 + b.len)
  · rw [if_pos c1]
    exact fin _ a4 fun p => by omega
  · rw [if_neg c1]
    by_cases c2 : min (a.x0 + (a.len : Int)) (b.x0 + b.len) > max a.x0 b.x0
    · rw [if_pos c2, arith_id (fun _ => by omega) (by omega) (by omega)]
      show ∃ s, (Out.ok (size _)).bind _ = _ ∧ _
      rw [size_id (by omega) (by omega)]
      exact fin _ (by omega) fun p => by omega
    · rw [if_neg c2]
      exact fin 0 (by decide) fun p => by omega

theorem inside_seg {k : Kind} {a b : Seg} (ha : a.Ok k) (hb : b.Ok k) : a.isInside k b = true ↔ b.x0 ≤ a.x0 ∧ a.x0 + a.len ≤ b.x0 + b.len := by
  unfold Seg.isInside
  rw [x1_id ha, x1_id hb]
  simp

theorem inside_has {a b : Seg} (h0 : 0 < a.len) : (b.x0 ≤ a.x0 ∧ a.x0 + a.len ≤ b.x0 + b.len) ↔ ∀ p, a.Has p → b.Has p := by
  constructor
  · rintro ⟨h1, h2⟩ p ⟨h3, h4⟩
    exact ⟨by omega, by omega⟩
  · intro h
    have h1 := h a.x0 ⟨by omega, by omega⟩
    have h2 := h (a.x0 + a.len - 1) ⟨by omega, by omega⟩
    unfold Seg.Has at h1 h2
    omega

theorem translate_seg {k : Kind} {a : Seg} (ha : a.Ok k) {d : Int} (h1 : -2 ^ 60 ≤ d ∧ d ≤ 2 ^ 60) (h2 : k = .unsigned → 0 ≤ a.x0 + d) :
    ∃ s, a.translate k d = .ok s ∧ s.len = a.len ∧ ∀ p, s.Has (p + d) ↔ a.Has p := by
  obtain ⟨a1, a2, a3, a4⟩ := ha
  unfold Seg.translate
  rw [arith_id h2 (by omega) (by omega)]
  exact ⟨⟨a.x0 + d, a.len⟩, rfl, rfl, fun p => by unfold Seg.Has; dsimp only; omega⟩

theorem extend_seg {k : Kind} {a b : Seg} (ha : a.Ok k) (hb : b.Ok k) (hi : b.x0 ≤ a.x0 ∧ a.x0 + a.len ≤ b.x0 + b.len) {r : Int} (hr : 0 ≤ r ∧ r ≤ 2 ^ 60) :
    ∃ s, a.extend k r b = .ok s ∧ ∀ p, s.Has p ↔ b.Has p ∧ a.x0 - r ≤ p ∧ p < a.x0 + a.len + r := by
  have e1 := x1_id ha
  have e2 := x1_id hb
  obtain ⟨a1, a2, a3, a4⟩ := ha
  obtain ⟨b1, b2, b3, b4⟩ := hb
  unfold Seg.extend
  rw [e1, e2, arith_id (fun e => by have := b1 e; omega) (by omega) (by omega)]
  show ∃ s, Out.bind (if a.x0 > b.x0 + r then k.arith (a.x0 - r) else Out.ok b.x0) _ = _ ∧ _
  have h0 : (if a.x0 > b.x0 + r then k.arith (a.x0 - r) else Out.ok b.x0) = Out.ok (max (a.x0 - r) b.x0) := by
    by_cases c : a.x0 > b.x0 + r
    · rw [if_pos c, arith_id (fun e => by have := b1 e; omega) (by omega) (by omega)]
      congr 1
      omega
    · rw [if_neg c]
      congr 1
      omega
  rw [h0]
  show ∃ s, Out.bind (k.arith (a.x0 + a.len + r)) _ = _ ∧ _
  rw [arith_id (fun e => by have := a1 e; omega) (by omega) (by omega)]
  show ∃ s, Out.bind (k.arith ((if a.x0 + a.len + r > b.x0 + b.len then b.x0 + b.len else a.x0 + a.len + r) - max (a.x0 - r) b.x0)) _ = _ ∧ _
  have h1 : (if a.x0 + a.len + r > b.x0 + b.len then b.x0 + b.len else a.x0 + a.len + r) = min (a.x0 + a.len + r) (b.x0 + b.len) := by
    split <;> omega
  rw [h1, arith_id (fun e => by omega) (by omega) (by omega)]
  refine ⟨⟨max (a.x0 - r) b.x0, size (min (a.x0 + a.len + r) (b.x0 + b.len) - max (a.x0 - r) b.x0)⟩, rfl, fun p => ?_⟩
  rw [size_id (by omega) (by omega)]
  unfold Seg.Has
  dsimp only
  omega

theorem shift_seg {k : Kind} {a : Seg} {n : Nat} (hn : n < 31) (ha : (k = .unsigned → 0 ≤ a.x0) ∧ -2 ^ 30 ≤ a.x0 ∧ a.x0 ≤ 2 ^ 30 ∧ a.len ≤ 2 ^ 30) :
    ∃ s, a.shiftLeft k n = .ok s ∧ s.ceilShiftRight n = .ok a ∧ ∀ p, s.Has p ↔ a.Has (p / 2 ^ n) := by
  obtain ⟨a1, a2, a3, a4⟩ := ha
  have hp : (0 : Int) < 2 ^ n := Int.pow_pos (by decide)
  have hle : 2 ^ n ≤ 2 ^ 30 := Nat.pow_le_pow_right (by decide) (by omega)
  have hc : ((2 ^ n : Nat) : Int) = 2 ^ n := by push_cast; rfl
  have hleI : (2 : Int) ^ n ≤ 2 ^ 30 := by rw [← hc]; exact_mod_cast hle
  have u1 : a.x0 * 2 ^ n ≤ 2 ^ 30 * 2 ^ 30 := Int.le_trans (Int.mul_le_mul_of_nonneg_right a3 (Int.le_of_lt hp)) (Int.mul_le_mul_of_nonneg_left hleI (by decide))
  have u2 : -(2 ^ 30 * 2 ^ 30) ≤ a.x0 * 2 ^ n := by
    have : -2 ^ 30 * 2 ^ n ≤ a.x0 * 2 ^ n := Int.mul_le_mul_of_nonneg_right a2 (Int.le_of_lt hp)
    have h3 : (2 : Int) ^ 30 * 2 ^ n ≤ 2 ^ 30 * 2 ^ 30 := Int.mul_le_mul_of_nonneg_left hleI (by decide)
    rw [Int.neg_mul] at this
    omega
  have u3 : a.len * 2 ^ n ≤ 2 ^ 30 * 2 ^ 30 := Nat.mul_le_mul a4 hle
  have hpn : 0 < 2 ^ n := Nat.two_pow_pos n
  refine ⟨⟨a.x0 * 2 ^ n, a.len * 2 ^ n⟩, ?_, ?_, fun p => ?_⟩
  · rw [Seg.shiftLeft, if_pos hn, arith_id (fun e => Int.mul_nonneg (a1 e) (Int.le_of_lt hp)) (by omega) (by omega)]
    show Out.ok _ = _
    rw [Nat.mod_eq_of_lt (by omega)]
  · rw [Seg.ceilShiftRight, if_pos hn, if_pos (Int.mul_emod_left ..), Int.mul_ediv_cancel _ (by omega), Nat.mod_eq_of_lt (by dsimp only; omega)]
    have : (a.len * 2 ^ n + 2 ^ n - 1) / 2 ^ n = a.len := by
      rw [Nat.add_sub_assoc (by omega), Nat.add_comm, Nat.add_mul_div_right _ _ hpn, Nat.div_eq_of_lt (by omega), Nat.zero_add]
    dsimp only
    rw [this]
  · unfold Seg.Has
    dsimp only
    rw [Int.le_ediv_iff_mul_le hp, Int.ediv_lt_iff_lt_mul hp, Int.natCast_mul, hc, Int.add_mul]

theorem ceil_seg {a : Seg} {n : Nat} (hn : n < 31) (ha : a.len ≤ 2 ^ 60) (hd : a.x0 % 2 ^ n = 0) :
    ∃ s, a.ceilShiftRight n = .ok s ∧ ∀ p, s.Has p ↔ ∃ q, a.Has q ∧ q / 2 ^ n = p := by
  have hle : 2 ^ n ≤ 2 ^ 30 := Nat.pow_le_pow_right (by decide) (by omega)
  have hpn : 0 < 2 ^ n := Nat.two_pow_pos n
  have hp : (0 : Int) < 2 ^ n := Int.pow_pos (by decide)
  have hc : ((2 ^ n : Nat) : Int) = 2 ^ n := by push_cast; rfl
  rw [Seg.ceilShiftRight, if_pos hn, if_pos hd, Nat.mod_eq_of_lt (by omega)]
  refine ⟨_, rfl, fun p => ?_⟩
  obtain ⟨c, hx⟩ := Int.dvd_of_emod_eq_zero hd
  unfold Seg.Has
  dsimp only
  rw [hx, Int.mul_ediv_cancel_left _ (by omega)]
  have key : p < c + ((a.len + 2 ^ n - 1) / 2 ^ n : Nat) ↔ 2 ^ n * p < 2 ^ n * c + a.len := by
    have e : ((a.len + 2 ^ n - 1 : Nat) : Int) = a.len + 2 ^ n - 1 := by rw [← hc]; omega
    rw [Int.natCast_ediv, hc, e]
    constructor
    · intro h
      have : p - c + 1 ≤ (a.len + 2 ^ n - 1) / 2 ^ n := by omega
      rw [Int.le_ediv_iff_mul_le hp, Int.add_mul, Int.sub_mul, Int.mul_comm p, Int.mul_comm c] at this
      omega
    · intro h
      have : p - c + 1 ≤ (a.len + 2 ^ n - 1) / 2 ^ n := by
        rw [Int.le_ediv_iff_mul_le hp, Int.add_mul, Int.sub_mul, Int.mul_comm p, Int.mul_comm c]
        omega
      omega
  rw [key]
  constructor
  · rintro ⟨h1, h2⟩
    exact ⟨2 ^ n * p, ⟨Int.mul_le_mul_of_nonneg_left h1 (Int.le_of_lt hp), h2⟩, Int.mul_ediv_cancel_left _ (by omega)⟩
  · rintro ⟨q, ⟨h1, h2⟩, rfl⟩
    refine ⟨?_, ?_⟩
    · rw [Int.le_ediv_iff_mul_le hp, Int.mul_comm]
      exact h1
    · exact Int.lt_of_le_of_lt (Int.mul_ediv_self_le (by omega)) h2

end Jxl.Rects
