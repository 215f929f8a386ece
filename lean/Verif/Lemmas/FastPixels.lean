import Verif.Model.FastPixels
import Verif.Model.Rct
import Verif.Lemmas.ModularNb
import Verif.Props.PackSigned
/-!
# Predictions and colours of the fast lossless encoder as integers
-/
namespace Jxl.FastCode
open Modular (clampedGradient i32 i32_of_range Px)

/-- `pixel_t`: 16 or 32 bits; a quarter of its range. -/
def quarter (n : Nat) : Int := 2 ^ (n - 2)

theorem toInt_small {n : Nat} (hn : n = 16 ∨ n = 32) {d : Int} (h1 : -2 * quarter n ≤ d) (h2 : d < 2 * quarter n) : (BitVec.ofInt n d).toInt = d := by
  have e16 : quarter 16 = 16384 := by decide
  have e32 : quarter 32 = 1073741824 := by decide
  rcases hn with rfl | rfl
  · rw [BitVec.toInt_ofInt]
    exact Int.bmod_eq_of_le (by omega) (by omega)
  · rw [BitVec.toInt_ofInt]
    exact Int.bmod_eq_of_le (by omega) (by omega)

theorem store32_small {n : Nat} (hn : n = 16 ∨ n = 32) {d : Int} (h1 : -2 * quarter n ≤ d) (h2 : d < 2 * quarter n) :
    store32 n d = some (BitVec.ofInt n d) := by
  have e16 : quarter 16 = 16384 := by decide
  have e32 : quarter 32 = 1073741824 := by decide
  unfold store32
  rw [if_pos]
  rcases hn with rfl | rfl <;> omega

theorem xor_neg {n : Nat} (a b : BitVec n) : (a ^^^ b).toInt < 0 ↔ ¬(a.toInt < 0 ↔ b.toInt < 0) := by
  have h : ∀ x : BitVec n, x.toInt < 0 ↔ x.msb = true := by
    intro x
    rw [BitVec.msb_eq_toInt]
    simp
  rw [h, h, h, BitVec.msb_xor]
  cases a.msb <;> cases b.msb <;> simp

/-- The prediction is that of the decoder. -/
theorem predict_eq {n : Nat} (hn : n = 16 ∨ n = 32) {l t c : BitVec n} (hl : -quarter n ≤ l.toInt ∧ l.toInt < quarter n)
    (ht : -quarter n ≤ t.toInt ∧ t.toInt < quarter n) (hc : -quarter n ≤ c.toInt ∧ c.toInt < quarter n) :
    ∃ p, predict l t c = some p ∧ p.toInt = clampedGradient t.toInt l.toInt c.toInt := by
  have hq : quarter n ≤ 1073741824 := by rcases hn with rfl | rfl <;> decide
  have a1 := toInt_small hn (d := l.toInt - c.toInt) (by omega) (by omega)
  have a2 := toInt_small hn (d := l.toInt - t.toInt) (by omega) (by omega)
  have a3 := toInt_small hn (d := t.toInt - c.toInt) (by omega) (by omega)
  unfold predict
  rw [store32_small hn (by omega) (by omega), store32_small hn (by omega) (by omega), store32_small hn (by omega) (by omega)]
  refine ⟨_, rfl, ?_⟩
  simp only [xor_neg, a1, a2, a3]
  unfold clampedGradient
  dsimp only
  by_cases hs : ¬(l.toInt - c.toInt < 0 ↔ t.toInt - c.toInt < 0)
  · rw [if_pos hs]
    have e : BitVec.ofInt n (l.toInt - c.toInt) + t = BitVec.ofInt n (l.toInt - c.toInt + t.toInt) := by
      rw [BitVec.ofInt_add, BitVec.ofInt_toInt]
    rw [e, toInt_small hn (by omega) (by omega)]
    rw [if_neg (by omega), if_neg (by omega), i32_of_range (by omega) (by omega)]
    omega
  · rw [if_neg hs]
    by_cases hd : ¬(l.toInt - t.toInt < 0 ↔ t.toInt - c.toInt < 0)
    · rw [if_pos hd]
      by_cases h1 : c.toInt > max t.toInt l.toInt
      · rw [if_pos h1]; omega
      · rw [if_neg h1]
        by_cases h2 : c.toInt < min t.toInt l.toInt
        · rw [if_pos h2]; omega
        · rw [if_neg h2, i32_of_range (by omega) (by omega)]; omega
    · rw [if_neg hd]
      by_cases h1 : c.toInt > max t.toInt l.toInt
      · rw [if_pos h1]; omega
      · rw [if_neg h1]
        by_cases h2 : c.toInt < min t.toInt l.toInt
        · rw [if_pos h2]; omega
        · rw [if_neg h2, i32_of_range (by omega) (by omega)]; omega

theorem clampedGradient_window {lo hi t l c : Int} (h32 : -1073741824 ≤ lo ∧ hi ≤ 1073741824) (ht : lo ≤ t ∧ t < hi) (hl : lo ≤ l ∧ l < hi)
    : lo ≤ clampedGradient t l c ∧ clampedGradient t l c < hi := by
  unfold clampedGradient
  dsimp only
  split
  · omega
  · split
    · omega
    · rw [i32_of_range (by omega) (by omega)]; omega

/-- Numbers of a window of size `2 ^ e` in the middle of the range of `pixel_t`. -/
structure Window (n e : Nat) (lo : Int) : Prop where
  bits : n = 16 ∨ n = 32
  low : -quarter n ≤ lo
  high : lo + 2 ^ e ≤ quarter n
  zero : lo ≤ 0 ∧ 0 < lo + 2 ^ e

def In (e : Nat) (lo v : Int) : Prop := lo ≤ v ∧ v < lo + 2 ^ e

theorem Window.quarters {n e : Nat} {lo v : Int} (h : Window n e lo) (hv : In e lo v) : -quarter n ≤ v ∧ v < quarter n :=
  ⟨Int.le_trans h.low hv.1, Int.lt_of_lt_of_le hv.2 h.high⟩

/-- A residual is the number the decoder expects, and has one bit more than the samples. -/
theorem residual_eq {n e : Nat} {lo : Int} (h : Window n e lo) {p l t c : BitVec n} (hp : In e lo p.toInt) (hl : In e lo l.toInt)
    (ht : In e lo t.toInt) (hc : In e lo c.toInt) :
    ∃ r, residual p l t c = some r ∧ r.toNat = (packSigned (BitVec.ofInt 32 (p.toInt - clampedGradient t.toInt l.toInt c.toInt))).toNat ∧
      r.toNat < 2 ^ (e + 1) := by
  obtain ⟨q, q1, q2⟩ := predict_eq h.bits (h.quarters hl) (h.quarters ht) (h.quarters hc)
  have hq : quarter n ≤ 1073741824 := by rcases h.bits with rfl | rfl <;> decide
  have hw := clampedGradient_window (t := t.toInt) (l := l.toInt) (c := c.toInt) (lo := lo) (hi := lo + 2 ^ e)
    ⟨by have := h.low; omega, by have := h.high; omega⟩ ht hl
  have hlow := h.low
  have hhigh := h.high
  have hp1 := hp.1
  have hp2 := hp.2
  have hd1 : -2 ^ e < p.toInt - q.toInt := by rw [q2]; omega
  have hd2 : p.toInt - q.toInt < 2 ^ e := by rw [q2]; omega
  have he : (2 : Int) ^ e ≤ 2 * quarter n := by omega
  unfold residual
  rw [q1]
  simp only [Option.bind_eq_bind, Option.bind_some]
  rw [store32_small (Or.inr rfl) (by rw [show quarter 32 = 1073741824 by decide]; omega) (by rw [show quarter 32 = 1073741824 by decide]; omega)]
  refine ⟨_, rfl, ?_⟩
  rw [← q2]
  have hti : (BitVec.ofInt 32 (p.toInt - q.toInt)).toInt = p.toInt - q.toInt :=
    toInt_small (Or.inr rfl) (by rw [show quarter 32 = 1073741824 by decide]; omega) (by rw [show quarter 32 = 1073741824 by decide]; omega)
  have hlt : (packSigned (BitVec.ofInt 32 (p.toInt - q.toInt))).toNat < 2 ^ (e + 1) := by
    have hz := Props.C07_pack_value (BitVec.ofInt 32 (p.toInt - q.toInt))
    rw [hti] at hz
    unfold Props.zigzag at hz
    have e1 : ((2 ^ (e + 1) : Nat) : Int) = 2 * 2 ^ e := by rw [Nat.pow_succ]; push_cast; omega
    omega
  have hn : (2 ^ (e + 1) : Nat) ≤ 2 ^ n := by
    apply Nat.pow_le_pow_right (by decide)
    rcases h.bits with rfl | rfl
    · have e16 : quarter 16 = 16384 := by decide
      apply Classical.byContradiction
      intro hc
      have h2 : (2 : Nat) ^ 16 ≤ 2 ^ e := Nat.pow_le_pow_right (by decide) (by omega)
      have h3 : (((2 : Nat) ^ e : Nat) : Int) = 2 ^ e := by push_cast; rfl
      omega
    · have e32 : quarter 32 = 1073741824 := by decide
      apply Classical.byContradiction
      intro hc
      have h2 : (2 : Nat) ^ 32 ≤ 2 ^ e := Nat.pow_le_pow_right (by decide) (by omega)
      have h3 : (((2 : Nat) ^ e : Nat) : Int) = 2 ^ e := by push_cast; rfl
      omega
  have hval : (BitVec.setWidth n (packSigned (BitVec.ofInt 32 (p.toInt - q.toInt)))).toNat =
      (packSigned (BitVec.ofInt 32 (p.toInt - q.toInt))).toNat := by
    rw [BitVec.toNat_setWidth]
    exact Nat.mod_eq_of_lt (Nat.lt_of_lt_of_le hlt hn)
  rw [hval]
  exact ⟨rfl, hlt⟩

theorem sub_eq_ofInt {n : Nat} (a b : BitVec n) : a - b = BitVec.ofInt n (a.toInt - b.toInt) := by
  apply BitVec.eq_of_toInt_eq
  rw [BitVec.toInt_sub, BitVec.toInt_ofInt]

theorem add_eq_ofInt {n : Nat} (a b : BitVec n) : a + b = BitVec.ofInt n (a.toInt + b.toInt) := by
  apply BitVec.eq_of_toInt_eq
  rw [BitVec.toInt_add, BitVec.toInt_ofInt]

/-- The code with vector instructions computes the same residuals. -/
theorem residualLane_eq {n e : Nat} {lo : Int} (h : Window n e lo) {p l t c : BitVec n} (hp : In e lo p.toInt) (hl : In e lo l.toInt)
    (ht : In e lo t.toInt) (hc : In e lo c.toInt) : residual p l t c = some (residualLane p l t c) := by
  obtain ⟨r, r1, r2, -⟩ := residual_eq h hp hl ht hc
  obtain ⟨q, q1, q2⟩ := predict_eq h.bits (h.quarters hl) (h.quarters ht) (h.quarters hc)
  have hl4 := h.quarters hl
  have ht4 := h.quarters ht
  have hc4 := h.quarters hc
  have hp4 := h.quarters hp
  have hq : quarter n ≤ 1073741824 := by rcases h.bits with rfl | rfl <;> decide
  have hw := clampedGradient_window (t := t.toInt) (l := l.toInt) (c := c.toInt) (lo := -quarter n) (hi := quarter n) ⟨by omega, by omega⟩ ht4 hl4
  rw [← q2] at hw
  have hpred : predict l t c = some (if 0 > ((l - c) ^^^ (t - c)).toInt then (l - c) + t else if 0 > ((l - t) ^^^ (t - c)).toInt then t else l) := by
    unfold predict
    rw [store32_small h.bits (by omega) (by omega), store32_small h.bits (by omega) (by omega), store32_small h.bits (by omega) (by omega),
      ← sub_eq_ofInt, ← sub_eq_ofInt, ← sub_eq_ofInt]
    rfl
  rw [q1] at hpred
  injection hpred with hpred
  rw [r1]
  congr 1
  unfold residualLane
  dsimp only
  rw [← hpred]
  have hs : (p - q).toInt = p.toInt - q.toInt := by
    rw [sub_eq_ofInt, toInt_small h.bits (by omega) (by omega)]
  have hz := Props.C07_pack_value (BitVec.ofInt 32 (p.toInt - q.toInt))
  rw [toInt_small (Or.inr rfl) (by rw [show quarter 32 = 1073741824 by decide]; omega) (by rw [show quarter 32 = 1073741824 by decide]; omega)] at hz
  rw [← q2] at r2
  rw [← r2] at hz
  have hr : r = BitVec.ofInt n (Props.zigzag (p.toInt - q.toInt)) := by
    rw [← hz, BitVec.ofInt_natCast, BitVec.ofNat_toNat, BitVec.setWidth_eq]
  rw [hr, hs]
  unfold Props.zigzag
  by_cases hd : 0 > p.toInt - q.toInt
  · rw [if_pos hd, if_neg (by omega), add_eq_ofInt, hs]
    apply BitVec.eq_of_toInt_eq
    rw [BitVec.toInt_sub, BitVec.toInt_ofInt, BitVec.toInt_ofInt, BitVec.toInt_ofInt, Int.sub_bmod_bmod, Int.bmod_sub_bmod]
    congr 1
    omega
  · rw [if_neg hd, if_pos (by omega), add_eq_ofInt, hs]
    congr 1
    omega

/-- The colour transform on integers. -/
def ycocg (r g b : Int) : Int × Int × Int :=
  let co := r - b
  let tmp := b + co / 2
  let cg := g - tmp
  (tmp + cg / 2, co, cg)

theorem shift_one (x : Int) : x >>> 1 = x / 2 := by
  rw [Int.shiftRight_eq_div_pow]; rfl

theorem toInt_ofNat_small {n : Nat} (hn : n = 16 ∨ n = 32) {v : Nat} (h : (v : Int) < 2 * quarter n) : (BitVec.ofNat n v).toInt = v := by
  have hq : 0 < quarter n := by rcases hn with rfl | rfl <;> decide
  rw [← BitVec.ofInt_natCast]
  exact toInt_small hn (by omega) h

theorem storeYCoCg_eq {n : Nat} (hn : n = 16 ∨ n = 32) {m r g b : Nat} (hm : (m : Int) ≤ quarter n) (hr : r < m) (hg : g < m) (hb : b < m) :
    ∃ y co cg : BitVec n, storeYCoCg (BitVec.ofNat n r) (BitVec.ofNat n g) (BitVec.ofNat n b) = some (y, co, cg) ∧
      (y.toInt, co.toInt, cg.toInt) = ycocg r g b ∧ (0 ≤ y.toInt ∧ y.toInt < m) ∧ (-m ≤ co.toInt ∧ co.toInt < m) ∧ (-m ≤ cg.toInt ∧ cg.toInt < m) := by
  have er := toInt_ofNat_small hn (v := r) (by omega)
  have eg := toInt_ofNat_small hn (v := g) (by omega)
  have eb := toInt_ofNat_small hn (v := b) (by omega)
  have e1 := toInt_small hn (d := (r : Int) - b) (by omega) (by omega)
  have e2 := toInt_small hn (d := (b : Int) + ((r : Int) - b) / 2) (by omega) (by omega)
  have e3 := toInt_small hn (d := (g : Int) - ((b : Int) + ((r : Int) - b) / 2)) (by omega) (by omega)
  have e4 := toInt_small hn (d := ((b : Int) + ((r : Int) - b) / 2) + ((g : Int) - ((b : Int) + ((r : Int) - b) / 2)) / 2) (by omega) (by omega)
  refine ⟨BitVec.ofInt n (ycocg r g b).1, BitVec.ofInt n (ycocg r g b).2.1, BitVec.ofInt n (ycocg r g b).2.2, ?_, ?_⟩
  · unfold storeYCoCg
    rw [er, eg, eb, store32_small hn (by omega) (by omega)]
    simp only [Option.bind_eq_bind, Option.bind_some, e1, shift_one]
    rw [store32_small hn (by omega) (by omega)]
    simp only [Option.bind_some, e2]
    rw [store32_small hn (by omega) (by omega)]
    simp only [Option.bind_some, e3]
    rw [store32_small hn (by omega) (by omega)]
    rfl
  · dsimp only [ycocg]
    rw [e1, e3, e4]
    refine ⟨rfl, ?_, ?_, ?_⟩ <;> omega

/-- The transform the decoder undoes. -/
theorem fwd1_eq {r g b : Nat} (hr : r < 2 ^ 16) (hg : g < 2 ^ 16) (hb : b < 2 ^ 16) :
    Modular.Rct.fwd1 6 (BitVec.ofNat 32 r, BitVec.ofNat 32 g, BitVec.ofNat 32 b) =
      (BitVec.ofInt 32 (ycocg r g b).1, BitVec.ofInt 32 (ycocg r g b).2.1, BitVec.ofInt 32 (ycocg r g b).2.2) := by
  have hq : quarter 32 = 1073741824 := by decide
  have hn : (32 = 16 ∨ 32 = 32) := Or.inr rfl
  have er := toInt_ofNat_small hn (v := r) (by omega)
  have eg := toInt_ofNat_small hn (v := g) (by omega)
  have eb := toInt_ofNat_small hn (v := b) (by omega)
  have half : ∀ d : Int, -2 * quarter 32 ≤ d → d < 2 * quarter 32 → Modular.Rct.half (BitVec.ofInt 32 d) = BitVec.ofInt 32 (d / 2) := by
    intro d h1 h2
    apply BitVec.eq_of_toInt_eq
    rw [Modular.Rct.half, BitVec.toInt_sshiftRight, toInt_small hn h1 h2, toInt_small hn (by omega) (by omega), shift_one]
  simp only [Modular.Rct.fwd1, if_true, ycocg, Prod.mk.injEq]
  have e1 : BitVec.ofNat 32 r - BitVec.ofNat 32 b = BitVec.ofInt 32 ((r : Int) - b) := by rw [sub_eq_ofInt, er, eb]
  have e2 : BitVec.ofNat 32 b + Modular.Rct.half (BitVec.ofInt 32 ((r : Int) - b)) = BitVec.ofInt 32 ((b : Int) + ((r : Int) - b) / 2) := by
    rw [half _ (by omega) (by omega), add_eq_ofInt, eb, toInt_small hn (by omega) (by omega)]
  have e3 : BitVec.ofNat 32 g - BitVec.ofInt 32 ((b : Int) + ((r : Int) - b) / 2) = BitVec.ofInt 32 ((g : Int) - ((b : Int) + ((r : Int) - b) / 2)) := by
    rw [sub_eq_ofInt, eg, toInt_small hn (by omega) (by omega)]
  rw [e1, e2, e3]
  refine ⟨?_, rfl, rfl⟩
  rw [half _ (by omega) (by omega), add_eq_ofInt, toInt_small hn (by omega) (by omega), toInt_small hn (by omega) (by omega)]

end Jxl.FastCode
