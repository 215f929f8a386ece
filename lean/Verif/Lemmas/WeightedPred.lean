import Verif.Model.WeightedPred
/-!
# The weighted predictor's arithmetic stays in range
-/
namespace Jxl.Wp

/-- The buffers have the size the constructor gives them. -/
structure Inv (xsize : Nat) (s : State) : Prop where
  l0 : s.pe0.length = (xsize + 2) * 2
  l1 : s.pe1.length = (xsize + 2) * 2
  l2 : s.pe2.length = (xsize + 2) * 2
  l3 : s.pe3.length = (xsize + 2) * 2
  le : s.error.length = (xsize + 2) * 2

/-- The predictions are far from the limits of `int64_t`. -/
structure Small (s : State) : Prop where
  b0 : s.p0.natAbs ≤ 137438953472
  b1 : s.p1.natAbs ≤ 137438953472
  b2 : s.p2.natAbs ≤ 137438953472
  b3 : s.p3.natAbs ≤ 137438953472
  bp : s.pred.natAbs ≤ 274877906944

theorem init_inv (xsize : Nat) : Inv xsize (init xsize) := by
  constructor <;> simp [init]

theorem init_small (xsize : Nat) : Small (init xsize) := by
  constructor <;> simp [init]

theorem chk_ok {x : Int} (h : x.natAbs < 9223372036854775808) : chk x = some x := by
  unfold chk; rw [if_pos (by omega)]

theorem chk_some {x y : Int} (h : chk x = some y) : y = x := by
  unfold chk at h; split at h
  · exact (Option.some.inj h).symm
  · cases h

theorem divlookup_spec : ∀ i : Nat, i < 64 → divlookup[i]? = some (16777216 / (i + 1)) := by decide

theorem natAbs_mul_nat (a : Int) (b : Nat) : (a * (b : Int)).natAbs = a.natAbs * b := by
  rw [Int.natAbs_mul]; rfl

theorem errorWeight_ok {x maxw : Nat} (hx : x < 4294967296) (hm : maxw < 16) : ∃ e, errorWeight x maxw = some e ∧ 4 ≤ e ∧ e < 268435456 := by
  have hlog : x + 1 < 2 ^ (Nat.log2 (x + 1) + 1) := Nat.lt_log2_self
  have hi : x >>> (Nat.log2 (x + 1) - 5) < 64 := by
    rw [Nat.shiftRight_eq_div_pow, Nat.div_lt_iff_lt_mul (Nat.two_pow_pos _)]
    have h1 : 2 ^ (Nat.log2 (x + 1) + 1) ≤ 2 ^ (6 + (Nat.log2 (x + 1) - 5)) := Nat.pow_le_pow_right (by omega) (by omega)
    rw [Nat.pow_add 2 6] at h1
    omega
  refine ⟨_, by unfold errorWeight; dsimp only; rw [divlookup_spec _ hi]; rfl, ?_⟩
  dsimp only
  generalize x >>> (Nat.log2 (x + 1) - 5) = i
  generalize Nat.log2 (x + 1) - 5 = sh
  have hd : 16777216 / (i + 1) ≤ 16777216 := Nat.div_le_self _ _
  have hmd : maxw * (16777216 / (i + 1)) ≤ 15 * 16777216 := Nat.mul_le_mul (by omega) hd
  have hs : (maxw * (16777216 / (i + 1)) % 4294967296) >>> sh ≤ 15 * 16777216 := by
    rw [Nat.shiftRight_eq_div_pow]
    exact Nat.le_trans (Nat.div_le_self _ _) (Nat.le_trans (Nat.mod_le _ _) hmd)
  generalize (maxw * (16777216 / (i + 1)) % 4294967296) >>> sh = q at hs
  omega

theorem shifted_sum {w0 w1 w2 w3 : Nat} (hs : 16 ≤ w0 + w1 + w2 + w3) :
    let k := Nat.log2 (w0 + w1 + w2 + w3) - 4
    13 ≤ w0 >>> k + w1 >>> k + w2 >>> k + w3 >>> k ∧ w0 >>> k + w1 >>> k + w2 >>> k + w3 >>> k ≤ 31 := by
  intro k
  have h1 : w0 + w1 + w2 + w3 < 2 ^ (Nat.log2 (w0 + w1 + w2 + w3) + 1) := Nat.lt_log2_self
  have h2 : 2 ^ Nat.log2 (w0 + w1 + w2 + w3) ≤ w0 + w1 + w2 + w3 := Nat.log2_self_le (by omega)
  have h4 : 4 ≤ Nat.log2 (w0 + w1 + w2 + w3) := (Nat.le_log2 (by omega)).2 (by omega)
  have e1 : Nat.log2 (w0 + w1 + w2 + w3) = k + 4 := by omega
  rw [e1] at h1 h2
  rw [show k + 4 + 1 = k + 5 from rfl, Nat.pow_add] at h1
  rw [Nat.pow_add] at h2
  simp only [Nat.shiftRight_eq_div_pow]
  have hp := Nat.two_pow_pos k
  generalize 2 ^ k = m at *
  have q0 := Nat.div_add_mod w0 m
  have q1 := Nat.div_add_mod w1 m
  have q2 := Nat.div_add_mod w2 m
  have q3 := Nat.div_add_mod w3 m
  have r0 := Nat.mod_lt w0 hp
  have r1 := Nat.mod_lt w1 hp
  have r2 := Nat.mod_lt w2 hp
  have r3 := Nat.mod_lt w3 hp
  have hsum : m * (w0 / m + w1 / m + w2 / m + w3 / m) = m * (w0 / m) + m * (w1 / m) + m * (w2 / m) + m * (w3 / m) := by
    rw [Nat.mul_add, Nat.mul_add, Nat.mul_add]
  generalize w0 / m + w1 / m + w2 / m + w3 / m = t at *
  constructor
  · apply Nat.le_of_not_lt; intro hc
    have : m * t ≤ m * 12 := Nat.mul_le_mul_left _ (by omega)
    omega
  · apply Nat.le_of_not_lt; intro hc
    have : m * 32 ≤ m * t := Nat.mul_le_mul_left _ (by omega)
    omega

theorem weightedAverage_ok {p0 p1 p2 p3 : Int} {w0 w1 w2 w3 : Nat} (h0 : p0.natAbs ≤ 137438953472) (h1 : p1.natAbs ≤ 137438953472) (h2 : p2.natAbs ≤ 137438953472) (h3 : p3.natAbs ≤ 137438953472)
    (hw0 : 4 ≤ w0 ∧ w0 < 268435456) (hw1 : 4 ≤ w1 ∧ w1 < 268435456) (hw2 : 4 ≤ w2 ∧ w2 < 268435456) (hw3 : 4 ≤ w3 ∧ w3 < 268435456) :
    ∃ a, weightedAverage p0 p1 p2 p3 w0 w1 w2 w3 = some a ∧ a.natAbs ≤ 274877906944 := by
  have e : (w0 + w1 + w2 + w3) % 4294967296 = w0 + w1 + w2 + w3 := Nat.mod_eq_of_lt (by omega)
  have hsum := shifted_sum (w0 := w0) (w1 := w1) (w2 := w2) (w3 := w3) (by omega)
  dsimp only at hsum
  unfold weightedAverage
  dsimp only
  rw [e, if_neg (show ¬ w0 + w1 + w2 + w3 < 16 by omega)]
  generalize Nat.log2 (w0 + w1 + w2 + w3) - 4 = k at *
  generalize w0 >>> k = v0 at *
  generalize w1 >>> k = v1 at *
  generalize w2 >>> k = v2 at *
  generalize w3 >>> k = v3 at *
  have e2 : (v0 + v1 + v2 + v3) % 4294967296 = v0 + v1 + v2 + v3 := Nat.mod_eq_of_lt (by omega)
  rw [e2, if_neg (by omega)]
  have er : ((v0 + v1 + v2 + v3) >>> 1 + 4294967295) % 4294967296 ≤ 16 := by
    rw [Nat.shiftRight_eq_div_pow]
    omega
  generalize ((v0 + v1 + v2 + v3) >>> 1 + 4294967295) % 4294967296 = r at *
  have m0 : (p0 * (v0 : Int)).natAbs ≤ 137438953472 * v0 := by rw [natAbs_mul_nat]; exact Nat.mul_le_mul_right _ h0
  have m1 : (p1 * (v1 : Int)).natAbs ≤ 137438953472 * v1 := by rw [natAbs_mul_nat]; exact Nat.mul_le_mul_right _ h1
  have m2 : (p2 * (v2 : Int)).natAbs ≤ 137438953472 * v2 := by rw [natAbs_mul_nat]; exact Nat.mul_le_mul_right _ h2
  have m3 : (p3 * (v3 : Int)).natAbs ≤ 137438953472 * v3 := by rw [natAbs_mul_nat]; exact Nat.mul_le_mul_right _ h3
  generalize p0 * (v0 : Int) = x0 at *
  generalize p1 * (v1 : Int) = x1 at *
  generalize p2 * (v2 : Int) = x2 at *
  generalize p3 * (v3 : Int) = x3 at *
  rw [divlookup_spec _ (show v0 + v1 + v2 + v3 - 1 < 64 by omega)]
  have hd1 : (v0 + v1 + v2 + v3) * (16777216 / (v0 + v1 + v2 + v3 - 1 + 1)) ≤ 16777216 := by
    rw [show v0 + v1 + v2 + v3 - 1 + 1 = v0 + v1 + v2 + v3 from by omega]
    exact Nat.mul_div_le _ _
  have hd2 : 16777216 / (v0 + v1 + v2 + v3 - 1 + 1) ≤ 16777216 := Nat.div_le_self _ _
  generalize 16777216 / (v0 + v1 + v2 + v3 - 1 + 1) = d at *
  rw [chk_ok (x := x0) (by omega), Option.bind_some, chk_ok (x := x1) (by omega), Option.bind_some, chk_ok (x := x2) (by omega), Option.bind_some, chk_ok (x := x3) (by omega), Option.bind_some,
    chk_ok (x := r + x0) (by omega), Option.bind_some, chk_ok (x := r + x0 + x1) (by omega), Option.bind_some, chk_ok (x := r + x0 + x1 + x2) (by omega), Option.bind_some, chk_ok (x := r + x0 + x1 + x2 + x3) (by omega), Option.bind_some, Option.bind_some]
  have hs : (↑r + x0 + x1 + x2 + x3 : Int).natAbs ≤ 16 + 137438953472 * (v0 + v1 + v2 + v3) := by omega
  generalize (↑r + x0 + x1 + x2 + x3 : Int) = z at *
  have hz : (z * (d : Int)).natAbs ≤ 16 * 16777216 + 137438953472 * 16777216 := by
    rw [natAbs_mul_nat]
    refine Nat.le_trans (Nat.mul_le_mul_right d hs) ?_
    rw [Nat.add_mul, Nat.mul_assoc]
    exact Nat.add_le_add (Nat.mul_le_mul_left _ hd2) (Nat.mul_le_mul_left _ hd1)
  generalize z * (d : Int) = q at *
  rw [chk_ok (by omega)]
  exact ⟨q / 16777216, rfl, by omega⟩

theorem addBits_eq {x : Int} (h : x.natAbs ≤ 2147483648) : addBits x = x * 8 := by
  unfold addBits
  rw [BitVec.toInt_ofInt]
  apply Int.bmod_eq_of_le <;> omega

theorem weightOf_ok {pe : List (BitVec 32)} {a b c maxw : Nat} (ha : a < pe.length) (hb : b < pe.length) (hc : c < pe.length) (hm : maxw < 16) :
    ∃ e, weightOf pe a b c maxw = some e ∧ 4 ≤ e ∧ e < 268435456 := by
  unfold weightOf
  rw [List.getElem?_eq_getElem ha, List.getElem?_eq_getElem hb, List.getElem?_eq_getElem hc, Option.bind_some, Option.bind_some, Option.bind_some]
  exact errorWeight_ok (BitVec.isLt _) hm

theorem toInt_bd (v : BitVec 32) : v.toInt.natAbs ≤ 2147483648 := by
  have h1 := BitVec.toInt_lt (x := v)
  have h2 := BitVec.le_toInt v
  omega

theorem pred12_ok {base s te : Int} {c : Nat} (hb : base.natAbs ≤ 17179869184) (hs : s.natAbs ≤ 4294967296) (ht : te.natAbs ≤ 2147483648) (hc : c < 32) :
    ∃ q, pred12 base s te c = some q ∧ q.natAbs ≤ 137438953472 := by
  unfold pred12
  rw [chk_ok (by omega), Option.bind_some]
  have hm : ((s + te) * (c : Int)).natAbs ≤ (4294967296 + 2147483648) * 31 := by
    rw [natAbs_mul_nat]; exact Nat.mul_le_mul (by omega) (by omega)
  generalize (s + te) * (c : Int) = m at *
  rw [chk_ok (by omega), Option.bind_some, chk_ok (by omega)]
  exact ⟨_, rfl, by omega⟩

theorem mul_bd {a : Int} {c A : Nat} (ha : a.natAbs ≤ A) (hc : c < 32) : (a * (c : Int)).natAbs ≤ A * 31 := by
  rw [natAbs_mul_nat]; exact Nat.mul_le_mul ha (by omega)

theorem sum5_ok {N a b c d e : Int} (hN : N.natAbs ≤ 17179869184) (ha : a.natAbs ≤ 66571993088) (hb : b.natAbs ≤ 66571993088) (hc : c.natAbs ≤ 66571993088) (hd : d.natAbs ≤ 1065151889408) (he : e.natAbs ≤ 1065151889408) :
    ((chk (a + b)).bind fun s1 => (chk (s1 + c)).bind fun s2 => (chk (s2 + d)).bind fun s3 => (chk (s3 + e)).bind fun s4 => chk (N - s4 / 32)) = some (N - (a + b + c + d + e) / 32) ∧
      (N - (a + b + c + d + e) / 32).natAbs ≤ 137438953472 := by
  rw [chk_ok (x := a + b) (by omega), Option.bind_some, chk_ok (x := a + b + c) (by omega), Option.bind_some, chk_ok (x := a + b + c + d) (by omega), Option.bind_some, chk_ok (x := a + b + c + d + e) (by omega), Option.bind_some]
  have hk : (N - (a + b + c + d + e) / 32).natAbs ≤ 137438953472 := by omega
  exact ⟨chk_ok (by omega), hk⟩

theorem sub_bd {a b : Int} (ha : a.natAbs ≤ 17179869184) (hb : b.natAbs ≤ 17179869184) : (a - b).natAbs ≤ 34359738368 := by omega

theorem pred0_ok {a b c : Int} (ha : a.natAbs ≤ 17179869184) (hb : b.natAbs ≤ 17179869184) (hc : c.natAbs ≤ 17179869184) : pred0 a b c = some (a + b - c) ∧ (a + b - c).natAbs ≤ 137438953472 := by
  unfold pred0
  rw [chk_ok (by omega), Option.bind_some, chk_ok (by omega)]
  exact ⟨rfl, by omega⟩

theorem times8 {a : Int} (ha : a.natAbs ≤ 2147483648) : (a * 8).natAbs ≤ 17179869184 := by omega

theorem pred3_ok {h : Header} (hh : h.Ok) {N W NW NN teN teNW teNE : Int} (hN : N.natAbs ≤ 17179869184) (hW : W.natAbs ≤ 17179869184) (hNW : NW.natAbs ≤ 17179869184) (hNN : NN.natAbs ≤ 17179869184)
    (h1 : teN.natAbs ≤ 2147483648) (h2 : teNW.natAbs ≤ 2147483648) (h3 : teNE.natAbs ≤ 2147483648) : ∃ q, pred3 h N W NW NN teN teNW teNE = some q ∧ q.natAbs ≤ 137438953472 := by
  have kd0 := sub_bd hNN hN
  have ke0 := sub_bd hNW hW
  obtain ⟨-, -, ka, kb, kc, kd, ke, -⟩ := hh
  unfold pred3
  have ma : (teNW * (h.p3Ca : Int)).natAbs ≤ 66571993088 := Nat.le_trans (mul_bd h2 ka) (by decide)
  have mb : (teN * (h.p3Cb : Int)).natAbs ≤ 66571993088 := Nat.le_trans (mul_bd h1 kb) (by decide)
  have mc : (teNE * (h.p3Cc : Int)).natAbs ≤ 66571993088 := Nat.le_trans (mul_bd h3 kc) (by decide)
  have md : ((NN - N) * (h.p3Cd : Int)).natAbs ≤ 1065151889408 := Nat.le_trans (mul_bd kd0 kd) (by decide)
  have me : ((NW - W) * (h.p3Ce : Int)).natAbs ≤ 1065151889408 := Nat.le_trans (mul_bd ke0 ke) (by decide)
  have := sum5_ok hN ma mb mc md me
  rw [chk_ok (Nat.lt_of_le_of_lt ma (by decide)), Option.bind_some, chk_ok (Nat.lt_of_le_of_lt mb (by decide)), Option.bind_some, chk_ok (Nat.lt_of_le_of_lt mc (by decide)), Option.bind_some,
    chk_ok (Nat.lt_of_le_of_lt kd0 (by decide)), Option.bind_some, chk_ok (Nat.lt_of_le_of_lt md (by decide)), Option.bind_some, chk_ok (Nat.lt_of_le_of_lt ke0 (by decide)), Option.bind_some, chk_ok (Nat.lt_of_le_of_lt me (by decide)), Option.bind_some]
  exact ⟨_, this.1, this.2⟩

theorem pick_mem (p q : Int) : (if q.natAbs > p.natAbs then q else p) = p ∨ (if q.natAbs > p.natAbs then q else p) = q := by
  split
  · exact Or.inr rfl
  · exact Or.inl rfl

theorem property_mem (a b c d : Int) : property a b c d = a ∨ property a b c d = b ∨ property a b c d = c ∨ property a b c d = d := by
  unfold property
  dsimp only
  have h1 := pick_mem a b
  generalize (if b.natAbs > a.natAbs then b else a) = x at *
  have h2 := pick_mem x c
  generalize (if c.natAbs > x.natAbs then c else x) = y at *
  have h3 := pick_mem y d
  generalize (if d.natAbs > y.natAbs then d else y) = z at *
  rcases h3 with rfl | rfl
  · rcases h2 with rfl | rfl
    · rcases h1 with rfl | rfl
      · exact Or.inl rfl
      · exact Or.inr (Or.inl rfl)
    · exact Or.inr (Or.inr (Or.inl rfl))
  · exact Or.inr (Or.inr (Or.inr rfl))

theorem guess_bd {p : Int} (h : p.natAbs ≤ 274877906944) : chk (p + 3) = some (p + 3) ∧ ((p + 3) / 8).natAbs ≤ 68719476736 := by
  exact ⟨chk_ok (by omega), by omega⟩

theorem clamp_bd {av A B C : Int} (b : Bool) (h0 : av.natAbs ≤ 274877906944) (hA : A.natAbs ≤ 17179869184) (hB : B.natAbs ≤ 17179869184) (hC : C.natAbs ≤ 17179869184) :
    (if b = true then av else max (min A (min B C)) (min (max A (max B C)) av)).natAbs ≤ 274877906944 := by
  split
  · exact h0
  · omega

theorem predict_total {h : Header} (hh : h.Ok) {xsize x y : Nat} {s : State} (hi : Inv xsize s) (hx : x < xsize) {N W NE NW NN : Int}
    (hN : N.natAbs ≤ 2147483648) (hW : W.natAbs ≤ 2147483648) (hNE : NE.natAbs ≤ 2147483648) (hNW : NW.natAbs ≤ 2147483648) (hNN : NN.natAbs ≤ 2147483648) :
    ∃ r, predict h s x y xsize N W NE NW NN = some r ∧ Inv xsize r.st ∧ Small r.st ∧ r.guess.natAbs ≤ 68719476736 ∧ r.prop.natAbs ≤ 2147483648 ∧ -2147483648 ≤ r.prop ∧ r.prop < 2147483648 := by
  unfold predict
  dsimp only
  rw [addBits_eq hN, addBits_eq hW, addBits_eq hNE, addBits_eq hNW, addBits_eq hNN]
  have hprev : prevRow y xsize ≤ xsize + 2 := by unfold prevRow; split <;> omega
  have hcur : curRow y xsize ≤ xsize + 2 := by unfold curRow; split <;> omega
  generalize prevRow y xsize = pr at *
  generalize curRow y xsize = cr at *
  have hN' : pr + x < (xsize + 2) * 2 := by omega
  have hNE' : (if x < xsize - 1 then pr + x + 1 else pr + x) < (xsize + 2) * 2 := by split <;> omega
  have hNW' : (if x > 0 then pr + x - 1 else pr + x) < (xsize + 2) * 2 := by split <;> omega
  generalize (if x < xsize - 1 then pr + x + 1 else pr + x) = ne at *
  generalize (if x > 0 then pr + x - 1 else pr + x) = nw at *
  generalize pr + x = n at *
  have hh' := hh
  obtain ⟨k1, k2, -, -, -, -, -, kw0, kw1, kw2, kw3⟩ := hh'
  obtain ⟨w0, e0, b0⟩ := weightOf_ok (pe := s.pe0) (a := n) (b := ne) (c := nw) (by rw [hi.l0]; omega) (by rw [hi.l0]; omega) (by rw [hi.l0]; omega) kw0
  obtain ⟨w1, e1, b1⟩ := weightOf_ok (pe := s.pe1) (a := n) (b := ne) (c := nw) (by rw [hi.l1]; omega) (by rw [hi.l1]; omega) (by rw [hi.l1]; omega) kw1
  obtain ⟨w2, e2, b2⟩ := weightOf_ok (pe := s.pe2) (a := n) (b := ne) (c := nw) (by rw [hi.l2]; omega) (by rw [hi.l2]; omega) (by rw [hi.l2]; omega) kw2
  obtain ⟨w3, e3, b3⟩ := weightOf_ok (pe := s.pe3) (a := n) (b := ne) (c := nw) (by rw [hi.l3]; omega) (by rw [hi.l3]; omega) (by rw [hi.l3]; omega) kw3
  rw [e0, e1, e2, e3, Option.bind_some, Option.bind_some, Option.bind_some, Option.bind_some]
  have hrw : ∃ t, readW s cr x = some t := by
    unfold readW
    by_cases c : x = 0
    · exact ⟨_, if_pos c⟩
    · rw [if_neg c]; exact ⟨_, List.getElem?_eq_getElem (by rw [hi.le]; omega)⟩
  obtain ⟨teW, hteW⟩ := hrw
  rw [hteW, Option.bind_some, List.getElem?_eq_getElem (by rw [hi.le]; exact hN'), Option.bind_some, List.getElem?_eq_getElem (by rw [hi.le]; exact hNW'), Option.bind_some,
    List.getElem?_eq_getElem (by rw [hi.le]; exact hNE'), Option.bind_some]
  generalize s.error[n]'(by rw [hi.le]; exact hN') = teN
  generalize s.error[nw]'(by rw [hi.le]; exact hNW') = teNW
  generalize s.error[ne]'(by rw [hi.le]; exact hNE') = teNE
  have tW := toInt_bd teW
  have tN := toInt_bd teN
  have tNW := toInt_bd teNW
  have tNE := toInt_bd teNE
  have gW := BitVec.toInt_lt (x := teW)
  have gN := BitVec.toInt_lt (x := teN)
  have gNW := BitVec.toInt_lt (x := teNW)
  have gNE := BitVec.toInt_lt (x := teNE)
  generalize teW.toInt = tw at *
  generalize teN.toInt = tn at *
  generalize teNW.toInt = tnw at *
  generalize teNE.toInt = tne at *
  have N8 := times8 hN
  have W8 := times8 hW
  have NE8 := times8 hNE
  have NW8 := times8 hNW
  have NN8 := times8 hNN
  have hsum : (tn + tw).natAbs ≤ 4294967296 := by
    clear N8 W8 NE8 NW8 NN8 hN hW hNE hNW hNN b0 b1 b2 b3
    omega
  unfold predictCore
  rw [chk_ok (Nat.lt_of_le_of_lt hsum (by decide)), Option.bind_some]
  obtain ⟨hp0, c0⟩ := pred0_ok W8 NE8 N8
  rw [hp0, Option.bind_some]
  obtain ⟨q1, eq1, c1⟩ := pred12_ok N8 hsum tNE k1
  obtain ⟨q2, eq2, c2⟩ := pred12_ok W8 hsum tNW k2
  obtain ⟨q3, eq3, c3⟩ := pred3_ok hh N8 W8 NW8 NN8 tN tNW tNE
  obtain ⟨av, eav, cav⟩ := weightedAverage_ok c0 c1 c2 c3 b0 b1 b2 b3
  rw [eq1, Option.bind_some, eq2, Option.bind_some, eq3, Option.bind_some, eav, Option.bind_some]
  unfold finish
  dsimp only
  have hpr := clamp_bd (A := W * 8) (B := NE * 8) (C := N * 8) (sameSign tn tw tnw) cav W8 NE8 N8
  generalize (if sameSign tn tw tnw = true then av else max (min (W * 8) (min (NE * 8) (N * 8))) (min (max (W * 8) (max (NE * 8) (N * 8))) av)) = pr at *
  obtain ⟨hg1, hg2⟩ := guess_bd hpr
  rw [hg1]
  refine ⟨_, rfl, ⟨hi.l0, hi.l1, hi.l2, hi.l3, hi.le⟩, ⟨c0, c1, c2, c3, hpr⟩, hg2, ?_⟩
  dsimp only
  clear N8 W8 NE8 NW8 NN8 hN hW hNE hNW hNN b0 b1 b2 b3 c0 c1 c2 c3 hg1 hg2 hpr cav
  rcases property_mem tw tn tnw tne with e | e | e | e <;> rw [e] <;> omega

theorem updateOne_total {pe : List (BitVec 32)} {p val : Int} {cur prev x : Nat} (hp : p.natAbs ≤ 137438953472) (hv : val.natAbs ≤ 17179869184) (h1 : cur + x < pe.length) (h2 : prev + x + 1 < pe.length) :
    ∃ pe', updateOne pe p val cur prev x = some pe' ∧ pe'.length = pe.length := by
  unfold updateOne
  rw [chk_ok (by omega), Option.bind_some, chk_ok (by omega), Option.bind_some, chk_ok (by omega), Option.bind_some]
  dsimp only
  rw [if_pos h1, List.getElem?_eq_getElem (by simpa using h2)]
  exact ⟨_, rfl, by simp⟩

theorem update_total {xsize x y : Nat} {s : State} (hi : Inv xsize s) (hs : Small s) (hx : x < xsize) {val : Int} (hv : val.natAbs ≤ 2147483648) :
    ∃ s', update s val x y xsize = some s' ∧ Inv xsize s' ∧ Small s' := by
  unfold update
  dsimp only
  rw [addBits_eq hv]
  have hb : curRow y xsize + x < (xsize + 2) * 2 ∧ prevRow y xsize + x + 1 < (xsize + 2) * 2 := by
    unfold curRow prevRow; split <;> omega
  generalize curRow y xsize = cr at *
  generalize prevRow y xsize = pr at *
  have hbp := hs.bp
  rw [chk_ok (by omega), Option.bind_some, if_pos (by rw [hi.le]; exact hb.1)]
  obtain ⟨a0, e0, n0⟩ := updateOne_total (pe := s.pe0) (val := val * 8) (cur := cr) (prev := pr) (x := x) hs.b0 (by omega) (by rw [hi.l0]; exact hb.1) (by rw [hi.l0]; exact hb.2)
  obtain ⟨a1, e1, n1⟩ := updateOne_total (pe := s.pe1) (val := val * 8) (cur := cr) (prev := pr) (x := x) hs.b1 (by omega) (by rw [hi.l1]; exact hb.1) (by rw [hi.l1]; exact hb.2)
  obtain ⟨a2, e2, n2⟩ := updateOne_total (pe := s.pe2) (val := val * 8) (cur := cr) (prev := pr) (x := x) hs.b2 (by omega) (by rw [hi.l2]; exact hb.1) (by rw [hi.l2]; exact hb.2)
  obtain ⟨a3, e3, n3⟩ := updateOne_total (pe := s.pe3) (val := val * 8) (cur := cr) (prev := pr) (x := x) hs.b3 (by omega) (by rw [hi.l3]; exact hb.1) (by rw [hi.l3]; exact hb.2)
  rw [e0, e1, e2, e3, Option.bind_some, Option.bind_some, Option.bind_some]
  exact ⟨_, rfl, ⟨by rw [← hi.l0]; exact n0, by rw [← hi.l1]; exact n1, by rw [← hi.l2]; exact n2, by rw [← hi.l3]; exact n3, by simp [hi.le]⟩, ⟨hs.b0, hs.b1, hs.b2, hs.b3, hs.bp⟩⟩

end Jxl.Wp
