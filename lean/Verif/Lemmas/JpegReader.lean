import Verif.Lemmas.JpegWriter
/-!
# The JPEG bit reader drops the stuffing and stops at the marker
-/
namespace Jxl.Jpeg

/-- The bits of a byte string, most significant bit first. -/
def bitsMsb (S : List Nat) : List Bool := S.flatMap (msb 8)

theorem bitsMsb_length (S : List Nat) : (bitsMsb S).length = 8 * S.length := by
  induction S with
  | nil => rfl
  | cons b S ih =>
    simp only [bitsMsb, List.flatMap_cons, List.length_append, msb_length, List.length_cons] at *
    omega

theorem bitsMsb_append (S T : List Nat) : bitsMsb (S ++ T) = bitsMsb S ++ bitsMsb T := by simp [bitsMsb]

/-- Packing is undone by reading the bytes as bits. -/
theorem bitsMsb_packBytes : ∀ k (l : List Bool), l.length = 8 * k → bitsMsb (packBytes l) = l := by
  intro k
  induction k with
  | zero => intro l h; have : l = [] := List.length_eq_zero_iff.mp (by omega); subst this; rfl
  | succ k ih =>
    intro l h
    have e : l = l.take 8 ++ l.drop 8 := (List.take_append_drop 8 l).symm
    have h8 : (l.take 8).length = 8 := by simp; omega
    conv => lhs; rw [e]
    rw [packBytes_append _ _ 1 (by omega), packBytes_single _ h8, bitsMsb_append, ih _ (by simp; omega)]
    have : bitsMsb [valMsb (l.take 8)] = l.take 8 := by
      have := msb_valMsb (l.take 8)
      rw [h8] at this
      simp [bitsMsb, this]
    rw [this, List.take_append_drop]

theorem stuff_getLast (S : List Nat) : ∀ (x : Nat), (stuff S).getLast? = some x → x ≠ 255 := by
  induction S with
  | nil => intro x h; cases h
  | cons b S ih =>
    intro x h
    rw [stuff] at h
    by_cases hb : b = 255
    · rw [if_pos hb] at h
      cases hs : stuff S with
      | nil => rw [hs] at h; simp at h; omega
      | cons y ys => rw [hs] at h; rw [List.getLast?_cons_cons, List.getLast?_cons_cons, ← hs] at h; exact ih x h
    · rw [if_neg hb] at h
      cases hs : stuff S with
      | nil => rw [hs] at h; simp at h; omega
      | cons y ys => rw [hs] at h; rw [List.getLast?_cons_cons, ← hs] at h; exact ih x h

/-- A segment inside a file: what precedes it does not end in `0xFF`, what follows is a marker. -/
structure Placed (d pre S : List Nat) : Prop where
  eq : ∃ m rest, m ≠ 0 ∧ d = pre ++ (stuff S ++ 255 :: m :: rest)
  bytes : ∀ b ∈ S, b < 256
  ne : pre ≠ []
  last : pre.getLast? ≠ some 255

/-- Where the marker is. -/
def mark (pre S : List Nat) : Nat := pre.length + (stuff S).length

theorem Placed.length {d pre S} (h : Placed d pre S) : mark pre S + 2 ≤ d.length := by
  obtain ⟨m, rest, _, rfl⟩ := h.eq
  simp [mark]; omega

theorem Placed.byte {d pre S} (h : Placed d pre S) (j : Nat) (b : Nat) (hj : S[j]? = some b) :
    d[pre.length + (stuff (S.take j)).length]? = some b ∧
      (b = 255 → d[pre.length + (stuff (S.take j)).length + 1]? = some 0) := by
  obtain ⟨m, rest, _, rfl⟩ := h.eq
  obtain ⟨hlt, hb⟩ := List.getElem?_eq_some_iff.mp hj
  have e : S = S.take j ++ b :: S.drop (j + 1) := by
    conv => lhs; rw [← List.take_append_drop j S]
    rw [List.drop_eq_getElem_cons hlt, hb]
  have e2 : stuff S = stuff (S.take j) ++ stuff (b :: S.drop (j + 1)) := by
    conv => lhs; rw [e]
    rw [stuff_append]
  rw [e2]
  constructor
  · rw [List.append_assoc, List.getElem?_append_right (by omega), List.getElem?_append_right (by omega)]
    rw [stuff]
    have : pre.length + (stuff (S.take j)).length - pre.length - (stuff (S.take j)).length = 0 := by omega
    rw [this]
    split <;> rfl
  · intro h255
    rw [List.append_assoc, List.getElem?_append_right (by omega), List.getElem?_append_right (by omega)]
    rw [stuff, if_pos h255]
    have : pre.length + (stuff (S.take j)).length + 1 - pre.length - (stuff (S.take j)).length = 1 := by omega
    rw [this]; rfl

theorem Placed.marker {d pre S} (h : Placed d pre S) :
    d[mark pre S]? = some 255 ∧ ∃ m, m ≠ 0 ∧ d[mark pre S + 1]? = some m := by
  obtain ⟨m, rest, hm, rfl⟩ := h.eq
  constructor
  · rw [List.getElem?_append_right (by simp [mark]), List.getElem?_append_right (by simp [mark])]
    have : mark pre S - pre.length - (stuff S).length = 0 := by simp [mark]
    rw [this]; rfl
  · refine ⟨m, hm, ?_⟩
    rw [List.getElem?_append_right (by simp [mark]; omega), List.getElem?_append_right (by simp [mark]; omega)]
    have : mark pre S + 1 - pre.length - (stuff S).length = 1 := by simp [mark]; omega
    rw [this]; rfl

theorem stuff_take_le (S : List Nat) (j : Nat) : (stuff (S.take j)).length ≤ (stuff S).length := by
  conv => rhs; rw [← List.take_append_drop j S]
  rw [stuff_append, List.length_append]; omega

/-- `T` are the bytes returned so far; the last `left` bits of them are in the window. -/
structure RInv (d pre S : List Nat) (T : List Nat) (r : Reader) : Prop where
  pos : r.pos = pre.length + (stuff (S.take T.length)).length + (T.length - S.length)
  agree : T.take S.length = S.take T.length
  low : T.length ≤ S.length → r.marker = d.length - 2
  high : S.length < T.length → r.marker = mark pre S
  bytes : ∀ b ∈ T, b < 256
  left : r.left ≤ 64 ∧ r.left ≤ 8 * T.length
  val : r.val % 2 ^ r.left = valMsb ((bitsMsb T).drop (8 * T.length - r.left))

theorem getNextByte_inv {d pre S T r} (hp : Placed d pre S) (h : RInv d pre S T r) :
    ∃ b r', getNextByte d r = some (b, r') ∧ b < 256 ∧ r'.val = r.val ∧ r'.left = r.left ∧
      (∀ c, S[T.length]? = some c → b = c) ∧
      r'.pos = pre.length + (stuff (S.take (T.length + 1))).length + (T.length + 1 - S.length) ∧
      (T.length + 1 ≤ S.length → r'.marker = d.length - 2) ∧
      (S.length < T.length + 1 → r'.marker = mark pre S) := by
  have hlen := hp.length
  by_cases hj : T.length < S.length
  · obtain ⟨c, hc⟩ : ∃ c, S[T.length]? = some c := ⟨_, List.getElem?_eq_getElem hj⟩
    have hcb : c < 256 := hp.bytes c (List.mem_of_getElem? hc)
    have hm := h.low (by omega)
    have hpos : r.pos = pre.length + (stuff (S.take T.length)).length := by rw [h.pos]; omega
    have ht : S.take (T.length + 1) = S.take T.length ++ [c] := by rw [List.take_add_one, hc]; rfl
    have hb := hp.byte T.length c hc
    rw [← hpos] at hb
    have hle := stuff_take_le S (T.length + 1)
    rw [ht, stuff_append, List.length_append] at hle
    have h1 : 1 ≤ (stuff [c]).length := by simp only [stuff]; split <;> simp
    have hlt : r.pos < r.marker := by rw [hm]; unfold mark at hlen; omega
    unfold getNextByte
    rw [if_neg (by omega), hb.1]
    by_cases h255 : c = 255
    · simp only [h255, if_true]
      have := hb.2 h255
      simp only [this, if_true]
      refine ⟨_, _, rfl, by omega, rfl, rfl, ?_, ?_, ?_, by intro hh; omega⟩
      · intro c' hc'; rw [hc] at hc'; injection hc' with hc'; omega
      · show r.pos + 2 = _
        rw [ht, stuff_append, List.length_append, hpos, h255]; simp [stuff]; omega
      · intro _; exact hm
    · simp only [h255, if_false]
      refine ⟨_, _, rfl, hcb, rfl, rfl, ?_, ?_, ?_, by intro hh; omega⟩
      · intro c' hc'; rw [hc] at hc'; injection hc'
      · show r.pos + 1 = _
        rw [ht, stuff_append, List.length_append, hpos]; simp [stuff, h255]; omega
      · intro _; exact hm
  · have hst : ∀ k, S.length ≤ k → S.take k = S := fun k hk => List.take_of_length_le hk
    have hpos : r.pos = mark pre S + (T.length - S.length) := by
      rw [h.pos, hst _ (by omega)]; rfl
    have hnone : ∀ c, S[T.length]? = some c → (0 : Nat) = c := by
      intro c hc; rw [List.getElem?_eq_none (by omega)] at hc; cases hc
    have hnone2 : ∀ c, S[T.length]? = some c → (255 : Nat) = c := by
      intro c hc; rw [List.getElem?_eq_none (by omega)] at hc; cases hc
    have hfin : mark pre S + (T.length - S.length) + 1 =
        pre.length + (stuff (S.take (T.length + 1))).length + (T.length + 1 - S.length) := by
      rw [hst _ (by omega)]; unfold mark; omega
    unfold getNextByte
    by_cases hge : r.pos ≥ r.marker
    · rw [if_pos hge]
      refine ⟨_, _, rfl, by decide, rfl, rfl, hnone, ?_, by intro hh; omega, ?_⟩
      · show r.pos + 1 = _; rw [hpos]; exact hfin
      · intro _
        show r.marker = _
        by_cases he : S.length < T.length
        · exact h.high he
        · have hm := h.low (by omega)
          rw [hm] at hge ⊢
          omega
    · rw [if_neg hge]
      have he : T.length = S.length := by
        rcases Nat.lt_or_ge S.length T.length with hh | hh
        · have := h.high hh; omega
        · omega
      have hpos : r.pos = mark pre S := by omega
      obtain ⟨m1, m, hm, m2⟩ := hp.marker
      rw [hpos, m1]
      simp only [if_true, m2, hm, if_false]
      refine ⟨_, _, rfl, by decide, rfl, rfl, hnone2, ?_, by intro hh; omega, fun _ => rfl⟩
      show mark pre S + 1 = _
      rw [← hfin]; omega

theorem mod_window (v b l : Nat) (hl : l + 8 ≤ 64) (hb : b < 256) :
    (((v <<< 8) % 2 ^ 64) ||| b) % 2 ^ (l + 8) = (v % 2 ^ l) * 256 + b := by
  have e1 : (v <<< 8) % 2 ^ 64 = (v % 2 ^ 56) * 2 ^ 8 := by
    rw [Nat.shiftLeft_eq]
    have : (2 : Nat) ^ 64 = 2 ^ 56 * 2 ^ 8 := by decide
    rw [this, Nat.mul_mod_mul_right]
  rw [e1, or_add _ _ 8 hb, Nat.pow_add]
  have e2 : v % 2 ^ 56 % 2 ^ l = v % 2 ^ l :=
    Nat.mod_mod_of_dvd _ (Nat.pow_dvd_pow 2 (by omega))
  rw [← e2]
  generalize v % 2 ^ 56 = u
  have e3 : (2 : Nat) ^ 8 = 256 := rfl
  rw [e3, Nat.mul_comm (2 ^ l), Nat.mod_mul, Nat.mul_comm 256]
  have : (u * 256 + b) % 256 = b := by omega
  rw [this]
  have : (u * 256 + b) / 256 = u := by omega
  rw [this, Nat.add_comm]

theorem step_inv {d pre S T : List Nat} {r r' : Reader} {b : Nat} (h : RInv d pre S T r) (hl : r.left ≤ 56)
    (hb : b < 256) (hv : r'.val = r.val) (hll : r'.left = r.left) (hS : ∀ c, S[T.length]? = some c → b = c)
    (hpos : r'.pos = pre.length + (stuff (S.take (T.length + 1))).length + (T.length + 1 - S.length))
    (hlo : T.length + 1 ≤ S.length → r'.marker = d.length - 2)
    (hhi : S.length < T.length + 1 → r'.marker = mark pre S) :
    RInv d pre S (T ++ [b]) { r' with val := ((r'.val <<< 8) % 2 ^ 64) ||| b, left := r'.left + 8 } := by
  have hlen : (T ++ [b]).length = T.length + 1 := by simp
  have hle := h.left
  refine ⟨by rw [hlen]; exact hpos, ?_, by rw [hlen]; exact hlo, by rw [hlen]; exact hhi, ?_, ?_, ?_⟩
  · rw [hlen]
    by_cases hj : T.length < S.length
    · rw [List.take_of_length_le (by simp; omega), List.take_add_one, ← h.agree, List.take_of_length_le (by omega)]
      have hc := List.getElem?_eq_getElem hj
      rw [hc, ← hS _ hc]; rfl
    · rw [List.take_append_of_le_length (by omega), h.agree, List.take_of_length_le (by omega),
        List.take_of_length_le (by omega)]
  · intro x hx
    rcases List.mem_append.mp hx with hx | hx
    · exact h.bytes x hx
    · simp at hx; omega
  · show r'.left + 8 ≤ 64 ∧ r'.left + 8 ≤ 8 * (T ++ [b]).length
    rw [hlen]; omega
  · show (((r'.val <<< 8) % 2 ^ 64) ||| b) % 2 ^ (r'.left + 8) =
      valMsb ((bitsMsb (T ++ [b])).drop (8 * (T ++ [b]).length - (r'.left + 8)))
    rw [hlen, mod_window _ _ _ (by omega) hb, hv, hll, h.val, bitsMsb_append]
    have e : 8 * (T.length + 1) - (r.left + 8) = 8 * T.length - r.left := by omega
    rw [e, List.drop_append_of_le_length (by rw [bitsMsb_length]; omega), valMsb_append]
    have e2 : bitsMsb [b] = msb 8 b := by simp [bitsMsb]
    rw [e2, msb_length, valMsb_msb _ _ (by simpa using hb)]

theorem fillLoop_inv {d pre S} (hp : Placed d pre S) : ∀ k {T r}, RInv d pre S T r → 56 < r.left + 8 * k →
    ∃ r' X, fillLoop d k r = some r' ∧ RInv d pre S (T ++ X) r' ∧ 56 < r'.left ∧
      r'.left = r.left + 8 * X.length := by
  intro k
  induction k with
  | zero =>
    intro T r h hk
    refine ⟨r, [], by rw [fillLoop, if_neg (by omega)], by simpa using h, by omega, by simp⟩
  | succ k ih =>
    intro T r h hk
    rw [fillLoop]
    by_cases hl : r.left ≤ 56
    · rw [if_pos hl]
      obtain ⟨b, r1, e1, hb, hv, hll, hS, hpos, hlo, hhi⟩ := getNextByte_inv hp h
      have h1 := step_inv h hl hb hv hll hS hpos hlo hhi
      rw [e1]
      obtain ⟨r2, X, e2, h2, h3, h4⟩ := ih h1 (by show 56 < r1.left + 8 + 8 * k; omega)
      refine ⟨r2, b :: X, e2, by simpa using h2, h3, ?_⟩
      rw [h4]
      show r1.left + 8 + 8 * X.length = _
      simp; omega
    · rw [if_neg hl]
      exact ⟨r, [], rfl, by simpa using h, by omega, by simp⟩

theorem fill_inv {d pre S T r} (hp : Placed d pre S) (h : RInv d pre S T r) :
    ∃ r' X, fill d r = some r' ∧ RInv d pre S (T ++ X) r' ∧ 17 ≤ r'.left ∧ r'.left = r.left + 8 * X.length := by
  unfold fill
  split
  · obtain ⟨r', X, e, h1, h2, h3⟩ := fillLoop_inv hp 8 h (by omega)
    exact ⟨r', X, e, h1, by omega, h3⟩
  · exact ⟨r, [], rfl, by simpa using h, by omega, by simp⟩

/-- The position in the stream of bits: consumed bits. -/
def used (T : List Nat) (r : Reader) : Nat := 8 * T.length - r.left

theorem readBits_inv {d pre S T r} (hp : Placed d pre S) (h : RInv d pre S T r) (n : Nat) (hn : n ≤ 16) :
    ∃ v r' X, readBits d r n = some (v, r') ∧ RInv d pre S (T ++ X) r' ∧ used (T ++ X) r' = used T r + n ∧
      v = valMsb (((bitsMsb (T ++ X)).drop (used T r)).take n) ∧ used T r + n ≤ 8 * (T ++ X).length := by
  obtain ⟨r1, X, e1, h1, h17, hl⟩ := fill_inv hp h
  have hle := h1.left
  have hle0 := h.left
  have hlen : (T ++ X).length = T.length + X.length := by simp
  have hu : 8 * (T ++ X).length - r1.left = used T r := by rw [hlen]; unfold used; omega
  unfold readBits
  rw [e1]
  simp only [Option.bind_some]
  rw [if_neg (by omega)]
  have hbl : ((bitsMsb (T ++ X)).drop (used T r)).length = r1.left := by
    rw [List.length_drop, bitsMsb_length]; omega
  have hval := h1.val
  rw [hu] at hval
  have hsplit := List.take_append_drop n ((bitsMsb (T ++ X)).drop (used T r))
  have hdl : (((bitsMsb (T ++ X)).drop (used T r)).drop n).length = r1.left - n := by rw [List.length_drop, hbl]
  have htl : (((bitsMsb (T ++ X)).drop (used T r)).take n).length = n := by rw [List.length_take, hbl]; omega
  have hw : r1.val % 2 ^ r1.left = valMsb (((bitsMsb (T ++ X)).drop (used T r)).take n) * 2 ^ (r1.left - n) +
      valMsb (((bitsMsb (T ++ X)).drop (used T r)).drop n) := by
    rw [hval]
    conv => lhs; rw [← hsplit]
    rw [valMsb_append, hdl]
  have hd := valMsb_lt (((bitsMsb (T ++ X)).drop (used T r)).drop n)
  rw [hdl] at hd
  have ht := valMsb_lt (((bitsMsb (T ++ X)).drop (used T r)).take n)
  rw [htl] at ht
  refine ⟨_, _, X, rfl, ⟨h1.pos, h1.agree, h1.low, h1.high, h1.bytes, ?_, ?_⟩, ?_, ?_, ?_⟩
  · show r1.left - n ≤ 64 ∧ r1.left - n ≤ 8 * (T ++ X).length; omega
  · show r1.val % 2 ^ (r1.left - n) = valMsb ((bitsMsb (T ++ X)).drop (8 * (T ++ X).length - (r1.left - n)))
    have e : 8 * (T ++ X).length - (r1.left - n) = used T r + n := by omega
    rw [e, ← List.drop_drop]
    have e2 : r1.val % 2 ^ r1.left % 2 ^ (r1.left - n) = r1.val % 2 ^ (r1.left - n) :=
      Nat.mod_mod_of_dvd _ (Nat.pow_dvd_pow 2 (by omega))
    rw [← e2, hw, Nat.mul_add_mod_self_right, Nat.mod_eq_of_lt hd]
  · show 8 * (T ++ X).length - (r1.left - n) = _; omega
  · show (r1.val >>> (r1.left - n)) &&& (2 ^ n - 1) = _
    rw [Nat.and_two_pow_sub_one_eq_mod, Nat.shiftRight_eq_div_pow]
    have e2 : r1.val % 2 ^ r1.left / 2 ^ (r1.left - n) = r1.val / 2 ^ (r1.left - n) % 2 ^ n := by
      have : (2 : Nat) ^ r1.left = 2 ^ (r1.left - n) * 2 ^ n := by rw [← Nat.pow_add]; congr 1; omega
      rw [this, Nat.mod_mul_right_div_self]
    rw [← e2, hw, Nat.mul_comm, Nat.mul_add_div (Nat.two_pow_pos _), Nat.div_eq_of_lt hd, Nat.add_zero]
  · omega

theorem readMany_inv {d pre S} (hp : Placed d pre S) : ∀ (ns : List Nat) {T r}, RInv d pre S T r →
    (∀ n ∈ ns, n ≤ 16) →
    ∃ vs r' X, readMany d ns r = some (vs, r') ∧ RInv d pre S (T ++ X) r' ∧ vs.length = ns.length ∧
      used (T ++ X) r' = used T r + ns.sum ∧ used T r + ns.sum ≤ 8 * (T ++ X).length ∧
      codeBits (ns.zip vs) = ((bitsMsb (T ++ X)).drop (used T r)).take ns.sum ∧
      ∀ p ∈ ns.zip vs, p.2 < 2 ^ p.1 := by
  intro ns
  induction ns with
  | nil =>
    intro T r h _
    have := h.left
    exact ⟨[], r, [], rfl, by simpa using h, rfl, by simp, by simp [used], by simp [codeBits], by simp⟩
  | cons n ns ih =>
    intro T r h hn
    obtain ⟨v, r1, X, e1, h1, u1, v1, b1⟩ := readBits_inv hp h n (hn n (by simp))
    obtain ⟨vs, r2, Y, e2, h2, l2, u2, b2, c2, q2⟩ := ih h1 (fun m hm => hn m (by simp [hm]))
    have hlen : (T ++ X ++ Y).length = (T ++ X).length + Y.length := by rw [List.length_append]
    have hbx : ((bitsMsb (T ++ X)).drop (used T r)).take n = ((bitsMsb (T ++ X ++ Y)).drop (used T r)).take n := by
      rw [bitsMsb_append (T ++ X), List.drop_append_of_le_length (by rw [bitsMsb_length]; omega),
        List.take_append_of_le_length (by rw [List.length_drop, bitsMsb_length]; omega)]
    have htl : (((bitsMsb (T ++ X)).drop (used T r)).take n).length = n := by
      rw [List.length_take, List.length_drop, bitsMsb_length]; omega
    refine ⟨v :: vs, r2, X ++ Y, by rw [readMany, e1]; simp [e2], by rw [← List.append_assoc]; exact h2, by simp [l2],
      ?_, ?_, ?_, ?_⟩
    · rw [← List.append_assoc, u2, u1, List.sum_cons]; omega
    · rw [← List.append_assoc, List.sum_cons]; omega
    · rw [← List.append_assoc, List.zip_cons_cons, List.sum_cons, List.take_add, ← hbx, List.drop_drop, ← u1, ← c2]
      show msb n v ++ codeBits (ns.zip vs) = _
      have := msb_valMsb (((bitsMsb (T ++ X)).drop (used T r)).take n)
      rw [htl] at this
      rw [v1, this]
    · intro p hm
      rw [List.zip_cons_cons] at hm
      rcases List.mem_cons.mp hm with rfl | hm
      · have := valMsb_lt (((bitsMsb (T ++ X)).drop (used T r)).take n)
        rw [htl, ← v1] at this
        exact this
      · exact q2 p hm

/-! ## Giving bytes back -/

/-- The position after `j` bytes. -/
def posAt (pre S : List Nat) (j : Nat) : Nat := pre.length + (stuff (S.take j)).length + (j - S.length)

theorem prevByte {d pre S} (hp : Placed d pre S) (j : Nat) (p : Nat)
    (e : p = pre.length + (stuff (S.take j)).length) : ∃ x, p ≠ 0 ∧ d[p - 1]? = some x ∧ x ≠ 255 := by
  obtain ⟨m, rest, _, rfl⟩ := hp.eq
  have hne := hp.ne
  have hl := hp.last
  have e2 : stuff S = stuff (S.take j) ++ stuff (S.drop j) := by
    conv => lhs; rw [← List.take_append_drop j S]
    rw [stuff_append]
  have hpl : 0 < pre.length := List.length_pos_iff.mpr hne
  by_cases hs : stuff (S.take j) = []
  · obtain ⟨x, hx⟩ : ∃ x, pre.getLast? = some x := ⟨_, List.getLast?_eq_some_getLast hne⟩
    refine ⟨x, by omega, ?_, by intro h; rw [h] at hx; exact hl hx⟩
    rw [e, hs, List.length_nil, Nat.add_zero, List.getElem?_append_left (by omega), ← hx, List.getLast?_eq_getElem?]
  · obtain ⟨x, hx⟩ : ∃ x, (stuff (S.take j)).getLast? = some x := ⟨_, List.getLast?_eq_some_getLast hs⟩
    have hsl : 0 < (stuff (S.take j)).length := List.length_pos_iff.mpr hs
    refine ⟨x, by omega, ?_, stuff_getLast _ x hx⟩
    rw [e, List.getElem?_append_right (by omega), e2, List.append_assoc, List.getElem?_append_left (by omega), ← hx,
      List.getLast?_eq_getElem?]
    congr 1; omega

theorem unreadByte_inv {d pre S} (hp : Placed d pre S) (marker j : Nat)
    (hm1 : S.length < j + 1 → marker ≥ mark pre S ∧ (S.length < j + 1 → marker = mark pre S))
    (hm2 : marker ≥ mark pre S) :
    unreadByte d marker (posAt pre S (j + 1)) = some (posAt pre S j) := by
  by_cases hj : j < S.length
  · obtain ⟨c, hc⟩ : ∃ c, S[j]? = some c := ⟨_, List.getElem?_eq_getElem hj⟩
    have hb := hp.byte j c hc
    obtain ⟨x, hx0, hx1, hx2⟩ := prevByte hp j _ rfl
    have ht : S.take (j + 1) = S.take j ++ [c] := by rw [List.take_add_one, hc]; rfl
    have hle := stuff_take_le S (j + 1)
    have e0 : posAt pre S j = pre.length + (stuff (S.take j)).length := by unfold posAt; omega
    by_cases h255 : c = 255
    · have e1 : posAt pre S (j + 1) = posAt pre S j + 2 := by
        rw [e0]; unfold posAt; rw [ht, stuff_append, List.length_append, h255]; simp [stuff]; omega
      have h1 : posAt pre S j + 1 < marker := by
        rw [ht, stuff_append, List.length_append, h255] at hle
        have : (stuff [255]).length = 2 := rfl
        unfold mark at hm2; omega
      have hb2 := hb.2 h255
      rw [← e0] at hb hb2
      unfold unreadByte
      rw [e1]
      have f0 : ¬ (posAt pre S j + 2 = 0) := by omega
      have f1 : posAt pre S j + 2 - 1 = posAt pre S j + 1 := by omega
      have f2 : ¬ (posAt pre S j + 1 = 0) := by omega
      have f3 : posAt pre S j + 1 - 1 = posAt pre S j := by omega
      simp only [f0, f1, h1, hb2, f2, f3, hb.1, h255, if_true, if_false]
    · have e1 : posAt pre S (j + 1) = posAt pre S j + 1 := by
        rw [e0]; unfold posAt; rw [ht, stuff_append, List.length_append]; simp [stuff, h255]; omega
      have h1 : posAt pre S j < marker := by
        rw [ht, stuff_append, List.length_append] at hle
        have : (stuff [c]).length = 1 := by simp [stuff, h255]
        unfold mark at hm2; omega
      rw [← e0] at hb hx0 hx1
      unfold unreadByte
      rw [e1]
      have f0 : ¬ (posAt pre S j + 1 = 0) := by omega
      have f1 : posAt pre S j + 1 - 1 = posAt pre S j := by omega
      simp only [f0, f1, h1, hb.1, hx0, hx1, hx2, if_false, ite_self]
  · have hst : ∀ k, S.length ≤ k → S.take k = S := fun k hk => List.take_of_length_le hk
    have e1 : posAt pre S (j + 1) = posAt pre S j + 1 := by
      unfold posAt; rw [hst _ (by omega), hst _ (by omega)]; omega
    have e2 : mark pre S ≤ posAt pre S j := by
      unfold posAt mark; rw [hst _ (by omega)]; omega
    have h1 := (hm1 (by omega)).2 (by omega)
    unfold unreadByte
    rw [e1]
    have f0 : ¬ (posAt pre S j + 1 = 0) := by omega
    have f1 : posAt pre S j + 1 - 1 = posAt pre S j := by omega
    have f2 : ¬ (posAt pre S j < marker) := by omega
    simp only [f0, f1, f2, if_false]

theorem unread_inv {d pre S} (hp : Placed d pre S) (marker : Nat) : ∀ (k j : Nat),
    (S.length < j + k → marker = mark pre S) → marker ≥ mark pre S →
    unread d marker k (posAt pre S (j + k)) = some (posAt pre S j) := by
  intro k
  induction k with
  | zero => intro j _ _; rfl
  | succ k ih =>
    intro j h1 h2
    rw [unread, ← Nat.add_assoc, unreadByte_inv hp marker (j + k) (fun h => ⟨h2, fun h => h1 (by omega)⟩) h2]
    exact ih j (fun h => h1 (by omega)) h2

theorem finish_inv {d pre S T r} (hp : Placed d pre S) (h : RInv d pre S T r) (Q : List Bool)
    (hQ : Q.length < 8) (hu : used T r + Q.length = 8 * S.length)
    (hbits : (bitsMsb S).drop (used T r) = Q) :
    finishStream d r = some (some (Q.map bit01, mark pre S)) := by
  have hle := h.left
  have hTS : S.length ≤ T.length := by unfold used at hu; omega
  have hT : T = S ++ T.drop S.length := by
    conv => lhs; rw [← List.take_append_drop S.length T]
    rw [h.agree, List.take_of_length_le hTS]
  have hleft : r.left = Q.length + 8 * (T.length - S.length) := by unfold used at hu; omega
  have hnp : r.left % 8 = Q.length := by omega
  have hsh : r.left >>> 3 = T.length - S.length := by rw [Nat.shiftRight_eq_div_pow]; omega
  have hpos : r.pos = posAt pre S (S.length + (T.length - S.length)) := by
    rw [h.pos]; unfold posAt
    have : S.length + (T.length - S.length) = T.length := by omega
    rw [this]
  have hmk : r.marker ≥ mark pre S := by
    rcases Nat.lt_or_ge S.length T.length with hh | hh
    · rw [h.high hh]; exact Nat.le_refl _
    · rw [h.low hh]; have := hp.length; omega
  have hmk2 : S.length < S.length + (T.length - S.length) → r.marker = mark pre S := fun hh => h.high (by omega)
  have hfin : posAt pre S S.length = mark pre S := by
    unfold posAt mark; rw [List.take_of_length_le (Nat.le_refl _)]; omega
  unfold finishStream
  simp only
  rw [hsh, hpos, unread_inv hp r.marker _ _ hmk2 hmk, hfin, hnp]
  simp only [Option.bind_some]
  rw [if_neg (by omega)]
  have hval : (r.val >>> (r.left - Q.length)) &&& (2 ^ Q.length - 1) = valMsb Q := by
    rw [Nat.and_two_pow_sub_one_eq_mod, Nat.shiftRight_eq_div_pow]
    have e2 : r.val % 2 ^ r.left / 2 ^ (r.left - Q.length) = r.val / 2 ^ (r.left - Q.length) % 2 ^ Q.length := by
      have : (2 : Nat) ^ r.left = 2 ^ (r.left - Q.length) * 2 ^ Q.length := by rw [← Nat.pow_add]; congr 1; omega
      rw [this, Nat.mod_mul_right_div_self]
    rw [← e2, h.val]
    have hu2 : 8 * T.length - r.left = used T r := rfl
    rw [hu2]
    have e3 : (bitsMsb T).drop (used T r) = Q ++ bitsMsb (T.drop S.length) := by
      conv => lhs; rw [hT]
      have hu3 : used (S ++ T.drop S.length) r = used T r := by rw [← hT]
      rw [hu3, bitsMsb_append, List.drop_append_of_le_length (by rw [bitsMsb_length]; omega), hbits]
    have hl3 : (bitsMsb (T.drop S.length)).length = r.left - Q.length := by
      rw [bitsMsb_length, List.length_drop]; omega
    have hlt := valMsb_lt (bitsMsb (T.drop S.length))
    rw [hl3] at hlt
    rw [e3, valMsb_append, hl3, Nat.mul_comm, Nat.mul_add_div (Nat.two_pow_pos _), Nat.div_eq_of_lt hlt, Nat.add_zero]
  have hmap : ((List.range Q.length).reverse.map fun i => (valMsb Q >>> i) &&& 1) = Q.map bit01 := by
    have e := msb_valMsb Q
    conv => rhs; rw [← e]
    apply List.ext_getElem?
    intro i
    by_cases hi : i < Q.length
    · have hq : Q.map bit01 = (msb Q.length (valMsb Q)).map bit01 := by rw [e]
      rw [← hq, List.getElem?_map, List.getElem?_map, List.getElem?_reverse (by simpa using hi), List.length_range,
        List.getElem?_range (by omega)]
      simp only [Option.map_some]
      have hone := valMsb_drop_take Q i 1 (by omega)
      rw [List.getElem?_eq_getElem hi]
      have hd : (Q.drop i).take 1 = [Q[i]] := by rw [List.drop_eq_getElem_cons hi]; rfl
      rw [hd] at hone
      have : Q.length - 1 - i = Q.length - i - 1 := by omega
      rw [this, Nat.shiftRight_eq_div_pow, Nat.and_one_is_mod]
      rw [Nat.pow_one] at hone
      rw [← hone]
      simp [bit01, valMsb, ofBits]
    · rw [List.getElem?_eq_none (by simp; omega), List.getElem?_eq_none (by simp; omega)]
  rw [hval, hmap]

/-- Reading a whole segment. -/
theorem readSegment {d pre S : List Nat} {B Q : List Bool} (hp : Placed d pre S) (hbits : bitsMsb S = B ++ Q)
    (hQ : Q.length < 8) (ns : List Nat) (hn : ∀ n ∈ ns, n ≤ 16) (hsum : ns.sum = B.length) :
    ∃ r0 vs r, Reader.reset d pre.length = some r0 ∧ readMany d ns r0 = some (vs, r) ∧ vs.length = ns.length ∧
      codeBits (ns.zip vs) = B ∧ (∀ p ∈ ns.zip vs, p.2 < 2 ^ p.1) ∧
      finishStream d r = some (some (Q.map bit01, mark pre S)) := by
  have hlen := hp.length
  have h0 : RInv d pre S [] { pos := pre.length, val := 0, left := 0, marker := d.length - 2 } := by
    refine ⟨by simp [stuff], by simp, fun _ => rfl, by intro h; simp at h, by simp, by simp, by simp [bitsMsb]⟩
  obtain ⟨r0, X, e0, h1, _, hl⟩ := fill_inv hp h0
  have hu0 : used ([] ++ X) r0 = 0 := by
    have : r0.left = 8 * X.length := by simpa using hl
    simp [used, this]
  obtain ⟨vs, r, Y, e1, h2, l2, u2, b2, c2, q2⟩ := readMany_inv hp ns h1 hn
  rw [hu0, Nat.zero_add] at u2 b2
  rw [hu0, List.drop_zero] at c2
  have hbl : 8 * S.length = B.length + Q.length := by rw [← bitsMsb_length, hbits, List.length_append]
  have hTS : S.length ≤ ([] ++ X ++ Y).length := by omega
  have hT : [] ++ X ++ Y = S ++ ([] ++ X ++ Y).drop S.length := by
    conv => lhs; rw [← List.take_append_drop S.length ([] ++ X ++ Y)]
    rw [h2.agree, List.take_of_length_le hTS]
  refine ⟨r0, vs, r, ?_, e1, l2, ?_, q2, ?_⟩
  · unfold Reader.reset; rw [if_neg (by omega)]; exact e0
  · rw [c2, hT, bitsMsb_append, hbits, hsum, List.append_assoc, List.take_left]
  · refine finish_inv hp h2 Q hQ ?_ ?_
    · rw [u2]; omega
    · rw [u2, hbits, hsum, List.drop_left]

end Jxl.Jpeg
