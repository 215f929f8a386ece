import Verif.Spec.BitReader
namespace Jxl
namespace BitReader

theorem leVal_eq (bs : List UInt8) : leVal bs = ofBits (bitsOfBytes bs) := by
  induction bs with
  | nil => rfl
  | cons b bs ih =>
    rw [leVal, ih, bitsOfBytes_cons, ofBits_append, bitsOf_length, ofBits_bitsOf_lt]
    exact b.toNat_lt

/-- The value of the whole stream. -/
def V (r : BitReader) : Nat := ofBits (bitsOfBytes r.bytes)

theorem V_lt (r : BitReader) : r.V < 2 ^ (8 * r.bytes.length) := by
  have := ofBits_lt (bitsOfBytes r.bytes)
  rwa [bitsOfBytes_length] at this

/-- Invariant of the reader at (internal) bit position `pos`. -/
structure Inv (r : BitReader) (pos : Nat) : Prop where
  sum : (r.next + r.overread) * 8 = pos + r.bitsInBuf
  lt : r.bitsInBuf < 64
  le : r.next ≤ r.bytes.length
  over : r.overread ≠ 0 → r.next = r.bytes.length
  val : ∃ m, r.bitsInBuf ≤ m ∧ m ≤ 64 ∧ r.buf = r.V / 2 ^ pos % 2 ^ m

theorem Inv.total {r : BitReader} {pos} (h : Inv r pos) : r.totalBitsConsumed = pos := by
  unfold totalBitsConsumed; have := h.sum; omega

theorem byte_eq (bs : List UInt8) (k : Nat) (b : UInt8) (h : bs[k]? = some b) :
    b.toNat = ofBits (bitsOfBytes bs) / 2 ^ (8 * k) % 2 ^ 8 := by
  rw [← ofBits_drop, bitsOfBytes_drop, ← ofBits_take]
  have hk : k < bs.length := by
    rcases Nat.lt_or_ge k bs.length with h' | h'
    · exact h'
    · rw [List.getElem?_eq_none h'] at h; cases h
  rw [List.drop_eq_getElem_cons hk, bitsOfBytes_cons, List.take_append]
  simp only [bitsOf_length, Nat.sub_self, List.take_zero, List.append_nil]
  rw [List.take_of_length_le (by simp)]
  rw [List.getElem?_eq_getElem hk] at h
  injection h with h
  rw [h, ofBits_bitsOf_lt b.toNat_lt]

/-- Merging `w` bits of the stream at offset `b` into the buffer. -/
theorem or_merge (W b m w : Nat) (hb : b ≤ m) (hm : m ≤ 64) :
    (W % 2 ^ m) ||| ((W / 2 ^ b % 2 ^ w) <<< b) % 2 ^ 64 = W % 2 ^ (max m (min (b + w) 64)) := by
  apply Nat.eq_of_testBit_eq
  intro i
  simp only [Nat.testBit_or, Nat.testBit_mod_two_pow, Nat.testBit_shiftLeft, Nat.testBit_div_two_pow]
  by_cases h1 : i < m
  · have h2 : i < max m (min (b + w) 64) := by omega
    simp only [h1, h2, decide_true, Bool.true_and]
    by_cases h3 : b ≤ i
    · have e : b + (i - b) = i := by omega
      simp [h3, Nat.add_comm (i - b) b, e]
    · simp [h3]
  · have h3 : b ≤ i := by omega
    have e : b + (i - b) = i := by omega
    simp only [h1, decide_false, Bool.false_and, Bool.false_or, h3, decide_true, Bool.true_and,
      Nat.add_comm (i - b) b, e]
    by_cases h4 : i < 64
    · by_cases h5 : i - b < w
      · have h2 : i < max m (min (b + w) 64) := by omega
        simp [h4, h5, h2]
      · have h2 : ¬ i < max m (min (b + w) 64) := by omega
        simp [h5, h2]
    · have h2 : ¬ i < max m (min (b + w) 64) := by omega
      simp [h4, h2]

theorem refillLoop_inv (fuel : Nat) (r : BitReader) (pos : Nat) (h : Inv r pos) (ho : r.overread = 0 ∨ r.next = r.bytes.length) :
    Inv (refillLoop fuel r) pos ∧ (refillLoop fuel r).bytes = r.bytes ∧
      (refillLoop fuel r).overread = r.overread ∧ (refillLoop fuel r).checked = r.checked ∧
      (64 ≤ r.bitsInBuf + 8 * fuel →
        (56 ≤ (refillLoop fuel r).bitsInBuf ∨ (refillLoop fuel r).next = r.bytes.length)) := by
  induction fuel generalizing r with
  | zero =>
    refine ⟨h, rfl, rfl, rfl, ?_⟩
    intro h2; have := h.lt; omega
  | succ fuel ih =>
    rw [refillLoop]
    split
    · rename_i hlt
      split
      · rename_i hnone
        refine ⟨h, rfl, rfl, rfl, fun _ => Or.inr ?_⟩
        have := List.getElem?_eq_none_iff.mp hnone
        have := h.le; omega
      · rename_i b hb
        have hk : r.next < r.bytes.length := by
          rcases Nat.lt_or_ge r.next r.bytes.length with h' | h'
          · exact h'
          · rw [List.getElem?_eq_none h'] at hb; cases hb
        have ho0 : r.overread = 0 := by rcases ho with h' | h' <;> omega
        obtain ⟨m, hm1, hm2, hbuf⟩ := h.val
        have hsum := h.sum
        have hinv : Inv { r with
          buf := r.buf ||| (b.toNat <<< r.bitsInBuf) % 2 ^ 64
          next := r.next + 1
          bitsInBuf := r.bitsInBuf + 8 } pos := by
          refine ⟨?_, ?_, ?_, ?_, ?_⟩
          · simp only; omega
          · simp only; omega
          · simp only; omega
          · simp only; omega
          · refine ⟨max m (min (r.bitsInBuf + 8) 64), by simp only; omega, by omega, ?_⟩
            simp only [V]
            rw [← or_merge _ _ _ _ hm1 hm2, hbuf, byte_eq _ _ _ hb, Nat.div_div_eq_div_mul, ← Nat.pow_add,
              show pos + r.bitsInBuf = 8 * r.next by omega]
            rfl
        have := ih _ hinv (Or.inl ho0)
        refine ⟨this.1, this.2.1, this.2.2.1, this.2.2.2.1, ?_⟩
        intro h64
        exact this.2.2.2.2 (by simp only; omega)
    · refine ⟨h, rfl, rfl, rfl, fun _ => Or.inl (by omega)⟩

theorem boundsCheckedRefill_inv (r : BitReader) (pos : Nat) (h : Inv r pos) :
    Inv (boundsCheckedRefill r) pos ∧ 56 ≤ (boundsCheckedRefill r).bitsInBuf ∧
      (boundsCheckedRefill r).bytes = r.bytes ∧ (boundsCheckedRefill r).checked = r.checked := by
  have ho : r.overread = 0 ∨ r.next = r.bytes.length := by
    rcases Nat.eq_zero_or_pos r.overread with h0 | h0
    · exact Or.inl h0
    · exact Or.inr (h.over (by omega))
  obtain ⟨hi, hb, hov, hck, hfin⟩ := refillLoop_inv 8 r pos h ho
  have hfin := hfin (by omega)
  have hlt := hi.lt
  have hsum := hi.sum
  rw [boundsCheckedRefill]
  generalize refillLoop 8 r = r' at *
  refine ⟨⟨?_, ?_, ?_, ?_, ?_⟩, ?_, hb, hck⟩
  · simp only; omega
  · simp only; omega
  · exact hi.le
  · simp only
    intro hne
    rcases hfin with h56 | hend
    · have : (63 - r'.bitsInBuf) / 8 = 0 := by omega
      rw [this] at hne
      exact hi.over (by omega)
    · rw [hb]; exact hend
  · obtain ⟨m, hm1, hm2, hbuf⟩ := hi.val
    simp only
    rcases hfin with h56 | hend
    · have : (63 - r'.bitsInBuf) / 8 = 0 := by omega
      rw [this]
      exact ⟨m, by omega, hm2, hbuf⟩
    · refine ⟨max m (r'.bitsInBuf + (63 - r'.bitsInBuf) / 8 * 8), by omega, by omega, ?_⟩
      rw [hbuf]
      have hV : r'.V / 2 ^ pos < 2 ^ r'.bitsInBuf := by
        rw [Nat.div_lt_iff_lt_mul (Nat.two_pow_pos _), ← Nat.pow_add]
        refine Nat.lt_of_lt_of_le r'.V_lt (Nat.pow_le_pow_right (by omega) ?_)
        rw [hb]; omega
      show r'.V / 2 ^ pos % 2 ^ m = r'.V / 2 ^ pos % _
      rw [Nat.mod_eq_of_lt (Nat.lt_of_lt_of_le hV (Nat.pow_le_pow_right (by omega) hm1)),
        Nat.mod_eq_of_lt (Nat.lt_of_lt_of_le hV (Nat.pow_le_pow_right (by omega) (by omega)))]
  · simp only; omega

theorem or56 (b : Nat) (h : b < 64) : b ||| 56 = b + (63 - b) / 8 * 8 := by
  have : ∀ b : Fin 64, b.val ||| 56 = b.val + (63 - b.val) / 8 * 8 := by decide
  exact this ⟨b, h⟩

theorem refill_inv (r : BitReader) (pos : Nat) (h : Inv r pos) :
    ∃ r', refill r = some r' ∧ Inv r' pos ∧ 56 ≤ r'.bitsInBuf ∧ r'.bytes = r.bytes ∧ r'.checked = r.checked := by
  unfold refill
  split
  · rename_i hlt
    obtain ⟨h1, h2, h3⟩ := boundsCheckedRefill_inv r pos h
    exact ⟨_, rfl, h1, h2, h3⟩
  · rename_i hle
    have hl := h.lt
    have hsum := h.sum
    have ho0 : r.overread = 0 := by
      rcases Nat.eq_zero_or_pos r.overread with h0 | h0
      · exact h0
      · have := h.over (by omega); omega
    obtain ⟨m, hm1, hm2, hbuf⟩ := h.val
    simp only [loadLE64, if_pos (show r.next + 8 ≤ r.bytes.length by omega), Option.bind_eq_bind, Option.bind_some]
    refine ⟨_, rfl, ⟨?_, ?_, ?_, ?_, ?_⟩, ?_, rfl, rfl⟩
    · simp only [or56 _ hl]; omega
    · simp only [or56 _ hl]; omega
    · simp only; omega
    · simp only; omega
    · refine ⟨64, by simp only [or56 _ hl]; omega, by omega, ?_⟩
      have key : leVal ((r.bytes.drop r.next).take 8) = r.V / 2 ^ pos / 2 ^ r.bitsInBuf % 2 ^ 64 := by
        rw [leVal_eq, Nat.div_div_eq_div_mul, ← Nat.pow_add, show pos + r.bitsInBuf = 8 * r.next by omega,
          ← bitsOfBytes_take, ← bitsOfBytes_drop, ofBits_take, ofBits_drop]
        rfl
      simp only [V]
      rw [key, hbuf, or_merge _ _ _ _ hm1 hm2]
      congr 2
      omega
    · simp only [or56 _ hl]; omega

theorem mod_mod_le (a m n : Nat) (h : n ≤ m) : a % 2 ^ m % 2 ^ n = a % 2 ^ n :=
  Nat.mod_mod_of_dvd a (Nat.pow_dvd_pow 2 h)

theorem peek_inv (r : BitReader) (pos n : Nat) (h : Inv r pos) (hn : n ≤ r.bitsInBuf) (hn' : n ≤ 56) :
    r.peekBits n = some (readAt (bitsOfBytes r.bytes) pos n) := by
  obtain ⟨m, hm1, hm2, hbuf⟩ := h.val
  rw [peekBits, if_pos hn', Nat.and_two_pow_sub_one_eq_mod, hbuf, readAt_eq, mod_mod_le _ _ _ (by omega)]
  rfl

theorem consume_inv (r : BitReader) (pos n : Nat) (h : Inv r pos) (hn : n ≤ r.bitsInBuf) :
    ∃ r', r.consume n = some r' ∧ Inv r' (pos + n) ∧ r'.bytes = r.bytes ∧ r'.checked = r.checked := by
  refine ⟨{ r with bitsInBuf := r.bitsInBuf - n, buf := r.buf >>> n }, by rw [consume, if_pos hn],
    ⟨?_, ?_, h.le, h.over, ?_⟩, rfl, rfl⟩
  · have := h.sum; simp only; omega
  · have := h.lt; simp only; omega
  · obtain ⟨m, hm1, hm2, hbuf⟩ := h.val
    refine ⟨m - n, by simp only; omega, by omega, ?_⟩
    simp only [V]
    rw [hbuf, Nat.shiftRight_eq_div_pow, Nat.pow_add, ← Nat.div_div_eq_div_mul]
    apply Nat.eq_of_testBit_eq
    intro i
    simp only [Nat.testBit_mod_two_pow, Nat.testBit_div_two_pow]
    congr 1
    simp only [decide_eq_decide]; omega

theorem readBits_inv (r : BitReader) (pos n : Nat) (h : Inv r pos) (hn : n ≤ 56) :
    ∃ r', r.readBits n = some (readAt (bitsOfBytes r.bytes) pos n, r') ∧ Inv r' (pos + n) ∧
      r'.bytes = r.bytes ∧ r'.checked = r.checked := by
  obtain ⟨r1, h1, i1, b1, e1, c1⟩ := refill_inv r pos h
  obtain ⟨r2, h2, i2, e2, c2⟩ := consume_inv r1 pos n i1 (by omega)
  refine ⟨r2, ?_, i2, by rw [e2, e1], by rw [c2, c1]⟩
  simp only [readBits, h1, Option.bind_eq_bind, Option.bind_some, peek_inv r1 pos n i1 (by omega) hn, h2, e1]

/-- Skips: the position advances by `skip`, or (clamped) both the true and the internal position are past the
end and congruent modulo 8. -/
theorem skipBits_inv (r : BitReader) (pos skip : Nat) (h : Inv r pos) :
    ∃ r' pos', r.skipBits skip = some r' ∧ Inv r' pos' ∧ r'.bytes = r.bytes ∧ r'.checked = r.checked ∧
      (pos' = pos + skip ∨ (8 * r.bytes.length < pos' ∧ 8 * r.bytes.length < pos + skip ∧
        pos' % 8 = (pos + skip) % 8 ∧ 0 < skip ∧ pos < pos')) := by
  unfold skipBits
  split
  · rename_i hle
    obtain ⟨r', e, i, b, c⟩ := consume_inv r pos skip h hle
    exact ⟨r', pos + skip, e, i, b, c, Or.inl rfl⟩
  · rename_i hgt
    have hsum := h.sum
    have hl := h.lt
    have hle := h.le
    simp only
    split
    · rename_i hw
      have i0 : Inv { r with next := r.bytes.length, bitsInBuf := 0, buf := 0 } (8 * (r.bytes.length + r.overread)) := by
        refine ⟨by simp only; omega, by simp only; omega, by simp only; omega, fun _ => rfl, 0, by simp only; omega, by omega, ?_⟩
        simp [Nat.mod_one]
      obtain ⟨r1, h1, i1, b1, e1, c1⟩ := refill_inv _ _ i0
      obtain ⟨r2, h2, i2, e2, c2⟩ := consume_inv r1 _ ((skip - r.bitsInBuf) % 8 + 8) i1 (by omega)
      refine ⟨r2, _, ?_, i2, by rw [e2, e1], by rw [c2, c1], Or.inr ?_⟩
      · simp only [h1, Option.bind_eq_bind, Option.bind_some, h2]
      · omega
    · rename_i hw
      have i0 : Inv { r with next := r.next + (skip - r.bitsInBuf) / 8, bitsInBuf := 0, buf := 0 }
          (8 * (r.next + (skip - r.bitsInBuf) / 8 + r.overread)) := by
        refine ⟨by simp only; omega, by simp only; omega, by simp only; omega, ?_, 0, by simp only; omega, by omega, ?_⟩
        · simp only; intro h0; have := h.over h0; omega
        · simp [Nat.mod_one]
      obtain ⟨r1, h1, i1, b1, e1, c1⟩ := refill_inv _ _ i0
      obtain ⟨r2, h2, i2, e2, c2⟩ := consume_inv r1 _ ((skip - r.bitsInBuf) % 8) i1 (by omega)
      refine ⟨r2, _, ?_, i2, by rw [e2, e1], by rw [c2, c1], Or.inl ?_⟩
      · simp only [h1, Option.bind_eq_bind, Option.bind_some, h2]
      · omega

theorem mk_inv (bytes : List UInt8) :
    ∃ r, mk' bytes = some r ∧ Inv r 0 ∧ r.bytes = bytes ∧ r.checked = 0 := by
  have i0 : Inv { bytes := bytes } 0 := by
    refine ⟨rfl, by simp, by simp, by simp, 0, by simp, by simp, by simp [Nat.mod_one]⟩
  obtain ⟨r1, h1, i1, b1, e1, c1⟩ := refill_inv _ _ i0
  exact ⟨r1, h1, i1, e1, c1⟩

/-- Past the end everything reads as zero. -/
theorem readAt_past (s : List Bool) (pos n : Nat) (h : s.length ≤ pos) : readAt s pos n = 0 := by
  rw [readAt, List.drop_eq_nil_of_le h]; simp

/-- The relation between the internal position and the position of the specification. -/
def Rel (len pos spos : Nat) : Prop := pos = spos ∨ (len < pos ∧ len < spos ∧ pos % 8 = spos % 8)

theorem Rel.readAt {s : List Bool} {pos spos : Nat} (n : Nat) (h : Rel s.length pos spos) :
    readAt s pos n = readAt s spos n := by
  rcases h with h | ⟨h1, h2, _⟩
  · rw [h]
  · rw [readAt_past _ _ _ (by omega), readAt_past _ _ _ (by omega)]

theorem Rel.add {len pos spos : Nat} (n : Nat) (h : Rel len pos spos) : Rel len (pos + n) (spos + n) := by
  rcases h with h | ⟨h1, h2, h3⟩
  · exact Or.inl (by omega)
  · exact Or.inr ⟨by omega, by omega, by omega⟩

/-- Reads of at most 56 bits are the only client obligation. -/
def Op.ok : Op → Prop
  | .read n => n ≤ 56
  | _ => True

/-- Bits consumed since the last check, as the code tracks it. -/
def ChkRel (r : BitReader) (pos acc : Nat) : Prop := r.checked ≤ pos ∧ (r.checked < pos ↔ 0 < acc)

/-- `acc` after one operation. -/
def accStep (s : List Bool) (pos acc : Nat) (op : Op) : Nat :=
  if op = .check then 0 else acc + ((Spec.step s pos op).2 - pos)

theorem unchecked_cons (s : List Bool) (pos acc : Nat) (op : Op) (ops : List Op) :
    Spec.unchecked s pos acc (op :: ops) = Spec.unchecked s (Spec.step s pos op).2 (accStep s pos acc op) ops := by
  cases op <;> simp [Spec.unchecked, accStep, Spec.step]

theorem step_refines (r : BitReader) (pos spos acc : Nat) (op : Op) (h : Inv r pos)
    (hr : Rel (8 * r.bytes.length) pos spos) (hk : ChkRel r pos acc) (hop : op.ok) :
    ∃ r' pos', r.step op = some ((Spec.step (bitsOfBytes r.bytes) spos op).1, r') ∧ Inv r' pos' ∧
      r'.bytes = r.bytes ∧ Rel (8 * r.bytes.length) pos' (Spec.step (bitsOfBytes r.bytes) spos op).2 ∧
      ChkRel r' pos' (accStep (bitsOfBytes r.bytes) spos acc op) := by
  have hr' : Rel (bitsOfBytes r.bytes).length pos spos := by rwa [bitsOfBytes_length]
  obtain ⟨hk1, hk2⟩ := hk
  cases op with
  | read n =>
    obtain ⟨r', e, i, b, c⟩ := readBits_inv r pos n h hop
    refine ⟨r', pos + n, ?_, i, b, hr.add n, ?_⟩
    · simp only [step, e, Option.bind_eq_bind, Option.bind_some, Spec.step, hr'.readAt n]
    · simp only [ChkRel, accStep, Spec.step, c, reduceCtorEq, if_false]; omega
  | skip n =>
    obtain ⟨r', pos', e, i, b, c, hp⟩ := skipBits_inv r pos n h
    refine ⟨r', pos', ?_, i, b, ?_, ?_⟩
    · simp only [step, e, Option.bind_eq_bind, Option.bind_some, Spec.step]
    · simp only [Spec.step]
      have := hr.add n
      rcases hp with hp | ⟨h1, h2, h3, _⟩
      · rw [hp]; exact this
      · rcases this with h' | ⟨h4, h5, h6⟩
        · exact Or.inr ⟨h1, by omega, by omega⟩
        · exact Or.inr ⟨h1, h5, by omega⟩
    · simp only [ChkRel, accStep, Spec.step, c, reduceCtorEq, if_false]
      rcases hp with hp | ⟨_, _, _, h4, h5⟩ <;> omega
  | jump =>
    have hmod : pos % 8 = spos % 8 := by rcases hr with h' | h' <;> omega
    simp only [step, jumpToByteBoundary, h.total, Spec.step]
    by_cases h0 : pos % 8 = 0
    · rw [if_pos h0, ← hmod, h0]
      refine ⟨r, pos, ?_, h, rfl, hr, ?_⟩
      · simp [Jxl.readAt]
      · simp only [ChkRel, accStep, Spec.step, reduceCtorEq, if_false]; omega
    · rw [if_neg h0]
      obtain ⟨r', e, i, b, c⟩ := readBits_inv r pos (8 - pos % 8) h (by omega)
      refine ⟨r', pos + (8 - pos % 8), ?_, i, b, ?_, ?_⟩
      · simp only [e, Option.bind_eq_bind, Option.bind_some]
        rw [hr'.readAt, hmod, show (8 - spos % 8) % 8 = 8 - spos % 8 by omega]
      · have := hr.add (8 - pos % 8)
        rwa [show (8 - spos % 8) % 8 = 8 - pos % 8 by omega]
      · simp only [ChkRel, accStep, Spec.step, c, reduceCtorEq, if_false]; omega
  | check =>
    refine ⟨(r.allReadsWithinBounds).2, pos, ?_, ⟨h.sum, h.lt, h.le, h.over, h.val⟩, rfl, hr, ?_⟩
    · simp only [step, allReadsWithinBounds, h.total, Spec.step, bitsOfBytes_length, Option.some.injEq, Prod.mk.injEq,
        and_true, Out.status.injEq]
      rcases hr with h' | ⟨h1, h2, _⟩
      · rw [h']; by_cases h3 : spos ≤ 8 * r.bytes.length
        · simp [h3]; omega
        · simp [h3]; omega
      · have h3 : ¬ spos ≤ 8 * r.bytes.length := by omega
        simp [h3]; omega
    · simp only [ChkRel, accStep, if_true, allReadsWithinBounds, h.total]; omega

theorem run_refines (ops : List Op) (r : BitReader) (pos spos acc : Nat) (h : Inv r pos)
    (hr : Rel (8 * r.bytes.length) pos spos) (hk : ChkRel r pos acc) (hops : ∀ op ∈ ops, op.ok) :
    ∃ r' pos', r.run ops = some ((Spec.run (bitsOfBytes r.bytes) spos ops).1, r') ∧ Inv r' pos' ∧
      r'.bytes = r.bytes ∧ Rel (8 * r.bytes.length) pos' (Spec.run (bitsOfBytes r.bytes) spos ops).2 ∧
      ChkRel r' pos' (Spec.unchecked (bitsOfBytes r.bytes) spos acc ops) := by
  induction ops generalizing r pos spos acc with
  | nil => exact ⟨r, pos, rfl, h, rfl, hr, hk⟩
  | cons op ops ih =>
    obtain ⟨r1, p1, e1, i1, b1, rel1, c1⟩ := step_refines r pos spos acc op h hr hk (hops op (by simp))
    obtain ⟨r2, p2, e2, i2, b2, rel2, c2⟩ :=
      ih r1 p1 _ _ i1 (by rw [b1]; exact rel1) c1 (fun o ho => hops o (by simp [ho]))
    rw [b1] at e2 rel2 c2
    refine ⟨r2, p2, ?_, i2, by rw [b2, b1], rel2, ?_⟩
    · simp only [run, e1, Option.bind_eq_bind, Option.bind_some, e2, Spec.run]
    · rw [unchecked_cons]; exact c2

end BitReader
end Jxl
