import Verif.Lemmas.JpegBits
/-!
# The JPEG bit writer packs and stuffs exactly the codes it is given
-/
namespace Jxl.Jpeg

/-- What has been written so far: `E` has left the put buffer, `R` is in it. -/
structure WInv (pre : List Nat) (B : List Bool) (w : Writer) : Prop where
  room : w.room ≤ 64
  ok : w.healthy = true
  split : ∃ E R k, B = E ++ R ∧ E.length = 64 * k ∧ R.length = 64 - w.room ∧
    w.out.reverse = pre ++ stuff (packBytes E) ∧ w.buf = valMsb R * 2 ^ w.room

theorem reserve_inv {pre B w} (n : Nat) (h : WInv pre B w) : WInv pre B (reserve w n) := by
  unfold reserve
  split
  · exact ⟨h.room, h.ok, h.split⟩
  · exact h

theorem emitByte_out {w w' : Writer} {b : Nat} (h : emitByte w b = some w') :
    w'.out.reverse = w.out.reverse ++ stuff [b] ∧ w'.buf = w.buf ∧ w'.room = w.room ∧
      w'.healthy = w.healthy ∧ w'.pos = w.pos + (stuff [b]).length := by
  unfold emitByte at h
  split at h
  · split at h
    · cases h; rename_i hb; simp [stuff, hb]
    · cases h; rename_i hb; simp [stuff, hb]
  · cases h

theorem emitBytes_out (v : Nat) : ∀ k {w w' : Writer}, emitBytes v k w = some w' →
    w'.out.reverse = w.out.reverse ++ stuff ((List.range k).map fun i => v / 2 ^ (8 * i) % 256).reverse ∧
      w'.buf = w.buf ∧ w'.room = w.room ∧ w'.healthy = w.healthy ∧
      w'.pos = w.pos + (stuff ((List.range k).map fun i => v / 2 ^ (8 * i) % 256).reverse).length := by
  intro k
  induction k with
  | zero => intro w w' h; cases h; simp [stuff]
  | succ k ih =>
    intro w w' h
    rw [emitBytes] at h
    cases he : emitByte w ((v >>> (8 * k)) &&& 0xFF) with
    | none => rw [he] at h; cases h
    | some w1 =>
      rw [he] at h
      have a := emitByte_out he
      have b := ih h
      have e : (v >>> (8 * k)) &&& 0xFF = v / 2 ^ (8 * k) % 256 := by
        rw [Nat.shiftRight_eq_div_pow]; exact Nat.and_two_pow_sub_one_eq_mod _ 8
      rw [e] at a
      have e2 : ((List.range (k + 1)).map fun i => v / 2 ^ (8 * i) % 256).reverse =
          [v / 2 ^ (8 * k) % 256] ++ ((List.range k).map fun i => v / 2 ^ (8 * i) % 256).reverse := by
        rw [List.range_succ, List.map_append, List.reverse_append]; rfl
      rw [e2, stuff_append]
      refine ⟨by rw [b.1, a.1, List.append_assoc], b.2.1.trans a.2.1, b.2.2.1.trans a.2.2.1,
        b.2.2.2.1.trans a.2.2.2.1, ?_⟩
      rw [b.2.2.2.2, a.2.2.2.2, List.length_append]; omega

theorem emitWord_out {w w' : Writer} {v : Nat} (hv : v < 2 ^ 64) (h : emitWord w v = some w') :
    w'.out.reverse = w.out.reverse ++ stuff (be64Rev v).reverse ∧ w'.healthy = w.healthy ∧
      w'.pos = w.pos + (stuff (be64Rev v).reverse).length := by
  unfold emitWord at h
  split at h
  · have := emitBytes_out v 8 h
    exact ⟨this.1, this.2.2.2.1, this.2.2.2.2⟩
  · rename_i hz
    have hz : hasZeroByte (2 ^ 64 - 1 - v) = false := by simpa using hz
    have hn := no_ff v hv hz
    split at h
    · cases h
      rw [stuff_id _ (fun b hb => hn b (by simpa using hb))]
      simp [be64Rev]
    · cases h

/-- Or-ing below the occupied bits is addition. -/
theorem or_add (a b r : Nat) (h : b < 2 ^ r) : a * 2 ^ r ||| b = a * 2 ^ r + b := by
  rw [Nat.mul_comm]; exact (Nat.two_pow_add_eq_or_of_lt h a).symm

theorem writeBits_inv {pre B w w' n v} (h : WInv pre B w) (hn : n ≤ 64) (hv : v < 2 ^ n)
    (hw : writeBits w n v = some w') : WInv pre (B ++ msb n v) w' ∧ w'.healthy = w.healthy := by
  obtain ⟨hroom, hok, E, R, k, hB, hE, hR, hout, hbuf⟩ := h
  unfold writeBits at hw
  by_cases hc : w.room < n
  · rw [if_pos hc, if_neg (by omega)] at hw
    unfold discharge at hw
    split at hw
    · cases hw
    · rename_i hov
      let sh := n - w.room
      have hsh : n - w.room = sh := rfl
      rw [hsh] at hw hov
      have hn' : n = w.room + sh := by omega
      have hhi : v >>> sh < 2 ^ w.room := by
        rw [Nat.shiftRight_eq_div_pow]
        apply Nat.div_lt_of_lt_mul
        rw [← Nat.pow_add]
        have : sh + w.room = n := by omega
        rw [this]; exact hv
      have e1 : w.buf ||| (v >>> sh) = valMsb (R ++ msb w.room (v >>> sh)) := by
        rw [hbuf, or_add _ _ _ hhi, valMsb_append, msb_length, valMsb_msb _ _ hhi]
      have hlen : (R ++ msb w.room (v >>> sh)).length = 8 * 8 := by simp [hR]; omega
      have hlt : valMsb (R ++ msb w.room (v >>> sh)) < 2 ^ 64 := by
        have := valMsb_lt (R ++ msb w.room (v >>> sh)); rw [hlen] at this; exact this
      rw [e1] at hw
      cases he : emitWord w (valMsb (R ++ msb w.room (v >>> sh))) with
      | none => rw [he] at hw; cases hw
      | some w1 =>
        rw [he] at hw
        have a := emitWord_out hlt he
        cases hw
        refine ⟨⟨by show 64 - sh ≤ 64; omega, a.2.1.trans hok, E ++ (R ++ msb w.room (v >>> sh)), msb sh v, k + 1, ?_, ?_, ?_, ?_, ?_⟩,
          a.2.1⟩
        · rw [hB, Nat.shiftRight_eq_div_pow]
          conv => lhs; rw [hn', msb_add]
          simp only [List.append_assoc]
        · rw [List.length_append, hlen, hE]; omega
        · show (msb sh v).length = 64 - (64 - sh)
          rw [msb_length]; omega
        · show w1.out.reverse = _
          rw [a.1, hout, packBytes_append E _ (8 * k) (by omega), stuff_append, packBytes_word _ 8 hlen,
            List.append_assoc]
          rfl
        · show (v <<< (64 - sh)) % 2 ^ 64 = valMsb (msb sh v) * 2 ^ (64 - sh)
          rw [← msb_mod, valMsb_msb _ _ (Nat.mod_lt _ (Nat.two_pow_pos _)), Nat.shiftLeft_eq]
          have : (2 : Nat) ^ 64 = 2 ^ sh * 2 ^ (64 - sh) := by rw [← Nat.pow_add]; congr 1; omega
          rw [this, Nat.mul_mod_mul_right]
  · rw [if_neg hc] at hw
    split at hw
    · cases hw
    · cases hw
      refine ⟨⟨by show w.room - n ≤ 64; omega, hok, E, R ++ msb n v, k, by rw [hB, List.append_assoc], hE, ?_, hout, ?_⟩, rfl⟩
      · show (R ++ msb n v).length = 64 - (w.room - n)
        rw [List.length_append, msb_length, hR]; omega
      · show w.buf ||| ((v <<< (w.room - n)) % 2 ^ 64) = valMsb (R ++ msb n v) * 2 ^ (w.room - n)
        have e : (2 : Nat) ^ w.room = 2 ^ n * 2 ^ (w.room - n) := by rw [← Nat.pow_add]; congr 1; omega
        have hlt : v * 2 ^ (w.room - n) < 2 ^ w.room := by
          rw [e]; exact Nat.mul_lt_mul_of_pos_right hv (Nat.two_pow_pos _)
        have hle : (2 : Nat) ^ w.room ≤ 2 ^ 64 := Nat.pow_le_pow_right (by decide) hroom
        rw [Nat.shiftLeft_eq, Nat.mod_eq_of_lt (by omega), hbuf, or_add _ _ _ hlt, valMsb_append, msb_length,
          valMsb_msb _ _ hv, Nat.add_mul, e, Nat.mul_assoc]

theorem runOps_inv {pre} : ∀ (os : List WOp) {B w w'}, WInv pre B w → CodesOk (opCodes os) →
    runOps os w = some w' → WInv pre (B ++ codeBits (opCodes os)) w' ∧ w'.healthy = w.healthy := by
  intro os
  induction os with
  | nil => intro B w w' h _ hr; cases hr; simpa [opCodes, codeBits] using h
  | cons o os ih =>
    intro B w w' h hok hr
    cases o with
    | reserve n =>
      have := ih (reserve_inv n h) hok hr
      refine ⟨this.1, this.2.trans ?_⟩
      unfold reserve; split <;> rfl
    | write n v =>
      simp only [runOps, WOp.run] at hr
      have hnv := hok (n, v) (by simp [opCodes])
      cases hw : writeBits w n v with
      | none => rw [hw] at hr; cases hr
      | some w1 =>
        rw [hw] at hr
        have a := writeBits_inv h hnv.1 hnv.2 hw
        have b := ih a.1 (fun x hx => hok x (by simp [opCodes, hx])) hr
        refine ⟨?_, b.2.trans a.2⟩
        have e : B ++ codeBits (opCodes (.write n v :: os)) = B ++ msb n v ++ codeBits (opCodes os) := by
          simp [opCodes, codeBits]
        rw [e]; exact b.1

/-! ## The byte boundary -/

/-- The whole bytes in the buffer: after the loop fewer than eight bits remain. -/
theorem emitWhole_inv {pre : List Nat} : ∀ k {w w' : Writer} {E R : List Bool} {j : Nat}, E.length = 8 * j →
    R.length = 64 - w.room → w.room ≤ 64 → w.out.reverse = pre ++ stuff (packBytes E) →
    w.buf = valMsb R * 2 ^ w.room → emitWhole k w = some w' →
    ∃ E' R' j', E ++ R = E' ++ R' ∧ E'.length = 8 * j' ∧ R'.length = 64 - w'.room ∧ 56 < w'.room ∧ w'.room ≤ 64 ∧
      w'.out.reverse = pre ++ stuff (packBytes E') ∧ w'.buf = valMsb R' * 2 ^ w'.room ∧ w'.healthy = w.healthy ∧
      w'.room % 8 = w.room % 8 := by
  intro k
  induction k with
  | zero =>
    intro w w' E R j hE hR hr ho hb h
    rw [emitWhole] at h
    split at h
    · cases h
    · cases h; exact ⟨E, R, j, rfl, hE, hR, by omega, hr, ho, hb, rfl, rfl⟩
  | succ k ih =>
    intro w w' E R j hE hR hr ho hb h
    rw [emitWhole] at h
    by_cases hc : w.room ≤ 56
    · rw [if_pos hc] at h
      have hsplit : R = R.take 8 ++ R.drop 8 := (List.take_append_drop 8 R).symm
      have h8 : (R.take 8).length = 8 := by simp; omega
      have hd : (R.drop 8).length = 64 - (w.room + 8) := by simp; omega
      have hdl := valMsb_lt (R.drop 8)
      have htl := valMsb_lt (R.take 8)
      rw [h8] at htl
      rw [hd] at hdl
      have hval : valMsb R = valMsb (R.take 8) * 2 ^ (64 - (w.room + 8)) + valMsb (R.drop 8) := by
        conv => lhs; rw [hsplit]
        rw [valMsb_append, hd]
      have hpow : (2 : Nat) ^ (64 - (w.room + 8)) * 2 ^ w.room = 2 ^ 56 := by
        rw [← Nat.pow_add]; congr 1; omega
      have hlow : valMsb (R.drop 8) * 2 ^ w.room < 2 ^ 56 := by
        rw [← hpow]; exact Nat.mul_lt_mul_of_pos_right hdl (Nat.two_pow_pos _)
      have hbuf : w.buf = valMsb (R.take 8) * 2 ^ 56 + valMsb (R.drop 8) * 2 ^ w.room := by
        rw [hb, hval, Nat.add_mul, Nat.mul_assoc, hpow]
      have hbyte : (w.buf >>> 56) &&& 0xFF = valMsb (R.take 8) := by
        have e : (w.buf >>> 56) &&& 0xFF = w.buf / 2 ^ 56 % 256 := by
          rw [Nat.shiftRight_eq_div_pow]; exact Nat.and_two_pow_sub_one_eq_mod _ 8
        rw [e, hbuf, Nat.mul_comm (valMsb (R.take 8)), Nat.mul_add_div (Nat.two_pow_pos _), Nat.div_eq_of_lt hlow,
          Nat.add_zero, Nat.mod_eq_of_lt htl]
      rw [hbyte] at h
      cases he : emitByte w (valMsb (R.take 8)) with
      | none => rw [he] at h; cases h
      | some w1 =>
        rw [he] at h
        have a := emitByte_out he
        have hrec := ih (w := { w1 with buf := (w1.buf <<< 8) % 2 ^ 64, room := w1.room + 8 }) (w' := w')
          (E := E ++ R.take 8) (R := R.drop 8) (j := j + 1) (by rw [List.length_append, h8, hE]; omega)
          (by show (R.drop 8).length = 64 - (w1.room + 8); rw [a.2.2.1]; exact hd)
          (by show w1.room + 8 ≤ 64; rw [a.2.2.1]; omega)
          (by show w1.out.reverse = _
              rw [a.1, ho, packBytes_append E _ j hE, packBytes_single _ h8, stuff_append, List.append_assoc])
          (by show (w1.buf <<< 8) % 2 ^ 64 = valMsb (R.drop 8) * 2 ^ (w1.room + 8)
              rw [a.2.1, a.2.2.1, hbuf, Nat.shiftLeft_eq, Nat.pow_add, ← Nat.mul_assoc]
              omega)
          h
        obtain ⟨E', R', j', g1, g2, g3, g4, g5, g6, g7, g8, g9⟩ := hrec
        refine ⟨E', R', j', by rw [← g1, List.append_assoc, List.take_append_drop], g2, g3, g4, g5, g6, g7,
          g8.trans a.2.2.2.1, ?_⟩
        rw [g9]
        show (w1.room + 8) % 8 = _
        rw [a.2.2.1]; omega
    · rw [if_neg hc] at h
      cases h
      exact ⟨E, R, j, rfl, hE, hR, by omega, hr, ho, hb, rfl, rfl⟩

theorem mask_keep : ∀ r, r < 64 → 56 < r → ∀ a, a < 2 ^ (64 - r) →
    (a * 2 ^ (r - 56) &&& (255 - 0xFF >>> (64 - r))) % 256 = a * 2 ^ (r - 56) := by
  intro r h1 h2
  have hr : r = 57 ∨ r = 58 ∨ r = 59 ∨ r = 60 ∨ r = 61 ∨ r = 62 ∨ r = 63 := by omega
  rcases hr with r | r | r | r | r | r | r <;> subst r <;> decide

/-- The last byte: the bits left, then the padding pattern. -/
theorem emitLast_inv {pre : List Nat} {w w' : Writer} {E R P : List Bool} {j : Nat} (hE : E.length = 8 * j)
    (hR : R.length = 64 - w.room) (h1 : 56 < w.room) (h2 : w.room ≤ 64)
    (ho : w.out.reverse = pre ++ stuff (packBytes E)) (hb : w.buf = valMsb R * 2 ^ w.room)
    (hP : P.length = w.room % 8) (h : emitLast w (valMsb P) = some w') :
    w'.out.reverse = pre ++ stuff (packBytes (E ++ (R ++ P))) ∧ w'.buf = 0 ∧ w'.room = 64 ∧ w'.healthy = w.healthy := by
  unfold emitLast at h
  by_cases hc : w.room < 64
  · rw [if_pos hc] at h
    have hp8 : P.length = w.room - 56 := by omega
    have hlen : (R ++ P).length = 8 := by rw [List.length_append]; omega
    have hRl := valMsb_lt R
    have hPl := valMsb_lt P
    have hbyte : (((w.buf >>> 56) &&& (255 - 0xFF >>> (64 - w.room))) % 256 ||| valMsb P) = valMsb (R ++ P) := by
      have e : w.buf >>> 56 = valMsb R * 2 ^ (w.room - 56) := by
        have e1 : (2 : Nat) ^ w.room = 2 ^ (w.room - 56) * 2 ^ 56 := by rw [← Nat.pow_add]; congr 1; omega
        rw [hb, Nat.shiftRight_eq_div_pow, e1, ← Nat.mul_assoc, Nat.mul_div_cancel _ (Nat.two_pow_pos 56)]
      rw [e, valMsb_append, hp8]
      rw [hR] at hRl
      rw [hp8] at hPl
      have e2 : (valMsb R * 2 ^ (w.room - 56) &&& (255 - 0xFF >>> (64 - w.room))) % 256 =
          valMsb R * 2 ^ (w.room - 56) := by
        exact mask_keep w.room hc h1 _ hRl
      rw [e2, or_add _ _ _ hPl]
    simp only [hbyte] at h
    cases he : emitByte w (valMsb (R ++ P)) with
    | none => rw [he] at h; cases h
    | some w1 =>
      rw [he] at h
      have a := emitByte_out he
      cases h
      refine ⟨?_, rfl, rfl, a.2.2.2.1⟩
      show w1.out.reverse = _
      rw [a.1, ho, packBytes_append E _ j hE, packBytes_single _ hlen, stuff_append, List.append_assoc]
  · rw [if_neg hc] at h
    have : w.room = 64 := by omega
    have hr : R = [] := List.length_eq_zero_iff.mp (by omega)
    have hp : P = [] := List.length_eq_zero_iff.mp (by omega)
    cases h
    refine ⟨?_, rfl, rfl, rfl⟩
    show w.out.reverse = _
    rw [ho, hr, hp]; simp

/-! ## Padding bits -/

theorem takePads_bits : ∀ (P : List Bool) (rest : List Nat) (pre : List Bool) (d : Nat), d ≤ 1 →
    pre.length + P.length ≤ 8 →
    ∃ d', d' ≤ 1 ∧ takePads P.length (P.map bit01 ++ rest) (valMsb pre) d = some (valMsb (pre ++ P), d', rest) := by
  intro P
  induction P with
  | nil => intro rest pre d hd _; exact ⟨d, hd, by simp [takePads]⟩
  | cons b P ih =>
    intro rest pre d hd hl
    simp only [List.length_cons] at hl
    have h1 : ((valMsb pre <<< 1) % 256) ||| bit01 b = valMsb (pre ++ [b]) := by
      have hlt := valMsb_lt pre
      have hp : (2 : Nat) ^ pre.length ≤ 2 ^ 7 := Nat.pow_le_pow_right (by decide) (by omega)
      have hb : bit01 b < 2 ^ 1 := by cases b <;> decide
      rw [Nat.shiftLeft_eq, Nat.mod_eq_of_lt (by omega), or_add _ _ _ hb, valMsb_append]
      cases b <;> rfl
    have h2 : d ||| bit01 b ≤ 1 := by
      have hd : d = 0 ∨ d = 1 := by omega
      rcases hd with rfl | rfl <;> cases b <;> decide
    obtain ⟨d', g1, g2⟩ := ih rest (pre ++ [b]) _ h2 (by simp; omega)
    refine ⟨d', g1, ?_⟩
    simp only [List.length_cons, List.map_cons, List.cons_append, takePads, h1, g2, List.append_assoc,
      List.nil_append]

theorem takePads_some : ∀ (n : Nat) (src : List Nat) (pat dang : Nat) {r},
    takePads n src pat dang = some r → n ≤ src.length ∧ r.2.2 = src.drop n ∧
      (r.2.1 ≤ 1 → ∀ b ∈ src.take n, b ≤ 1) ∧ dang ≤ r.2.1 := by
  intro n
  induction n with
  | zero => intro src pat dang r h; cases h; simp
  | succ n ih =>
    intro src pat dang r h
    cases src with
    | nil => cases h
    | cons b src =>
      rw [takePads] at h
      have := ih src _ _ h
      have l : dang ≤ dang ||| b := Nat.left_le_or
      have r' : b ≤ dang ||| b := Nat.right_le_or
      refine ⟨by simp; omega, by simpa using this.2.1, ?_, by omega⟩
      intro h1 c hc
      simp only [List.take_succ_cons, List.mem_cons] at hc
      rcases hc with rfl | hc
      · omega
      · exact this.2.2.1 h1 c hc

theorem valMsb_ones (n : Nat) : valMsb (List.replicate n true) = 2 ^ n - 1 := by
  induction n with
  | zero => rfl
  | succ n ih =>
    rw [List.replicate_succ', valMsb_append, ih]
    have := Nat.two_pow_pos n
    simp [valMsb, ofBits, Nat.pow_succ]; omega

theorem emitEnd_inv {pre B w w'} {P : List Bool} (h : WInv pre B w) (hP : P.length = w.room % 8)
    (hj : ((emitWhole 8 (reserve w 16)).bind fun w => emitLast w (valMsb P)) = some w') :
    w'.out.reverse = pre ++ segment B P ∧ w'.buf = 0 ∧ w'.room = 64 ∧ w'.healthy = w.healthy := by
  have h := reserve_inv 16 h
  have hh : (reserve w 16).healthy = w.healthy := by unfold reserve; split <;> rfl
  have hrm : (reserve w 16).room = w.room := by unfold reserve; split <;> rfl
  rw [← hrm] at hP
  rw [← hh]
  generalize reserve w 16 = w at *
  obtain ⟨hroom, hok, E, R, k, hB, hE, hR, hout, hbuf⟩ := h
  cases he : emitWhole 8 w with
  | none => rw [he] at hj; cases hj
  | some w1 =>
    rw [he] at hj
    obtain ⟨E', R', j', g1, g2, g3, g4, g5, g6, g7, g8, g9⟩ :=
      emitWhole_inv 8 (j := 8 * k) (by omega) hR hroom hout hbuf he
    have := emitLast_inv g2 g3 g4 g5 g6 g7 (P := P) (by omega) hj
    refine ⟨?_, this.2.1, this.2.2.1, this.2.2.2.trans g8⟩
    rw [this.1, ← List.append_assoc, ← g1, ← hB]; rfl

theorem WInv.len {pre B w} (h : WInv pre B w) : (8 - B.length % 8) % 8 = w.room % 8 := by
  obtain ⟨hroom, hok, E, R, k, hB, hE, hR, _, _⟩ := h
  have : B.length = E.length + R.length := by rw [hB, List.length_append]
  omega

theorem jump_inv {pre B w pads w' rest} (h : WInv pre B w) (hj : jump w pads = some (some (w', rest))) :
    w'.out.reverse = pre ++ segment B (padsOf B.length pads) ∧ w'.buf = 0 ∧ w'.room = 64 ∧
      w'.healthy = w.healthy ∧ rest = padsRest B.length pads ∧
      (padsOf B.length pads).length = (8 - B.length % 8) % 8 := by
  have hlen := h.len
  unfold jump at hj
  cases pads with
  | none =>
    simp only at hj
    rw [← valMsb_ones] at hj
    cases he : ((emitWhole 8 (reserve w 16)).bind fun w' => emitLast w' (valMsb (List.replicate (w.room % 8) true))) with
    | none => rw [he] at hj; cases hj
    | some w1 =>
      rw [he] at hj
      cases hj
      have := emitEnd_inv h (by simp) he
      rw [← hlen] at this
      exact ⟨this.1, this.2.1, this.2.2.1, this.2.2.2, rfl, by simp [padsOf]⟩
  | some src =>
    simp only at hj
    cases ht : takePads (w.room % 8) src 0 0 with
    | none => rw [ht] at hj; cases hj
    | some r =>
      rw [ht] at hj
      obtain ⟨pat, dang, rst⟩ := r
      simp only at hj
      split at hj
      · cases hj
      · rename_i hd
        have a := takePads_some _ _ _ _ ht
        have hbits := a.2.2.1 (by simp only; omega)
        have hmap : ((src.take (w.room % 8)).map (· == 1)).map bit01 = src.take (w.room % 8) := by
          rw [List.map_map]
          conv => rhs; rw [← List.map_id (src.take (w.room % 8))]
          apply List.map_congr_left
          intro b hb
          have := hbits b hb
          have : b = 0 ∨ b = 1 := by omega
          rcases this with rfl | rfl <;> rfl
        have hl : ((src.take (w.room % 8)).map (· == 1)).length = w.room % 8 := by
          have := a.1; simp; omega
        obtain ⟨d', g1, g2⟩ := takePads_bits ((src.take (w.room % 8)).map (· == 1)) (src.drop (w.room % 8)) [] 0
          (by decide) (by rw [hl]; simp; omega)
        rw [hl, hmap, List.take_append_drop, valMsb_nil, ht] at g2
        have g2 := Option.some.inj g2
        have gp : pat = valMsb ((src.take (w.room % 8)).map (· == 1)) := by
          have := congrArg Prod.fst g2; simpa using this
        have gr : rst = src.drop (w.room % 8) := by
          have := congrArg (fun x => x.2.2) g2; simpa using this
        subst gp; subst gr
        cases he : ((emitWhole 8 (reserve w 16)).bind fun w' =>
            emitLast w' (valMsb ((src.take (w.room % 8)).map (· == 1)))) with
        | none => rw [he] at hj; cases hj
        | some w1 =>
          rw [he] at hj
          cases hj
          have := emitEnd_inv h hl he
          rw [← hlen] at this
          exact ⟨this.1, this.2.1, this.2.2.1, this.2.2.2, by rw [← hlen]; rfl, by unfold padsOf; rw [hlen]; exact hl⟩

/-! ## Staying inside the chunk -/

/-- Room for `K` more discharges, which is enough for `T` more bits. -/
structure Budget (w : Writer) (K T : Nat) : Prop where
  room : w.room ≤ 64
  bytes : w.pos + 16 * K ≤ chunkSize
  bits : 64 - w.room + T ≤ 64 + 64 * K

theorem emitByte_some (w : Writer) (b : Nat) (h : w.pos + 2 ≤ chunkSize) :
    ∃ w', emitByte w b = some w' ∧ w'.pos ≤ w.pos + 2 := by
  unfold emitByte
  rw [if_pos (by omega)]
  split
  · exact ⟨_, rfl, Nat.le_refl _⟩
  · exact ⟨_, rfl, by show w.pos + 1 ≤ w.pos + 2; omega⟩

theorem emitBytes_some (v : Nat) : ∀ k (w : Writer), w.pos + 2 * k ≤ chunkSize →
    ∃ w', emitBytes v k w = some w' ∧ w'.pos ≤ w.pos + 2 * k := by
  intro k
  induction k with
  | zero => intro w _; exact ⟨w, rfl, by omega⟩
  | succ k ih =>
    intro w h
    obtain ⟨w1, e1, h1⟩ := emitByte_some w ((v >>> (8 * k)) &&& 0xFF) (by omega)
    obtain ⟨w2, e2, h2⟩ := ih w1 (by omega)
    exact ⟨w2, by rw [emitBytes, e1]; exact e2, by omega⟩

theorem emitWord_some (w : Writer) (v : Nat) (h : w.pos + 16 ≤ chunkSize) :
    ∃ w', emitWord w v = some w' ∧ w'.pos ≤ w.pos + 16 := by
  unfold emitWord
  split
  · exact emitBytes_some v 8 w (by omega)
  · rw [if_pos (by omega)]; exact ⟨_, rfl, by show w.pos + 8 ≤ w.pos + 16; omega⟩

theorem writeBits_some {w K T} (h : Budget w K T) (n v : Nat) (h1 : 1 ≤ n) (h2 : n ≤ 63) (h3 : n ≤ T) :
    ∃ w' K', writeBits w n v = some w' ∧ K' ≤ K ∧ Budget w' K' (T - n) := by
  have hb := h.bits
  have hr := h.room
  have hp := h.bytes
  unfold writeBits
  by_cases hc : w.room < n
  · rw [if_pos hc, if_neg (by omega)]
    unfold discharge
    rw [if_neg (by omega)]
    have hK : 1 ≤ K := by omega
    obtain ⟨w1, e1, h1'⟩ := emitWord_some w (w.buf ||| (v >>> (n - w.room))) (by omega)
    refine ⟨_, K - 1, by rw [e1]; rfl, by omega, ⟨?_, ?_, ?_⟩⟩
    · show 64 - (n - w.room) ≤ 64; omega
    · show w1.pos + 16 * (K - 1) ≤ chunkSize; omega
    · show 64 - (64 - (n - w.room)) + (T - n) ≤ 64 + 64 * (K - 1); omega
  · rw [if_neg hc, if_neg (by omega)]
    refine ⟨_, K, rfl, Nat.le_refl _, ⟨?_, hp, ?_⟩⟩
    · show w.room - n ≤ 64; omega
    · show 64 - (w.room - n) + (T - n) ≤ 64 + 64 * K; omega

theorem reserve_budget (w : Writer) (n : Nat) (hr : w.room ≤ 64) (hn : n ≤ chunkSize) :
    Budget (reserve w n) (n / 16) (64 * (n / 16)) := by
  have hrm : (reserve w n).room = w.room := by unfold reserve; split <;> rfl
  refine ⟨by rw [hrm]; exact hr, ?_, by rw [hrm]; omega⟩
  unfold reserve
  split
  · show 0 + 16 * (n / 16) ≤ chunkSize; omega
  · omega

/-- The codes of a block of writes, all of them of at most 63 bits, `T` bits together. -/
theorem runWrites_some : ∀ (ws : List (Nat × Nat)) {w K T}, Budget w K T →
    (∀ x ∈ ws, 1 ≤ x.1 ∧ x.1 ≤ 63) → (ws.map Prod.fst).sum ≤ T →
    ∃ w' K', runOps (ws.map fun x => .write x.1 x.2) w = some w' ∧ K' ≤ K ∧
      Budget w' K' (T - (ws.map Prod.fst).sum) := by
  intro ws
  induction ws with
  | nil => intro w K T h _ _; exact ⟨w, K, rfl, Nat.le_refl _, by simpa using h⟩
  | cons x ws ih =>
    intro w K T h hx hs
    simp only [List.map_cons, List.sum_cons] at hs
    have hx1 := hx x (by simp)
    obtain ⟨w1, K1, e1, k1, b1⟩ := writeBits_some h x.1 x.2 hx1.1 hx1.2 (by omega)
    obtain ⟨w2, K2, e2, k2, b2⟩ := ih b1 (fun y hy => hx y (by simp [hy])) (by omega)
    refine ⟨w2, K2, ?_, by omega, ?_⟩
    · simp only [List.map_cons, runOps, WOp.run, e1]; exact e2
    · simp only [List.map_cons, List.sum_cons]
      have : T - (x.1 + (ws.map Prod.fst).sum) = T - x.1 - (ws.map Prod.fst).sum := by omega
      rw [this]; exact b2

theorem emitWhole_some : ∀ k (w : Writer), w.pos + 2 * k ≤ chunkSize → 56 < w.room + 8 * k → w.room ≤ 64 →
    ∃ w', emitWhole k w = some w' ∧ w'.pos ≤ w.pos + 2 * k ∧ 56 < w'.room ∧
      w'.room = 64 - (64 - w.room) % 8 ∧ 2 * ((w'.room - w.room) / 8) + w.pos ≥ w'.pos := by
  intro k
  induction k with
  | zero =>
    intro w h1 h2 h3
    refine ⟨w, by rw [emitWhole, if_neg (by omega)], by omega, by omega, by omega, by omega⟩
  | succ k ih =>
    intro w h1 h2 h3
    by_cases hc : w.room ≤ 56
    · obtain ⟨w1, e1, p1⟩ := emitByte_some w ((w.buf >>> 56) &&& 0xFF) (by omega)
      have hrm : w1.room = w.room := (emitByte_out e1).2.2.1
      obtain ⟨w2, e2, p2, r2, q2, s2⟩ := ih { w1 with buf := (w1.buf <<< 8) % 2 ^ 64, room := w1.room + 8 }
        (by show w1.pos + 2 * k ≤ chunkSize; omega) (by show 56 < w1.room + 8 + 8 * k; omega) (by show w1.room + 8 ≤ 64; omega)
      simp only at p2 q2 s2
      refine ⟨w2, by rw [emitWhole, if_pos hc, e1]; exact e2, by omega, r2, by omega, by omega⟩
    · exact ⟨w, by rw [emitWhole, if_neg hc], by omega, by omega, by omega, by omega⟩

theorem emitEnd_some (w : Writer) (pat : Nat) (hr : w.room ≤ 64) :
    ∃ w', ((emitWhole 8 (reserve w 16)).bind fun w => emitLast w pat) = some w' ∧ w'.room = 64 := by
  have hrm : (reserve w 16).room = w.room := by unfold reserve; split <;> rfl
  have hp : (reserve w 16).pos + 16 ≤ chunkSize := by
    unfold reserve; split
    · show 0 + 16 ≤ chunkSize; decide
    · omega
  obtain ⟨w1, e1, p1, r1, q1, s1⟩ := emitWhole_some 8 (reserve w 16) (by omega) (by omega) (by omega)
  rw [e1]
  show ∃ w', emitLast w1 pat = some w' ∧ w'.room = 64
  unfold emitLast
  by_cases hc : w1.room < 64
  · rw [if_pos hc]
    rw [hrm] at s1
    obtain ⟨w2, e2, p2⟩ := emitByte_some w1
      ((((w1.buf >>> 56) &&& (255 - 0xFF >>> (64 - w1.room))) % 256) ||| pat) (by omega)
    simp only [e2]
    exact ⟨_, rfl, rfl⟩
  · rw [if_neg hc]; exact ⟨_, rfl, rfl⟩

end Jxl.Jpeg
