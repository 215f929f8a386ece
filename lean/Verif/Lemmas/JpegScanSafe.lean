import Verif.Spec.JpegScan
import Verif.Lemmas.JpegWriter
/-! # The scan coder stays inside the reserved part of its chunk -/
namespace Jxl.Jpeg

/-- At least `T` more bits can be written. -/
def Bud (w : Writer) (T : Nat) : Prop := ∃ K, Budget w K T

theorem Bud.room {w T} (h : Bud w T) : w.room ≤ 64 := by obtain ⟨_, h⟩ := h; exact h.room

theorem Bud.mono {w T T'} (h : Bud w T) (hT : T' ≤ T) : Bud w T' := by
  obtain ⟨K, h⟩ := h
  exact ⟨K, h.room, h.bytes, by have := h.bits; omega⟩

theorem Bud.reserve {w T} (h : Bud w T) (n : Nat) : Bud (reserve w n) T := by
  obtain ⟨K, h⟩ := h
  refine ⟨K, ?_⟩
  unfold Jpeg.reserve
  split
  · exact ⟨h.room, by have := h.bytes; show 0 + 16 * K ≤ chunkSize; omega, h.bits⟩
  · exact h

theorem reserve_room (w : Writer) (n : Nat) : (reserve w n).room = w.room := by unfold reserve; split <;> rfl

theorem bud_reserve16 (w : Writer) (h : w.room ≤ 64) : Bud (reserve w 16) 64 :=
  ⟨_, reserve_budget w 16 h (by decide)⟩

theorem bud_reserve512 (w : Writer) (h : w.room ≤ 64) : Bud (reserve w 512) 2048 :=
  ⟨_, reserve_budget w 512 h (by decide)⟩

theorem wb {w n T} (v : Nat) (h : Bud w (T + n)) (h1 : 1 ≤ n) (h2 : n ≤ 63) :
    ∃ w', writeBits w n v = some w' ∧ Bud w' T := by
  obtain ⟨K, h⟩ := h
  obtain ⟨w', K', e, _, b⟩ := writeBits_some h n v h1 h2 (by omega)
  exact ⟨w', e, K', by simpa using b⟩

/-- A length above 64 bits only marks the writer. -/
theorem wb_long {w n T} (v : Nat) (h : Bud w T) (hn : 64 < n) : ∃ w', writeBits w n v = some w' ∧ Bud w' T := by
  obtain ⟨K, h⟩ := h
  have := h.room
  unfold writeBits
  rw [if_pos (by omega), if_pos hn]
  exact ⟨_, rfl, K, h.room, h.bytes, h.bits⟩

theorem sym_some {w T h s} (hh : HuffOk h) (hs : s < 256) (b : Bud w (T + 16)) :
    ∃ w', writeSymbol s h w = some w' ∧ Bud w' T := by
  unfold writeSymbol
  rw [if_pos hs]
  rcases hh s hs with hd | hd
  · exact wb _ (b.mono (by omega)) hd.1 (by omega)
  · exact wb_long _ (b.mono (by omega)) (by omega)

theorem symBits_some {w T h s n} (v : Nat) (hh : HuffOk h) (hs : s < 256) (hn : n ≤ 12) (b : Bud w (T + 28)) :
    ∃ w', writeSymbolBits s h n v w = some w' ∧ Bud w' T := by
  unfold writeSymbolBits
  rw [if_pos hs]
  rcases hh s hs with hd | hd
  · exact wb _ (b.mono (by omega)) (by omega) (by omega)
  · exact wb_long _ (b.mono (by omega)) (by omega)

theorem zrl_some {h} (hh : HuffOk h) : ∀ n {w T}, Bud w (T + 16 * n) →
    ∃ w', writeZrl h n w = some w' ∧ Bud w' T := by
  intro n
  induction n with
  | zero => intro w T b; exact ⟨w, rfl, b.mono (by omega)⟩
  | succ n ih =>
    intro w T b
    obtain ⟨w1, e1, b1⟩ := sym_some (T := T + 16 * n) hh (s := 0xF0) (by decide) (b.mono (by omega))
    obtain ⟨w2, e2, b2⟩ := ih b1
    exact ⟨w2, by rw [writeZrl, e1]; exact e2, b2⟩

theorem magBits_le {a : Nat} (h : a < 4096) : magBits a ≤ 12 := by
  unfold magBits
  split
  · omega
  · rename_i h0
    have : Nat.log2 a < 12 := (Nat.log2_lt h0).2 h
    omega

theorem magBits_pos {a : Nat} (h : a ≠ 0) : 1 ≤ magBits a := by
  unfold magBits; rw [if_neg h]; omega

theorem dc_some {w T h} {d : Int} (hh : HuffOk h) (hd : d.natAbs ≤ 4094) (b : Bud w (T + 28)) :
    ∃ w', writeDc d h w = some w' ∧ Bud w' T := by
  have hm := magBits_le (a := d.natAbs) (by omega)
  unfold writeDc
  obtain ⟨w1, e1, b1⟩ := sym_some (T := T + 12) hh (s := magBits d.natAbs) (by omega) (b.mono (by omega))
  simp only [e1, Option.bind_some]
  by_cases h0 : magBits d.natAbs = 0
  · rw [if_pos h0]; exact ⟨w1, rfl, b1.mono (by omega)⟩
  · rw [if_neg h0]; exact wb _ (b1.mono (by omega)) (by omega) (by omega)

theorem shl4 (r n : Nat) : (r <<< 4) + n = 16 * r + n := by rw [Nat.shiftLeft_eq]; omega

theorem seqAc_some {h} (hh : HuffOk h) : ∀ (cs : List Int) (r : Nat) {w T}, (∀ c ∈ cs, c.natAbs ≤ 4095) →
    r + cs.length ≤ 63 → Bud w (T + 28 * cs.length + r) → ∃ p, seqAc h cs r w = some p ∧ Bud p.2 T := by
  intro cs
  induction cs with
  | nil => intro r w T _ _ b; exact ⟨(r, w), rfl, b.mono (by simp)⟩
  | cons c cs ih =>
    intro r w T hc hl b
    simp only [List.length_cons] at hl b
    rw [seqAc]
    by_cases h0 : c = 0
    · rw [if_pos h0]
      exact ih (r + 1) (fun c h => hc c (by simp [h])) (by omega) (b.mono (by omega))
    · rw [if_neg h0]
      have hm := magBits_le (a := c.natAbs) (by have := hc c (by simp); omega)
      obtain ⟨w1, e1, b1⟩ := zrl_some (T := T + 28 * cs.length + 28) hh (min 3 (r / 16)) (b.mono (by omega))
      obtain ⟨w2, e2, b2⟩ := symBits_some (T := T + 28 * cs.length)
        (s := ((r - 16 * min 3 (r / 16)) <<< 4) + magBits c.natAbs)
        (extraBits c (magBits c.natAbs)) hh (by rw [shl4]; omega) hm b1
      simp only [e1, Option.bind_some, e2]
      exact ih 0 (fun c h => hc c (by simp [h])) (by omega) (b2.mono (by omega))

/-- The coding state is consistent. -/
structure CodOk (s : Coding) : Prop where
  words : s.words.length = (s.count + 15) / 16
  run : s.eobRun ≤ 0x7FFF
  huff : s.eobRun > 0 → HuffOk s.huff

/-- Bits a flush of the coding state writes. -/
def cost (s : Coding) : Nat := (if s.eobRun > 0 then 30 else 0) + s.count

/-- The state after a flush. -/
def flushed (s : Coding) : Coding := { s with eobRun := 0, words := [], count := 0 }

theorem flushed_ok (s : Coding) : CodOk (flushed s) :=
  ⟨by show ([] : List Nat).length = (0 + 15) / 16; decide, by show 0 ≤ 0x7FFF; decide, fun h => absurd h (by show ¬ (0 > 0); decide)⟩

theorem cost_flushed (s : Coding) : cost (flushed s) = 0 := rfl

theorem flushRun_some {s w T} (hs : CodOk s) (b : Bud (if s.eobRun > 0 then reserve w 16 else w)
    (T + if s.eobRun > 0 then 30 else 0)) : ∃ w', flushRun s w = some w' ∧ Bud w' T := by
  unfold flushRun
  by_cases h0 : s.eobRun > 0
  · rw [if_pos h0, if_pos h0] at b
    rw [if_pos h0]
    have hl : Nat.log2 s.eobRun < 15 := (Nat.log2_lt (by omega)).2 (by have := hs.run; omega)
    obtain ⟨w1, e1, b1⟩ := sym_some (T := T + 14) (s := Nat.log2 s.eobRun <<< 4) (hs.huff h0)
      (by rw [Nat.shiftLeft_eq]; omega) (b.mono (by omega))
    simp only [e1, Option.bind_some]
    by_cases h1 : Nat.log2 s.eobRun > 0
    · rw [if_pos h1]; exact wb _ (b1.mono (by omega)) (by omega) (by omega)
    · rw [if_neg h1]; exact ⟨w1, rfl, b1.mono (by omega)⟩
  · rw [if_neg h0, if_neg h0] at b
    rw [if_neg h0]; exact ⟨w, rfl, b.mono (by omega)⟩

theorem writeWords_some : ∀ (xs : List Nat) (i : Nat) {w T}, Bud w (T + 16 * xs.length) →
    ∃ w', writeWords i xs w = some w' ∧ Bud w' T := by
  intro xs
  induction xs with
  | nil => intro i w T b; exact ⟨w, rfl, b.mono (by simp)⟩
  | cons x xs ih =>
    intro i w T b
    simp only [List.length_cons] at b
    have b' : Bud (if i % 124 = 0 then reserve w 512 else w) (T + 16 * xs.length + 16) := by
      split
      · exact (b.reserve 512).mono (by omega)
      · exact b.mono (by omega)
    obtain ⟨w1, e1, b1⟩ := wb x b' (by decide) (by decide)
    obtain ⟨w2, e2, b2⟩ := ih (i + 1) b1
    exact ⟨w2, by rw [writeWords, e1]; exact e2, b2⟩

/-- Any number of words: every 124 of them have their own reservation. -/
theorem writeWords_any : ∀ (xs : List Nat) (i : Nat) {w}, w.room ≤ 64 →
    (i % 124 ≠ 0 → Bud w (16 * (124 - i % 124))) → ∃ w', writeWords i xs w = some w' ∧ w'.room ≤ 64 := by
  intro xs
  induction xs with
  | nil => intro i w hr _; exact ⟨w, rfl, hr⟩
  | cons x xs ih =>
    intro i w hr hb
    have b' : Bud (if i % 124 = 0 then reserve w 512 else w) (16 * (123 - i % 124) + 16) := by
      split
      · exact (bud_reserve512 w hr).mono (by omega)
      · rename_i h; exact (hb h).mono (by omega)
    obtain ⟨w1, e1, b1⟩ := wb x b' (by decide) (by decide)
    obtain ⟨w2, e2, b2⟩ := ih (i + 1) b1.room (fun h => b1.mono (by omega))
    exact ⟨w2, by rw [writeWords, e1]; exact e2, b2⟩

theorem flushTail_some {s w T} (hs : CodOk s) (b : Bud (reserve w 16) (T + s.count % 16)) :
    ∃ w', flushTail s w = some w' ∧ Bud w' T := by
  unfold flushTail
  by_cases h0 : s.count % 16 = 0
  · rw [if_pos h0]; exact ⟨_, rfl, b.mono (by omega)⟩
  · rw [if_neg h0]
    have := hs.words
    cases hw : s.words with
    | nil => rw [hw] at this; simp only [List.length_nil] at this; omega
    | cons x xs => simp only; exact wb x b (by omega) (by omega)

theorem flush_some {s w T} (hs : CodOk s) (b : Bud w (T + cost s)) :
    ∃ w', flush s w = some (flushed s, w') ∧ Bud w' T := by
  unfold cost at b
  have b0 : Bud (if s.eobRun > 0 then reserve w 16 else w)
      (T + s.count + if s.eobRun > 0 then 30 else 0) := by
    have b : Bud w (T + s.count + if s.eobRun > 0 then 30 else 0) := b.mono (by omega)
    by_cases h0 : s.eobRun > 0
    · simp only [h0, if_true] at b ⊢; exact b.reserve 16
    · simp only [h0, if_false] at b ⊢; exact b
  obtain ⟨w1, e1, b1⟩ := flushRun_some hs b0
  obtain ⟨w2, e2, b2⟩ := writeWords_some (s.words.reverse.take (s.count / 16)) 0 (T := T + s.count % 16)
    (b1.mono (by simp only [List.length_take, List.length_reverse]; omega))
  obtain ⟨w3, e3, b3⟩ := flushTail_some hs (b2.reserve 16)
  exact ⟨w3, by unfold flush; simp only [e1, e2, e3, Option.bind_some]; rfl, b3⟩

/-- Between blocks a flush needs no reservation of its caller. -/
theorem flush_any {s w} (hs : CodOk s) (hr : w.room ≤ 64) :
    ∃ w', flush s w = some (flushed s, w') ∧ w'.room ≤ 64 := by
  have h1 : ∃ w', flushRun s w = some w' ∧ w'.room ≤ 64 := by
    by_cases h0 : s.eobRun > 0
    · obtain ⟨w1, e1, b1⟩ := flushRun_some (T := 34) (w := w) hs (by
        simp only [h0, if_true]; exact bud_reserve16 w hr)
      exact ⟨w1, e1, b1.room⟩
    · unfold flushRun; rw [if_neg h0]; exact ⟨w, rfl, hr⟩
  obtain ⟨w1, e1, r1⟩ := h1
  obtain ⟨w2, e2, r2⟩ := writeWords_any (s.words.reverse.take (s.count / 16)) 0 r1 (fun h => absurd rfl h)
  obtain ⟨w3, e3, b3⟩ := flushTail_some (T := 0) hs ((bud_reserve16 w2 r2).mono (by omega))
  exact ⟨w3, by unfold flush; simp only [e1, e2, e3, Option.bind_some]; rfl, b3.room⟩

theorem pushWords_len (nb : Nat) : ∀ k n words count, n < 16 * k → words.length * 16 = count →
    (pushWords nb k n words count).2 = count + n ∧
      (pushWords nb k n words count).1.length = (count + n + 15) / 16 := by
  intro k
  induction k with
  | zero => intro n words count h; omega
  | succ k ih =>
    intro n words count h hw
    rw [pushWords]
    by_cases h1 : n ≥ 16
    · rw [if_pos h1]
      have := ih (n - 16) (((nb >>> (n - 16)) % 2 ^ 16) :: words) (count + 16) (by omega)
        (by simp only [List.length_cons]; omega)
      exact ⟨by rw [this.1]; omega, by rw [this.2]; omega⟩
    · rw [if_neg h1]
      by_cases h2 : n > 0
      · rw [if_pos h2]
        exact ⟨rfl, by simp only [List.length_cons]; omega⟩
      · rw [if_neg h2]
        exact ⟨by simp only; omega, by simp only; omega⟩

theorem orLast_length (m x : Nat) (ws : List Nat) : (orLast m x ws).length = ws.length := by
  cases ws <;> rfl

theorem stuffTail_len {s : Coding} (nb n : Nat) (hs : s.words.length = (s.count + 15) / 16) :
    (stuffTail s nb n).2.1 + (stuffTail s nb n).2.2 = s.count + n ∧ (stuffTail s nb n).2.2 ≤ n ∧
      (stuffTail s nb n).1.length = ((stuffTail s nb n).2.1 + 15) / 16 ∧
      ((stuffTail s nb n).2.2 ≠ 0 → (stuffTail s nb n).1.length * 16 = (stuffTail s nb n).2.1) := by
  unfold stuffTail
  by_cases h0 : s.count % 16 = 0
  · simp only [h0, if_true]
    exact ⟨trivial, Nat.le_refl _, hs, fun _ => by omega⟩
  · simp only [h0, if_false, orLast_length]
    exact ⟨by omega, by omega, by omega, by omega⟩

/-- The words after `bufferEndOfBand` has stored new bits. -/
theorem stored_len {s : Coding} (bits : List Nat) (hb : bits.length ≤ 63)
    (hs : s.words.length = (s.count + 15) / 16) :
    let t := stuffTail s (packNew bits) bits.length
    let u := pushWords (packNew bits) 5 t.2.2 t.1 t.2.1
    u.2 = s.count + bits.length ∧ u.1.length = (u.2 + 15) / 16 := by
  intro t u
  have ht := stuffTail_len (s := s) (packNew bits) bits.length hs
  by_cases h0 : t.2.2 = 0
  · have hu : u = (t.1, t.2.1) := by
      show pushWords _ 5 t.2.2 t.1 t.2.1 = _
      rw [h0]; rfl
    rw [hu]
    have h1 := ht.1
    have h3 := ht.2.2.1
    show t.2.1 = _ ∧ t.1.length = _
    change t.2.1 + t.2.2 = _ at h1
    exact ⟨by omega, h3⟩
  · have hp := pushWords_len (packNew bits) 5 t.2.2 t.1 t.2.1 (by have := ht.2.1; change t.2.2 ≤ _ at this; omega)
      (ht.2.2.2 h0)
    have h1 := ht.1
    change t.2.1 + t.2.2 = _ at h1
    refine ⟨hp.1.trans h1, ?_⟩
    show (pushWords _ 5 t.2.2 t.1 t.2.1).1.length = _
    rw [hp.2]
    show _ = ((pushWords _ 5 t.2.2 t.1 t.2.1).2 + 15) / 16
    rw [hp.1]

/-- The coding state of `bufferEndOfBand` before a full run is flushed. -/
def buffered (s : Coding) (ac : Huff) (bits : List Nat) : Coding :=
  let s := if s.eobRun = 0 then { s with huff := ac } else s
  let s := { s with eobRun := s.eobRun + 1 }
  if bits.length = 0 then s
  else
    let nb := packNew bits
    let t := stuffTail s nb bits.length
    let u := pushWords nb 5 t.2.2 t.1 t.2.1
    { s with words := u.1, count := u.2 }

theorem bufferEndOfBand_eq (s : Coding) (ac : Huff) (bits : List Nat) (w : Writer) :
    bufferEndOfBand s ac bits w =
      if (buffered s ac bits).eobRun = 0x7FFF then flush (buffered s ac bits) w else some (buffered s ac bits, w) := rfl

theorem buffered_ok {s ac bits} (hs : CodOk s) (hr : s.eobRun < 0x7FFF) (ha : HuffOk ac) (hb : bits.length ≤ 63) :
    CodOk (buffered s ac bits) ∧ (buffered s ac bits).eobRun = s.eobRun + 1 ∧
      (buffered s ac bits).count = s.count + bits.length := by
  have key : ∀ s1 : Coding, s1.words = s.words → s1.count = s.count → s1.eobRun = s.eobRun + 1 → HuffOk s1.huff →
      CodOk (if bits.length = 0 then s1 else
        let nb := packNew bits
        let t := stuffTail s1 nb bits.length
        let u := pushWords nb 5 t.2.2 t.1 t.2.1
        { s1 with words := u.1, count := u.2 }) ∧
      (if bits.length = 0 then s1 else
        let nb := packNew bits
        let t := stuffTail s1 nb bits.length
        let u := pushWords nb 5 t.2.2 t.1 t.2.1
        { s1 with words := u.1, count := u.2 }).eobRun = s.eobRun + 1 ∧
      (if bits.length = 0 then s1 else
        let nb := packNew bits
        let t := stuffTail s1 nb bits.length
        let u := pushWords nb 5 t.2.2 t.1 t.2.1
        { s1 with words := u.1, count := u.2 }).count = s.count + bits.length := by
    intro s1 h1 h2 h3 h4
    have hw : s1.words.length = (s1.count + 15) / 16 := by rw [h1, h2]; exact hs.words
    by_cases h0 : bits.length = 0
    · simp only [h0, if_true]
      exact ⟨⟨hw, by omega, fun _ => h4⟩, h3, by omega⟩
    · simp only [h0, if_false]
      have := stored_len (s := s1) bits hb hw
      exact ⟨⟨this.2, by show s1.eobRun ≤ _; omega, fun _ => h4⟩, h3, by rw [← h2]; exact this.1⟩
  unfold buffered
  by_cases h0 : s.eobRun = 0
  · simp only [h0, if_true]
    have := key { eobRun := 0 + 1, huff := ac, words := s.words, count := s.count } rfl rfl (by rw [h0]) ha
    rw [h0] at this
    exact this
  · simp only [h0, if_false]
    exact key { eobRun := s.eobRun + 1, huff := s.huff, words := s.words, count := s.count } rfl rfl rfl
      (hs.huff (by omega))

theorem endOfBand_some {s ac bits w T} (hs : CodOk s) (hr : s.eobRun < 0x7FFF) (ha : HuffOk ac)
    (hb : bits.length ≤ 63) (b : Bud w (T + 30 + s.count + bits.length)) :
    ∃ s' w', bufferEndOfBand s ac bits w = some (s', w') ∧ CodOk s' ∧ s'.eobRun < 0x7FFF ∧
      s'.count ≤ s.count + bits.length ∧ Bud w' (T + cost s') := by
  obtain ⟨ho, he, hc⟩ := buffered_ok hs hr ha hb
  rw [bufferEndOfBand_eq]
  have hcost : cost (buffered s ac bits) = 30 + s.count + bits.length := by
    unfold cost; rw [he, hc, if_pos (by omega)]; omega
  by_cases h0 : (buffered s ac bits).eobRun = 0x7FFF
  · rw [if_pos h0]
    obtain ⟨w1, e1, b1⟩ := flush_some (T := T) ho (b.mono (by rw [hcost]; omega))
    exact ⟨_, w1, e1, flushed_ok _, by show 0 < 0x7FFF; decide, Nat.zero_le _, b1⟩
  · rw [if_neg h0]
    exact ⟨_, w, rfl, ho, by omega, by omega, b.mono (by rw [hcost]; omega)⟩

theorem progAc_some {h} (hh : HuffOk h) (al : Nat) : ∀ (cs : List Int) (r : Nat) (s : Coding) {w T},
    (∀ c ∈ cs, c.natAbs ≤ 4095) → CodOk s → s.eobRun < 0x7FFF → Bud w (T + cost s + 28 * cs.length + r) →
    ∃ r' s' w', progAc h al cs r s w = some (r', s', w') ∧ CodOk s' ∧ s'.eobRun < 0x7FFF ∧ s'.count ≤ s.count ∧
      Bud w' (T + cost s') := by
  intro cs
  induction cs with
  | nil => intro r s w T _ hs hr b; exact ⟨r, s, w, rfl, hs, hr, Nat.le_refl _, b.mono (by simp)⟩
  | cons c cs ih =>
    intro r s w T hc hs hr b
    simp only [List.length_cons] at b
    rw [progAc]
    by_cases h0 : c.natAbs >>> al = 0
    · simp only [h0, if_true]
      exact ih (r + 1) s (fun c h => hc c (by simp [h])) hs hr (b.mono (by omega))
    · simp only [h0, if_false]
      have hle : c.natAbs >>> al ≤ 4095 := by
        rw [Nat.shiftRight_eq_div_pow]
        exact Nat.le_trans (Nat.div_le_self _ _) (hc c (by simp))
      have hm := magBits_le (a := c.natAbs >>> al) (by omega)
      have hp := magBits_pos h0
      obtain ⟨w1, e1, b1⟩ := flush_some (T := T + 28 * cs.length + 28 + r) hs (b.mono (by omega))
      obtain ⟨w2, e2, b2⟩ := zrl_some (T := T + 28 * cs.length + 28) hh (r / 16) (b1.mono (by omega))
      obtain ⟨w3, e3, b3⟩ := sym_some (T := T + 28 * cs.length + 12)
        (s := ((r % 16) <<< 4) + magBits (c.natAbs >>> al)) hh (by rw [shl4]; omega) (b2.mono (by omega))
      obtain ⟨w4, e4, b4⟩ := wb (T := T + 28 * cs.length) (n := magBits (c.natAbs >>> al))
        (extraBits (if c < 0 then -((c.natAbs >>> al : Nat) : Int) else ((c.natAbs >>> al : Nat) : Int))
          (magBits (c.natAbs >>> al))) (b3.mono (by omega)) hp (by omega)
      simp only [e1, e2, e3, e4, Option.bind_some]
      obtain ⟨r', s', w', e5, a1, a2, a3, a4⟩ := ih 0 (flushed s) (T := T) (w := w4)
        (fun c h => hc c (by simp [h])) (flushed_ok s) (by show 0 < 0x7FFF; decide)
        (b4.mono (by rw [cost_flushed]; omega))
      exact ⟨r', s', w', e5, a1, a2, Nat.le_trans a3 (Nat.zero_le _), a4⟩

theorem ones_some : ∀ (bs : List Nat) {w T}, Bud w (T + bs.length) → ∃ w', writeOnes bs w = some w' ∧ Bud w' T := by
  intro bs
  induction bs with
  | nil => intro w T b; exact ⟨w, rfl, b⟩
  | cons x bs ih =>
    intro w T b
    simp only [List.length_cons] at b
    obtain ⟨w1, e1, b1⟩ := wb (T := T + bs.length) x (b.mono (by omega)) (Nat.le_refl 1) (by decide)
    obtain ⟨w2, e2, b2⟩ := ih b1
    exact ⟨w2, by rw [writeOnes, e1]; exact e2, b2⟩

theorem refZrl_some {h} (hh : HuffOk h) : ∀ n (bits : List Nat) (s : Coding) {w T}, CodOk s →
    s.eobRun < 0x7FFF → Bud w (T + cost s + 16 * n + bits.length) →
    ∃ bits' s' w', refZrl h n bits s w = some (bits', s', w') ∧ CodOk s' ∧ s'.eobRun < 0x7FFF ∧
      bits'.length ≤ bits.length ∧ s'.count + bits'.length ≤ s.count + bits.length ∧
      Bud w' (T + cost s' + bits'.length) := by
  intro n
  induction n with
  | zero => intro bits s w T hs hr b; exact ⟨bits, s, w, rfl, hs, hr, Nat.le_refl _, Nat.le_refl _, b⟩
  | succ n ih =>
    intro bits s w T hs hr b
    obtain ⟨w1, e1, b1⟩ := flush_some (T := T + 16 * (n + 1) + bits.length) hs (b.mono (by omega))
    obtain ⟨w2, e2, b2⟩ := sym_some (T := T + 16 * n + bits.length) hh (s := 0xF0) (by decide) (b1.mono (by omega))
    obtain ⟨w3, e3, b3⟩ := ones_some bits.reverse (T := T + 16 * n) (by rw [List.length_reverse]; exact b2)
    obtain ⟨bits', s', w', e4, a1, a2, a3, a4, a5⟩ := ih [] (flushed s) (T := T) (flushed_ok s)
      (by show 0 < 0x7FFF; decide) (b3.mono (by rw [cost_flushed]; simp))
    refine ⟨bits', s', w', by rw [refZrl, e1]; simp only [Option.bind_some, e2, e3]; exact e4, a1, a2, ?_, ?_, a5⟩
    · simp only [List.length_nil] at a3; omega
    · have : (flushed s).count = 0 := rfl
      simp only [List.length_nil] at a4; omega

theorem waitAc_mono (al : Nat) : ∀ (cs : List Int) {p q : Nat}, p ≤ q → waitAc al cs p ≤ waitAc al cs q := by
  intro cs
  induction cs with
  | nil => intro p q h; exact h
  | cons c cs ih =>
    intro p q h
    show waitAc al cs _ ≤ waitAc al cs _
    refine ih ?_
    simp only
    split
    · exact Nat.le_refl _
    · split <;> omega

theorem waitAc_cons (al : Nat) (c : Int) (cs : List Int) (p : Nat) : waitAc al (c :: cs) p =
    waitAc al cs (if c.natAbs >>> al = 1 then 0 else if c.natAbs >>> al > 1 then p + 1 else p) := rfl

theorem lastNew_tail (al : Nat) (c : Int) (cs : List Int) : lastNew al (c :: cs) - 1 = lastNew al cs := by
  rw [lastNew]
  split
  · omega
  · split <;> omega

theorem lastNew_pos (al : Nat) (c : Int) (cs : List Int) (h : c.natAbs >>> al = 1) : 0 < lastNew al (c :: cs) := by
  rw [lastNew]
  split
  · omega
  · decide

theorem refAc_some {h} (hh : HuffOk h) (al : Nat) : ∀ (cs : List Int) (r : Nat) (bits : List Nat) (s : Coding) {w T},
    CodOk s → s.eobRun < 0x7FFF → Bud w (T + cost s + 17 * cs.length + r + bits.length) →
    ∃ r' bits' s' w', refAc h al cs (lastNew al cs) r bits s w = some (r', bits', s', w') ∧ CodOk s' ∧
      s'.eobRun < 0x7FFF ∧ bits'.length ≤ bits.length + cs.length ∧
      s'.count + bits'.length ≤ waitAc al cs (s.count + bits.length) ∧ Bud w' (T + cost s' + bits'.length) := by
  intro cs
  induction cs with
  | nil =>
    intro r bits s w T hs hr b
    exact ⟨r, bits, s, w, rfl, hs, hr, Nat.le_refl _, Nat.le_refl _, b.mono (by simp only [List.length_nil]; omega)⟩
  | cons c cs ih =>
    intro r bits s w T hs hr b
    simp only [List.length_cons] at b ⊢
    rw [refAc, lastNew_tail, waitAc_cons]
    by_cases h0 : c.natAbs >>> al = 0
    · simp only [h0, if_true]
      obtain ⟨r', bits', s', w', e, a1, a2, a3, a4, a5⟩ := ih (r + 1) bits s (T := T) hs hr (b.mono (by omega))
      refine ⟨r', bits', s', w', e, a1, a2, by omega, ?_, a5⟩
      rw [if_neg (by decide), if_neg (by decide)]; exact a4
    · simp only [h0, if_false]
      obtain ⟨bz, sz, wz, ez, z1, z2, z3, z4, z5⟩ := refZrl_some hh
        (if lastNew al (c :: cs) > 0 then r / 16 else 0) bits s (w := w)
        (T := T + 17 * cs.length + 17 + (if lastNew al (c :: cs) > 0 then r % 16 else r)) hs hr
        (b.mono (by split <;> omega))
      simp only [ez, Option.bind_some]
      by_cases h1 : c.natAbs >>> al > 1
      · simp only [h1, if_true]
        obtain ⟨r', bits', s', w', e, a1, a2, a3, a4, a5⟩ := ih
          (if lastNew al (c :: cs) > 0 then r % 16 else r) ((c.natAbs >>> al &&& 1) :: bz) sz (w := wz) (T := T)
          z1 z2 (z5.mono (by simp only [List.length_cons]; omega))
        simp only [List.length_cons] at a3 a4
        refine ⟨r', bits', s', w', e, a1, a2, by omega, ?_, a5⟩
        rw [if_neg (by omega)]
        exact Nat.le_trans a4 (waitAc_mono al cs (by omega))
      · simp only [h1, if_false]
        have h2 : c.natAbs >>> al = 1 := Nat.le_antisymm (Nat.le_of_not_lt h1) (Nat.pos_of_ne_zero h0)
        have hl := lastNew_pos al c cs h2
        simp only [hl, if_true] at z5 ⊢
        obtain ⟨w1, e1, b1⟩ := flush_some (T := T + 17 * cs.length + 17 + bz.length) z1 (z5.mono (by omega))
        obtain ⟨w2, e2, b2⟩ := sym_some (T := T + 17 * cs.length + 1 + bz.length)
          (s := ((r % 16) <<< 4) + 1) hh (by rw [shl4]; omega) (b1.mono (by omega))
        obtain ⟨w3, e3, b3⟩ := wb (T := T + 17 * cs.length + bz.length) (n := 1) (if c < 0 then 0 else 1)
          (b2.mono (by omega)) (Nat.le_refl 1) (by decide)
        obtain ⟨w4, e4, b4⟩ := ones_some bz.reverse (T := T + 17 * cs.length) (by rw [List.length_reverse]; exact b3)
        simp only [e1, e2, e3, e4, Option.bind_some]
        obtain ⟨r', bits', s', w', e, a1, a2, a3, a4, a5⟩ := ih 0 [] (flushed sz) (w := w4) (T := T)
          (flushed_ok sz) (by show 0 < 0x7FFF; decide) (b4.mono (by rw [cost_flushed]; simp))
        simp only [List.length_nil] at a3
        refine ⟨r', bits', s', w', e, a1, a2, by omega, ?_, a5⟩
        rw [if_pos h2]; exact a4

theorem encSeq_some {coeffs : List Int} {dc ac zr} {last : Int} {w} (hd : HuffOk dc) (ha : HuffOk ac)
    (hl : coeffs.length = 64) (h0 : (coeffs.headD 0).natAbs ≤ 2047) (hc : ∀ c ∈ coeffs, c.natAbs ≤ 4095)
    (hz : zr ≤ 4) (hlast : last.natAbs ≤ 2047) (b : Bud w 2048) :
    ∃ p, encodeSequential coeffs dc ac zr last w = some p ∧ p.1.natAbs ≤ 2047 ∧ p.2.room ≤ 64 := by
  cases coeffs with
  | nil => cases hl
  | cons c0 cs =>
    simp only [List.length_cons] at hl
    simp only [List.headD_cons] at h0
    unfold encodeSequential
    simp only
    obtain ⟨w1, e1, b1⟩ := dc_some (T := 2020) (d := c0 - last) hd (by omega) b
    obtain ⟨p2, e2, b2⟩ := seqAc_some ha cs 0 (T := 80) (fun c h => hc c (by simp [h])) (by omega)
      (b1.mono (by omega))
    obtain ⟨w3, e3, b3⟩ := zrl_some (T := 16) ha zr (b2.mono (by omega))
    simp only [e1, e2, e3, Option.bind_some]
    split
    · obtain ⟨w4, e4, b4⟩ := sym_some (T := 0) ha (s := 0) (by decide) b3
      rw [e4]; exact ⟨_, rfl, h0, b4.room⟩
    · exact ⟨_, rfl, h0, b3.room⟩

theorem band_len (ss se : Nat) {coeffs : List Int} (h : coeffs.length = 64) : (band ss se coeffs).length ≤ 63 := by
  unfold band; simp only [List.length_drop, List.length_take]; omega

theorem band_mem {ss se : Nat} {coeffs : List Int} {c : Int} (h : c ∈ band ss se coeffs) : c ∈ coeffs :=
  List.mem_of_mem_take (List.mem_of_mem_drop h)

theorem band_eq (ss se : Nat) (coeffs : List Int) :
    (coeffs.take (se + 1)).drop (if ss = 0 then 1 else ss) = band ss se coeffs := by
  unfold band
  have : (if ss = 0 then 1 else ss) = max 1 ss := by split <;> omega
  rw [this]

theorem encProg_some {coeffs : List Int} {dc ac zr} {ss se al : Nat} {last : Int} {s w} (hd : HuffOk dc)
    (ha : HuffOk ac) (hl : coeffs.length = 64) (h0 : (coeffs.headD 0).natAbs ≤ 2047)
    (hc : ∀ c ∈ coeffs, c.natAbs ≤ 4095) (hz : zr ≤ 4) (hlast : last.natAbs ≤ 2047) (hs : CodOk s)
    (hr : s.eobRun < 0x7FFF) (hn : s.count = 0) (b : Bud w 2048) :
    ∃ d s' w', encodeProgressive coeffs dc ac ss se al zr s last w = some (d, s', w') ∧ d.natAbs ≤ 2047 ∧ CodOk s' ∧
      s'.eobRun < 0x7FFF ∧ s'.count = 0 ∧ w'.room ≤ 64 := by
  have hdc : ((coeffs.headD 0) / ((2 ^ al : Nat) : Int)).natAbs ≤ 2047 :=
    Nat.le_trans (Int.natAbs_ediv_le_natAbs _ _) h0
  have hq : ∃ q : Int × Writer, (if ss = 0 then (writeDc ((coeffs.headD 0) / ((2 ^ al : Nat) : Int) - last) dc w).bind
      fun w => some ((coeffs.headD 0) / ((2 ^ al : Nat) : Int), w) else some (last, w)) = some q ∧
      q.1.natAbs ≤ 2047 ∧ Bud q.2 2020 := by
    split
    · obtain ⟨w1, e1, b1⟩ := dc_some (T := 2020) (d := (coeffs.headD 0) / ((2 ^ al : Nat) : Int) - last) hd
        (by omega) b
      rw [e1]; exact ⟨_, rfl, hdc, b1⟩
    · exact ⟨_, rfl, hlast, b.mono (by omega)⟩
  obtain ⟨q, eq, hq1, bq⟩ := hq
  unfold encodeProgressive
  simp only [eq, Option.bind_some, band_eq]
  by_cases hse : (if ss = 0 then 1 else ss) > se
  · rw [if_pos hse]; exact ⟨_, _, _, rfl, hq1, hs, hr, hn, bq.room⟩
  · rw [if_neg hse]
    have hcs : cost s ≤ 30 := by unfold cost; split <;> omega
    have hbl := band_len ss se hl
    obtain ⟨r1, s1, w1, e1, a1, a2, a3, a4⟩ := progAc_some ha al (band ss se coeffs) 0 s (w := q.2) (T := 200)
      (fun c h => hc c (band_mem h)) hs hr (bq.mono (by omega))
    simp only [e1, Option.bind_some]
    have hz' : ∃ z : Coding × Writer, (if zr > 0 then (flush s1 w1).bind fun f => (writeZrl ac zr f.2).bind
        fun w => some (f.1, w) else some (s1, w1)) = some z ∧ CodOk z.1 ∧ z.1.eobRun < 0x7FFF ∧ z.1.count = 0 ∧
        Bud z.2 100 := by
      split
      · obtain ⟨w2, e2, b2⟩ := flush_some (T := 200) a1 a4
        obtain ⟨w3, e3, b3⟩ := zrl_some (T := 100) ha zr (b2.mono (by omega))
        simp only [e2, e3, Option.bind_some]
        exact ⟨_, rfl, flushed_ok _, by show 0 < 0x7FFF; decide, rfl, b3⟩
      · exact ⟨_, rfl, a1, a2, by show s1.count = 0; omega, a4.mono (by omega)⟩
    obtain ⟨z, ez, z1, z2, z3, z4⟩ := hz'
    simp only [ez, Option.bind_some]
    by_cases hr1 : 16 * zr < r1
    · rw [if_pos hr1]
      obtain ⟨s2, w2, e2, c1, c2, c3, c4⟩ := endOfBand_some (bits := []) (T := 0) z1 z2 ha (by simp)
        (z4.mono (by simp only [List.length_nil]; omega))
      simp only [e2, Option.bind_some]
      by_cases h1 : ss = 0
      · rw [if_pos h1]
        obtain ⟨w3, e3, b3⟩ := flush_some c1 c4
        simp only [e3, Option.bind_some]
        exact ⟨_, _, _, rfl, hq1, flushed_ok _, by show 0 < 0x7FFF; decide, rfl, b3.room⟩
      · rw [if_neg h1]
        simp only [Option.bind_some]
        simp only [List.length_nil] at c3
        exact ⟨_, _, _, rfl, hq1, c1, c2, by omega, c4.room⟩
    · rw [if_neg hr1]
      exact ⟨_, _, _, rfl, hq1, z1, z2, z3, z4.room⟩

theorem encRef_some {coeffs : List Int} {ac} {ss se al : Nat} {s w} (ha : HuffOk ac) (hl : coeffs.length = 64)
    (hs : CodOk s) (hr : s.eobRun < 0x7FFF) (hn : s.count ≤ 916) (b : Bud w 2048) :
    ∃ s' w', encodeRefinement coeffs ac ss se al s w = some (s', w') ∧ CodOk s' ∧ s'.eobRun < 0x7FFF ∧
      s'.count ≤ waitAc al (band ss se coeffs) s.count ∧ w'.room ≤ 64 := by
  have hq : ∃ w1, (if ss = 0 then writeBits w 1 (((coeffs.headD 0) / (2 ^ al : Nat)) % 2).toNat else some w) =
      some w1 ∧ Bud w1 2047 := by
    split
    · exact wb _ b (by decide) (by decide)
    · exact ⟨_, rfl, b.mono (by omega)⟩
  obtain ⟨w1, e1, b1⟩ := hq
  unfold encodeRefinement
  simp only [e1, Option.bind_some, band_eq]
  by_cases hse : (if ss = 0 then 1 else ss) > se
  · rw [if_pos hse]
    have hb : band ss se coeffs = [] := by
      unfold band
      apply List.drop_eq_nil_of_le
      simp only [List.length_take]
      split at hse <;> omega
    rw [hb]
    exact ⟨_, _, rfl, hs, hr, Nat.le_refl _, b1.room⟩
  · rw [if_neg hse]
    have hcs : cost s ≤ 30 + s.count := by unfold cost; split <;> omega
    have hbl := band_len ss se hl
    obtain ⟨r2, bits, s2, w2, e2, a1, a2, a3, a4, a5⟩ := refAc_some ha al (band ss se coeffs) 0 [] s (w := w1) (T := 30)
      hs hr (b1.mono (by simp only [List.length_nil]; omega))
    simp only [List.length_nil, Nat.zero_add, Nat.add_zero] at a3 a4
    simp only [e2, Option.bind_some]
    by_cases hc : r2 > 0 ∨ bits ≠ []
    · rw [if_pos hc]
      obtain ⟨s3, w3, e3, c1, c2, c3, c4⟩ := endOfBand_some (bits := bits.reverse) (T := 0) a1 a2 ha
        (by rw [List.length_reverse]; omega)
        (a5.mono (by rw [List.length_reverse]; unfold cost; omega))
      rw [List.length_reverse] at c3
      simp only [e3, Option.bind_some]
      by_cases h1 : ss = 0
      · rw [if_pos h1]
        obtain ⟨w4, e4, b4⟩ := flush_some c1 c4
        rw [e4]
        exact ⟨_, _, rfl, flushed_ok _, by show 0 < 0x7FFF; decide, Nat.zero_le _, b4.room⟩
      · rw [if_neg h1]
        exact ⟨_, _, rfl, c1, c2, by omega, c4.room⟩
    · rw [if_neg hc]
      exact ⟨_, _, rfl, a1, a2, by omega, a5.room⟩

theorem jump_some {w} (pads : Option (List Nat)) (hr : w.room ≤ 64) :
    ∃ r, jump w pads = some r ∧ ∀ q, r = some q → q.1.room ≤ 64 := by
  unfold jump
  cases pads with
  | none =>
    obtain ⟨w', e, h⟩ := emitEnd_some w (2 ^ (w.room % 8) - 1) hr
    simp only [e, Option.bind_some]
    exact ⟨_, rfl, fun q hq => by cases hq; show w'.room ≤ 64; omega⟩
  | some src =>
    simp only
    cases takePads (w.room % 8) src 0 0 with
    | none => exact ⟨_, rfl, fun q hq => by cases hq⟩
    | some t =>
      obtain ⟨pat, dang, rest⟩ := t
      simp only
      split
      · exact ⟨_, rfl, fun q hq => by cases hq⟩
      · obtain ⟨w', e, h⟩ := emitEnd_some w pat hr
        simp only [e, Option.bind_some]
        exact ⟨_, rfl, fun q hq => by cases hq; show w'.room ≤ 64; omega⟩

theorem marker_some (w : Writer) (m : Nat) : ∃ w', emitMarker w m = some w' ∧ w'.room = w.room := by
  unfold emitMarker
  have hp : (reserve w 2).pos + 2 ≤ chunkSize := by
    unfold reserve; split
    · show 0 + 2 ≤ chunkSize; decide
    · omega
  simp only
  rw [if_pos (by omega)]
  exact ⟨_, rfl, reserve_room w 2⟩

/-- Between two steps of a scan; `p` bounds the refinement bits waiting. -/
structure ScanInv (st : Scan) (p : Nat) : Prop where
  room : st.w.room ≤ 64
  cod : CodOk st.coding
  run : st.coding.eobRun < 0x7FFF
  dc : ∀ i, (st.lastDc i).natAbs ≤ 2047
  count : st.coding.count ≤ p

theorem restart_some {mode st p} (h : ScanInv st p) :
    ∃ r, stepScan mode st .restart = some r ∧ ∀ st', r = some st' → ScanInv st' 0 := by
  obtain ⟨w1, e1, r1⟩ := flush_any h.cod h.room
  obtain ⟨q, e2, h2⟩ := jump_some st.pads r1
  unfold stepScan
  simp only [e1, e2, Option.bind_some]
  cases q with
  | none => exact ⟨_, rfl, fun st' h => by cases h⟩
  | some q =>
    obtain ⟨w2, pads⟩ := q
    obtain ⟨w3, e3, r3⟩ := marker_some w2 (0xD0 + st.next % 8)
    simp only [e3, Option.bind_some]
    refine ⟨_, rfl, fun st' hs => ?_⟩
    cases hs
    have := h2 (w2, pads) rfl
    exact ⟨by show w3.room ≤ 64; simp only at this; omega, flushed_ok _, by show 0 < 0x7FFF; decide,
      fun _ => by show (0 : Int).natAbs ≤ 2047; decide, Nat.le_refl _⟩

theorem reset_some {mode st p} (h : ScanInv st p) :
    ∃ r, stepScan mode st .reset = some r ∧ ∀ st', r = some st' → ScanInv st' 0 := by
  obtain ⟨w1, e1, r1⟩ := flush_any h.cod h.room
  unfold stepScan
  simp only [e1, Option.bind_some]
  refine ⟨_, rfl, fun st' hs => ?_⟩
  cases hs
  exact ⟨r1, flushed_ok _, by show 0 < 0x7FFF; decide, h.dc, Nat.le_refl _⟩

theorem init_inv (pads : Option (List Nat)) (ac : Huff) : ScanInv (Scan.init pads ac) 0 :=
  ⟨by show 64 ≤ 64; decide, ⟨by show ([] : List Nat).length = (0 + 15) / 16; decide, by show 0 ≤ 0x7FFF; decide,
    fun h => absurd h (by show ¬ (0 > 0); decide)⟩, by show 0 < 0x7FFF; decide,
    fun _ => by show (0 : Int).natAbs ≤ 2047; decide, Nat.le_refl _⟩

/-- The end of a scan needs nothing but the invariant. -/
theorem scan_end {mode xs pads ac} (h : ∃ r, runSteps mode xs (Scan.init pads ac) = some r ∧
    ∀ st, r = some st → ∃ p, ScanInv st p) : encodeScan mode xs pads ac ≠ none := by
  obtain ⟨r, e, hr⟩ := h
  unfold encodeScan
  rw [e]
  cases r with
  | none => simp
  | some st =>
    obtain ⟨p, hi⟩ := hr st rfl
    obtain ⟨w1, e1, r1⟩ := flush_any hi.cod hi.room
    obtain ⟨q, e2, _⟩ := jump_some st.pads r1
    simp only [Option.bind_some, e1, e2]
    cases q <;> simp

theorem upd_dc {f : Nat → Int} {d : Int} {comp : Nat} (hf : ∀ i, (f i).natAbs ≤ 2047) (hd : d.natAbs ≤ 2047) (i : Nat) :
    (if i = comp then d else f i).natAbs ≤ 2047 := by split <;> simp [hf, hd]

theorem runSteps_none {mode : Mode} {x : Step} {xs : List Step} {st : Scan} (h : stepScan mode st x = some none) :
    runSteps mode (x :: xs) st = some none := by rw [runSteps, h]; rfl

theorem runSteps_next {mode : Mode} {x : Step} {xs : List Step} {st st1 : Scan}
    (h : stepScan mode st x = some (some st1)) : runSteps mode (x :: xs) st = runSteps mode xs st1 := by
  rw [runSteps, h]; rfl

/-- Sequential scans and first scans of a band: nothing is ever waiting. -/
theorem runSteps_some {mode} (hm : ∀ ss se al, mode ≠ .refine ss se al) : ∀ (xs : List Step) (st : Scan),
    ScanInv st 0 → (∀ x ∈ xs, StepOk x) →
    ∃ r, runSteps mode xs st = some r ∧ ∀ st', r = some st' → ∃ p, ScanInv st' p := by
  intro xs
  induction xs with
  | nil => intro st h _; exact ⟨_, rfl, fun st' e => by cases e; exact ⟨0, h⟩⟩
  | cons x xs ih =>
    intro st h hx
    have hstep : ∃ r, stepScan mode st x = some r ∧ ∀ st', r = some st' → ScanInv st' 0 := by
      cases x with
      | restart => exact restart_some h
      | reset => exact reset_some h
      | block comp dc ac coeffs zr =>
        obtain ⟨hd, ha, hl, h0, hc, hz⟩ := hx _ (List.mem_cons_self ..)
        have b := bud_reserve512 st.w h.room
        unfold stepScan encodeBlock
        cases mode with
        | sequential =>
          obtain ⟨p, e, p1, p2⟩ := encSeq_some hd ha hl h0 hc hz (h.dc comp) b
          simp only [e, Option.bind_some]
          refine ⟨_, rfl, fun st' hs => ?_⟩
          cases hs
          exact ⟨p2, h.cod, h.run, upd_dc h.dc p1, h.count⟩
        | first ss se al =>
          obtain ⟨d, s', w', e, p1, p2, p3, p4, p5⟩ := encProg_some (ss := ss) (se := se) (al := al) hd ha hl h0 hc hz
            (h.dc comp) h.cod h.run (by have := h.count; omega) b
          simp only [e, Option.bind_some]
          refine ⟨_, rfl, fun st' hs => ?_⟩
          cases hs
          exact ⟨p5, p2, p3, upd_dc h.dc p1, Nat.le_of_eq p4⟩
        | refine ss se al => exact absurd rfl (hm ss se al)
    obtain ⟨r, e, hr⟩ := hstep
    cases r with
    | none => exact ⟨_, runSteps_none e, fun st' e => by cases e⟩
    | some st1 =>
      rw [runSteps_next e]
      exact ih st1 (hr st1 rfl) (fun y hy => hx y (by simp [hy]))

theorem WaitLe.mono {N ss se al : Nat} : ∀ {xs : List Step} {p q : Nat}, p ≤ q → WaitLe N ss se al xs q →
    WaitLe N ss se al xs p := by
  intro xs
  induction xs with
  | nil => intro p q _ _; trivial
  | cons x xs ih =>
    intro p q h hw
    cases x with
    | restart => exact hw
    | reset => exact hw
    | block comp dc ac coeffs zr => exact ⟨Nat.le_trans h hw.1, ih (waitAc_mono al _ h) hw.2⟩

/-- Refinement scans in which at most 916 bits are waiting before a block. -/
theorem runSteps_refine {ss se al : Nat} : ∀ (xs : List Step) (st : Scan) (p : Nat), ScanInv st p →
    (∀ x ∈ xs, StepOk x) → WaitLe 916 ss se al xs p →
    ∃ r, runSteps (.refine ss se al) xs st = some r ∧ ∀ st', r = some st' → ∃ p, ScanInv st' p := by
  intro xs
  induction xs with
  | nil => intro st p h _ _; exact ⟨_, rfl, fun st' e => by cases e; exact ⟨p, h⟩⟩
  | cons x xs ih =>
    intro st p h hx hw
    have hstep : ∃ r, stepScan (.refine ss se al) st x = some r ∧
        ∀ st', r = some st' → ∃ p', ScanInv st' p' ∧ WaitLe 916 ss se al xs p' := by
      cases x with
      | restart => obtain ⟨r, e, hr⟩ := restart_some (mode := .refine ss se al) h; exact ⟨r, e, fun st' hs => ⟨0, hr st' hs, hw⟩⟩
      | reset => obtain ⟨r, e, hr⟩ := reset_some (mode := .refine ss se al) h; exact ⟨r, e, fun st' hs => ⟨0, hr st' hs, hw⟩⟩
      | block comp dc ac coeffs zr =>
        obtain ⟨hd, ha, hl, h0, hc, hz⟩ := hx _ (List.mem_cons_self ..)
        have b := bud_reserve512 st.w h.room
        unfold stepScan encodeBlock
        obtain ⟨s', w', e, p2, p3, p4, p5⟩ := encRef_some (ss := ss) (se := se) (al := al) ha hl h.cod h.run
          (by have := h.count; have := hw.1; omega) b
        simp only [e, Option.bind_some]
        refine ⟨_, rfl, fun st' hs => ⟨_, ?_, hw.2⟩⟩
        cases hs
        exact ⟨p5, p2, p3, h.dc, Nat.le_trans p4 (waitAc_mono al _ h.count)⟩
    obtain ⟨r, e, hr⟩ := hstep
    cases r with
    | none => exact ⟨_, runSteps_none e, fun st' e => by cases e⟩
    | some st1 =>
      rw [runSteps_next e]
      obtain ⟨p', h1, h2⟩ := hr st1 rfl
      exact ih st1 p' h1 (fun y hy => hx y (by simp [hy])) h2

end Jxl.Jpeg
