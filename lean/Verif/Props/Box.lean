import Verif.Lemmas.Box
/-!
# C27: container box headers

`Announces h type n`: whatever follows the header `h` and wherever it is in a file (that still fits 64 bits), it is understood as a box of that
type with `n` bytes of content.
-/
namespace Jxl.Props
open Box

def Announces (h type : List UInt8) (n : Nat) : Prop :=
  ∀ (rest : List UInt8) (filePos : Nat), filePos + h.length + n < 2 ^ 64 →
    parse (h ++ rest) 0 filePos = .ok type (h.length + n) h.length

/-- The header announces a box that extends to the end of the file. -/
def AnnouncesUnbounded (h type : List UInt8) : Prop :=
  ∀ (rest : List UInt8) (filePos : Nat), filePos < 2 ^ 64 → parse (h ++ rest) 0 filePos = .ok type 0 h.length

/-- **C27 (partial).**  Headers round trip: unbounded ones, large ones of every size, short ones below 2^32-8.  Missing: sizes
from 2^32-8 on without the large flag, for which it is false (`C27_short_header_fails`). -/
theorem C27_round_trip_partial (type : List UInt8) (ht : type.length = 4) (size : Nat) (force : Bool) :
    AnnouncesUnbounded (writeHeader type size true force) type ∧
    (size + 16 < 2 ^ 64 → Announces (writeHeader type size false true) type size) ∧
    (size < 2 ^ 32 - 8 → Announces (writeHeader type size false false) type size) := by
  refine ⟨?_, ?_, ?_⟩
  · intro rest fp hf
    rw [writeHeader_unbounded, parse_short type rest 0 fp ht hf (by omega) (by omega), if_neg (by omega)]
    simp [be_length, ht]
  · intro hs rest fp hf
    have hl : (writeHeader type size false true).length = 16 := by rw [writeHeader_large]; simp [be_length, ht]
    rw [hl] at hf ⊢
    have e : w64 (size + 16) = size + 16 := by unfold w64; omega
    rw [writeHeader_large, e, parse_long type rest (size + 16) fp ht (by omega) hs, if_neg (by omega), Nat.add_comm]
  · intro hs rest fp hf
    have hl : (writeHeader type size false false).length = 8 := by rw [writeHeader_small]; simp [be_length, ht]
    rw [hl] at hf ⊢
    have e : w64 (size + 8) = size + 8 := by unfold w64; omega
    rw [writeHeader_small, e, parse_short type rest (size + 8) fp ht (by omega) (by omega) (by omega), if_neg (by omega), Nat.add_comm]

/-- Boxes written with a size bound: whatever the bound, the header announces the content. -/
theorem C27_bounded_boxes (type : List UInt8) (ht : type.length = 4) (maxSize size : Nat) (hm : maxSize + 16 < 2 ^ 64) (h : List UInt8)
    (hw : appendBox type false maxSize size = some h) : Announces h type size := by
  have hh : ∀ (c : Prop) [Decidable c] (x : List UInt8), (if c then some x else none) = some h → x = h := by
    intro c _ x hx
    split at hx
    · exact Option.some.inj hx
    · cases hx
  unfold appendBox at hw
  by_cases hle : size > maxSize
  · simp [hle] at hw
  · simp only [Bool.not_false, Bool.and_true, if_neg hle] at hw
    have hx := hh _ _ hw
    have := C27_round_trip_partial type ht size true
    subst hx
    by_cases hl : maxSize ≥ largeThreshold
    · simp only [hl, decide_true]
      exact this.2.1 (by omega)
    · simp only [hl, decide_false]
      exact this.2.2 (by simp only [largeThreshold, smallHeader] at hl; omega)

/-- Every accepted header is complete, its box is unbounded or at least as long as the header, and its end is a valid position. -/
theorem C27_accepted (inp type : List UInt8) (filePos boxSize headerSize : Nat) (hf : filePos < 2 ^ 64)
    (h : parse inp 0 filePos = .ok type boxSize headerSize) :
    headerSize ≤ inp.length ∧ (headerSize = 8 ∨ headerSize = 16) ∧ type = (inp.drop 4).take 4 ∧ type.length = 4 ∧
      (boxSize = 0 ∨ headerSize ≤ boxSize) ∧ filePos + boxSize < 2 ^ 64 := by
  rw [parse_eq _ _ hf] at h
  split at h
  · cases h
  · split at h
    · split at h
      · cases h
      · split at h
        · cases h
        · cases h
          refine ⟨by omega, Or.inr rfl, rfl, by simp; omega, by omega, by omega⟩
    · split at h
      · cases h
      · cases h
        refine ⟨by omega, Or.inl rfl, rfl, by simp; omega, by omega, by omega⟩

/-- More input is asked for exactly when the header is incomplete. -/
theorem C27_need_more (inp : List UInt8) (filePos : Nat) (hf : filePos < 2 ^ 64) :
    (∃ n, parse inp 0 filePos = .needMore n) ↔ inp.length < 8 ∨ (inp.take 4 = [0, 0, 0, 1] ∧ inp.length < 16) := by
  rw [parse_eq _ _ hf]
  have key : 8 ≤ inp.length → (load (inp.take 4) = 1 ↔ inp.take 4 = [0, 0, 0, 1]) := by
    intro hl
    rcases inp with _ | ⟨a, _ | ⟨b, _ | ⟨c, _ | ⟨d, r⟩⟩⟩⟩ <;> try (simp at hl; done)
    have ha := a.toNat_lt; have hb := b.toNat_lt; have hc := c.toNat_lt; have hd := d.toNat_lt
    have e : load ((a :: b :: c :: d :: r).take 4) = a.toNat * 2 ^ 24 + b.toNat * 2 ^ 16 + c.toNat * 2 ^ 8 + d.toNat := by
      simp only [List.take_succ_cons, List.take_zero, load_cons', List.length_cons, List.length_nil]
      simp [load]; omega
    rw [e]
    simp only [List.take_succ_cons, List.take_zero, List.cons.injEq, and_true]
    simp only [← UInt8.toNat_inj, UInt8.toNat_zero, UInt8.toNat_one]
    omega
  by_cases h8 : inp.length < 8
  · simp [h8]
  · rw [if_neg h8]
    by_cases h1 : load (inp.take 4) = 1
    · rw [if_pos h1]
      have := (key (by omega)).mp h1
      by_cases h16 : inp.length < 16
      · simp [h16, this]
      · rw [if_neg h16]
        simp only [h8, h16, and_false, or_false, iff_false]
        rintro ⟨n, hn⟩
        split at hn <;> cases hn
    · rw [if_neg h1]
      have : ¬ (inp.take 4 = [0, 0, 0, 1]) := fun h => h1 ((key (by omega)).mpr h)
      simp only [h8, this, false_and, or_false, iff_false]
      rintro ⟨n, hn⟩
      split at hn <;> cases hn

/-- A definite answer does not change when more bytes arrive. -/
theorem C27_stable (inp more : List UInt8) (filePos : Nat) (hf : filePos < 2 ^ 64) (h : ∀ n, parse inp 0 filePos ≠ .needMore n) :
    parse (inp ++ more) 0 filePos = parse inp 0 filePos := by
  have hn : ¬ ∃ n, parse inp 0 filePos = .needMore n := fun ⟨n, hn⟩ => h n hn
  rw [C27_need_more _ _ hf] at hn
  rw [parse_eq _ _ hf] at h
  rw [parse_eq _ _ hf, parse_eq _ _ hf]
  have h8 : ¬ inp.length < 8 := fun h => hn (Or.inl h)
  have t4 : (inp ++ more).take 4 = inp.take 4 := List.take_append_of_le_length (by omega)
  have d4 : ((inp ++ more).drop 4).take 4 = (inp.drop 4).take 4 := by
    rw [List.drop_append_of_le_length (by omega), List.take_append_of_le_length (by simp; omega)]
  rw [t4, d4, if_neg h8, if_neg (by simp; omega)]
  by_cases h1 : load (inp.take 4) = 1
  · rw [if_pos h1, if_pos h1]
    by_cases h16 : inp.length < 16
    · exfalso
      rw [if_neg h8, if_pos h1, if_pos h16] at h
      exact h 16 rfl
    · have d8 : ((inp ++ more).drop 8).take 8 = (inp.drop 8).take 8 := by
        rw [List.drop_append_of_le_length (by omega), List.take_append_of_le_length (by simp; omega)]
      rw [if_neg h16, if_neg (by simp; omega), d8]
  · rw [if_neg h1, if_neg h1]

/-- Disagreement: without the large flag a content of 2^32-8 bytes or more is written with a truncated size, although the function looks as if it
switched to the large format (it compares the wrong variable).  Here the box claims to extend to the end of the file. -/
theorem C27_short_header_fails : ∃ (size : Nat), size + 8 = 2 ^ 32 ∧ ¬ Announces (writeHeader jxlp size false false) jxlp size := by
  refine ⟨2 ^ 32 - 8, rfl, ?_⟩
  intro h
  have := h [] 0 (by decide +kernel)
  revert this
  decide +kernel

/-! ## The box around a frame -/

theorem jxlpCounter_length (c : Nat) (l : Bool) : (jxlpCounter c l).length = 4 := be_length _ _

/-- **The box around a frame (partial).**  Outside of output mode 2 and with the content not within four bytes of the limit, the header fits the
reserved place and announces the content (preceded by the four-byte counter unless the box is the only one). -/
theorem C27_frame_box_partial (useLarge last : Bool) (counter content : Nat) (hc : content + 20 < 2 ^ 64)
    (h4 : useLarge = true ∨ content + 4 < largeThreshold) :
    ∃ h, frameBox false useLarge last counter content = some (some h) ∧
      ((last = true ∧ counter = 0) → Announces h jxlc content) ∧
      (¬ (last = true ∧ counter = 0) → ∃ h', h = h' ++ jxlpCounter counter last ∧ Announces h' jxlp (content + 4)) := by
  have ht : jxlp.length = 4 := rfl
  have hs : largeThreshold = 2 ^ 32 - 8 := rfl
  have e4 : w64 (content + 4) = content + 4 := by unfold w64; omega
  have rc := C27_round_trip_partial jxlc rfl content true
  have rp := C27_round_trip_partial jxlp rfl (content + 4) true
  unfold frameBox
  simp only [Bool.false_eq_true, if_false, e4]
  by_cases hlast : last = true ∧ counter = 0
  · obtain ⟨rfl, rfl⟩ := hlast
    cases useLarge with
    | true =>
      have hl : (writeHeader jxlc content false true).length = 16 := by rw [writeHeader_large]; simp [be_length, jxlc]
      simp only [Bool.not_true, Bool.false_and, Bool.false_eq_true, if_false, decide_true, Bool.and_self, if_true, largeHeader, hl]
      exact ⟨_, rfl, fun _ => rc.2.1 (by omega), fun h => absurd ⟨trivial, trivial⟩ h⟩
    | false =>
      have hl : (writeHeader jxlc content false false).length = 8 := by rw [writeHeader_small]; simp [be_length, jxlc]
      have : ¬ (content ≥ largeThreshold) := by rcases h4 with h | h; cases h; omega
      simp [this, smallHeader, hl]
      exact rc.2.2 (by omega)
  · have hne : (last && decide (counter = 0)) = false := by
      rw [Bool.eq_false_iff]; simpa using hlast
    have hr : (!last || decide (counter > 0)) = true := by
      cases last <;> simp_all; omega
    simp only [hne, hr, if_true, Bool.false_eq_true, if_false]
    cases useLarge with
    | true =>
      have hl : (writeHeader jxlp (content + 4) false true).length = 16 := by rw [writeHeader_large]; simp [be_length, jxlp]
      simp only [Bool.not_true, Bool.false_and, Bool.false_eq_true, if_false, if_true, largeHeader, hl]
      exact ⟨_, rfl, fun h => absurd h hlast, fun _ => ⟨_, rfl, rp.2.1 (by omega)⟩⟩
    | false =>
      have hl : (writeHeader jxlp (content + 4) false false).length = 8 := by rw [writeHeader_small]; simp [be_length, jxlp]
      have h4' : content + 4 < largeThreshold := by rcases h4 with h | h; cases h; exact h
      have : ¬ (content ≥ largeThreshold) := by omega
      simp only [this, decide_false, Bool.and_false, Bool.false_eq_true, if_false, smallHeader, hl]
      exact ⟨_, rfl, fun h => absurd h hlast, fun _ => ⟨_, rfl, rp.2.2 (by omega)⟩⟩

/-- Disagreement: the size check before a frame box forgets the four bytes of the counter; a frame of 2^32-12 bytes passes it and is written with
a header that claims an unbounded box. -/
theorem C27_counter_forgotten : ∃ h, frameBox false false false 1 (2 ^ 32 - 12) = some (some (h ++ jxlpCounter 1 false)) ∧
    parse h 0 0 = .ok jxlp 0 8 := by
  refine ⟨be 4 0 ++ jxlp, ?_, ?_⟩ <;> decide +kernel

/-- Disagreement: in output mode 2 the header buffer is always 12 bytes, also when the size estimate asks for a large box; the 16-byte header is then
written outside of it. -/
theorem C27_mode2_overrun (last : Bool) (counter content : Nat) :
    frameBox true true last counter content = none := by
  have h1 : ∀ t n, t.length = 4 → (writeHeader t n false true).length = 16 := by
    intro t n ht; rw [writeHeader_large]; simp [be_length, ht]
  unfold frameBox
  simp only [Bool.not_true, Bool.false_and, Bool.false_eq_true, if_false, if_true]
  split <;> simp only [h1 jxlc _ rfl, h1 jxlp _ rfl] <;> rfl

example : Announces (writeHeader jxlc 1000 false false) jxlc 1000 ∧ (writeHeader jxlc 1000 false false).length = 8 ∧
    (writeHeader jxlc (2 ^ 33) false true).length = 16 ∧ appendBox jxlp false (2 ^ 32) 5 = some (writeHeader jxlp 5 false true) :=
  ⟨(C27_round_trip_partial jxlc rfl 1000 true).2.2 (by decide), by decide, by decide, by decide⟩

example : parse [0, 0, 0, 1, 1, 2, 3, 4, 0, 0, 0, 0, 0, 0, 0, 15] 0 0 = .error ∧ parse [0, 0, 0, 1, 1, 2, 3, 4] 0 0 = .needMore 16 ∧
    parse [0, 0, 0, 9, 1, 2, 3, 4] 0 (2 ^ 64 - 9) = .error ∧ parse [0, 0, 0, 9, 1, 2, 3, 4] 0 (2 ^ 64 - 10) = .ok [1, 2, 3, 4] 9 8 := by
  decide +kernel

end Jxl.Props
