import Verif.Lemmas.Lz77Far
/-!
# C16, C43: LZ77

`Verif/Spec/Lz77.lean` says what literals and copies stand for, with a history that only grows.  The decoder keeps a circular
window of 2^20 entries and 32-bit counters.
-/
namespace Jxl.Props
open Jxl.Lz77

/-- **C16.** No stream makes the decoder leave its window or use an entry that was never written: any literals, lengths (even
lengths that overflow) and distances (even beyond what was decoded), any number of values, even more than 2^32. -/
theorem C16_window_accesses_defined (p : Params) (h1 : 1 ≤ p.minLen) (h2 : p.minLen < 2 ^ 32) (ops : Nat → Op) (n : Nat) :
    (readN p ops n start).isSome = true := by
  obtain ⟨vs, s, _, h, _⟩ := readN_rel p h2 h1 ops n start_rel (by decide)
  rw [h]; rfl

example : ((readN ⟨3, 0⟩ (fun _ => .copy 5 70) 20 start).map Prod.fst) = some (List.replicate 20 0) := by decide +kernel

/-- **C16.** The values read are the ones the entries stand for: for any stream whose lengths fit 32 bits, the first `n` values
are the first `n` of the expansion, whatever `n` below 2^32. -/
theorem C16_decoder_expands (p : Params) (h1 : 1 ≤ p.minLen) (ops : Nat → Op) (hv : ∀ i, (ops i).Ok)
    (hlen : ∀ i l d, ops i = .copy l d → l + p.minLen < 2 ^ 32) (k n : Nat) (hn : n < 2 ^ 32)
    (hk : n ≤ (expand (meaning p.minLen p.mult) [] (firstOps ops k)).length) :
    ∃ s, readN p ops n start = some ((expand (meaning p.minLen p.mult) [] (firstOps ops k)).take n, s) ∧ s.bad = false := by
  rw [firstOps_eq] at hk ⊢
  obtain ⟨vs, t, a, b, c⟩ := readN_holds p h1 ops (fun i => ⟨hv i, hlen i⟩) n start [] 0 k start_holds (fun h => absurd h (by decide)) (by decide)
    (by simpa using hn) (by simpa [future, Lz77.start, copyFrom] using hk)
  refine ⟨t, ?_, b⟩
  rw [a]
  simp only [List.nil_append, List.length_nil, Nat.zero_add, future, Lz77.start, copyFrom] at c
  rw [c]

/-- The stream of a few values, copied with overlap: distance 2, length 5. -/
def lzEx : Nat → Op := fun i => [Op.lit 7, .lit 8, .copy 2 1, .lit 9].getD i (.lit 0)
example : ((readN ⟨3, 0⟩ lzEx 8 start).map Prod.fst) = some [7, 8, 7, 8, 7, 8, 7, 9] := by decide +kernel
example : expand (meaning 3 0) [] (firstOps lzEx 4) = [7, 8, 7, 8, 7, 8, 7, 9] := by decide +kernel

/-- **C16.** A length that overflows is reported: the reader is marked unhealthy and nothing is copied. -/
theorem C16_overflow_reported (p : Params) (ops : Nat → Op) (s : State) (hs : s.toCopy = 0) (l d : Nat) (hl : l < 2 ^ 32) (hm : p.minLen < 2 ^ 32)
    (ho : ops s.next = .copy l d) (hov : 2 ^ 32 ≤ l + p.minLen) :
    ∃ t, Lz77.read p ops s = some (0, t) ∧ t.bad = true ∧ t.toCopy = 0 ∧ t.num = s.num := by
  have hw : wadd l p.minLen < p.minLen := by unfold wadd; omega
  unfold Lz77.read
  rw [if_neg (by omega), ho]
  simp only
  have hsc : ∃ t, startCopy p { s with next := s.next + 1 } l d = some t ∧ t.toCopy = wadd l p.minLen ∧ t.num = s.num := by
    unfold startCopy
    simp only
    split
    · unfold fill
      rw [if_pos (Nat.min_le_right _ _)]
      exact ⟨_, rfl, rfl, rfl⟩
    · exact ⟨_, rfl, rfl, rfl⟩
  obtain ⟨t, a, b, c⟩ := hsc
  rw [a, Option.bind_some, if_pos (by rw [b]; exact hw)]
  exact ⟨_, rfl, rfl, rfl, c⟩

example : ∃ t, Lz77.read ⟨3, 0⟩ (fun _ => .copy 4294967295 0) start = some (0, t) ∧ t.bad = true ∧ t.toCopy = 0 ∧ t.num = 0 :=
  C16_overflow_reported ⟨3, 0⟩ _ start rfl 4294967295 0 (by decide) (by decide) rfl (by decide)

/-- **C16.** A decoder that went on for at most 512 values after a checkpoint and is then restored to it reads, from there, what
it would have read: for any stream before, during and after. -/
theorem C16_checkpoint (p : Params) (h1 : 1 ≤ p.minLen) (h2 : p.minLen < 2 ^ 32) (ops : Nat → Op) (a r n : Nat) (hr : r ≤ 512) (ha : a + r < 2 ^ 32)
    (vs : List Nat) (s : State) (hs : readN p ops a start = some (vs, s)) (ws : List Nat) (u : State) (hu : readN p ops r s = some (ws, u)) :
    ∃ c t, save s = some c ∧ restore c u = some t ∧ (readN p ops n t).map Prod.fst = (readN p ops n s).map Prod.fst := by
  obtain ⟨vs', s1, s2, e1, e2, hrel, hc⟩ := readN_rel p h2 h1 ops a start_rel (by decide)
  rw [hs] at e1 e2
  injection e1 with e1; injection e1 with _ e1
  injection e2 with e2; injection e2 with _ e2
  subst e1; subst e2
  obtain ⟨b1, b2⟩ := reach_num p ops a start vs s hs (fun _ => rfl) (by show 0 + a < 2 ^ 32; omega)
  have b1' : s.num ≤ a := by simpa [Lz77.start] using b1
  obtain ⟨c, t, c1, c2, c3⟩ := restore_rel p ops s hrel b2 r hr (by omega) ws u hu
  refine ⟨c, t, c1, c2, ?_⟩
  obtain ⟨xs, _, _, f1, f2, _⟩ := readN_rel p h2 h1 ops n c3 hc
  rw [f1, f2]; rfl

example : ((readN ⟨3, 0⟩ lzEx 3 start).bind fun a => (save a.2).bind fun c => (readN ⟨3, 0⟩ lzEx 3 a.2).bind fun b =>
    (restore c b.2).bind fun t => (readN ⟨3, 0⟩ lzEx 5 t).map Prod.fst) = some [8, 7, 8, 7, 9] := by decide +kernel

/-- **C16** stops at 2^32 values, where the decoder's counter starts again: after that many literals, a copy of distance 1 yields
zero instead of the last value. -/
theorem C16_not_beyond_counter : ∃ (p : Params) (ops : Nat → Op) (s : State) (v : Nat) (t : State), (∀ i, (ops i).Ok) ∧ (∀ i, i < 2 ^ 32 → ops i = .lit 5) ∧
    ops (2 ^ 32) = .copy 0 0 ∧ (∃ vs, readN p ops (2 ^ 32) start = some (vs, s)) ∧ Lz77.read p ops s = some (v, t) ∧ v = 0 := by
  have lits : ∀ (ops : Nat → Op) (p : Params) (n : Nat) (s : State), s.toCopy = 0 → s.num = s.next % 2 ^ 32 → (∀ i, i < s.next + n → ops i = .lit 5) →
      ∃ vs t, readN p ops n s = some (vs, t) ∧ t.toCopy = 0 ∧ t.next = s.next + n ∧ t.num = t.next % 2 ^ 32 := by
    intro ops p n
    induction n with
    | zero => intro s h1 h2 _; exact ⟨[], s, rfl, h1, rfl, h2⟩
    | succ n ih =>
      intro s h1 h2 h3
      have hr : Lz77.read p ops s = some (5, { s with next := s.next + 1, win := fun j => if j = s.num % W then some (5 % 2 ^ 32) else s.win j, num := wadd s.num 1 }) := by
        unfold Lz77.read; rw [if_neg (by omega), h3 s.next (by omega)]; simp only [push_eq, Option.map_some]
      obtain ⟨vs, t, a, b, c, d⟩ := ih { s with next := s.next + 1, win := fun j => if j = s.num % W then some (5 % 2 ^ 32) else s.win j, num := wadd s.num 1 } h1
        (by show wadd s.num 1 = (s.next + 1) % 2 ^ 32; unfold wadd; rw [h2]; omega) (fun i hi => h3 i (by dsimp only at hi; omega))
      refine ⟨5 :: vs, t, ?_, b, ?_, d⟩
      · simp only [readN, hr, Option.bind_some, a, Option.map_some]
      · rw [c]; dsimp only; omega
  let ops : Nat → Op := fun i => if i < 2 ^ 32 then .lit 5 else .copy 0 0
  have ho : ∀ i, i < 2 ^ 32 → ops i = .lit 5 := fun i hi => if_pos hi
  have ho2 : ops (2 ^ 32) = .copy 0 0 := if_neg (Nat.lt_irrefl _)
  obtain ⟨vs, s, a, b, c, d⟩ := lits ops ⟨3, 0⟩ (2 ^ 32) start rfl rfl (fun i hi => ho i (by show i < 2 ^ 32; have : start.next = 0 := rfl; omega))
  have c' : s.next = 2 ^ 32 := by rw [c]; show 0 + 2 ^ 32 = 2 ^ 32; omega
  have d' : s.num = 0 := by rw [d, c', Nat.mod_self]
  have hsc : ∃ t, startCopy ⟨3, 0⟩ { s with next := s.next + 1 } 0 0 = some t ∧ t.toCopy = 3 ∧ t.copyPos = 0 ∧ t.win 0 = some 0 := by
    unfold startCopy
    simp only [d']
    have hd : clampDistance (decodeDistance 0 0) 0 = 0 := rfl
    rw [if_pos hd, hd]
    exact ⟨_, rfl, rfl, rfl, rfl⟩
  obtain ⟨t, e1, e2, e3, e4⟩ := hsc
  suffices hread : ∃ t, Lz77.read ⟨3, 0⟩ ops s = some (0, t) by
    obtain ⟨t, ht⟩ := hread
    refine ⟨⟨3, 0⟩, ops, s, 0, t, ?_, ho, ho2, ⟨vs, a⟩, ht, rfl⟩
    intro i
    by_cases hi : i < 2 ^ 32
    · rw [ho i hi]; show (5 : Nat) < 2 ^ 32; decide
    · rw [show ops i = .copy 0 0 from if_neg hi]; exact ⟨by decide, by decide⟩
  unfold Lz77.read
  rw [if_neg (by omega), c', ho2]
  simp only
  rw [← c', e1, Option.bind_some, if_neg (by rw [e2]; decide)]
  exact ⟨_, copyStep_eq t 0 (by rw [e3]; exact e4)⟩

/-! ## The encoders -/

/-- The endless stream that begins with the given entries. -/
def streamOf (l : List Op) : Nat → Op := fun i => l.getD i (.lit 0)

theorem streamOf_first (l : List Op) : firstOps (streamOf l) l.length = l := by
  apply List.ext_getElem?
  intro i
  unfold firstOps streamOf
  by_cases h : i < l.length
  · rw [List.getElem?_map, List.getElem?_range h, List.getElem?_eq_getElem h]
    simp only [Option.map_some, List.getD_eq_getElem?_getD, List.getElem?_eq_getElem h, Option.getD_some]
  · rw [List.getElem?_eq_none (by simpa using h), List.getElem?_eq_none (by omega)]

/-- What fits and expands to the data is decoded to the data. -/
theorem decodes_of_expand (p : Params) (h1 : 1 ≤ p.minLen) (data : List Nat) (hd : data.length < 2 ^ 32) (hm : p.minLen < 2 ^ 32) (ops : List Op)
    (he : expand (meaning p.minLen p.mult) [] ops = data) (hf : ∀ o ∈ ops, Fits p.minLen data.length o) :
    (readN p (streamOf ops) data.length start).map Prod.fst = some data := by
  have hall : ∀ i, Fits p.minLen data.length (streamOf ops i) ∨ streamOf ops i = .lit 0 := by
    intro i
    unfold streamOf
    rw [List.getD_eq_getElem?_getD]
    cases e : ops[i]? with
    | none => right; rfl
    | some o => left; exact hf o (List.mem_of_getElem? e)
  have hok : ∀ i, (streamOf ops i).Ok := by
    intro i
    rcases hall i with h | h
    · revert h
      cases streamOf ops i with
      | lit v => exact id
      | copy l d => exact fun h => ⟨by have := h.1; omega, h.2⟩
    · rw [h]; show (0 : Nat) < 2 ^ 32; decide
  have hln : ∀ i l d, streamOf ops i = .copy l d → l + p.minLen < 2 ^ 32 := by
    intro i l d e
    rcases hall i with h | h
    · rw [e] at h; have := h.1; omega
    · rw [e] at h; cases h
  obtain ⟨s, a, _⟩ := C16_decoder_expands p h1 (streamOf ops) hok hln ops.length data.length hd (by rw [streamOf_first, he]; exact Nat.le_refl _)
  rw [a, streamOf_first, he, List.take_length]; rfl

/-- **C43** (run-length encoder). Whatever its cost estimates say, what it writes is decoded to the original values: any values, any
number of them below 2^32, any row length. -/
theorem C43_run_lengths_lossless (p : Params) (h1 : 1 ≤ p.minLen) (h2 : p.minLen < 2 ^ 32) (worth : Nat → Nat → Bool) (data : List Nat) (hd : data.length < 2 ^ 32)
    (hv : ∀ v ∈ data, v < 2 ^ 32) :
    (readN p (streamOf (rle p.minLen p.mult worth data)) data.length start).map Prod.fst = some data := by
  obtain ⟨a, b⟩ := rleGo_expand p.minLen p.mult worth data.length data.length 0 [] data (Nat.le_refl _) (by simp) hv
  exact decodes_of_expand p h1 data hd h2 _ (by simpa [rle] using a) (by simpa [rle] using b)

example : rle 3 640 (fun _ _ => true) [4, 9, 9, 9, 9, 9, 2, 2] = [.lit 4, .lit 9, .copy 1 1, .lit 2, .lit 2] := by decide +kernel

/-- **C43** (hash-map encoder), in part: what it writes is decoded to the original values, whatever its cost estimates say and
whatever its bucket size, if there are no more values than the decoder's window holds (2^20).  Missing: longer streams, where it
does not hold (`C43_far_matches_lost`). -/
theorem C43_hash_map_lossless_partial (p : Params) (h1 : 1 ≤ p.minLen) (h2 : p.minLen < 2 ^ 32) (B : Nat) (hB : 1 ≤ B) (worth : Nat → Nat → Nat → Bool)
    (data : List Nat) (hd : data.length ≤ 2 ^ 20) (hv : ∀ v ∈ data, v < 2 ^ 32) :
    ∃ ops, hashEncode p.minLen p.mult B worth data = some ops ∧ (readN p (streamOf ops) data.length start).map Prod.fst = some data := by
  obtain ⟨tab, t1, t2⟩ := specialTab_ok p.mult
  obtain ⟨ops, a, b, c⟩ := hashGo_expand data p.mult p.minLen B hB h1 tab t2 worth hd hv data.length 0 (Nat.zero_le _) (by omega)
  refine ⟨ops, ?_, ?_⟩
  · unfold hashEncode
    rw [t1, Option.bind_some]
    exact a
  · exact decodes_of_expand p h1 data (Nat.lt_of_le_of_lt hd (by decide)) h2 ops (by simpa using b) c

example : hashEncode 3 0 7 (fun _ _ _ => true) [1, 2, 3, 1, 2, 3, 1, 2, 9, 9, 9, 8] = some [.lit 1, .lit 2, .lit 3, .copy 2 2, .lit 9, .lit 9, .lit 9, .lit 8] := by
  decide +kernel

/-- The counterexample, for a window of `L` entries. -/
theorem far_lost (L : Nat) (hL : 8 ≤ L) (hL' : L ≤ 2000000) (he : L % 2 = 0) (hr : L = reach) (B : Nat) (hB : 1 ≤ B) :
    ∃ (data : List Nat) (ops : List Op) (vs : List Nat) (s : State), data.length = L + 9 ∧ (∀ v ∈ data, v < 12) ∧
    hashEncode 3 0 B (fun _ _ _ => true) data = some ops ∧ readN ⟨3, 0⟩ (streamOf ops) data.length start = some (vs, s) ∧ s.bad = false ∧ vs ≠ data := by
  have hx := far_expand L hL he hr
  have hE : (expand (meaning 3 0) [] (farOps L)).length = L + 9 := by
    simp only [farOps, expand, List.foldl_cons, List.foldl_nil, expandOp, copyFrom_length, List.length_append, List.length_cons, List.length_nil, meaning]
    omega
  have hfits : ∀ o ∈ farOps L, Fits 3 3000000 o := by
    intro o ho
    simp only [farOps, List.mem_cons, List.not_mem_nil, or_false] at ho
    rcases ho with h | h | h | h | h | h | h | h | h <;> subst h <;> simp only [Fits] <;> omega
  have hall : ∀ i, Fits 3 3000000 (streamOf (farOps L) i) ∨ streamOf (farOps L) i = .lit 0 := by
    intro i
    unfold streamOf
    rw [List.getD_eq_getElem?_getD]
    cases e : (farOps L)[i]? with
    | none => right; rfl
    | some o => left; exact hfits o (List.mem_of_getElem? e)
  have hok : ∀ i, (streamOf (farOps L) i).Ok := by
    intro i
    rcases hall i with h | h
    · revert h
      cases streamOf (farOps L) i with
      | lit v => exact id
      | copy l d => exact fun h => ⟨by have := h.1; omega, h.2⟩
    · rw [h]; show (0 : Nat) < 2 ^ 32; decide
  have hln : ∀ i l d, streamOf (farOps L) i = .copy l d → l + 3 < 2 ^ 32 := by
    intro i l d e
    rcases hall i with h | h
    · rw [e] at h; have := h.1; omega
    · rw [e] at h; cases h
  obtain ⟨s, a, b⟩ := C16_decoder_expands ⟨3, 0⟩ (by decide) (streamOf (farOps L)) hok hln (farOps L).length (L + 9) (by omega)
    (by rw [streamOf_first, hE]; exact Nat.le_refl _)
  refine ⟨farData L, farOps L, _, s, farData_length _, ?_, far_encode L B hB hL he, by rw [farData_length]; exact a, b, ?_⟩
  · intro v hv
    unfold farData at hv
    simp only [List.mem_append, List.mem_map, List.mem_range, List.mem_cons, List.not_mem_nil, or_false] at hv
    rcases hv with (h | ⟨i, _, h⟩) | h <;> omega
  · intro he
    rw [streamOf_first, List.take_of_length_le (by rw [hE]; exact Nat.le_refl _)] at he
    rw [he, far_at L (L + 4) 1 hL (by omega)] at hx
    exact absurd hx (by decide)

/-- **C43** fails for streams longer than the window: the hash-map encoder uses matches at any distance, the decoder goes back 2^20
at most.  With 2^20 + 9 small values the encoder's output is decoded, without any error, to something else.  Every bucket size. -/
theorem C43_far_matches_lost (B : Nat) (hB : 1 ≤ B) : ∃ (data : List Nat) (ops : List Op) (vs : List Nat) (s : State), data.length = 2 ^ 20 + 9 ∧ (∀ v ∈ data, v < 12) ∧
    hashEncode 3 0 B (fun _ _ _ => true) data = some ops ∧ readN ⟨3, 0⟩ (streamOf ops) data.length start = some (vs, s) ∧ s.bad = false ∧ vs ≠ data := by
  have hr : reach = 2 ^ 20 := reach_eq
  rw [← hr]
  exact far_lost reach (by rw [hr]; omega) (by rw [hr]; omega) (by rw [hr]) rfl B hB

end Jxl.Props
