import Verif.Lemmas.FastValues
/-!
# The channels of a section of the fast lossless encoder
-/
namespace Jxl.FastCode
open Huffman (dropZeros Entry readCode)

/-- The limits and counters from which the code of a channel is made. -/
structure Chan where
  lo : List Nat
  hi : List Nat
  raw : List Nat
  lz : List Nat

/-- One of the four ranges of bit depths, counters that the encoder can come to, and all lengths of runs in a group counted. -/
structure ChanOk (ch : Chan) : Prop where
  depth : Depth ch.lo ch.hi (dropZeros ch.raw).length
  counts : Counts ch.raw ch.lz
  lengths : ∀ i < 28, ch.lz.getD i 0 ≠ 0

/-- The contexts in which the decoder reads the channels from number `j` on: channel 0 has context 3. -/
def contexts : Nat → List (List (List Nat × List Nat)) → List Nat
  | _, [] => []
  | j, rows :: rs => List.replicate (rows.flatMap (·.1)).length (3 - j) ++ contexts (j + 1) rs

/-- Channels that fit the codes: at most a whole group of values, none beyond the symbols of the channel's code, and rows whose memory can be
read in whole chunks. -/
def RowsOk (k : Nat) (chans : List Chan) (rowss : List (List (List Nat × List Nat))) : Prop :=
  ∀ (j : Nat) ch rows, chans[j]? = some ch → rowss[j]? = some rows →
    (rows.flatMap (·.1)).length ≤ 65536 ∧ (∀ v ∈ rows.flatMap (·.1), v < 2 ^ ((dropZeros ch.raw).length - 1)) ∧ ∀ r ∈ rows, RowOk k r

theorem depth_range {lo hi : List Nat} {n : Nat} (h : Depth lo hi n) : 1 ≤ n ∧ n ≤ 19 := by
  cases h <;> omega

theorem fast_raw_ok {ch : Chan} (h : ChanOk ch) {v : Nat} (hv : v < 2 ^ ((dropZeros ch.raw).length - 1)) : RawOk ch.raw v := by
  have hn := depth_range h.depth
  have h18 : 2 ^ ((dropZeros ch.raw).length - 1) ≤ 2 ^ 18 := pow_mono (by omega)
  have ht : (hybrid000 v).1 < (dropZeros ch.raw).length := by
    unfold hybrid000 floorLog2
    dsimp only
    by_cases h0 : v = 0
    · subst h0; simp; omega
    · have := (Nat.log2_lt h0).mpr hv
      simp only [h0, ne_eq, not_false_eq_true, if_true]
      omega
  exact ⟨by omega, by omega, h.counts.rawPos _ ht⟩

theorem fast_runs_ok {ch : Chan} (h : ChanOk ch) {m : Nat} (hm : m ≤ 65536) : Runs ch.raw ch.lz m := by
  intro k h8 hk
  have h0 : ch.raw.getD 0 0 ≠ 0 := by
    exact h.counts.rawPos 0 (depth_range h.depth).1
  have ht : (hybridLz (k - 8)).1 < 28 := by
    unfold hybridLz floorLog2
    dsimp only
    by_cases hs : k - 8 < 16
    · simp only [hs, if_true]; omega
    · have := (Nat.log2_lt (k := 16) (show k - 8 ≠ 0 by omega)).mpr (by omega)
      simp only [hs, if_false, show k - 8 ≠ 0 by omega, ne_eq, not_false_eq_true, if_true]
      omega
  exact ⟨h8, by omega, h0, by omega, h.lengths _ ht⟩

/-- Facts about the codes of a list of channels. -/
theorem fast_codes : ∀ chans : List Chan, (∀ ch ∈ chans, ChanOk ch) →
    ∃ (codes : List Code) (wss : List (List (Nat × Nat))) (ts : List (List Entry)),
      chans.mapM (fun ch => prefixCode ch.lo ch.hi ch.raw ch.lz) = some codes ∧ codes.mapM writeTo = some wss ∧
      codes.length = chans.length ∧ wss.length = chans.length ∧ ts.length = chans.length ∧
      (∀ (i : Nat) ch c, chans[i]? = some ch → codes[i]? = some c → Good ch.lo ch.hi ch.raw ch.lz c) ∧
      (∀ (i : Nat) ws t, wss[i]? = some ws → ts[i]? = some t → ∀ t5 : List Entry, t5.length = 32 → ∀ more,
        readCode t5 257 (emit 0 (ws ++ more)) = some (some (t, emit 0 more))) ∧
      ∀ (i : Nat) ch c t, chans[i]? = some ch → codes[i]? = some c → ts[i]? = some t →
        Stream.HuffFits (fun y => (flags ch.raw ch.lz).getD y 0) (info c) t
  | [], _ => ⟨[], [], [], rfl, rfl, rfl, rfl, rfl, by simp, by simp, by simp⟩
  | ch :: chans, h => by
    obtain ⟨codes, wss, ts, a1, a2, a3, a4, a5, a6, a7, a8⟩ := fast_codes chans fun x hx => h x (by simp [hx])
    obtain ⟨c, ws, t, b1, b2, b3, b4, b5⟩ := code_facts (h ch (by simp)).depth (h ch (by simp)).counts
    refine ⟨c :: codes, ws :: wss, t :: ts, by simp [List.mapM_cons, a1, b1], by simp [List.mapM_cons, a2, b3], by simp [a3], by simp [a4], by simp [a5], ?_, ?_, ?_⟩
    · intro i
      cases i with
      | zero =>
        intro x y hx hy
        simp only [List.getElem?_cons_zero, Option.some.injEq] at hx hy
        subst hx hy
        exact b2
      | succ i =>
        intro x y hx hy
        rw [List.getElem?_cons_succ] at hx hy
        exact a6 i x y hx hy
    · intro i
      cases i with
      | zero =>
        intro x y hx hy
        simp only [List.getElem?_cons_zero, Option.some.injEq] at hx hy
        subst hx hy
        exact b4
      | succ i =>
        intro x y hx hy
        rw [List.getElem?_cons_succ] at hx hy
        exact a7 i x y hx hy
    · intro i
      cases i with
      | zero =>
        intro x y z hx hy hz
        simp only [List.getElem?_cons_zero, Option.some.injEq] at hx hy hz
        subst hx hy hz
        exact b5
      | succ i =>
        intro x y z hx hy hz
        rw [List.getElem?_cons_succ] at hx hy hz
        exact a8 i x y z hx hy hz

theorem writeTo_fits {lo hi raw lz : List Nat} {c : Code} {ws : List (Nat × Nat)} (hc : Counts raw lz) (g : Good lo hi raw lz c) (hw : writeTo c = some ws) :
    ∀ w ∈ ws, w.2 < 2 ^ w.1 := by
  have hz : ∃ x ∈ c.lz, x ≠ 0 := by
    have h2 := hc.lzTwo
    obtain ⟨x, hx, hx0⟩ := List.countP_pos_iff.mp (show 0 < lz.countP (· ≠ 0) by omega)
    obtain ⟨i, hi, rfl⟩ := List.mem_iff_getElem.mp hx
    have hg : lz.getD i 0 ≠ 0 := by simpa [List.getD, hi] using hx0
    have := (g.lzUsed i (by rw [← hc.lzLen]; exact hi)).mpr hg
    exact ⟨c.lz.getD i 0, List.mem_of_getElem? (some_of_getD this), this⟩
  obtain ⟨ws', w1, w2, -⟩ := writeTo_read g.rawLen g.lzLen g.complete hz
  rw [hw] at w1
  injection w1 with w1
  rw [w1]
  exact w2

theorem mapM_at {α β : Type} {f : α → Option β} : ∀ {l : List α} {r : List β}, l.mapM f = some r → ∀ {i : Nat} {a : α} {b : β}, l[i]? = some a → r[i]? = some b → f a = some b
  | [], _, _, _, _, _, h1, _ => by simp at h1
  | x :: l, r, h, i, a, b, h1, h2 => by
    simp only [List.mapM_cons, Option.bind_eq_bind] at h
    obtain ⟨y, hy, h⟩ := Option.bind_eq_some_iff.mp h
    obtain ⟨r', hr, h⟩ := Option.bind_eq_some_iff.mp h
    obtain rfl : y :: r' = r := by simpa using h
    cases i with
    | zero =>
      simp only [List.getElem?_cons_zero, Option.some.injEq] at h1 h2
      rw [← h1, ← h2, hy]
    | succ i => exact mapM_at hr (by simpa using h1) (by simpa using h2)

/-- Bits as calls of the writer. -/
def bitWrites (s : List Bool) : List (Nat × Nat) := s.map fun b => (1, b.toNat)

theorem emit_bitWrites : ∀ s : List Bool, emit 0 (bitWrites s) = s
  | [] => rfl
  | b :: s => by
    have ih := emit_bitWrites s
    unfold bitWrites at ih ⊢
    cases b
    · show false :: emit 0 _ = _
      rw [ih]
    · show true :: emit 0 _ = _
      rw [ih]

theorem header_bits {wss : List (List (Nat × Nat))} (hfit : ∀ w ∈ wss.flatten, w.2 < 2 ^ w.1) :
    ∃ hb, ∀ more, emit 0 ((streamStart ++ wss.flatten) ++ more) = hb ++ emit 0 more := by
  refine ⟨bitsFor segLz ++ (bitsFor segMap ++ (bitsOf 1 1 ++ (bitsFor segConfig ++ (bitsFor segSizes ++ (bitsFor segDist ++ bitsFor wss.flatten))))), fun more => ?_⟩
  rw [List.append_assoc, start_bits, emit_fit _ _ hfit]
  simp only [List.append_assoc]

theorem vals_ctx (x : Nat) (os : List Op) : os.flatMap (fun o => o.vals.map fun _ => x) = List.replicate (os.flatMap Op.vals).length x := by
  induction os with
  | nil => rfl
  | cons o os ih =>
    rw [List.flatMap_cons, List.flatMap_cons, ih, List.length_append, List.map_const', ← List.replicate_append_replicate]

/-- The channels from number `j` on, as operations. -/
theorem fast_ops {k : Nat} (hk : 1 ≤ k) {C : Nat → Code} {RAW LZ : Nat → List Nat} : ∀ (chans : List Chan) (codes : List Code)
    (rowss : List (List (List Nat × List Nat))) (j : Nat), rowss.length ≤ chans.length → codes.length = chans.length → j + chans.length = 4 →
    (∀ (i : Nat) ch c, chans[i]? = some ch → codes[i]? = some c →
      ChanOk ch ∧ Good ch.lo ch.hi ch.raw ch.lz c ∧ C (3 - (j + i)) = c ∧ RAW (3 - (j + i)) = ch.raw ∧ LZ (3 - (j + i)) = ch.lz) →
    RowsOk k chans rowss →
    ∃ (wss : List (List (Nat × Nat))) (ops : List (Nat × Op)), writeChannels k codes rowss = some wss ∧ (∀ ws ∈ wss, ∀ w ∈ ws, w.2 < 2 ^ w.1 ∧ w.1 ≤ 56) ∧
      (∀ o ∈ ops, o.1 < 4 ∧ Op.Ok (RAW o.1) (LZ o.1) o.2) ∧ wss.flatMap bitsFor = ops.flatMap (fun o => o.2.bits (C o.1)) ∧
      ops.flatMap (fun o => o.2.vals) = rowss.flatMap (fun rows => rows.flatMap (·.1)) ∧
      ops.flatMap (fun o => o.2.vals.map fun _ => o.1) = contexts j rowss
  | _, codes, [], _, _, _, _, _, _ => ⟨[], [], by cases codes <;> rfl, by simp, by simp, rfl, rfl, rfl⟩
  | [], _, _ :: _, _, h, _, _, _, _ => by simp at h
  | _ :: _, [], _ :: _, _, _, h, _, _, _ => by simp at h
  | ch :: chans, c :: codes, rows :: rowss, j, h1, h2, h3, h4, h5 => by
    rw [List.length_cons] at h3
    obtain ⟨wss, ops, a1, a2, a3, a4, a5, a6⟩ := fast_ops hk (C := C) (RAW := RAW) (LZ := LZ) chans codes rowss (j + 1) (by simpa using h1)
      (by simpa using h2) (by omega)
      (fun i x y hx hy => by
        have := h4 (i + 1) x y (by simpa using hx) (by simpa using hy)
        rwa [show j + (i + 1) = j + 1 + i by omega] at this)
      (fun i x y hx hy => h5 (i + 1) x y (by simpa using hx) (by simpa using hy))
    obtain ⟨b1, b2, b3, b4, b5⟩ := h4 0 ch c rfl rfl
    obtain ⟨r1, r2, r3⟩ := h5 0 ch rows rfl rfl
    obtain ⟨ws, os, w1, w2, w3, w4⟩ := channel_ok b2 hk r3 (fast_runs_ok b1 r1) fun v hv => fast_raw_ok b1 (r2 v hv)
    refine ⟨ws :: wss, os.map (fun o => (3 - j, o)) ++ ops, by rw [writeChannels, w1, a1]; rfl, ?_, ?_, ?_, ?_, ?_⟩
    · intro x hx
      rcases List.mem_cons.mp hx with rfl | hx
      · exact w2.fit
      · exact a2 x hx
    · intro o ho
      rcases List.mem_append.mp ho with ho | ho
      · obtain ⟨p, p1, rfl⟩ := List.mem_map.mp ho
        dsimp only
        rw [show j = j + 0 from rfl, b4, b5]
        exact ⟨by omega, w3 p p1⟩
      · exact a3 o ho
    · rw [List.flatMap_cons, List.flatMap_append, a4, w2.bits, List.flatMap_map]
      dsimp only
      rw [show j = j + 0 from rfl, b3]
    · rw [List.flatMap_cons, List.flatMap_append, a5, List.flatMap_map]
      dsimp only
      rw [w4]
    · rw [contexts, List.flatMap_append, a6, List.flatMap_map, ← w4]
      congr 1
      exact vals_ctx (3 - j) os

end Jxl.FastCode
