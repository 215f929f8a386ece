import Verif.Lemmas.FastPrefix
/-!
# The header of a prefix code of the fast lossless encoder is read back
-/
namespace Jxl.FastCode
open Huffman (rev rev_lt code hist dropZeros replay stepTok lit Ls LsInv TokOk TableFor storeCode symbols)

/-- The bits of calls of `Write` whose values fit. -/
def bitsFor (ws : List (Nat × Nat)) : List Bool := ws.flatMap fun w => bitsOf w.1 w.2

theorem emit_fit (rest : List (Nat × Nat)) : ∀ ws : List (Nat × Nat), (∀ w ∈ ws, w.2 < 2 ^ w.1) → emit 0 (ws ++ rest) = bitsFor ws ++ emit 0 rest
  | [], _ => rfl
  | (n, v) :: ws, h => by
    have ih := emit_fit rest ws fun w hw => h w (by simp [hw])
    have hv : v < 2 ^ n := h (n, v) (by simp)
    rw [List.cons_append, emit, Nat.zero_or, Nat.div_eq_of_lt hv, ih, bitsFor, bitsFor, List.flatMap_cons, List.append_assoc]

theorem getD_range_map (f : Nat → Nat) {n i : Nat} (h : i < n) : ((List.range n).map f).getD i 0 = f i := by
  simp [List.getD, h]

theorem sum_le_mul : ∀ (l : List Nat) (b : Nat), (∀ x ∈ l, x ≤ b) → l.sum ≤ l.length * b
  | [], _, _ => by simp
  | a :: l, b, h => by
    have h1 := sum_le_mul l b fun x hx => h x (by simp [hx])
    have h2 := h a (by simp)
    rw [List.sum_cons, List.length_cons, Nat.add_mul]; omega

/-- The lengths of the code for lengths. -/
theorem cl_lengths {c : Code} (hr : c.raw.length = 19) (hl : c.lz.length = 33) {x : Nat} (hx : x ∈ c.lz) (hx15 : x ≤ 15) :
    ∃ cl, lengths ((clCounts c).map fun f => ⟨f, 0, 5⟩) = some cl ∧ cl.length = 18 ∧ Prefix.Complete cl ∧ (∀ y ∈ cl, y ≤ 5) ∧
      ∀ i, i < 18 → (clCounts c).getD i 0 ≠ 0 → cl.getD i 0 ≠ 0 := by
  generalize hs : ((clCounts c).map fun f => (⟨f, 0, 5⟩ : Sym)) = syms
  have hfreq : syms.map (·.freq) = clCounts c := by
    rw [← hs, List.map_map]; exact List.map_id' _
  have hlen : (clCounts c).length = 18 := by simp [clCounts]
  have hall : ∀ s ∈ syms, s.lo ≤ 1 ∧ 5 ≤ s.hi ∧ s.hi ≤ 15 := by
    intro s h
    rw [← hs] at h
    obtain ⟨y, _, rfl⟩ := List.mem_map.mp h
    simp
  have hused : (used syms).length = ((clCounts c).filter fun f => decide (f ≠ 0)).length := by
    rw [used, ← hs, List.filter_map, List.length_map]
    congr 2
    funext f
    by_cases h : f = 0 <;> simp [h]
  have h17 : (clCounts c).getD 17 0 ≠ 0 := by rw [clCounts, getD_range_map _ (by omega)]; simp
  have hxc : (clCounts c).getD x 0 ≠ 0 := by
    rw [clCounts, getD_range_map _ (by omega)]
    have := List.count_pos_iff.mpr hx
    omega
  have h2 : 2 ≤ (used syms).length := by
    rw [hused]
    have hsp : clCounts c = (clCounts c).take 17 ++ (clCounts c).drop 17 := (List.take_append_drop 17 _).symm
    rw [hsp, List.filter_append, List.length_append]
    have ha : 1 ≤ (((clCounts c).take 17).filter fun f => decide (f ≠ 0)).length := by
      refine List.length_pos_of_mem (a := (clCounts c).getD x 0) (List.mem_filter.mpr ⟨?_, by simpa using hxc⟩)
      rw [← take_getD _ (show x < 17 by omega)]
      have : x < ((clCounts c).take 17).length := by simp [hlen]; omega
      rw [List.getD_eq_getElem?_getD, List.getElem?_eq_getElem this, Option.getD_some]
      exact List.getElem_mem _
    have hb : 1 ≤ (((clCounts c).drop 17).filter fun f => decide (f ≠ 0)).length := by
      refine List.length_pos_of_mem (a := (clCounts c).getD 17 0) (List.mem_filter.mpr ⟨?_, by simpa using h17⟩)
      rw [List.drop_eq_getElem_cons (show 17 < (clCounts c).length by omega), List.getD_eq_getElem?_getD, List.getElem?_eq_getElem (show 17 < (clCounts c).length by omega)]
      exact List.mem_cons_self
    omega
  have hmany : (used syms).length ≤ 2 ^ 5 := by
    have : (used syms).length ≤ syms.length := List.length_filter_le _ _
    have : syms.length = 18 := by rw [← hs, List.length_map, hlen]
    omega
  have hex := uniform_allowed (L := 5) hall h2 hmany
  have hone : ∃ s ∈ syms, s.freq ≠ 0 ∧ s.lo ≤ 1 := by
    obtain ⟨s, h⟩ := List.exists_mem_of_ne_nil (used syms) (by intro h0; rw [h0] at h2; simp at h2)
    obtain ⟨h3, h4⟩ := List.mem_filter.mp h
    exact ⟨s, h3, by simpa using h4, (hall s h3).1⟩
  have hsum : (syms.map (·.freq)).sum < 2 ^ 59 := by
    rw [hfreq]
    have := sum_le_mul (clCounts c) 119 (by
      intro y hy
      rw [clCounts] at hy
      obtain ⟨i, _, rfl⟩ := List.mem_map.mp hy
      have := List.count_le_length (a := i) (l := c.raw)
      have := List.count_le_length (a := i) (l := c.lz)
      split <;> omega)
    rw [hlen] at this
    omega
  obtain ⟨cl, e1, e2, _⟩ := lengths_best (fun s h => (hall s h).2.2) hsum hone hex
  rw [hfreq] at e2
  refine ⟨cl, e1, by rw [e2.1, hlen], e2.2.1, ?_, fun i hi h => ((e2.2.2 i (by omega)).2 h).1⟩
  intro y hy
  obtain ⟨i, hi, rfl⟩ := List.mem_iff_getElem.mp hy
  have hi' : i < (clCounts c).length := by rw [← e2.1]; exact hi
  have := e2.2.2 i hi'
  have hg : cl.getD i 0 = cl[i] := by simp [List.getD, hi]
  rw [hg] at this
  by_cases h0 : (clCounts c).getD i 0 = 0
  · have := this.1 h0; omega
  · have h5 : (syms.map (·.hi)).getD i 0 = 5 := by
      rw [← hs, List.map_map]
      simp [List.getD, hi']
    rw [h5] at this
    exact (this.2 h0).2.2

theorem replay_lits (n : Nat) : ∀ (ls : List Nat) (st : Ls), (∀ x ∈ ls, x < 16) →
    ∃ st', replay n (ls.map fun x => (x, 0)) st = some st' ∧ st'.lens = st.lens ++ ls ∧ (ls ≠ [] → st'.rep = 0)
  | [], st, _ => ⟨st, rfl, by simp, fun h => absurd rfl h⟩
  | x :: ls, st, h => by
    obtain ⟨st', h1, h2, h3⟩ := replay_lits n ls (lit x st) fun y hy => h y (by simp [hy])
    refine ⟨st', ?_, ?_, fun _ => ?_⟩
    · rw [List.map_cons, replay, stepTok, if_pos (h x (by simp)), Option.bind_some, h1]
    · rw [h2]; simp [lit]
    · cases ls with
      | nil => injection h1 with h1; rw [← h1]; rfl
      | cons => exact h3 (by simp)

theorem replay_205 {n : Nat} {st : Ls} (h0 : st.rep = 0) (hn : st.lens.length + 205 ≤ n) :
    ∃ st', replay n [(17, 2), (17, 0), (17, 2)] st = some st' ∧ st'.lens = st.lens ++ List.replicate 205 0 := by
  have ho : Huffman.oldRep 17 st = 0 := by unfold Huffman.oldRep; split <;> simp [h0]
  have s1 : stepTok n (17, 2) st = some { st with rep := 5, repLen := 0, lens := st.lens ++ List.replicate 5 0 } := by
    unfold stepTok Huffman.repeatCode
    simp only [ho, Huffman.extend, Huffman.newLen]
    simp [show ¬ n < st.lens.length + 5 by omega]
  have s2 : ∀ st : Ls, st.rep = 5 → st.repLen = 0 → st.lens.length + 22 ≤ n →
      stepTok n (17, 0) st = some { st with rep := 27, repLen := 0, lens := st.lens ++ List.replicate 22 0 } := by
    intro st h1 h2 h3
    unfold stepTok Huffman.repeatCode
    simp only [Huffman.oldRep, Huffman.extend, Huffman.newLen, h1, h2]
    simp [show ¬ n < st.lens.length + 22 by omega]
  have s3 : ∀ st : Ls, st.rep = 27 → st.repLen = 0 → st.lens.length + 178 ≤ n →
      stepTok n (17, 2) st = some { st with rep := 205, repLen := 0, lens := st.lens ++ List.replicate 178 0 } := by
    intro st h1 h2 h3
    unfold stepTok Huffman.repeatCode
    simp only [Huffman.oldRep, Huffman.extend, Huffman.newLen, h1, h2]
    simp [show ¬ n < st.lens.length + 178 by omega]
  refine ⟨{ st with rep := 205, repLen := 0, lens := ((st.lens ++ List.replicate 5 0) ++ List.replicate 22 0) ++ List.replicate 178 0 }, ?_, ?_⟩
  · rw [replay, s1, Option.bind_some, replay, s2 _ rfl rfl (by simp; omega), Option.bind_some, replay, s3 _ rfl rfl (by simp; omega), Option.bind_some, replay]
  · dsimp only
    rw [List.append_assoc, List.append_assoc, List.replicate_append_replicate, List.replicate_append_replicate]

theorem header_read {cl : List Nat} (a2 : cl.length = 18) (a4 : ∀ y ∈ cl, y ≤ 5) (hw : Prefix.weight cl = 2 ^ 15) {g : Nat → Nat}
    (hgi : ∀ i, cl.getD i 0 = g i) (hcl : (List.range 18).map g = cl) {L lens : List Nat} {toks : List (Nat × Nat)}
    (hLlast : ∃ a y, L = a ++ [y] ∧ y ≠ 0) (hLw : Prefix.weight L = 2 ^ 15) (hLn : L.length ≤ 257)
    (hback : L ++ List.replicate (257 - L.length) 0 = lens) (htl : toks.length ≤ 257) (htok : ∀ d ∈ toks, TokOk d ∧ cl.getD d.1 0 ≠ 0)
    (hreplay : ∃ st', replay 257 toks ⟨[], 8, 0, 0, 32768⟩ = some st' ∧ st'.lens = L) {t5 : List Huffman.Entry} (ht5 : t5.length = 32)
    (s : List Bool) {total : Nat} {t : List Huffman.Entry}
    (hb : Huffman.build (List.replicate (257 + 376) ⟨0, 0⟩) 8 lens = some (total, t)) (htot : total ≠ 0) :
    Huffman.readCode t5 257 (bitsOf 2 0 ++ ((Huffman.upTo g clOrder).flatMap (fun i => Huffman.encLen (g i)) ++ toks.flatMap (storeCode cl (symbols cl))) ++ s) =
      some (some (t.take total, s)) := by
  have hg5 : ∀ j, g j ≤ 5 := by
    intro j
    rw [← hgi, List.getD_eq_getElem?_getD]
    cases e : cl[j]? with
    | none => simp
    | some v => exact a4 v (List.mem_of_getElem? e)
  have hnd : clOrder.Nodup := by decide
  have hpart : Huffman.ClPart g clOrder (List.replicate 18 0) := by
    refine ⟨by simp, ?_, ?_⟩
    · intro j hj hn
      exact absurd (Huffman.clOrder_perm.mem_iff.mpr (List.mem_range.mpr hj)) hn
    · intro j hj
      have : j ∈ List.range 18 := Huffman.clOrder_perm.mem_iff.mp hj
      rw [List.getElem?_replicate, if_pos (List.mem_range.mp this)]
  have hsum : 1024 * (clOrder.map fun i => Huffman.units (g i)).sum = Prefix.weight cl := by
    have h : ((List.range 18).map fun i => Huffman.units (g i)).sum = (Huffman.clOrder.map fun i => Huffman.units (g i)).sum :=
      (Huffman.clOrder_perm.symm.map _).sum_nat
    have h2 : (cl.map Huffman.units).sum = ((List.range 18).map fun i => Huffman.units (g i)).sum := by
      rw [← hcl, List.map_map]; simp only [Function.comp_def]
    rw [Huffman.weight_units a4, h2, h]
    rfl
  obtain ⟨cc, e1, e2, e3, e4⟩ := Huffman.clGo_upTo g hg5 clOrder _ 32 0 (toks.flatMap (storeCode cl (symbols cl)) ++ s) hnd hpart (by omega)
  obtain ⟨tot, tt, g1, g2, g3⟩ := Huffman.table_complete t5 ht5 a2 a4 hw
  rw [List.append_assoc, List.append_assoc]
  unfold Huffman.readCode
  rw [if_neg (by omega), List.take_left' (by simp), List.drop_left' (by simp), if_neg (by decide)]
  unfold Huffman.readGeneral
  dsimp only
  rw [show Huffman.clOrder.drop (ofBits (bitsOf 2 0)) = clOrder from rfl, e1, if_pos (Or.inr e4), e2, e3, hcl]
  unfold Huffman.readLens
  rw [g1, Option.bind_some, if_neg g2]
  have hgo := Huffman.lenGo_read (t := tt) (dep := cl) (syms := symbols cl) hLlast hLw (n := 257) hLn s toks 257 ⟨[], 8, 0, 0, 32768⟩ htl
    ⟨Nat.zero_le _, (fun l h => absurd h List.not_mem_nil), by show (8:Nat) ≤ 15; omega, by simp [Prefix.weight]⟩ (Or.inl rfl)
    (fun d hd => ⟨(htok d hd).1, g3 d.1 (htok d hd).2⟩) hreplay
  rw [hgo, hback]
  dsimp only [Option.bind_some]
  rw [hb, Option.map_some]
  dsimp only
  rw [if_pos (by omega)]

/-- **The header of a code is read back**: reading it as the header of a code for 257 symbols gives the decoder's table for the lengths. -/
theorem writeTo_read {c : Code} (hr : c.raw.length = 19) (hl : c.lz.length = 33) (hc : Prefix.Complete c.lens) (hz : ∃ x ∈ c.lz, x ≠ 0) :
    ∃ ws, writeTo c = some ws ∧ (∀ w ∈ ws, w.2 < 2 ^ w.1) ∧ ∀ t5 : List Huffman.Entry, t5.length = 32 → ∀ s total t,
      Huffman.build (List.replicate (257 + 376) ⟨0, 0⟩) 8 c.lens = some (total, t) → total ≠ 0 →
      Huffman.readCode t5 257 (bitsFor ws ++ s) = some (some (t.take total, s)) := by
  obtain ⟨x, hx, hx0⟩ := hz
  have hraw15 : ∀ y ∈ c.raw, y ≤ 15 := fun y hy => hc.1 y (List.mem_append_left _ (List.mem_append_left _ hy))
  have hlz15 : ∀ y ∈ c.lz, y ≤ 15 := fun y hy => hc.1 y (List.mem_append_right _ hy)
  obtain ⟨cl, a1, a2, a3, a4, a5⟩ := cl_lengths hr hl hx (hlz15 x hx)
  generalize hg : (fun i => cl.getD i 0) = g
  have hgi : ∀ i, cl.getD i 0 = g i := by intro i; rw [← hg]
  have hg5 : ∀ j, g j ≤ 5 := by
    intro j
    rw [← hgi, List.getD_eq_getElem?_getD]
    cases e : cl[j]? with
    | none => simp
    | some v => exact a4 v (List.mem_of_getElem? e)
  have hcl : (List.range 18).map g = cl := by
    refine List.ext_getElem (by simp [a2]) fun i h1 h2 => ?_
    rw [List.getElem_map, List.getElem_range, ← hgi, List.getD_eq_getElem?_getD, List.getElem?_eq_getElem h2]; rfl
  have hord : clOrder = Huffman.clOrder := rfl
  have hup : Huffman.upTo g clOrder ≠ [] := by
    intro h
    have hz := Huffman.upTo_nil.mp h
    have h17 := a5 17 (by omega) (by rw [clCounts, getD_range_map _ (by omega)]; simp)
    rw [hgi] at h17
    exact h17 (hz 17 (by decide))
  obtain ⟨k, d1, d2⟩ := Huffman.dropZeros_spec c.lz
  have hlast : ∃ a y, dropZeros c.lz = a ++ [y] ∧ y ≠ 0 := by
    rcases d2 with h | h
    · rw [h, List.nil_append] at d1
      rw [d1] at hx
      exact absurd (List.eq_of_mem_replicate hx) hx0
    · exact h
  have hkl : (dropZeros c.lz).length + k = 33 := by
    rw [← hl]; conv => rhs; rw [d1]
    simp
  obtain ⟨cb, b1, b2⟩ := canonical_spec (a := []) (b := cl) (by simpa using a3.1) (by simp [a2])
  simp only [List.nil_append, List.length_nil, List.take_zero, List.drop_zero, List.map_nil] at b1 b2
  have hcb : ∀ l, l < 18 → cb.getD l 0 = rev (cl.getD l 0) (code (hist cl) (cl.getD l 0) ((cl.take l).count (cl.getD l 0))) := by
    intro l h
    have hs : cl[l]? = some (cl.getD l 0) := by
      rw [List.getD_eq_getElem?_getD, List.getElem?_eq_getElem (by omega)]; rfl
    rw [List.getD_eq_getElem?_getD (l := cb), b2 l _ hs]; rfl
  have hfit : ∀ l, l < 18 → cb.getD l 0 < 2 ^ cl.getD l 0 := by
    intro l h
    rw [hcb l h]; exact rev_lt _ _
  have hsame : ∀ l, l < 18 → bitsOf (cl.getD l 0) (cb.getD l 0) = bitsOf (cl.getD l 0) ((symbols cl).getD l 0) := by
    intro l h
    by_cases h0 : cl.getD l 0 = 0
    · rw [h0]; rfl
    · have hs : cl[l]? = some (cl.getD l 0) := some_of_getD h0
      have h5 : cl.getD l 0 ≤ 5 := by rw [hgi]; exact hg5 l
      rw [hcb l h]
      generalize cl.getD l 0 = y at h0 hs h5
      have hsym : (symbols cl).getD l 0 = rev y (code (hist cl) y ((cl.take l).count y)) := by
        rw [List.getD_eq_getElem?_getD]
        have := Huffman.symbolsGo_spec cl (Huffman.nextCode (hist cl)) l y hs (by omega)
        rw [show symbols cl = Huffman.symbolsGo (Huffman.nextCode (hist cl)) cl from rfl, this, Option.getD_some,
          Huffman.reverseBits_eq _ _ (by omega), code, Huffman.first_eq_nextCode]
      rw [hsym]
  generalize htoks : c.raw.map (fun y => (y, 0)) ++ [(17, 2), (17, 0), (17, 2)] ++ (dropZeros c.lz).map (fun y => (y, 0)) = toks
  generalize hL : c.raw ++ List.replicate 205 0 ++ dropZeros c.lz = L
  unfold writeTo
  rw [a1, Option.bind_some]
  dsimp only
  rw [hg, if_neg (by
    intro h
    rcases h with h | h
    · exact hup ((Huffman.upTo_take g clOrder).2.mp (List.eq_nil_of_length_eq_zero h))
    · obtain ⟨a, y, h1, _⟩ := hlast
      rw [h] at h1; simp at h1), b1, Option.map_some, (Huffman.upTo_take g clOrder).1]
  have hdz : ∀ y ∈ dropZeros c.lz, y ∈ c.lz := by
    intro y hy
    rw [d1]; exact List.mem_append_left _ hy
  refine ⟨_, rfl, ?_, ?_⟩
  · intro w hw
    simp only [List.mem_append, List.mem_cons, List.mem_map, List.not_mem_nil, or_false] at hw
    have hcode : ∀ v, v < 6 → clBits.getD v 0 < 2 ^ clNbits.getD v 0 := by decide
    rcases hw with (((rfl | ⟨i, _, rfl⟩) | ⟨y, hy, rfl⟩) | rfl | rfl | rfl | rfl | rfl | rfl) | ⟨y, hy, rfl⟩
    · decide
    · rw [hgi]; exact hcode _ (by have := hg5 i; omega)
    · exact hfit y (by have := hraw15 y hy; omega)
    · exact hfit 17 (by omega)
    · decide
    · exact hfit 17 (by omega)
    · decide
    · exact hfit 17 (by omega)
    · decide
    · exact hfit y (by have := hlz15 y (hdz y hy); omega)
  · intro t5 ht5 s total t hb htot
    have hLlen : L.length = 224 + (dropZeros c.lz).length := by rw [← hL, List.length_append, List.length_append, List.length_replicate, hr]
    have hback : L ++ List.replicate (257 - L.length) 0 = c.lens := by
      rw [hLlen, ← hL, show 257 - (224 + (dropZeros c.lz).length) = k by omega, List.append_assoc, ← d1]; rfl
    have hLw : Prefix.weight L = 2 ^ 15 := by
      have := hc.2
      rw [← hback, Huffman.weight_append, Huffman.weight_zeros (l := List.replicate _ 0) fun x hx => List.eq_of_mem_replicate hx] at this
      exact this
    have hLlast : ∃ a y, L = a ++ [y] ∧ y ≠ 0 := by
      obtain ⟨a, y, h1, h2⟩ := hlast
      exact ⟨c.raw ++ List.replicate 205 0 ++ a, y, by rw [← hL, h1, List.append_assoc, List.append_assoc, List.append_assoc], h2⟩
    have hbits : bitsFor ((2, 0) :: (Huffman.upTo g clOrder).map (fun i => (clNbits.getD (cl.getD i 0) 0, clBits.getD (cl.getD i 0) 0)) ++
          c.raw.map (fun l => (cl.getD l 0, cb.getD l 0)) ++
          [(cl.getD 17 0, cb.getD 17 0), (3, 2), (cl.getD 17 0, cb.getD 17 0), (3, 0), (cl.getD 17 0, cb.getD 17 0), (3, 2)] ++
          (dropZeros c.lz).map (fun l => (cl.getD l 0, cb.getD l 0))) =
        bitsOf 2 0 ++ ((Huffman.upTo g clOrder).flatMap (fun i => Huffman.encLen (g i)) ++ toks.flatMap (storeCode cl (symbols cl))) := by
      have haux : ∀ l : List Nat, (∀ y ∈ l, y < 16) → (l.flatMap fun y => bitsOf (cl.getD y 0) (cb.getD y 0)) =
          (l.map fun y => (y, 0)).flatMap (storeCode cl (symbols cl)) := by
        intro l hl
        induction l with
        | nil => rfl
        | cons y l ih =>
          rw [List.map_cons, List.flatMap_cons, List.flatMap_cons, ih fun z hz => hl z (by simp [hz]), hsame y (by have := hl y (by simp); omega)]
          congr 1
          have := hl y (by simp)
          rw [storeCode, if_neg (by show ¬ y = 16; omega), if_neg (by show ¬ y = 17; omega), List.append_nil]
      have h1 := haux c.raw fun y hy => by have := hraw15 y hy; omega
      have h2 := haux (dropZeros c.lz) fun y hy => by have := hlz15 y (hdz y hy); omega
      have h17 := hsame 17 (by omega)
      rw [← htoks, List.flatMap_append, List.flatMap_append, ← h1, ← h2]
      unfold bitsFor
      simp only [List.cons_append, List.flatMap_cons, List.flatMap_append, List.flatMap_map, List.flatMap_nil, List.append_nil, h17, storeCode, List.append_assoc]
      simp only [hgi]
      rfl
    have htok : ∀ d ∈ toks, TokOk d ∧ cl.getD d.1 0 ≠ 0 := by
      intro d hd
      rw [← htoks] at hd
      simp only [List.mem_append, List.mem_cons, List.mem_map, List.not_mem_nil, or_false] at hd
      have h17 : cl.getD 17 0 ≠ 0 := a5 17 (by omega) (by rw [clCounts, getD_range_map _ (by omega)]; simp)
      rcases hd with (⟨y, hy, rfl⟩ | rfl | rfl | rfl) | ⟨y, hy, rfl⟩
      · have := hraw15 y hy
        refine ⟨Or.inl ⟨by show y < 16; omega, rfl⟩, a5 y (by omega) ?_⟩
        rw [clCounts, getD_range_map _ (by omega)]
        have := List.count_pos_iff.mpr hy
        omega
      · exact ⟨Or.inr (Or.inr (by simp)), h17⟩
      · exact ⟨Or.inr (Or.inr (by simp)), h17⟩
      · exact ⟨Or.inr (Or.inr (by simp)), h17⟩
      · have := hlz15 y (hdz y hy)
        refine ⟨Or.inl ⟨by show y < 16; omega, rfl⟩, a5 y (by omega) ?_⟩
        rw [clCounts, getD_range_map _ (by omega)]
        have := List.count_pos_iff.mpr (hdz y hy)
        omega
    have hreplay : ∃ st', replay 257 toks ⟨[], 8, 0, 0, 32768⟩ = some st' ∧ st'.lens = L := by
      obtain ⟨s1, p1, p2, p3⟩ := replay_lits 257 c.raw ⟨[], 8, 0, 0, 32768⟩ fun y hy => by have := hraw15 y hy; omega
      obtain ⟨s2, q1, q2⟩ := replay_205 (n := 257) (st := s1) (p3 (by intro h; rw [h] at hr; simp at hr)) (by rw [p2]; simp [hr])
      obtain ⟨s3, r1, r2, _⟩ := replay_lits 257 (dropZeros c.lz) s2 fun y hy => by have := hlz15 y (hdz y hy); omega
      refine ⟨s3, ?_, ?_⟩
      · rw [← htoks, Huffman.replay_append, Huffman.replay_append, p1, Option.bind_some, q1, Option.bind_some, r1]
      · rw [r2, q2, p2, ← hL]; rfl
    rw [hbits]
    exact header_read a2 a4 a3.2 hgi hcl hLlast hLw (by omega) hback (by rw [← htoks]; simp [hr]; omega) htok hreplay ht5 s hb htot

theorem dropZeros_length {l : List Nat} {n : Nat} (hn : n ≤ l.length) (h1 : n ≠ 0 → l.getD (n - 1) 0 ≠ 0) (h0 : ∀ i, n ≤ i → l.getD i 0 = 0) :
    (dropZeros l).length = n := by
  obtain ⟨k, d1, d2⟩ := Huffman.dropZeros_spec l
  rcases Nat.lt_trichotomy (dropZeros l).length n with h | h | h
  · refine absurd ?_ (h1 (by omega))
    rw [d1, getD_pad, List.getD_eq_getElem?_getD, List.getElem?_eq_none (by omega)]; rfl
  · exact h
  · rcases d2 with d2 | ⟨a, x, e, hx⟩
    · rw [d2] at h; simp at h
    · refine absurd ?_ hx
      have := h0 a.length (by rw [e] at h; simp at h; omega)
      rw [d1, getD_pad, e] at this
      simpa using this

theorem getD_le_sum : ∀ (l : List Nat) (i : Nat), l.getD i 0 ≤ l.sum
  | [], _ => by simp
  | a :: l, 0 => by simp
  | a :: l, i + 1 => by
    have := getD_le_sum l i
    rw [List.sum_cons, List.getD_cons_succ]; omega

/-- The counters the encoder makes are of the kind expected. -/
theorem counts_ok {n : Nat} {sr sl : List Nat} (h1 : 1 ≤ n) (hn : n ≤ 19) (hr : ∀ i, n ≤ i → sr.getD i 0 = 0) (hl : ∀ i, 28 ≤ i → sl.getD i 0 = 0)
    (hs : sr.sum + sl.sum < 2 ^ 45) : Counts (rawCounts n sr) (lzCounts sl) ∧ (dropZeros (rawCounts n sr)).length = n := by
  have hb : ∀ i < 19, 1 ≤ baseRaw.getD i 0 ∧ baseRaw.getD i 0 ≤ 3843 := by decide
  have hbl : ∀ i < 33, baseLz.getD i 0 ≤ 137 ∧ (i < 28 → 1 ≤ baseLz.getD i 0) ∧ (28 ≤ i → baseLz.getD i 0 = 0) := by decide
  have hrl : (rawCounts n sr).length = 19 := by simp [rawCounts]
  have hll : (lzCounts sl).length = 33 := by simp [lzCounts]
  have graw : ∀ i, i < 19 → (rawCounts n sr).getD i 0 = sr.getD i 0 * 256 + if i < n then baseRaw.getD i 0 else 0 := by
    intro i hi
    rw [rawCounts, getD_range_map _ hi, Nat.mod_eq_of_lt]
    have := getD_le_sum sr i
    have := hb i hi
    split <;> omega
  have glz : ∀ i, i < 33 → (lzCounts sl).getD i 0 = sl.getD i 0 * 256 + baseLz.getD i 0 := by
    intro i hi
    rw [lzCounts, getD_range_map _ hi, Nat.mod_eq_of_lt]
    have := getD_le_sum sl i
    have := (hbl i hi).1
    omega
  have hd : (dropZeros (rawCounts n sr)).length = n := by
    refine dropZeros_length (by omega) (fun _ => ?_) fun i hi => ?_
    · have := hb (n - 1) (by omega)
      rw [graw _ (by omega), if_pos (by omega)]; omega
    · rcases Nat.lt_or_ge i 19 with h | h
      · rw [graw i h, if_neg (by omega), hr i hi]
      · rw [List.getD_eq_getElem?_getD, List.getElem?_eq_none (by omega)]; rfl
  refine ⟨⟨hrl, hll, fun i hi => ?_, ?_, ?_, ?_⟩, hd⟩
  · have := hb i (by omega)
    rw [graw i (by omega), if_pos (by omega)]; omega
  · have e0 := glz 0 (by omega)
    have e1 := glz 1 (by omega)
    generalize lzCounts sl = l at e0 e1 hll
    match l, hll with
    | a :: b :: l, _ =>
      rw [show baseLz.getD 0 0 = 29 from rfl] at e0
      rw [show baseLz.getD 1 0 = 27 from rfl] at e1
      simp only [List.getD_cons_zero, List.getD_cons_succ] at e0 e1
      rw [List.countP_cons_of_pos (by simp; omega), List.countP_cons_of_pos (by simp; omega)]
      omega
  · have e := glz 32 (by omega)
    rw [hl 32 (by omega), (hbl 32 (by omega)).2.2 (by omega)] at e
    have hsplit := (List.take_append_drop 32 (lzCounts sl)).symm
    have hd' : (lzCounts sl).drop 32 = [0] := by
      rw [List.drop_eq_getElem_cons (by omega), List.drop_eq_nil_of_le (by omega)]
      rw [List.getD_eq_getElem?_getD, List.getElem?_eq_getElem (by omega)] at e
      simpa using e
    rw [hsplit, List.countP_append, hd']
    have := List.countP_le_length (p := fun x : Nat => decide (x ≠ 0)) (l := (lzCounts sl).take 32)
    simp at this ⊢
    omega
  · have b1 := sum_le_mul (rawCounts n sr) (2 ^ 45 * 256 + 3843) (by
      intro x hx
      obtain ⟨i, hi, rfl⟩ := List.mem_iff_getElem.mp hx
      have e := graw i (by omega)
      rw [List.getD_eq_getElem?_getD, List.getElem?_eq_getElem hi, Option.getD_some] at e
      have := getD_le_sum sr i
      have := (hb i (by omega)).2
      rw [e]
      split <;> omega)
    have b2 := sum_le_mul (lzCounts sl) (2 ^ 45 * 256 + 137) (by
      intro x hx
      obtain ⟨i, hi, rfl⟩ := List.mem_iff_getElem.mp hx
      have e := glz i (by omega)
      rw [List.getD_eq_getElem?_getD, List.getElem?_eq_getElem hi, Option.getD_some] at e
      have := getD_le_sum sl i
      have := (hbl i (by omega)).1
      omega)
    rw [hrl] at b1
    rw [hll] at b2
    omega

end Jxl.FastCode
