import Verif.Lemmas.IccMain
/-! # One iteration of the encoder's main loop -/
namespace Jxl.Icc

open VarInt.Spec (varint)

/-- The commands and data gathered since `p0` make the decoder go from `last1` to `pos`. -/
structure Good (icc : Bytes) (p0 : Nat) (t : It) : Prop where
  dec : Dec icc.length t.ca t.da (icc.take t.last1) (icc.take t.pos)
  le0 : p0 ≤ t.last1
  le1 : t.last1 ≤ t.pos
  le2 : t.pos ≤ icc.length
  low : 128 ≤ p0
  idle : t.ca = [] → t.da = [] ∧ t.pos = t.last1
  prog : t.ca ≠ [] → p0 < t.pos
  ts : t.tagstart ≤ t.pos
  len : t.ca.length ≤ 3 * (t.pos - t.last1)
  dlen : t.da.length ≤ t.pos - t.last1

theorem len_take {l : Bytes} {n : Nat} (h : n ≤ l.length) : (l.take n).length = n := by rw [List.length_take]; omega

theorem len_slice {l : Bytes} {p n : Nat} (h : p + n ≤ l.length) : ((l.drop p).take n).length = n := by
  rw [List.length_take, List.length_drop]; omega

/-- Four letters and four zeros. -/
theorem eight {icc : Bytes} {p : Nat} {t : Bytes} (hl : p + 8 ≤ icc.length) (h1 : kw icc p = t) (h2 : (icc.drop (p + 4)).take 4 = [0, 0, 0, 0]) :
    icc.take p ++ (t ++ [0, 0, 0, 0]) = icc.take (p + 8) := by
  rw [← take_app icc p 8, take8, h2, ← h1, kw_eq icc p (by omega)]

theorem zero_of_u32 {icc : Bytes} {p : Nat} (hl : p + 4 ≤ icc.length) (h : u32 icc p = 0) : (icc.drop p).take 4 = [0, 0, 0, 0] := by
  rw [← put_u32 icc p hl, h]; rfl

theorem zero4_ok {icc : Bytes} {p : Nat} (hl : p + 8 ≤ icc.length) :
    ∃ b, zero4 icc p = .ok b ∧ (b = true → (icc.drop (p + 4)).take 4 = [0, 0, 0, 0]) := by
  unfold zero4
  rw [slice_ok (by omega), bind_ok]
  exact ⟨_, rfl, by rw [decide_eq_true_iff]; exact id⟩

/-- What a step keeps. -/
def Keeps (t t' : It) : Prop := t'.tag = t.tag ∧ t'.tagstart = t.tagstart ∧ t'.tagsize = t.tagsize ∧ t'.clut = t.clut

theorem blkMluc_ok {icc : Bytes} {p0 : Nat} {t : It} (hL : icc.length < 2 ^ 30) (g : Good icc p0 t) (hi : t.ca = []) (htag : t.tag = kw icc t.pos) :
    ∃ t', blkMluc icc t = .ok t' ∧ Good icc p0 t' ∧ t'.tag = t.tag ∧ (t.tag ≠ kMluc → t' = t) := by
  unfold blkMluc
  by_cases h : t.tag = kMluc ∧ t.sane ∧ t.pos + t.tagsize ≤ icc.length
  · rw [if_pos h]
    obtain ⟨h1, h2, h3⟩ := h
    unfold It.sane at h2
    obtain ⟨b, hz, hzt⟩ := zero4_ok (icc := icc) (p := t.pos) (by omega)
    rw [hz, bind_ok]
    cases b with
    | false => exact ⟨t, rfl, g, rfl, fun h => absurd h1 h⟩
    | true =>
      rw [if_pos rfl, slice_ok (by omega), bind_ok]
      have hlen := len_slice (l := icc) (p := t.pos + 8) (n := t.tagsize - 8) (by omega)
      obtain ⟨u, u1, u2, u3⟩ := unshuffle_ok ((icc.drop (t.pos + 8)).take (t.tagsize - 8)) 2 (by omega)
      rw [u1, bind_ok]
      obtain ⟨i1, i2⟩ := g.idle hi
      refine ⟨_, rfl, ?_, rfl, fun h => absurd h1 h⟩
      have d1 := dec_type (osize := icc.length) 3 kMluc (icc.take t.pos) (by rw [len_take g.le2]; exact g.le2) rfl
      rw [eight (by omega) (htag.symm.trans h1) (hzt rfl)] at d1
      have d2 := dec_shuffle (osize := icc.length) u _ (icc.take (t.pos + 8)) (by rw [len_take (by omega)]; omega) (by omega) u3
      rw [take_app, u2, hlen] at d2
      have d3 := d1.trans d2
      have hv := varint_len (t.tagsize - 8)
      have hle0 := g.le0
      have hle1 := g.le1
      refine { dec := ?_, le0 := hle0, le1 := by dsimp only; omega, le2 := by dsimp only; omega, low := g.low, idle := ?_, prog := ?_, ts := by have := g.ts; dsimp only; omega, len := ?_, dlen := ?_ }
      · dsimp only
        rw [hi, i1, ← i2, List.nil_append, List.nil_append]
        exact d3
      · dsimp only; rw [hi]; intro h; cases h
      · dsimp only; intro _; omega
      · dsimp only; rw [hi]; simp; omega
      · dsimp only; rw [i1, List.nil_append, u2, hlen]; omega
  · rw [if_neg h]; exact ⟨t, rfl, g, rfl, fun _ => rfl⟩

theorem blkPredict_ok {icc : Bytes} {p0 : Nat} {t : It} {stride width order num : Nat} (hL : icc.length < 2 ^ 30) (g : Good icc p0 t)
    (hw : width = 1 ∨ width = 2 ∨ width = 4) (hs : width ≤ stride) (ho : order < 3) (h4 : stride * 4 < t.pos)
    (hl : t.pos + num ≤ icc.length) (hnum : 4 ≤ num ∧ stride < 128 ^ 3 ∨ stride = width ∧ 1 ≤ num) :
    ∃ t', blkPredict icc stride width order num t = .ok t' ∧ Good icc p0 t' ∧ t'.tag = t.tag ∧ t'.tagstart = t.tagstart ∧ t'.ca ≠ [] := by
  unfold blkPredict
  obtain ⟨d, r, p1, p2, p3, p4⟩ := predictAndShuffle_ok icc t.pos stride width order num hw hs h4 hl (by omega)
  rw [p1, bind_ok]
  refine ⟨_, rfl, ?_, rfl, rfl, by simp⟩
  have d1 := dec_predict hw hs ho h4 hl (by omega) (by omega) p2 p3 p4
  have hv := varint_len num
  have hle1 := g.le1
  have hlen := g.len
  refine { dec := ?_, le0 := g.le0, le1 := by dsimp only; omega, le2 := by dsimp only; omega, low := g.low, idle := ?_, prog := ?_, ts := by have := g.ts; dsimp only; omega, len := ?_, dlen := ?_ }
  · dsimp only
    rw [show t.ca ++ [4, UInt8.ofNat (4 * order + (width - 1) + (if stride = width then 0 else 16))] ++
      (if stride = width then [] else varint stride) ++ varint num = t.ca ++ ([4, UInt8.ofNat (4 * order + (width - 1) + (if stride = width then 0 else 16))] ++
      (if stride = width then [] else varint stride) ++ varint num) by simp]
    exact g.dec.trans d1
  · dsimp only; simp
  · dsimp only; intro _
    have := g.le0
    omega
  · dsimp only
    have hst : (if stride = width then [] else varint stride).length + 2 + (varint num).length ≤ 3 * num := by
      rcases hnum with ⟨h1, h2⟩ | ⟨h1, h2⟩
      · have : (varint stride).length ≤ 3 := VarInt.varint_length_le 2 stride h2
        split
        · simp; omega
        · omega
      · rw [if_pos h1]; simp; omega
    simp only [List.length_append, List.length_cons, List.length_nil]
    omega
  · have := g.dlen
    dsimp only
    rw [List.length_append, p2]
    omega

theorem blkCurv_ok {icc : Bytes} {p0 : Nat} {t : It} (hL : icc.length < 2 ^ 30) (g : Good icc p0 t) (htag : t.tag = kCurv → t.ca = [] ∧ t.tag = kw icc t.pos) :
    ∃ t', blkCurv icc t = .ok t' ∧ Good icc p0 t' ∧ t'.tag = t.tag ∧ (t.tag ≠ kCurv → t' = t) := by
  unfold blkCurv
  by_cases h : t.tag = kCurv ∧ t.sane ∧ t.pos + t.tagsize ≤ icc.length
  · rw [if_pos h]
    obtain ⟨h1, h2, h3⟩ := h
    obtain ⟨hi, htag⟩ := htag h1
    unfold It.sane at h2
    obtain ⟨b, hz, hzt⟩ := zero4_ok (icc := icc) (p := t.pos) (by omega)
    rw [hz, bind_ok]
    by_cases hc : b = true ∧ 16 < t.tagsize - 8 ∧ t.tagsize - 8 < 2 ^ 28 ∧ t.pos + (t.tagsize - 8) ≤ icc.length ∧ 0 < t.pos
    · rw [if_pos hc]
      obtain ⟨i1, i2⟩ := g.idle hi
      have hle0 := g.le0
      have hle1 := g.le1
      have hlow := g.low
      have d1 := dec_type (osize := icc.length) 5 kCurv (icc.take t.pos) (by rw [len_take g.le2]; exact g.le2) rfl
      rw [eight (by omega) (htag.symm.trans h1) (hzt hc.1)] at d1
      have g2 : Good icc p0 { t with ca := t.ca ++ [21], pos := t.pos + 8 } := by
        refine { dec := ?_, le0 := hle0, le1 := by dsimp only; omega, le2 := by dsimp only; omega, low := g.low, idle := by dsimp only; simp, prog := ?_, ts := by have := g.ts; dsimp only; omega, len := ?_, dlen := ?_ }
        · dsimp only
          rw [hi, i1, ← i2, List.nil_append]
          exact d1
        · dsimp only; intro _; omega
        · dsimp only; rw [hi]; simp; omega
        · dsimp only; rw [i1]; simp
      obtain ⟨t', a1, a2, a3, a4, a5⟩ := blkPredict_ok (stride := 2) (width := 2) (order := 1) (num := t.tagsize - 8) hL g2 (by omega) (by omega) (by omega)
        (by dsimp only; omega) (by dsimp only; omega) (.inl ⟨by omega, by omega⟩)
      exact ⟨t', a1, a2, a3, fun h => absurd h1 h⟩
    · rw [if_neg hc]; exact ⟨t, rfl, g, rfl, fun _ => rfl⟩
  · rw [if_neg h]; exact ⟨t, rfl, g, rfl, fun _ => rfl⟩

theorem iterTag_ok {icc : Bytes} {tags : List (Nat × Nat)} {p0 : Nat} {t : It} (hL : icc.length < 2 ^ 30) (g : Good icc p0 t) (hi : t.ca = []) :
    ∃ t', iterTag icc tags t = .ok t' ∧ Good icc p0 t' ∧ (t'.tag = kMab ∨ t'.tag = kMba → t'.ca = []) := by
  unfold iterTag blkTag
  cases tagFind tags t.pos with
  | none => exact ⟨t, rfl, g, fun _ => hi⟩
  | some sz =>
    dsimp only
    by_cases h4 : t.pos + 4 ≤ icc.length
    · rw [if_pos h4]
      dsimp only
      have g1 : Good icc p0 { t with tag := kw icc t.pos, tagstart := t.pos, tagsize := sz } :=
        { dec := g.dec, le0 := g.le0, le1 := g.le1, le2 := g.le2, low := g.low, idle := g.idle, prog := g.prog, ts := Nat.le_refl _, len := g.len, dlen := g.dlen }
      obtain ⟨t1, a1, a2, a3, a4⟩ := blkMluc_ok hL g1 hi rfl
      rw [a1, bind_ok]
      dsimp only at a3 a4
      have key : kw icc t.pos ≠ kMluc → t1.ca = [] := by
        intro h; rw [a4 h]; exact hi
      obtain ⟨t2, b1, b2, b3, b4⟩ := blkCurv_ok hL a2 (by
        intro h
        have hne : kw icc t.pos ≠ kMluc := by rw [← a3, h]; decide
        rw [a4 hne]
        exact ⟨hi, rfl⟩)
      refine ⟨t2, b1, b2, ?_⟩
      intro h
      have hne : t1.tag ≠ kCurv := by
        rw [← b3]; rcases h with h | h <;> rw [h] <;> decide
      have hne2 : kw icc t.pos ≠ kMluc := by
        rw [← a3, ← b3]; rcases h with h | h <;> rw [h] <;> decide
      rw [b4 hne]; exact key hne2
    · rw [if_neg h4]; exact ⟨t, rfl, g, fun _ => hi⟩

theorem clutNum_ok (icc : Bytes) (clut : Nat) : ∀ n i num, ∃ v, clutNum icc clut n i num = .ok v ∧ (num = 0 → v = 0)
  | 0, i, num => ⟨num, rfl, id⟩
  | n + 1, i, num => by
    rw [clutNum]
    split
    · rename_i h
      rw [rd_ok h, bind_ok]
      obtain ⟨v, h1, h2⟩ := clutNum_ok icc clut n (i + 1) (num * icc[clut + i].toNat % 2 ^ 64)
      exact ⟨v, h1, fun h0 => h2 (by rw [h0]; simp)⟩
    · exact ⟨num, rfl, id⟩

theorem mabCurv_ok {icc : Bytes} {p0 : Nat} {t : It} (hL : icc.length < 2 ^ 30) (g : Good icc p0 t) (hi : t.ca = []) :
    ∃ t', mabCurv icc t = .ok t' ∧ Good icc p0 t' := by
  unfold mabCurv
  by_cases h : t.pos + 12 < icc.length ∧ (kw icc t.pos = kCurv ∨ kw icc t.pos = kVcgt) ∧ u32 icc (t.pos + 4) = 0
  · rw [if_pos h]
    dsimp only
    by_cases hc : 16 < u32 icc (t.pos + 8) * 2 % 2 ^ 32 ∧ u32 icc (t.pos + 8) * 2 % 2 ^ 32 < 2 ^ 28 ∧
        t.pos + 12 + u32 icc (t.pos + 8) * 2 % 2 ^ 32 ≤ icc.length
    · rw [if_pos hc]
      generalize u32 icc (t.pos + 8) * 2 % 2 ^ 32 = num at *
      obtain ⟨i1, i2⟩ := g.idle hi
      have hle0 := g.le0
      have hlow := g.low
      have g2 : Good icc p0 { t with pos := t.pos + 12, last1 := t.pos + 12 } := by
        refine { dec := ?_, le0 := by dsimp only; omega, le1 := Nat.le_refl _, le2 := by dsimp only; omega, low := g.low, idle := fun _ => ⟨i1, rfl⟩, prog := fun h => absurd hi h, ts := by have := g.ts; dsimp only; omega, len := by dsimp only; rw [hi]; simp, dlen := by dsimp only; rw [i1]; simp }
        dsimp only
        rw [hi, i1]
        exact Dec.refl _ _
      obtain ⟨t', a1, a2, a3, a4, a5⟩ := blkPredict_ok (stride := 2) (width := 2) (order := 1) (num := num) hL g2 (by omega) (by omega) (by omega)
        (by dsimp only; omega) (by dsimp only; omega) (.inl ⟨by omega, by omega⟩)
      exact ⟨t', a1, a2⟩
    · rw [if_neg hc]; exact ⟨t, rfl, g⟩
  · rw [if_neg h]; exact ⟨t, rfl, g⟩

theorem mabSet_ok {icc : Bytes} {p0 : Nat} {t : It} (g : Good icc p0 t) : Good icc p0 (mabSet icc t) := by
  unfold mabSet
  split
  · exact { dec := g.dec, le0 := g.le0, le1 := g.le1, le2 := g.le2, low := g.low, idle := g.idle, prog := g.prog, ts := g.ts, len := g.len, dlen := g.dlen }
  · exact g

theorem mabClut_ok {icc : Bytes} {p0 : Nat} {t : It} (hL : icc.length < 2 ^ 30) (g : Good icc p0 t) :
    ∃ t', mabClut icc t = .ok t' ∧ Good icc p0 t' := by
  unfold mabClut
  by_cases h : t.pos = t.clut ∧ t.clut + 16 < icc.length
  · rw [if_pos h]
    have hts := g.ts
    rw [rd_ok (show t.tagstart + 8 < icc.length by omega), bind_ok, rd_ok (show t.tagstart + 9 < icc.length by omega), bind_ok,
      rd_ok (show t.clut + 16 < icc.length by omega), bind_ok]
    dsimp only
    generalize icc[t.tagstart + 8] = numi
    generalize icc[t.tagstart + 9] = numo
    generalize icc[t.clut + 16] = width
    obtain ⟨num, h1, h2⟩ := clutNum_ok icc t.clut numi.toNat 0 (width.toNat * numo.toNat)
    rw [h1, bind_ok]
    by_cases hc : (width = 1 ∨ width = 2) ∧ 64 < num ∧ num < 2 ^ 28 ∧ t.pos + num ≤ icc.length ∧ t.pos > width.toNat * numo.toNat * 4
    · rw [if_pos hc]
      obtain ⟨c1, c2, c3, c4, c5⟩ := hc
      have hw : width.toNat = 1 ∨ width.toNat = 2 := by
        rcases c1 with c | c
        · subst c; exact .inl rfl
        · subst c; exact .inr rfl
      have ho : numo.toNat ≠ 0 := by
        intro h0
        have := h2 (by rw [h0]; simp)
        omega
      have ho2 := numo.toNat_lt
      have hs1 : width.toNat ≤ width.toNat * numo.toNat := Nat.le_mul_of_pos_right _ (by omega)
      have hs2 : width.toNat * numo.toNat < 128 ^ 3 := by
        rcases hw with h | h <;> rw [h] <;> omega
      obtain ⟨t', a1, a2, a3, a4, a5⟩ := blkPredict_ok (stride := width.toNat * numo.toNat) (width := width.toNat) (order := 1) (num := num) hL g
        (by omega) hs1 (by omega) c5 c4 (.inl ⟨by omega, hs2⟩)
      exact ⟨t', a1, a2⟩
    · rw [if_neg hc]; exact ⟨t, rfl, g⟩
  · rw [if_neg h]; exact ⟨t, rfl, g⟩

theorem blkMab_ok {icc : Bytes} {p0 : Nat} {t : It} (hL : icc.length < 2 ^ 30) (g : Good icc p0 t) (hi : t.tag = kMab ∨ t.tag = kMba → t.ca = []) :
    ∃ t', blkMab icc t = .ok t' ∧ Good icc p0 t' := by
  unfold blkMab
  by_cases h : t.tag = kMab ∨ t.tag = kMba
  · rw [if_pos h]
    obtain ⟨t1, a1, a2⟩ := mabCurv_ok hL g (hi h)
    rw [a1, bind_ok]
    exact mabClut_ok hL (mabSet_ok a2)
  · rw [if_neg h]; exact ⟨t, rfl, g⟩

theorem blkGbd_ok {icc : Bytes} {p0 : Nat} {t : It} (hL : icc.length < 2 ^ 30) (g : Good icc p0 t) :
    ∃ t', blkGbd icc t = .ok t' ∧ Good icc p0 t' := by
  unfold blkGbd
  by_cases h : t.idle ∧ t.tag = kGbd ∧ t.sane ∧ t.pos = t.tagstart + 8 ∧ t.pos + t.tagsize - 8 ≤ icc.length ∧ 16 < t.pos
  · rw [if_pos h]
    obtain ⟨h1, h2, h3, h4, h5, h6⟩ := h
    unfold It.sane at h3
    obtain ⟨t', a1, a2, a3, a4, a5⟩ := blkPredict_ok (stride := 4) (width := 4) (order := 0) (num := t.tagsize - 8) hL g (by omega) (by omega) (by omega)
      (by omega) (by omega) (.inr ⟨rfl, by omega⟩)
    exact ⟨t', a1, a2⟩
  · rw [if_neg h]; exact ⟨t, rfl, g⟩

theorem blkXyz_ok {icc : Bytes} {p0 : Nat} {t : It} (g : Good icc p0 t) :
    ∃ t', blkXyz icc t = .ok t' ∧ Good icc p0 t' := by
  unfold blkXyz
  by_cases h : t.idle ∧ t.pos + 20 ≤ icc.length ∧ kw icc t.pos = kXyz ∧ u32 icc (t.pos + 4) = 0
  · rw [if_pos h]
    obtain ⟨⟨h1, h1'⟩, h2, h3, h4⟩ := h
    rw [slice_ok (by omega), bind_ok]
    refine ⟨_, rfl, ?_⟩
    have i2 := (g.idle h1).2
    have hle0 := g.le0
    have d1 := dec_xyz (osize := icc.length) ((icc.drop (t.pos + 8)).take 12) (icc.take t.pos) (by rw [len_take g.le2]; exact g.le2)
      (len_slice (by omega))
    rw [← List.append_assoc, eight (by omega) h3 (zero_of_u32 (by omega) h4), take_app] at d1
    refine { dec := ?_, le0 := hle0, le1 := by dsimp only; omega, le2 := by dsimp only; omega, low := g.low, idle := by dsimp only; simp, prog := ?_, ts := by have := g.ts; dsimp only; omega, len := ?_, dlen := ?_ }
    · dsimp only
      rw [h1, h1', ← i2, List.nil_append, List.nil_append]
      exact d1
    · dsimp only; intro _; omega
    · dsimp only; rw [h1]; simp; omega
    · dsimp only; rw [h1', List.nil_append, len_slice (by omega)]; omega
  · rw [if_neg h]; exact ⟨t, rfl, g⟩

theorem blkType_ok {icc : Bytes} {p0 : Nat} {t : It} (g : Good icc p0 t) : Good icc p0 (blkType icc t) := by
  unfold blkType
  by_cases h : t.idle ∧ t.pos + 8 ≤ icc.length ∧ u32 icc (t.pos + 4) = 0
  · rw [if_pos h]
    obtain ⟨⟨h1, h1'⟩, h2, h3⟩ := h
    cases hf : typeStrings.findIdx? (· == kw icc t.pos) with
    | none => exact g
    | some i =>
      dsimp only
      obtain ⟨f1, f2, -⟩ := List.findIdx?_eq_some_iff_getElem.1 hf
      have hty : typeStrings[i]? = some (kw icc t.pos) := by
        rw [List.getElem?_eq_getElem f1]
        simpa using f2
      have i2 := (g.idle h1).2
      have hle0 := g.le0
      have d1 := dec_type (osize := icc.length) i _ (icc.take t.pos) (by rw [len_take g.le2]; exact g.le2) hty
      rw [eight (by omega) rfl (zero_of_u32 (by omega) h3)] at d1
      refine { dec := ?_, le0 := hle0, le1 := by dsimp only; omega, le2 := by dsimp only; omega, low := g.low, idle := by dsimp only; simp, prog := ?_, ts := by have := g.ts; dsimp only; omega, len := ?_, dlen := ?_ }
      · dsimp only
        rw [h1, h1', ← i2, List.nil_append]
        exact d1
      · dsimp only; intro _; omega
      · dsimp only; rw [h1]; simp; omega
      · dsimp only; rw [h1']; simp
  · rw [if_neg h]; exact g

theorem blkEnd_ok {icc : Bytes} {p0 : Nat} {t : It} (g : Good icc p0 t) : Good icc p0 (blkEnd t) ∧ (blkEnd t).ca = t.ca := by
  unfold blkEnd
  split
  · exact ⟨{ dec := g.dec, le0 := g.le0, le1 := g.le1, le2 := g.le2, low := g.low, idle := g.idle, prog := g.prog, ts := g.ts, len := g.len, dlen := g.dlen }, rfl⟩
  · exact ⟨g, rfl⟩

theorem iter_ok {icc : Bytes} {tags : List (Nat × Nat)} {t : It} (hL : icc.length < 2 ^ 30) (h1 : t.pos ≤ icc.length) (h2 : 128 ≤ t.pos)
    (h3 : t.tagstart ≤ t.pos) : ∃ t', iter icc tags { t with last1 := t.pos, ca := [], da := [] } = .ok t' ∧ Good icc t.pos t' := by
  have g0 : Good icc t.pos { t with last1 := t.pos, ca := [], da := [] } :=
    { dec := Dec.refl _ _, le0 := Nat.le_refl _, le1 := Nat.le_refl _, le2 := h1, low := h2, idle := fun _ => ⟨rfl, rfl⟩, prog := fun h => absurd rfl h, ts := h3, len := by simp, dlen := by simp }
  unfold iter
  obtain ⟨g1, e1⟩ := blkEnd_ok g0
  dsimp only
  obtain ⟨t2, a2, g2, m2⟩ := iterTag_ok (tags := tags) hL g1 e1
  rw [a2, bind_ok]
  obtain ⟨t3, a3, g3⟩ := blkMab_ok hL g2 m2
  rw [a3, bind_ok]
  obtain ⟨t4, a4, g4⟩ := blkGbd_ok hL g3
  rw [a4, bind_ok]
  obtain ⟨t5, a5, g5⟩ := blkXyz_ok g4
  rw [a5, bind_ok]
  exact ⟨_, rfl, blkType_ok g5⟩

theorem flush_ok {icc : Bytes} {p0 last0 : Nat} {t : It} (hL : icc.length < 2 ^ 30) (g : Good icc p0 t) (h : last0 ≤ p0) :
    ∃ o, flush icc last0 t = .ok o ∧ Dec icc.length o.1 o.2 (icc.take last0) (icc.take t.pos) ∧ o.1.length ≤ 3 * (t.pos - last0) ∧
      o.2.length ≤ t.pos - last0 := by
  unfold flush
  have hle0 := g.le0
  have hle1 := g.le1
  have hle2 := g.le2
  have hlen := g.len
  have hdlen := g.dlen
  by_cases hl : last0 < t.last1
  · rw [if_pos hl, slice_ok (by omega), bind_ok]
    have hs := len_slice (l := icc) (p := last0) (n := t.last1 - last0) (by omega)
    refine ⟨_, rfl, ?_, ?_, ?_⟩
    · have d1 := dec_insert (osize := icc.length) ((icc.drop last0).take (t.last1 - last0)) (icc.take last0) (by rw [len_take (by omega)]; omega) (by omega)
      rw [hs, take_app, show last0 + (t.last1 - last0) = t.last1 by omega] at d1
      exact d1.trans g.dec
    · have hv := varint_len (t.last1 - last0)
      dsimp only
      simp only [List.length_append, List.length_cons, List.length_nil]
      omega
    · dsimp only
      rw [List.length_append, hs]
      omega
  · rw [if_neg hl]
    have : last0 = t.last1 := by omega
    exact ⟨_, rfl, by rw [this]; exact g.dec, by dsimp only; omega, by dsimp only; omega⟩

theorem mainLoop_ok {icc : Bytes} {tags : List (Nat × Nat)} (hL : icc.length < 2 ^ 30) : ∀ (f last0 : Nat) (t : It), icc.length + 1 < f + t.pos →
    128 ≤ t.pos → t.tagstart ≤ t.pos → (t.pos ≤ icc.length ∧ last0 ≤ t.pos ∨ t.pos = icc.length + 1 ∧ last0 = icc.length) →
    ∃ o, mainLoop icc tags f last0 t = .ok o ∧ Dec icc.length o.1 o.2 (icc.take last0) icc ∧ o.1.length ≤ 3 * (icc.length - last0) ∧
      o.2.length ≤ icc.length - last0
  | 0, last0, t, hf, h1, h2, h3 => by omega
  | f + 1, last0, t, hf, h1, h2, h3 => by
    rw [mainLoop]
    by_cases hp : t.pos ≤ icc.length
    · rw [if_pos hp]
      obtain ⟨t', a1, g⟩ := iter_ok (tags := tags) hL hp h1 h2
      rw [a1, bind_ok]
      have hle0 := g.le0
      have hle1 := g.le1
      have hle2 := g.le2
      have hts := g.ts
      by_cases hidle : t'.idle
      · have hdi : decide t'.idle = true := decide_eq_true hidle
        simp only [hdi, not_true, false_or, if_true]
        have hpos : t'.pos = t'.last1 := (g.idle hidle.1).2
        by_cases he : t'.pos = icc.length
        · rw [if_pos he]
          obtain ⟨o, b1, b2, b3, b4⟩ := flush_ok (last0 := last0) hL g (by omega)
          rw [b1, bind_ok]
          obtain ⟨r, c1, c2, c3, c4⟩ := mainLoop_ok (tags := tags) hL f t'.pos { t' with pos := t'.pos + 1 } (by dsimp only; omega) (by dsimp only; omega)
            (by dsimp only; omega) (.inr ⟨by dsimp only; omega, he⟩)
          rw [c1, bind_ok]
          exact ⟨_, rfl, b2.trans c2, by dsimp only; rw [List.length_append]; omega, by dsimp only; rw [List.length_append]; omega⟩
        · rw [if_neg he]
          exact mainLoop_ok (tags := tags) hL f last0 { t' with pos := t'.pos + 1 } (by dsimp only; omega) (by dsimp only; omega)
            (by dsimp only; omega) (.inl ⟨by dsimp only; omega, by dsimp only; omega⟩)
      · have hdi : decide t'.idle = false := decide_eq_false hidle
        simp only [hdi, Bool.false_eq_true, not_false_eq_true, true_or, if_true, if_false]
        have hca : t'.ca ≠ [] := fun h => hidle ⟨h, (g.idle h).1⟩
        have hprog := g.prog hca
        obtain ⟨o, b1, b2, b3, b4⟩ := flush_ok (last0 := last0) hL g (by omega)
        rw [b1, bind_ok]
        obtain ⟨r, c1, c2, c3, c4⟩ := mainLoop_ok (tags := tags) hL f t'.pos t' (by omega) (by omega) hts (.inl ⟨hle2, Nat.le_refl _⟩)
        rw [c1, bind_ok]
        exact ⟨_, rfl, b2.trans c2, by dsimp only; rw [List.length_append]; omega, by dsimp only; rw [List.length_append]; omega⟩
    · rw [if_neg hp]
      have : last0 = icc.length := by omega
      refine ⟨_, rfl, ?_, by simp, by simp⟩
      rw [this, List.take_length]
      exact Dec.refl _ _

end Jxl.Icc
