import Verif.Lemmas.IccTags
/-! # The decoder follows the encoder through the tag list -/
namespace Jxl.Icc

open VarInt.Spec (varint)

/-- A code that stands for `tag`. -/
def CodeFor (code : Nat) (tag : Bytes) : Prop :=
  code = 1 ∨ (code = 2 ∧ tag = kRtrc) ∨ (code = 3 ∧ tag = kRxyz) ∨ (4 ≤ code ∧ code < 21 ∧ tagStrings[code - 4]? = some tag)

theorem decTag_ok {enc ds tag : Bytes} {code pos : Nat} (hc : CodeFor code tag) (ht : tag.length = 4) (hn : enc.length < 2 ^ 64)
    (hp : pos ≤ enc.length) (h : enc.drop pos = (if code = 1 then tag else []) ++ ds) :
    decTag enc code pos = .ok (tag, pos + (if code = 1 then tag else []).length) := by
  unfold decTag
  rcases hc with h1 | ⟨h1, h2⟩ | ⟨h1, h2⟩ | ⟨h1, h2, h3⟩
  · rw [if_pos h1] at h
    rw [if_pos h1, if_pos h1]
    have hl := drop_len h hp
    rw [checkOob_ok hn (by omega), bind_ok, kw_eq _ _ (by omega), h, ht, List.take_append_of_le_length (by omega), List.take_of_length_le (by omega)]
  · subst h1; subst h2; rfl
  · subst h1; subst h2; rfl
  · rw [if_neg (by omega), if_neg (by omega), if_neg (by omega), if_neg (by omega), h3, if_neg (by omega)]
    rfl

theorem decStart_ok {enc cs : Bytes} {cend c cpos a b st : Nat} (hst : st < 2 ^ 32) (hf : c / 64 % 2 = if a + b ≠ st then 1 else 0)
    (h : (enc.take cend).drop cpos = (if a + b ≠ st then varint st else []) ++ cs) :
    decStart enc cend c cpos a b = .ok (st, cpos + (if a + b ≠ st then varint st else []).length) := by
  unfold decStart
  by_cases he : a + b ≠ st
  · rw [if_pos he] at h hf ⊢
    rw [if_pos hf, varIntAt_ok h (by omega)]
  · rw [if_neg he] at h hf ⊢
    rw [if_neg (by omega), check32_ok (by omega), bind_ok, Nat.mod_eq_of_lt (by omega)]
    have : a + b = st := by omega
    rw [this]; rfl

theorem decSize_ok {enc cs : Bytes} {cend c cpos q sz : Nat} {tag : Bytes} {b : Nat} (hq : q = if isTwenty tag then 20 else b) (hsz : sz < 2 ^ 32)
    (hf : c / 128 % 2 = if q ≠ sz then 1 else 0)
    (h : (enc.take cend).drop cpos = (if q ≠ sz then varint sz else []) ++ cs) :
    decSize enc cend c cpos tag b = .ok (sz, cpos + (if q ≠ sz then varint sz else []).length) := by
  unfold decSize
  by_cases he : q ≠ sz
  · rw [if_pos he] at h hf ⊢
    rw [if_pos hf, varIntAt_ok h (by omega)]
  · rw [if_neg he] at h hf ⊢
    rw [if_neg (by omega), ← hq]
    have : q = sz := by omega
    rw [this]; rfl

theorem command_byte (code : Nat) (f g : Prop) [Decidable f] [Decidable g] (hc : code < 64) :
    (UInt8.ofNat (code + (if f then 64 else 0) + (if g then 128 else 0))).toNat % 64 = code ∧
    (UInt8.ofNat (code + (if f then 64 else 0) + (if g then 128 else 0))).toNat / 64 % 2 = (if f then 1 else 0) ∧
    (UInt8.ofNat (code + (if f then 64 else 0) + (if g then 128 else 0))).toNat / 128 % 2 = (if g then 1 else 0) := by
  rw [UInt8.toNat_ofNat']
  by_cases hf : f <;> by_cases hg : g <;> simp only [hf, hg, if_true, if_false] <;> omega

/-- One entry (or three) of the tag list. -/
theorem decEntry_ok {icc enc cs ds : Bytes} {p code a b cend cpos pos n : Nat} {x : Bytes}
    (hcode : CodeFor code (kw icc p)) (hn : enc.length < 2 ^ 64) (hp : pos ≤ enc.length) (hl : p + 12 ≤ icc.length)
    (hcs : (enc.take cend).drop cpos = (tagOut (kw icc p) code (u32 icc (p + 4)) (u32 icc (p + 8)) a b).1 ++ cs)
    (hds : enc.drop pos = (tagOut (kw icc p) code (u32 icc (p + 4)) (u32 icc (p + 8)) a b).2 ++ ds)
    (hx : decExtra code (u32 icc (p + 4)) (u32 icc (p + 8)) = .ok x) (hxn : (icc.drop p).take n = (icc.drop p).take 12 ++ x) :
    ∃ c, cpos < cend ∧ cpos < enc.length ∧ rd enc cpos = .ok c ∧ c.toNat % 64 = code ∧
      decEntry enc cend c.toNat ⟨cpos + 1, pos, icc.take p⟩ a b =
        .ok (⟨cpos + (tagOut (kw icc p) code (u32 icc (p + 4)) (u32 icc (p + 8)) a b).1.length,
          pos + (tagOut (kw icc p) code (u32 icc (p + 4)) (u32 icc (p + 8)) a b).2.length, icc.take (p + n)⟩, u32 icc (p + 4), u32 icc (p + 8)) := by
  have hc64 : code < 64 := by rcases hcode with h | h | h | h <;> omega
  have hentry := entry_eq icc p hl
  have ht := kw_length icc p
  have hst := u32_lt icc (p + 4)
  have hsz := u32_lt icc (p + 8)
  generalize kw icc p = tag at *
  generalize u32 icc (p + 4) = st at *
  generalize u32 icc (p + 8) = sz at *
  unfold tagOut at hcs hds ⊢
  dsimp only at hcs hds ⊢
  rw [List.cons_append] at hcs
  obtain ⟨h1, h2, h3⟩ := rd_drop hcs
  obtain ⟨b1, b2, b3⟩ := command_byte code (a + b ≠ st) ((if isTwenty tag then 20 else b) ≠ sz) hc64
  refine ⟨_, h1, h2, h3, b1, ?_⟩
  generalize UInt8.ofNat (code + (if a + b ≠ st then 64 else 0) + (if (if isTwenty tag = true then 20 else b) ≠ sz then 128 else 0)) = c at *
  have hcs := drop_one hcs
  rw [List.append_assoc] at hcs
  unfold decEntry
  rw [b1]
  dsimp only
  rw [decTag_ok hcode ht hn hp hds, bind_ok, decStart_ok hst b2 hcs, bind_ok, check32_ok hst, bind_ok]
  dsimp only
  rw [decSize_ok rfl hsz b3 (drop_add hcs), bind_ok, check32_ok hsz, bind_ok, hx, bind_ok]
  dsimp only
  congr 2
  congr 1
  · rw [List.length_cons, List.length_append]; omega
  · rw [← take_app icc p n, hxn, ← hentry]

theorem decTagLoop_step {enc : Bytes} {cend osize cpos pos : Nat} {res : Bytes} {a b : Nat} {c : UInt8} (hr : res.length ≤ osize)
    (h1 : cpos < cend) (h2 : rd enc cpos = .ok c) (h3 : c.toNat % 64 ≠ 0) (f : Nat) :
    decTagLoop enc cend osize (f + 1) ⟨cpos, pos, res⟩ a b =
      (decEntry enc cend c.toNat ⟨cpos + 1, pos, res⟩ a b >>= fun r => decTagLoop enc cend osize f r.1 r.2.1 r.2.2) := by
  rw [decTagLoop]
  dsimp only
  rw [if_neg (by omega), if_neg (by omega), if_neg (by omega), h2, bind_ok, if_neg h3]

/-- Overrun from entry `i` on. -/
def OverFrom (icc : Bytes) (num i : Nat) : Prop :=
  ∃ k off, i ≤ k ∧ k < num ∧ 132 + 12 * k + 36 < icc.length ∧ off < 2 ^ 32 ∧ 2 ^ 32 ≤ off + 40 ∧
    Spec.bytes icc (132 + 12 * k) 36 = Spec.triple off

theorem triple_start (icc : Bytes) (p off : Nat) (hl : p + 36 < icc.length) (ho : off < 2 ^ 32) (h : Spec.bytes icc p 36 = Spec.triple off) :
    kw icc p = kRxyz ∧ u32 icc (p + 4) = off := by
  unfold Spec.bytes at h
  have h1 := congrArg (List.take 12) h
  rw [List.take_take, Nat.min_eq_left (by omega)] at h1
  have h2 : (Spec.triple off).take 12 = Spec.entry kRxyz off 20 := by
    unfold Spec.triple
    rw [List.append_assoc]
    exact List.take_left' rfl
  rw [h2] at h1
  have := (entry_iff icc p (by omega) kRxyz rfl off 20 ho (by omega)).1 h1
  exact ⟨this.1, this.2.1⟩

theorem overFrom_step {icc : Bytes} {num i e : Nat} (hi : i < num) (hl : 132 + 12 * i + 12 ≤ icc.length)
    (hnot : ¬ (isXyz icc (kw icc (132 + 12 * i)) (u32 icc (132 + 12 * i + 4)) (u32 icc (132 + 12 * i + 8)) (132 + 12 * i + 12) = true ∧
      2 ^ 32 ≤ u32 icc (132 + 12 * i + 4) + 40))
    (he : ∀ k, i < k → k ≤ i + e → kw icc (132 + 12 * k) ≠ kRxyz) : OverFrom icc num i ↔ OverFrom icc num (i + 1 + e) := by
  constructor
  · rintro ⟨k, off, h1, h2, h3, h4, h5, h6⟩
    obtain ⟨g1, g2⟩ := triple_start icc _ off h3 h4 h6
    refine ⟨k, off, ?_, h2, h3, h4, h5, h6⟩
    apply Classical.byContradiction
    intro hk
    by_cases hki : k = i
    · subst hki
      apply hnot
      refine ⟨(isXyz_iff icc _ hl).2 ⟨h3, ?_⟩, by rw [g2]; exact h5⟩
      rw [g2]; exact h6
    · exact he k (by omega) (by omega) g1
  · rintro ⟨k, off, h1, h2⟩
    exact ⟨k, off, by omega, h2⟩

theorem overFrom_end {icc : Bytes} {num i : Nat} (h : ¬ i < num ∨ 132 + 12 * i + 12 > icc.length) : ¬ OverFrom icc num i := by
  rintro ⟨k, off, h1, h2, h3, -⟩
  omega

/-- What the decoder does with the encoder's tag list. -/
def TagsDec (icc : Bytes) (num i p a b : Nat) (o : TagsOut) : Prop :=
  ∀ (enc : Bytes) (cend cpos pos f : Nat) (cs ds : Bytes), enc.length < 2 ^ 64 → cend ≤ enc.length → pos ≤ enc.length →
    (enc.take cend).drop cpos = o.cmds ++ (0 :: cs) → enc.drop pos = o.data ++ ds → o.cmds.length < f →
    (OverFrom icc num i → decTagLoop enc cend icc.length f ⟨cpos, pos, icc.take p⟩ a b = .fail) ∧
    (¬ OverFrom icc num i → decTagLoop enc cend icc.length f ⟨cpos, pos, icc.take p⟩ a b =
      .ok ⟨cpos + o.cmds.length + 1, pos + o.data.length, icc.take o.pos⟩)

theorem tagsDec_end {icc : Bytes} {num i p a b : Nat} (hp : p = 132 + 12 * i) (h : ¬ i < num ∨ p + 12 > icc.length) :
    TagsDec icc num i p a b ⟨p, [], [], []⟩ := by
  intro enc cend cpos pos f cs ds hn hc hpos hcs hds hf
  have hno := overFrom_end (icc := icc) (num := num) (i := i) (by rw [← hp]; exact h)
  refine ⟨fun h => absurd h hno, fun _ => ?_⟩
  obtain ⟨f, rfl⟩ : ∃ g, f = g + 1 := ⟨f - 1, by omega⟩
  obtain ⟨h1, h2, h3⟩ := rd_drop (cs := cs) (by simpa using hcs)
  rw [decTagLoop]
  dsimp only
  rw [if_neg (by rw [List.length_take]; omega), if_neg (by omega), if_neg (by omega), h3, bind_ok, if_pos (by decide)]
  rfl

theorem tagsDec_step {icc : Bytes} {num i p a b code e : Nat} {o : TagsOut} {x : Bytes} {l : List (Nat × Nat)} (hp : p = 132 + 12 * i)
    (hl : p + 12 ≤ icc.length)
    (hcode : CodeFor code (kw icc p))
    (hx : decExtra code (u32 icc (p + 4)) (u32 icc (p + 8)) = .ok x)
    (hxn : (icc.drop p).take (12 + 12 * e) = (icc.drop p).take 12 ++ x)
    (hover : OverFrom icc num i ↔ OverFrom icc num (i + 1 + e))
    (hrest : TagsDec icc num (i + 1 + e) (p + 12 + 12 * e) (u32 icc (p + 4)) (u32 icc (p + 8)) o) :
    TagsDec icc num i p a b ⟨o.pos, l,
      (tagOut (kw icc p) code (u32 icc (p + 4)) (u32 icc (p + 8)) a b).1 ++ o.cmds,
      (tagOut (kw icc p) code (u32 icc (p + 4)) (u32 icc (p + 8)) a b).2 ++ o.data⟩ := by
  intro enc cend cpos pos f cs ds hn hc hpos hcs hds hf
  dsimp only at hcs hds hf ⊢
  rw [List.append_assoc] at hcs hds
  obtain ⟨c, h1, h2, h3, h4, h5⟩ := decEntry_ok hcode hn hpos hl hcs hds hx hxn
  have hpos2 := drop_len hds hpos
  have hcs2 := drop_add hcs
  have hds2 := drop_add hds
  have hlen1 : 1 ≤ (tagOut (kw icc p) code (u32 icc (p + 4)) (u32 icc (p + 8)) a b).1.length := by
    unfold tagOut; simp
  generalize tagOut (kw icc p) code (u32 icc (p + 4)) (u32 icc (p + 8)) a b = t at *
  obtain ⟨f, rfl⟩ : ∃ g, f = g + 1 := ⟨f - 1, by omega⟩
  rw [List.length_append] at hf
  have hstep := decTagLoop_step (enc := enc) (cend := cend) (osize := icc.length) (cpos := cpos) (pos := pos) (res := icc.take p) (a := a) (b := b)
    (by rw [List.length_take]; omega) h1 h3 (by
      rw [h4]; rcases hcode with h | h | h | h <;> omega) f
  rw [hstep, h5, bind_ok]
  dsimp only
  have hr := hrest enc cend (cpos + t.1.length) (pos + t.2.length) f cs ds hn hc hpos2 hcs2 hds2 (by omega)
  rw [← Nat.add_assoc] 
  refine ⟨fun h => hr.1 (hover.1 h), fun h => ?_⟩
  rw [hr.2 (fun h' => h (hover.2 h')), List.length_append, List.length_append]
  congr 2 <;> omega

theorem tagsDec_fail {icc : Bytes} {num i p a b : Nat} {o : TagsOut} {l : List (Nat × Nat)} {q : Nat} (hp : p = 132 + 12 * i) (hi : i < num)
    (hl : p + 12 ≤ icc.length)
    (hx : isXyz icc (kw icc p) (u32 icc (p + 4)) (u32 icc (p + 8)) (p + 12) = true) (hov : 2 ^ 32 ≤ u32 icc (p + 4) + 40) :
    TagsDec icc num i p a b ⟨q, l,
      (tagOut (kw icc p) 3 (u32 icc (p + 4)) (u32 icc (p + 8)) a b).1 ++ o.cmds,
      (tagOut (kw icc p) 3 (u32 icc (p + 4)) (u32 icc (p + 8)) a b).2 ++ o.data⟩ := by
  have hx' := (isXyz_iff icc p hl).1 hx
  have hover : OverFrom icc num i :=
    ⟨i, u32 icc (p + 4), Nat.le_refl _, hi, by omega, u32_lt _ _, hov, by rw [← hp]; exact hx'.2⟩
  intro enc cend cpos pos f cs ds hn hc hpos hcs hds hf
  refine ⟨fun _ => ?_, fun h => absurd hover h⟩
  dsimp only at hcs hds hf
  rw [List.append_assoc] at hcs hds
  unfold isXyz at hx
  rw [decide_eq_true_iff] at hx
  have hcode : CodeFor 3 (kw icc p) := .inr (.inr (.inl ⟨rfl, hx.1⟩))
  have ht := kw_length icc p
  have hst := u32_lt icc (p + 4)
  have hsz : u32 icc (p + 8) = 20 := hx.2.2.2.2.1
  rw [hsz] at hcs hds hf
  clear hsz hover hx' hx
  generalize kw icc p = tag at *
  generalize u32 icc (p + 4) = st at *
  unfold tagOut at hcs hds
  dsimp only at hcs hds
  rw [List.cons_append] at hcs
  obtain ⟨h1, h2, h3⟩ := rd_drop hcs
  obtain ⟨b1, b2, b3⟩ := command_byte 3 (a + b ≠ st) ((if isTwenty tag then 20 else b) ≠ 20) (by omega)
  generalize UInt8.ofNat (3 + (if a + b ≠ st then 64 else 0) + (if (if isTwenty tag = true then 20 else b) ≠ 20 then 128 else 0)) = c at *
  obtain ⟨f, rfl⟩ : ∃ g, f = g + 1 := ⟨f - 1, by omega⟩
  have hstep := decTagLoop_step (enc := enc) (cend := cend) (osize := icc.length) (cpos := cpos) (pos := pos) (res := icc.take p) (a := a) (b := b)
    (by rw [List.length_take]; omega) h1 h3 (by omega) f
  rw [hstep]
  have hcs := drop_one hcs
  rw [List.append_assoc] at hcs
  unfold decEntry
  rw [b1]
  dsimp only
  rw [decTag_ok hcode ht hn hpos hds, bind_ok, decStart_ok hst b2 hcs, bind_ok, check32_ok hst, bind_ok]
  dsimp only
  rw [decSize_ok rfl (by omega) b3 (drop_add hcs), bind_ok, check32_ok (by omega), bind_ok]
  have : decExtra 3 st 20 = .fail := by
    unfold decExtra check32
    rw [if_neg (by decide), if_pos rfl, if_pos (by omega)]; rfl
  dsimp only
  rw [this]; rfl

theorem tagOut_len (tag : Bytes) (code st sz a b : Nat) (h1 : st < 2 ^ 32) (h2 : sz < 2 ^ 32) : (tagOut tag code st sz a b).1.length ≤ 11 := by
  have l1 : (varint st).length ≤ 5 := VarInt.varint_length_le 4 st (by omega)
  have l2 : (varint sz).length ≤ 5 := VarInt.varint_length_le 4 sz (by omega)
  unfold tagOut
  dsimp only
  rw [List.length_cons, List.length_append]
  have h3 : ∀ (c : Prop) [Decidable c] (v : Nat), (varint v).length ≤ 5 → (if c then varint v else []).length ≤ 5 := by
    intro c _ v hv
    split
    · exact hv
    · simp
  have h4 := h3 (a + b ≠ st) st l1
  have h5 := h3 ((if isTwenty tag = true then 20 else b) ≠ sz) sz l2
  omega

/-- The encoder's loop over the tag list succeeds, stays inside the profile, and the decoder follows it. -/
theorem tagLoop_ok (icc : Bytes) (num : Nat) : ∀ (f i p a b : Nat), p = 132 + 12 * i → p ≤ icc.length → icc.length < f + p →
    ∃ o, tagLoop icc num f i p a b = .ok o ∧ p + o.cmds.length ≤ o.pos ∧ o.pos ≤ icc.length ∧ TagsDec icc num i p a b o
  | 0, i, p, a, b, hp, hl, hf => by omega
  | f + 1, i, p, a, b, hp, hl, hf => by
    rw [tagLoop]
    by_cases hend : ¬ i < num ∨ p + 12 > icc.length
    · rw [if_pos hend]
      exact ⟨_, rfl, by simp, hl, tagsDec_end hp hend⟩
    rw [if_neg hend]
    have hi : i < num := by omega
    have hl12 : p + 12 ≤ icc.length := by omega
    obtain ⟨trc, h1, h2⟩ := isTrc_ok icc p hl12
    dsimp only
    rw [h1, bind_ok]
    have hst := u32_lt icc (p + 4)
    have hsz := u32_lt icc (p + 8)
    cases trc with
    | true =>
      obtain ⟨g1, g2, g3⟩ := h2 rfl
      have hx0 : isXyz icc (kw icc p) (u32 icc (p + 4)) (u32 icc (p + 8)) (p + 12) = false := by
        unfold isXyz
        rw [decide_eq_false_iff_not, g1]
        rintro ⟨h, -⟩; exact absurd h (by decide)
      simp only [if_true, hx0]
      rw [if_pos (by simp)]
      obtain ⟨o, h3, h4, h5, h6⟩ := tagLoop_ok icc num f (i + 1 + 2) (p + 12 + 12 * 2) (u32 icc (p + 4)) (u32 icc (p + 8)) (by omega) (by omega) (by omega)
      rw [h3, bind_ok]
      have hlen := tagOut_len (kw icc p) 2 (u32 icc (p + 4)) (u32 icc (p + 8)) a b hst hsz
      refine ⟨_, rfl, by dsimp only; rw [List.length_append]; omega, h5, ?_⟩
      have he1 : (icc.drop p).take 12 = Spec.entry kRtrc (u32 icc (p + 4)) (u32 icc (p + 8)) :=
        (entry_iff icc p hl12 kRtrc rfl _ _ hst hsz).2 ⟨g1, rfl, rfl⟩
      refine tagsDec_step (e := 2) (o := o) hp hl12 (.inr (.inl ⟨rfl, g1⟩)) (x := Spec.entry kGtrc (u32 icc (p + 4)) (u32 icc (p + 8)) ++
        Spec.entry kBtrc (u32 icc (p + 4)) (u32 icc (p + 8))) ?_ ?_ ?_ h6
      · simp [decExtra, Spec.entry, Spec.be32, put32]
      · rw [g3, he1, List.append_assoc]
      · rw [hp] at hx0 hl12 g3
        refine overFrom_step hi hl12 (by rw [hx0]; simp) ?_
        intro k k1 k2
        rw [← slice36] at g3
        have hl12' : ∀ q, q + 12 ≤ icc.length → ((icc.drop q).take 12).length = 12 := by
          intro q hq; rw [List.length_take, List.length_drop]; omega
        have hle : ∀ t a b, t.length = 4 → (Spec.entry t a b).length = 12 := by
          intro t a b ht; simp [Spec.entry, Spec.be32, ht]
        obtain ⟨q1, q2⟩ := List.append_inj g3 (by
          rw [List.length_append, List.length_append, hl12' _ (by omega), hl12' _ (by omega), hle _ _ _ rfl, hle _ _ _ rfl])
        obtain ⟨q3, q4⟩ := List.append_inj q1 (by rw [hl12' _ (by omega), hle _ _ _ rfl])
        have u1 := u32_lt icc (132 + 12 * i + 4)
        have u2 := u32_lt icc (132 + 12 * i + 8)
        have e2 := (entry_iff icc (132 + 12 * i + 12) (by omega) kGtrc rfl _ _ u1 u2).1 q4
        have e3 := (entry_iff icc (132 + 12 * i + 24) (by omega) kBtrc rfl _ _ u1 u2).1 q2
        have hk : k = i + 1 ∨ k = i + 2 := by omega
        rcases hk with hk | hk
        · rw [hk, show 132 + 12 * (i + 1) = 132 + 12 * i + 12 by omega, e2.1]; decide
        · rw [hk, show 132 + 12 * (i + 2) = 132 + 12 * i + 24 by omega, e3.1]; decide
    | false =>
      simp only [Bool.false_eq_true, if_false, false_or]
      by_cases hx : isXyz icc (kw icc p) (u32 icc (p + 4)) (u32 icc (p + 8)) (p + 12) = true
      · rw [hx]
        simp only [if_true]
        have hx' := (isXyz_iff icc p hl12).1 hx
        obtain ⟨o, h3, h4, h5, h6⟩ := tagLoop_ok icc num f (i + 1 + 2) (p + 12 + 12 * 2) (u32 icc (p + 4)) (u32 icc (p + 8)) (by omega) (by omega) (by omega)
        rw [h3, bind_ok]
        have hlen := tagOut_len (kw icc p) 3 (u32 icc (p + 4)) (u32 icc (p + 8)) a b hst hsz
        refine ⟨_, rfl, by dsimp only; rw [List.length_append]; omega, h5, ?_⟩
        by_cases hov : 2 ^ 32 ≤ u32 icc (p + 4) + 40
        · exact tagsDec_fail hp hi hl12 hx hov
        have hx2 := hx
        unfold isXyz at hx2
        rw [decide_eq_true_iff] at hx2
        obtain ⟨x1, x2, x3, x4, x5, x6, x7, x8, x9⟩ := hx2
        rw [Nat.mod_eq_of_lt (by omega)] at x8 x9
        have he1 : (icc.drop p).take 12 = Spec.entry kRxyz (u32 icc (p + 4)) 20 :=
          (entry_iff icc p hl12 kRxyz rfl _ _ hst (by omega)).2 ⟨x1, rfl, x5⟩
        refine tagsDec_step (e := 2) (o := o) hp hl12 (.inr (.inr (.inl ⟨rfl, x1⟩))) (x := Spec.entry kGxyz (u32 icc (p + 4) + 20) 20 ++
          Spec.entry kBxyz (u32 icc (p + 4) + 40) 20) ?_ ?_ ?_ h6
        · rw [x5]
          unfold decExtra
          rw [if_neg (by decide), if_pos rfl, check32_ok (by omega), bind_ok]
          simp [Spec.entry, Spec.be32, put32]
        · rw [show 12 + 12 * 2 = 36 from rfl, hx'.2, he1]
          unfold Spec.triple
          rw [Nat.mod_eq_of_lt (show u32 icc (p + 4) + 20 < 2 ^ 32 by omega), Nat.mod_eq_of_lt (show u32 icc (p + 4) + 40 < 2 ^ 32 by omega), List.append_assoc]
          rfl
        · refine overFrom_step hi (by omega) (by rw [← hp]; exact fun h => hov h.2) ?_
          intro k k1 k2
          have hk : k = i + 1 ∨ k = i + 2 := by omega
          rcases hk with hk | hk
          · rw [hk, show 132 + 12 * (i + 1) = p + 12 by omega, x3]; decide
          · rw [hk, show 132 + 12 * (i + 2) = p + 12 + 12 by omega, x4]; decide
      · rw [Bool.not_eq_true] at hx
        rw [hx]
        simp only [Bool.false_eq_true, if_false]
        obtain ⟨o, h3, h4, h5, h6⟩ := tagLoop_ok icc num f (i + 1 + 0) (p + 12 + 12 * 0) (u32 icc (p + 4)) (u32 icc (p + 8)) (by omega) (by omega) (by omega)
        rw [h3, bind_ok]
        have hlen := tagOut_len (kw icc p) (tagCode (kw icc p)) (u32 icc (p + 4)) (u32 icc (p + 8)) a b hst hsz
        refine ⟨_, rfl, by dsimp only; rw [List.length_append]; omega, h5, ?_⟩
        have hcode : CodeFor (tagCode (kw icc p)) (kw icc p) := by
          rcases tagCode_spec (kw icc p) with h | h
          · exact .inl h
          · exact .inr (.inr (.inr h))
        refine tagsDec_step (e := 0) (o := o) hp hl12 hcode (x := []) ?_ (by simp) ?_ h6
        · unfold decExtra
          rcases tagCode_spec (kw icc p) with h | h
          · rw [if_neg (by omega), if_neg (by omega)]
          · rw [if_neg (by omega), if_neg (by omega)]
        · exact overFrom_step hi (by omega) (by rw [← hp, hx]; simp) (by intro k k1 k2; omega)

end Jxl.Icc
