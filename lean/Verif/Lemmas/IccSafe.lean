import Verif.Lemmas.IccPred
import Verif.Lemmas.VarInt
/-! # The ICC decoder on arbitrary input -/
namespace Jxl.Icc

/-- No undefined behaviour, and the values satisfy `P`. -/
def Safe {α : Type} (x : R α) (P : α → Prop) : Prop :=
  match x with
  | .ub => False
  | .fail => True
  | .ok a => P a

theorem Safe.fail {α : Type} {P : α → Prop} : Safe (R.fail) P := trivial
theorem Safe.ok {α : Type} {P : α → Prop} {a : α} (h : P a) : Safe (R.ok a) P := h

theorem Safe.bind {α β : Type} {x : R α} {f : α → R β} {P : α → Prop} {Q : β → Prop} (h : Safe x P) (hf : ∀ a, P a → Safe (f a) Q) :
    Safe (x >>= f) Q := by
  cases x with
  | ub => exact h.elim
  | fail => trivial
  | ok a => exact hf a h

theorem Safe.mono {α : Type} {x : R α} {P Q : α → Prop} (h : Safe x P) (hf : ∀ a, P a → Q a) : Safe x Q := by
  cases x with
  | ub => exact h
  | fail => trivial
  | ok a => exact hf a h

theorem Safe.ne {α : Type} {x : R α} {P : α → Prop} (h : Safe x P) : x ≠ .ub := by
  cases x with
  | ub => exact h.elim
  | fail => intro h; cases h
  | ok a => intro h; cases h

theorem Safe.of_ok {α : Type} {x : R α} {P : α → Prop} {a : α} (h : Safe x P) (e : x = .ok a) : P a := by
  rw [e] at h; exact h

theorem varIntAt_safe (enc : Bytes) (lim pos : Nat) (hl : lim ≤ enc.length) :
    Safe (varIntAt enc lim pos) (fun v => pos < v.2 ∧ v.2 ≤ lim ∧ v.1 < 2 ^ 64) := by
  unfold varIntAt
  cases h : VarInt.decode (enc.take lim) pos with
  | none => trivial
  | some p =>
    have := VarInt.decLoop_bounds (enc.take lim) 9 pos 0 (by omega) (by simp) p.1 p.2 h
    rw [List.length_take, Nat.min_eq_left hl] at this
    show pos < p.2 ∧ p.2 ≤ lim ∧ p.1 < 2 ^ 64
    omega

theorem checkOob_safe {a b n : Nat} (hn : n < 2 ^ 64) (ha : a ≤ n) (hb : b < 2 ^ 64) : Safe (checkOob a b n) (fun _ => a + b ≤ n) := by
  rcases checkOob_ne a b n with h | h
  · rw [h]; exact checkOob_inv hn ha hb h
  · rw [h]; trivial

theorem check32_safe (v : Nat) : Safe (check32 v) (fun _ => v % 2 ^ 64 < 2 ^ 32) := by
  unfold check32
  split
  · trivial
  · show v % 2 ^ 64 < 2 ^ 32; omega

theorem rd_safe {l : Bytes} {i : Nat} (h : i < l.length) : Safe (rd l i) (fun _ => True) := by
  rw [rd_ok h]; trivial

theorem slice_safe {l : Bytes} {p k : Nat} (h : p + k ≤ l.length) : Safe (slice l p k) (fun d => d.length = k) := by
  rw [slice_ok h]
  show ((l.drop p).take k).length = k
  rw [List.length_take, List.length_drop]; omega

theorem shuffle_safe (d : Bytes) (w : Nat) (hw : 0 < w) : Safe (shuffle d w) (fun r => r.length = d.length) := by
  obtain ⟨r, h1, h2⟩ := shuffle_len d w hw
  rw [h1]; exact h2

theorem predictHeader_safe (icc h : Bytes) (size pos : Nat) (hs : size ≤ icc.length) (hp : pos ≤ size) :
    Safe (predictHeader icc size h pos) (fun h' => h'.length = h.length) := by
  unfold predictHeader
  split
  · exact Safe.bind (rd_safe (by omega)) fun _ _ => Safe.bind (rd_safe (by omega)) fun _ _ =>
      Safe.bind (rd_safe (by omega)) fun _ _ => Safe.bind (rd_safe (by omega)) fun _ _ => Safe.ok (by simp)
  · split
    · refine Safe.bind (rd_safe (by omega)) fun a _ => Safe.ok ?_
      split
      · simp
      · split
        · simp
        · rfl
    · split
      · refine Safe.bind (rd_safe (by omega)) fun a _ => Safe.bind (rd_safe (by omega)) fun b _ => Safe.ok ?_
        split
        · simp
        · split
          · simp
          · rfl
      · exact Safe.ok rfl

theorem initHeader_length (n : Nat) : (initHeader n).length = 128 := by
  have : headerTail.length = 124 := by decide +kernel
  simp [initHeader, put32, this]

theorem decHeader_safe (enc : Bytes) (osize : Nat) : ∀ (n i : Nat) (h : Bytes) (pos : Nat) (res : Bytes), i + n = 128 → h.length = 128 →
    res.length = i → pos ≤ enc.length →
    Safe (decHeader enc osize n i h pos res) (fun r => r.2.1 ≤ enc.length ∧ (r.1 = false → r.2.2.length = 128) ∧
      (r.1 = true → r.2.2.length = osize))
  | 0, i, h, pos, res, hi, hh, hr, hp => by
    rw [decHeader]
    split
    · exact Safe.ok ⟨hp, (by intro h; cases h), fun _ => by assumption⟩
    · exact Safe.ok ⟨hp, fun _ => by dsimp only; omega, (by intro h; cases h)⟩
  | n + 1, i, h, pos, res, hi, hh, hr, hp => by
    rw [decHeader]
    split
    · exact Safe.ok ⟨hp, (by intro h; cases h), fun _ => by assumption⟩
    · refine Safe.bind (predictHeader_safe res h res.length i (Nat.le_refl _) (by omega)) fun h' hl => ?_
      split
      · exact Safe.fail
      · refine Safe.bind (rd_safe (by omega)) fun x _ => Safe.bind (rd_safe (by omega)) fun y _ => ?_
        exact decHeader_safe enc osize n (i + 1) h' (pos + 1) _ (by omega) (by omega) (by simp; omega) (by omega)

theorem decTag_safe (enc : Bytes) (code pos : Nat) (hn : enc.length < 2 ^ 64) (hp : pos ≤ enc.length) :
    Safe (decTag enc code pos) (fun t => t.2 ≤ enc.length) := by
  unfold decTag
  split
  · exact Safe.bind (checkOob_safe hn hp (by omega)) fun _ h => Safe.ok h
  · split
    · exact Safe.ok hp
    · split
      · exact Safe.ok hp
      · split
        · exact Safe.fail
        · rename_i h
          rw [List.getElem?_eq_getElem (show code - 4 < tagStrings.length by
            have : tagStrings.length = 17 := rfl
            omega)]
          exact Safe.ok hp

theorem decStart_safe (enc : Bytes) (cend c cpos a b : Nat) (hc : cend ≤ enc.length) (hp : cpos ≤ cend) :
    Safe (decStart enc cend c cpos a b) (fun v => cpos ≤ v.2 ∧ v.2 ≤ cend) := by
  unfold decStart
  split
  · exact (varIntAt_safe enc cend cpos hc).mono fun v h => ⟨by omega, h.2.1⟩
  · exact Safe.bind (check32_safe _) fun _ _ => Safe.ok ⟨Nat.le_refl _, hp⟩

theorem decSize_safe (enc : Bytes) (cend c cpos : Nat) (tag : Bytes) (b : Nat) (hc : cend ≤ enc.length) (hp : cpos ≤ cend) :
    Safe (decSize enc cend c cpos tag b) (fun v => cpos ≤ v.2 ∧ v.2 ≤ cend) := by
  unfold decSize
  split
  · exact (varIntAt_safe enc cend cpos hc).mono fun v h => ⟨by omega, h.2.1⟩
  · exact Safe.ok ⟨Nat.le_refl _, hp⟩

theorem decExtra_safe (c a b : Nat) : Safe (decExtra c a b) (fun _ => True) := by
  unfold decExtra
  split
  · trivial
  · split
    · exact Safe.bind (check32_safe _) fun _ _ => trivial
    · trivial

def St.In (enc : Bytes) (cend : Nat) (c0 : Nat) (s : St) : Prop := c0 ≤ s.cpos ∧ s.cpos ≤ cend ∧ s.pos ≤ enc.length

theorem decEntry_safe (enc : Bytes) (cend c : Nat) (s : St) (a b : Nat) (hn : enc.length < 2 ^ 64) (hc : cend ≤ enc.length) (h : s.In enc cend s.cpos) :
    Safe (decEntry enc cend c s a b) (fun r => r.1.In enc cend s.cpos) := by
  obtain ⟨-, h2, h3⟩ := h
  unfold decEntry
  refine Safe.bind (decTag_safe enc _ s.pos hn h3) fun t ht => ?_
  refine Safe.bind (decStart_safe enc cend c s.cpos a b hc h2) fun v hv => ?_
  refine Safe.bind (check32_safe _) fun _ _ => ?_
  refine Safe.bind (decSize_safe enc cend c v.2 t.1 b hc hv.2) fun w hw => ?_
  refine Safe.bind (check32_safe _) fun _ _ => ?_
  refine Safe.bind (decExtra_safe _ _ _) fun x _ => ?_
  exact Safe.ok ⟨by dsimp only; omega, hw.2, ht⟩

theorem decTagLoop_safe (enc : Bytes) (cend osize : Nat) (hn : enc.length < 2 ^ 64) (hc : cend ≤ enc.length) :
    ∀ (fuel : Nat) (s : St) (a b : Nat), cend < fuel + s.cpos → s.In enc cend s.cpos →
      Safe (decTagLoop enc cend osize fuel s a b) (fun r => r.In enc cend s.cpos)
  | 0, s, a, b, hf, h => absurd h.2.1 (by omega)
  | fuel + 1, s, a, b, hf, h => by
    rw [decTagLoop]
    split
    · exact Safe.fail
    split
    · exact Safe.fail
    split
    · exact Safe.ok h
    obtain ⟨h1, h2, h3⟩ := h
    refine Safe.bind (rd_safe (by omega)) fun c _ => ?_
    split
    · exact Safe.ok ⟨by dsimp only; omega, by dsimp only; omega, h3⟩
    refine Safe.bind (decEntry_safe enc cend c.toNat _ a b hn hc ⟨Nat.le_refl _, by dsimp only; omega, h3⟩) fun r hr => ?_
    obtain ⟨r1, r2, r3⟩ := hr
    dsimp only at r1
    exact (decTagLoop_safe enc cend osize hn hc fuel r.1 r.2.1 r.2.2 (by omega) ⟨Nat.le_refl _, r2, r3⟩).mono
      fun q hq => ⟨by have := hq.1; omega, hq.2⟩

theorem cmdPredict_safe (enc : Bytes) (cend : Nat) (s : St) (hn : enc.length < 2 ^ 64) (hc : cend ≤ enc.length) (h : s.In enc cend s.cpos) :
    Safe (cmdPredict enc cend s) (fun r => r.In enc cend s.cpos) := by
  obtain ⟨-, h2, h3⟩ := h
  unfold cmdPredict
  refine Safe.bind (checkOob_safe (by omega) h2 (by omega)) fun _ h4 => ?_
  refine Safe.bind (rd_safe (by omega)) fun f _ => ?_
  dsimp only
  by_cases hw : f.toNat % 4 + 1 = 3
  · rw [if_pos hw]; exact Safe.fail
  rw [if_neg hw]
  have hw4 : f.toNat % 4 + 1 = 1 ∨ f.toNat % 4 + 1 = 2 ∨ f.toNat % 4 + 1 = 4 := by omega
  generalize f.toNat % 4 + 1 = w at *
  by_cases ho : f.toNat / 4 % 4 = 3
  · rw [if_pos ho]; exact Safe.fail
  rw [if_neg ho]
  have hst : Safe (decStride enc cend f.toNat w (s.cpos + 1)) (fun v => w ≤ v.1 ∧ s.cpos + 1 ≤ v.2 ∧ v.2 ≤ cend) := by
    unfold decStride
    split
    · refine Safe.bind (varIntAt_safe enc cend _ hc) fun v hv => ?_
      split
      · exact Safe.fail
      · exact Safe.ok ⟨by omega, by omega, hv.2.1⟩
    · exact Safe.ok ⟨Nat.le_refl _, Nat.le_refl _, by dsimp only; omega⟩
  refine Safe.bind hst fun st hst => ?_
  split
  · exact Safe.fail
  rename_i hlen
  refine Safe.bind (varIntAt_safe enc cend st.2 hc) fun v hv => ?_
  refine Safe.bind (checkOob_safe hn h3 hv.2.2) fun _ h5 => ?_
  refine Safe.bind (slice_safe h5) fun d hd => ?_
  have hsh : Safe (unshuf d w) (fun r => r.length = d.length) := by
    unfold unshuf
    split
    · exact shuffle_safe d w (by omega)
    · exact Safe.ok rfl
  refine Safe.bind hsh fun r hr => ?_
  obtain ⟨q, hq, -⟩ := decPred_ok s.res.length st.1 w (f.toNat / 4 % 4) hw4 hst.1 (by omega) r 0 s.res (by omega)
  rw [hq]
  exact ⟨by dsimp only; omega, hv.2.1, h5⟩

theorem command_safe (enc : Bytes) (cend c : Nat) (s : St) (hn : enc.length < 2 ^ 64) (hc : cend ≤ enc.length) (h : s.In enc cend s.cpos) :
    Safe (command enc cend c s) (fun r => r.In enc cend s.cpos) := by
  have hshuf : ∀ w, 0 < w → Safe (cmdShuffle enc cend w s) (fun r => r.In enc cend s.cpos) := by
    intro w hw
    unfold cmdShuffle
    refine Safe.bind (varIntAt_safe enc cend s.cpos hc) fun v hv => ?_
    refine Safe.bind (checkOob_safe hn h.2.2 hv.2.2) fun _ h5 => ?_
    refine Safe.bind (slice_safe h5) fun d hd => ?_
    refine Safe.bind (shuffle_safe d w hw) fun r hr => ?_
    exact Safe.ok ⟨by dsimp only; omega, hv.2.1, h5⟩
  unfold command
  split
  · unfold cmdInsert
    refine Safe.bind (varIntAt_safe enc cend s.cpos hc) fun v hv => ?_
    refine Safe.bind (checkOob_safe hn h.2.2 hv.2.2) fun _ h5 => ?_
    refine Safe.bind (slice_safe h5) fun d hd => ?_
    exact Safe.ok ⟨by dsimp only; omega, hv.2.1, h5⟩
  split
  · exact hshuf 2 (by omega)
  split
  · exact hshuf 4 (by omega)
  split
  · exact cmdPredict_safe enc cend s hn hc h
  split
  · unfold cmdXyz
    refine Safe.bind (checkOob_safe hn h.2.2 (by omega)) fun _ h5 => ?_
    refine Safe.bind (slice_safe h5) fun d hd => ?_
    exact Safe.ok ⟨Nat.le_refl _, h.2.1, h5⟩
  split
  · rw [List.getElem?_eq_getElem (show c - 16 < typeStrings.length by
      have : typeStrings.length = 8 := rfl
      omega)]
    exact Safe.ok ⟨Nat.le_refl _, h.2.1, h.2.2⟩
  · exact Safe.fail

theorem decMain_safe (enc : Bytes) (cend osize : Nat) (hn : enc.length < 2 ^ 64) (hc : cend ≤ enc.length) :
    ∀ (fuel : Nat) (s : St), cend < fuel + s.cpos → s.In enc cend s.cpos →
      Safe (decMain enc cend osize fuel s) (fun r => r.res.length ≤ osize)
  | 0, s, hf, h => absurd h.2.1 (by omega)
  | fuel + 1, s, hf, h => by
    rw [decMain]
    split
    · exact Safe.fail
    split
    · exact Safe.fail
    split
    · rename_i h1 _ _; exact Safe.ok (by omega)
    obtain ⟨h1, h2, h3⟩ := h
    refine Safe.bind (rd_safe (by omega)) fun c _ => ?_
    refine Safe.bind (command_safe enc cend c.toNat _ hn hc ⟨Nat.le_refl _, by dsimp only; omega, h3⟩) fun r hr => ?_
    obtain ⟨r1, r2, r3⟩ := hr
    dsimp only at r1
    exact decMain_safe enc cend osize hn hc fuel r (by omega) ⟨Nat.le_refl _, r2, r3⟩

theorem decTags_safe (enc : Bytes) (cend osize : Nat) (s : St) (hn : enc.length < 2 ^ 64) (hc : cend ≤ enc.length) (hp : s.pos ≤ enc.length) :
    Safe (decTags enc cend osize s) (fun r => r.In enc cend r.cpos) := by
  unfold decTags
  split
  · exact Safe.fail
  refine Safe.bind (varIntAt_safe enc cend s.cpos hc) fun v hv => ?_
  split
  · exact Safe.ok ⟨Nat.le_refl _, hv.2.1, hp⟩
  refine Safe.bind (check32_safe _) fun _ _ => ?_
  exact (decTagLoop_safe enc cend osize hn hc (enc.length + 1) ⟨v.2, s.pos, s.res ++ put32 (v.1 - 1)⟩ (128 + (v.1 - 1) * 12) 0
    (by dsimp only; omega) ⟨Nat.le_refl _, hv.2.1, hp⟩).mono fun r hr => ⟨Nat.le_refl _, hr.2⟩

/-- The decoder has no undefined behaviour, ends, and yields as many bytes as the size it announces. -/
theorem unpredictIcc_safe (enc : Bytes) (hn : enc.length < 2 ^ 64) :
    Safe (unpredictIcc enc) (fun r => r.length < 2 ^ 32 ∧ ∃ p, varIntAt enc enc.length 0 = .ok (r.length, p)) := by
  unfold unpredictIcc
  cases ho : varIntAt enc enc.length 0 with
  | ub => have := varIntAt_safe enc enc.length 0 (Nat.le_refl _); rw [ho] at this; exact this.elim
  | fail => trivial
  | ok o =>
  have ho' := (varIntAt_safe enc enc.length 0 (Nat.le_refl _)).of_ok ho
  rw [bind_ok]
  refine Safe.bind (check32_safe _) fun _ h32 => ?_
  rw [Nat.mod_eq_of_lt ho'.2.2] at h32
  refine Safe.bind (varIntAt_safe enc enc.length o.2 (Nat.le_refl _)) fun c hc => ?_
  refine Safe.bind (check32_safe _) fun _ _ => ?_
  refine Safe.bind (checkOob_safe hn hc.2.1 hc.2.2) fun _ hcend => ?_
  dsimp only
  refine Safe.bind (decHeader_safe enc o.1 128 0 _ _ [] rfl (initHeader_length _) rfl hcend) fun h hh => ?_
  split
  · split
    · exact Safe.fail
    split
    · exact Safe.fail
    rename_i h1 _ _
    have := hh.2.2 h1
    exact Safe.ok ⟨by rw [this]; exact h32, o.2, by rw [this]⟩
  refine Safe.bind (decTags_safe enc _ o.1 _ hn hcend hh.1) fun s hs => ?_
  refine Safe.bind (decMain_safe enc _ o.1 hn hcend _ s (by omega) hs) fun r hr => ?_
  split
  · exact Safe.fail
  split
  · exact Safe.fail
  rename_i hlen
  have hlen : r.res.length = o.1 := by omega
  exact Safe.ok ⟨by rw [hlen]; exact h32, o.2, by rw [hlen]⟩

end Jxl.Icc
