import Verif.Lemmas.JpegParseBits
/-!
# Reading scans of arbitrary bytes

Nothing is assumed about the bytes: the parser must not load outside the input, nor outside its tables.
-/
namespace Jxl.Jpeg

/-- Defined, and with the property if accepted. -/
def Ok (x : Option (Option α)) (P : α → Prop) : Prop :=
  match x with
  | none => False
  | some none => True
  | some (some a) => P a

theorem Ok.andThen {x : Option (Option α)} {f : α → Option (Option β)} {P : α → Prop} {Q : β → Prop} (h : Ok x P)
    (hf : ∀ a, P a → Ok (f a) Q) : Ok (andThen x f) Q := by
  unfold Jpeg.andThen
  match x, h with
  | some none, _ => exact trivial
  | some (some a), h => exact hf a h

theorem Ok.always {x : Option α} {P : α → Prop} (h : ∃ a, x = some a ∧ P a) : Ok (always x) P := by
  obtain ⟨a, rfl, h⟩ := h
  exact h

theorem Ok.ok {a : α} {P : α → Prop} (h : P a) : Ok (some (some a)) P := h
theorem Ok.no {P : α → Prop} : Ok (some none) P := trivial

theorem Ok.ite {c : Prop} [Decidable c] {x y : Option (Option α)} {P : α → Prop} (h1 : c → Ok x P) (h2 : ¬ c → Ok y P) :
    Ok (if c then x else y) P := by
  by_cases h : c
  · rw [if_pos h]; exact h1 h
  · rw [if_neg h]; exact h2 h

theorem Ok.mono {x : Option (Option α)} {P Q : α → Prop} (h : Ok x P) (hq : ∀ a, P a → Q a) : Ok x Q := by
  match x, h with
  | some none, _ => exact trivial
  | some (some a), h => exact hq a h

theorem Ok.get {x : Option (Option α)} {P : α → Prop} (h : Ok x P) {a : α} (e : x = some (some a)) : P a := by
  rw [e] at h; exact h

theorem Ok.defined {x : Option (Option α)} {P : α → Prop} (h : Ok x P) : x ≠ none := by
  intro e; rw [e] at h; exact h

/-! ## Bytes -/

/-- The zero after a byte 255, as far as giving back bytes is concerned. -/
def Stuffed (d : List Nat) (base m j : Nat) : Prop := base < j ∧ j < m ∧ d[j]? = some 0 ∧ d[j - 1]? = some 255

instance (d base m j) : Decidable (Stuffed d base m j) := by unfold Stuffed; exact inferInstance

/-- Bytes that can be given back among the first `n` from `base`. -/
def backs (d : List Nat) (base m : Nat) : Nat → Nat
  | 0 => 0
  | n + 1 => backs d base m n + if Stuffed d base m (base + n) then 0 else 1

theorem backs_mono {d : List Nat} {base m m' : Nat} (h : m' ≤ m) : ∀ n, backs d base m n ≤ backs d base m' n := by
  intro n
  induction n with
  | zero => exact Nat.le_refl _
  | succ n ih =>
    rw [backs, backs]
    by_cases hs : Stuffed d base m' (base + n)
    · have : Stuffed d base m (base + n) := ⟨hs.1, by have := hs.2.1; omega, hs.2.2⟩
      rw [if_pos hs, if_pos this]; omega
    · rw [if_neg hs]; split <;> omega

/-- A reader that started at `base`. -/
structure Live (d : List Nat) (base : Nat) (r : Reader) : Prop where
  start : 1 ≤ base
  len : 2 ≤ d.length
  mark : r.marker ≤ d.length - 2
  pos : base ≤ r.pos
  clean : r.pos < r.marker → ¬ Stuffed d base r.marker r.pos
  left : r.left ≤ 8 * backs d base r.marker (r.pos - base)
  bits : r.left ≤ 64

theorem Live.less {d base r} (h : Live d base r) {n : Nat} (hn : n ≤ r.left) : Live d base { r with left := n } :=
  ⟨h.start, h.len, h.mark, h.pos, h.clean, Nat.le_trans hn h.left, Nat.le_trans hn h.bits⟩

theorem live_next {d base r} (h : Live d base r) (hl : r.left ≤ 56) :
    ∃ c r', getNextByte d r = some (c, r') ∧ r'.left = r.left ∧ ∀ v, Live d base { r' with val := v, left := r.left + 8 } := by
  have hm := h.mark
  have hp := h.pos
  have hlen := h.len
  have hle := h.left
  unfold getNextByte
  have e1 : r.pos + 1 - base = (r.pos - base) + 1 := by omega
  have eb : base + (r.pos - base) = r.pos := by omega
  by_cases hpm : r.pos ≥ r.marker
  · rw [if_pos hpm]
    refine ⟨_, _, rfl, rfl, fun v => ⟨h.start, hlen, hm, by show base ≤ r.pos + 1; omega, ?_, ?_, by show r.left + 8 ≤ 64; omega⟩⟩
    · intro hh; simp only at hh; omega
    · simp only
      rw [e1, backs, eb, if_neg (fun hs => by have := hs.2.1; omega)]
      omega
  · rw [if_neg hpm]
    have hlt : r.pos < d.length := by omega
    have hcl := h.clean (by omega)
    rw [List.getElem?_eq_getElem hlt]
    simp only
    by_cases hc : d[r.pos] = 255
    · rw [if_pos hc]
      have hlt1 : r.pos + 1 < d.length := by omega
      rw [List.getElem?_eq_getElem hlt1]
      simp only
      by_cases he : d[r.pos + 1] = 0
      · rw [if_pos he]
        refine ⟨_, _, rfl, rfl, fun v => ⟨h.start, hlen, hm, by show base ≤ r.pos + 2; omega, ?_, ?_, by show r.left + 8 ≤ 64; omega⟩⟩
        · intro _ hs
          have := hs.2.2.2
          simp only at this
          rw [show r.pos + 2 - 1 = r.pos + 1 by omega, List.getElem?_eq_getElem hlt1, he] at this
          cases this
        · simp only
          have e2 : r.pos + 2 - base = (r.pos - base) + 1 + 1 := by omega
          rw [e2, backs, backs, eb, if_neg hcl]
          omega
      · rw [if_neg he]
        refine ⟨_, _, rfl, rfl, fun v => ⟨h.start, hlen, by show r.pos ≤ _; omega, by show base ≤ r.pos + 1; omega, ?_, ?_, by show r.left + 8 ≤ 64; omega⟩⟩
        · intro hh; simp only at hh; omega
        · simp only
          have hmono := backs_mono (d := d) (base := base) (m := r.marker) (m' := r.pos) (by omega) (r.pos - base)
          rw [e1, backs, eb, if_neg (fun hs => by have := hs.2.1; omega)]
          omega
    · rw [if_neg hc]
      refine ⟨_, _, rfl, rfl, fun v => ⟨h.start, hlen, hm, by show base ≤ r.pos + 1; omega, ?_, ?_, by show r.left + 8 ≤ 64; omega⟩⟩
      · intro _ hs
        have := hs.2.2.2
        simp only at this
        rw [show r.pos + 1 - 1 = r.pos by omega, List.getElem?_eq_getElem hlt] at this
        injection this with this
        exact hc this
      · simp only
        rw [e1, backs, eb, if_neg hcl]
        omega

theorem live_fillLoop {d base} : ∀ (k : Nat) (r : Reader), Live d base r → 56 < r.left + 8 * k →
    ∃ r', fillLoop d k r = some r' ∧ Live d base r' ∧ 56 < r'.left := by
  intro k
  induction k with
  | zero =>
    intro r h hk
    exact ⟨r, by rw [fillLoop, if_neg (by omega)], h, by omega⟩
  | succ k ih =>
    intro r h hk
    rw [fillLoop]
    by_cases hl : r.left ≤ 56
    · rw [if_pos hl]
      obtain ⟨c, r', e1, e2, e3⟩ := live_next h hl
      rw [e1]
      simp only [Option.bind_some]
      rw [e2]
      exact ih _ (e3 _) (by show 56 < r.left + 8 + 8 * k; omega)
    · rw [if_neg hl]
      exact ⟨r, rfl, h, by omega⟩

theorem live_fill {d base r} (h : Live d base r) : ∃ r', fill d r = some r' ∧ Live d base r' ∧ 16 < r'.left := by
  unfold fill
  by_cases hl : r.left ≤ 16
  · rw [if_pos hl]
    obtain ⟨r', e, h1, h2⟩ := live_fillLoop 8 r h (by omega)
    exact ⟨r', e, h1, by omega⟩
  · rw [if_neg hl]
    exact ⟨r, rfl, h, by omega⟩

theorem live_reset {d : List Nat} {base : Nat} (h1 : 1 ≤ base) (h2 : 2 ≤ d.length) :
    ∃ r, Reader.reset d base = some r ∧ Live d base r := by
  unfold Reader.reset
  rw [if_neg (by omega)]
  have h0 : Live d base { pos := base, val := 0, left := 0, marker := d.length - 2 } :=
    ⟨h1, h2, Nat.le_refl _, Nat.le_refl _, fun _ hs => by have := hs.1; simp only at this; omega, Nat.zero_le _, Nat.zero_le _⟩
  obtain ⟨r, e, k, _⟩ := live_fill h0
  exact ⟨r, e, k⟩

theorem live_bits {d base r} (h : Live d base r) {n : Nat} (hn : n ≤ 16) :
    ∃ x, readBits d r n = some x ∧ x.1 < 2 ^ n ∧ Live d base x.2 := by
  unfold readBits
  obtain ⟨r1, e, h1, h2⟩ := live_fill h
  rw [e]
  simp only [Option.bind_some]
  rw [if_neg (by omega)]
  refine ⟨_, rfl, ?_, h1.less (by omega)⟩
  simp only
  rw [Nat.and_two_pow_sub_one_eq_mod]
  exact Nat.mod_lt _ (Nat.two_pow_pos _)

/-- A lookup table no word leads out of. -/
def LutSafe (t : List LutEntry) : Prop := ∀ w, w < 65536 → ∃ x, lookup t w = some x

theorem peek_lt (r : Reader) (n : Nat) : peek r n < 2 ^ n := by
  unfold peek
  rw [Nat.and_two_pow_sub_one_eq_mod]
  exact Nat.mod_lt _ (Nat.two_pow_pos _)

theorem live_symbol {d base r t} (h : Live d base r) (ht : LutSafe t) :
    ∃ x, readSymbol d t r = some x ∧ Live d base x.2 := by
  unfold readSymbol
  obtain ⟨r1, e, h1, h2⟩ := live_fill h
  rw [e]
  simp only [Option.bind_some]
  have hi := peek_lt r1 8
  generalize peek r1 8 = i at hi
  have h256 : (2 : Nat) ^ 8 = 256 := rfl
  rw [h256] at hi
  obtain ⟨x0, e0⟩ := ht (i * 256) (by omega)
  unfold lookup at e0
  rw [show i * 256 / 256 = i by omega] at e0
  cases hte : t[i]? with
  | none => rw [hte] at e0; cases e0
  | some en =>
    rw [hte] at e0
    simp only [Option.bind_some] at e0 ⊢
    by_cases hb : en.bits > 16
    · rw [if_pos hb] at e0; cases e0
    · by_cases hb8 : en.bits > 8
      · rw [if_pos hb8]
        have hk := peek_lt { r1 with left := r1.left - 8 } (en.bits - 8)
        generalize peek { r1 with left := r1.left - 8 } (en.bits - 8) = k at hk
        have hpw : 2 ^ (en.bits - 8) * 2 ^ (16 - en.bits) = 256 := by
          rw [← Nat.pow_add, show en.bits - 8 + (16 - en.bits) = 8 by omega]
        have hpp := Nat.two_pow_pos (16 - en.bits)
        have hkm : k * 2 ^ (16 - en.bits) < 256 := by
          rw [← hpw]; exact Nat.mul_lt_mul_of_pos_right hk hpp
        obtain ⟨x1, e1⟩ := ht (i * 256 + k * 2 ^ (16 - en.bits)) (by omega)
        unfold lookup at e1
        rw [show (i * 256 + k * 2 ^ (16 - en.bits)) / 256 = i by omega,
          show (i * 256 + k * 2 ^ (16 - en.bits)) % 256 = k * 2 ^ (16 - en.bits) by omega, hte] at e1
        simp only [Option.bind_some] at e1
        rw [if_neg hb, if_pos hb8, Nat.mul_div_cancel _ hpp] at e1
        cases hte2 : t[i + en.value + k]? with
        | none => rw [hte2] at e1; cases e1
        | some e2 =>
          simp only [Option.bind_some]
          exact ⟨_, rfl, h1.less (Nat.le_trans (Nat.sub_le _ _) (Nat.sub_le _ _))⟩
      · rw [if_neg hb8]
        exact ⟨_, rfl, h1.less (Nat.sub_le _ _)⟩

theorem lutSafe_slot {x : Table} (h : InSlot x) : LutSafe x.2 := by
  rcases h with h | h
  · intro w hw
    obtain ⟨l, v, e, _⟩ := (fromFile_spec h).2.total w hw
    exact ⟨_, e⟩
  · intro w hw
    rw [h]
    unfold lookup
    simp only
    rw [List.getElem?_replicate, if_pos (by omega)]
    exact ⟨(0, 65535), rfl⟩

/-! ## Giving back bytes -/

theorem live_unread {d : List Nat} {base m : Nat} (hb : 1 ≤ base) (hm : m ≤ d.length) : ∀ (k p : Nat), base ≤ p →
    k ≤ backs d base m (p - base) →
    ∃ p', unread d m k p = some p' ∧ base ≤ p' + 1 ∧ (d[base - 1]? ≠ some 255 → base ≤ p') := by
  intro k
  induction k with
  | zero => intro p hp _; exact ⟨p, rfl, by omega, fun _ => hp⟩
  | succ k ih =>
    intro p hp hk
    have hpb : base < p := by
      rcases Nat.lt_or_ge base p with h | h
      · exact h
      · rw [show p - base = 0 by omega, backs] at hk; omega
    obtain ⟨q, rfl⟩ : ∃ q, p = q + 1 := ⟨p - 1, by omega⟩
    have e1 : q + 1 - base = (q - base) + 1 := by omega
    rw [e1, backs, show base + (q - base) = q by omega] at hk
    rw [unread]
    unfold unreadByte
    rw [if_neg (by omega)]
    simp only [Nat.add_sub_cancel]
    have plain : ¬ Stuffed d base m q → ∃ p', unread d m k q = some p' ∧ base ≤ p' + 1 ∧ (d[base - 1]? ≠ some 255 → base ≤ p') := by
      intro hs
      rw [if_neg hs] at hk
      exact ih q (by omega) (by omega)
    by_cases hq : q < m
    · rw [if_pos hq, List.getElem?_eq_getElem (by omega)]
      simp only
      by_cases hz : d[q] = 0
      · rw [if_pos hz, if_neg (by omega), List.getElem?_eq_getElem (by omega)]
        simp only
        by_cases hc : d[q - 1] = 255
        · rw [if_pos hc]
          simp only [Option.bind_some]
          by_cases hqb : base < q
          · have hs : Stuffed d base m q := ⟨hqb, hq, by rw [List.getElem?_eq_getElem (by omega), hz], by rw [List.getElem?_eq_getElem (by omega), hc]⟩
            rw [if_pos hs] at hk
            have e2 : q - base = (q - 1 - base) + 1 := by omega
            rw [e2, backs, show base + (q - 1 - base) = q - 1 by omega] at hk
            have : (if Stuffed d base m (q - 1) then 0 else 1) ≤ 1 := by split <;> omega
            exact ih (q - 1) (by omega) (by omega)
          · have hqe : q = base := by omega
            subst hqe
            rw [Nat.sub_self, backs] at hk
            have : (if Stuffed d q m q then 0 else 1) ≤ 1 := by split <;> omega
            have hk0 : k = 0 := by omega
            subst hk0
            refine ⟨q - 1, rfl, by omega, fun hn => ?_⟩
            rw [List.getElem?_eq_getElem (by omega), hc] at hn
            exact absurd rfl hn
        · rw [if_neg hc]
          simp only [Option.bind_some]
          apply plain
          intro hs
          have := hs.2.2.2
          rw [List.getElem?_eq_getElem (by omega)] at this
          injection this with this
          exact hc this
      · rw [if_neg hz]
        simp only [Option.bind_some]
        apply plain
        intro hs
        have := hs.2.2.1
        rw [List.getElem?_eq_getElem (by omega)] at this
        injection this with this
        exact hz this
    · rw [if_neg hq]
      simp only [Option.bind_some]
      exact plain fun hs => hq hs.2.1

/-- A reader of a scan that began at `lo`. -/
def Alive (d : List Nat) (lo : Nat) (r : Reader) : Prop :=
  ∃ base, lo ≤ base ∧ (base = lo ∨ d[base - 1]? ≠ some 255) ∧ Live d base r

theorem alive_finish {d lo r} (h : Alive d lo r) :
    Ok (finishStream d r) fun f => lo ≤ f.2 + 1 ∧ (d[lo - 1]? ≠ some 255 → lo ≤ f.2) ∧ f.2 + 2 ≤ d.length := by
  obtain ⟨base, h1, h2, h3⟩ := h
  unfold finishStream
  have hm := h3.mark
  have hlen := h3.len
  have hleft := h3.left
  obtain ⟨p', e, k1, k2⟩ := live_unread (d := d) (m := r.marker) h3.start (by omega) (r.left >>> 3) r.pos h3.pos
    (by rw [Nat.shiftRight_eq_div_pow]; omega)
  simp only
  rw [e]
  simp only [Option.bind_some]
  refine Ok.ite (fun _ => Ok.no) fun hp => Ok.ok ⟨?_, fun hc => ?_, ?_⟩
  · show lo ≤ p' + 1; omega
  · show lo ≤ p'
    rcases h2 with rfl | h2
    · exact k2 hc
    · have := k2 h2; omega
  · show p' + 2 ≤ d.length; omega

theorem alive_bits {d lo r} (h : Alive d lo r) {n : Nat} (hn : n ≤ 16) :
    ∃ x, readBits d r n = some x ∧ x.1 < 2 ^ n ∧ Alive d lo x.2 := by
  obtain ⟨base, h1, h2, h3⟩ := h
  obtain ⟨x, e, k1, k2⟩ := live_bits h3 hn
  exact ⟨x, e, k1, base, h1, h2, k2⟩

theorem alive_symbol {d lo r t} (h : Alive d lo r) (ht : LutSafe t) : ∃ x, readSymbol d t r = some x ∧ Alive d lo x.2 := by
  obtain ⟨base, h1, h2, h3⟩ := h
  obtain ⟨x, e, k2⟩ := live_symbol h3 ht
  exact ⟨x, e, base, h1, h2, k2⟩

/-! ## Blocks -/

theorem safe_dc {d lo t al last r} (h : Alive d lo r) (ht : LutSafe t) :
    Ok (parseDc d t al last r) fun x => Alive d lo x.2 := by
  unfold parseDc
  refine Ok.andThen (Ok.always (alive_symbol h ht)) fun p hp => ?_
  refine Ok.ite (fun _ => Ok.no) fun h12 => ?_
  refine Ok.andThen (P := fun q => Alive d lo q.2) ?_ fun q hq => ?_
  · refine Ok.ite (fun _ => ?_) fun _ => Ok.ok hp
    obtain ⟨x, e, _, k⟩ := alive_bits hp (n := p.1) (by omega)
    rw [e]
    exact k
  · exact Ok.ite (fun _ => Ok.no) fun _ => Ok.ok hq

theorem safe_eob {d lo allowed first run} {s : AcState} (h : Alive d lo s.r) (hr : run ≤ 15) :
    Ok (parseEob d allowed first run s) fun s' => Alive d lo s'.r := by
  unfold parseEob
  simp only
  refine Ok.ite (fun _ => ?_) fun _ => Ok.ok h
  refine Ok.ite (fun _ => ?_) fun _ => Ok.no
  obtain ⟨x, e, _, k⟩ := alive_bits h (n := run) (by omega)
  rw [e]
  exact k

theorem safe_ac {d lo t al allowed} (ht : LutSafe t) : ∀ (n : Nat) (first : Bool) (cs : List Int) (s : AcState),
    Alive d lo s.r → cs.length ≤ n → Ok (parseAc d t al allowed n first cs s) fun x => Alive d lo x.2.r ∧ x.1.length = cs.length := by
  intro n
  induction n with
  | zero =>
    intro first cs s h hn
    have hc : cs = [] := List.length_eq_zero_iff.mp (by omega)
    rw [parseAc, if_pos hc, hc]
    exact ⟨h, rfl⟩
  | succ n ih =>
    intro first cs s h hn
    rw [parseAc]
    refine Ok.ite (fun hc => by rw [hc]; exact ⟨h, rfl⟩) fun hne => ?_
    have hpos : 0 < cs.length := List.length_pos_iff.mpr hne
    refine Ok.andThen (Ok.always (alive_symbol h ht)) fun p hp => ?_
    refine Ok.ite (fun _ => Ok.no) fun h256 => ?_
    refine Ok.ite (fun hb => ?_) fun _ => ?_
    · refine Ok.ite (fun _ => Ok.no) fun hrun => Ok.ite (fun _ => Ok.no) fun _ => ?_
      obtain ⟨x, e, _, k⟩ := alive_bits hp (n := p.1 % 16) (by omega)
      refine Ok.andThen (Ok.always (P := fun x => Alive d lo x.2) ⟨x, e, k⟩) fun q hq => ?_
      refine Ok.andThen (ih _ _ _ hq (by rw [List.length_drop]; omega)) fun z hz => ⟨hz.1, ?_⟩
      have := hz.2
      rw [List.length_drop] at this
      simp only [List.length_append, List.length_cons, List.length_take]
      omega
    · refine Ok.ite (fun _ => ?_) fun _ => ?_
      · refine Ok.andThen (ih _ _ _ hp (by rw [List.length_drop]; omega)) fun z hz => ⟨hz.1, ?_⟩
        have := hz.2
        rw [List.length_drop] at this
        simp only [List.length_append, List.length_take]
        omega
      · exact Ok.andThen (safe_eob (s := { s with r := p.2 }) hp (by omega)) fun z hz => ⟨hz, rfl⟩

theorem safe_band {d lo t al allowed cs eob r} (ht : LutSafe t) (h : Alive d lo r) (hn : cs.length ≤ 64) :
    Ok (parseBand d t al allowed cs eob r) fun x => Alive d lo x.2.r ∧ x.1.length = cs.length := by
  unfold parseBand
  refine Ok.ite (fun _ => ⟨h, rfl⟩) fun _ => ?_
  exact Ok.andThen (safe_ac ht 64 true cs _ h hn) fun z hz => Ok.ok hz

theorem safe_skip {d lo al} : ∀ (cs : List Int) (run : Nat) (r : Reader), Alive d lo r →
    ∃ x, refSkip d al cs run r = some x ∧ x.1.length + x.2.1.length = cs.length ∧ Alive d lo x.2.2 := by
  intro cs
  induction cs with
  | nil => intro run r h; exact ⟨_, rfl, rfl, h⟩
  | cons c cs ih =>
    intro run r h
    rw [refSkip]
    by_cases hc : c ≠ 0
    · rw [if_pos hc]
      obtain ⟨x, e, _, k⟩ := alive_bits h (n := 1) (by omega)
      obtain ⟨y, e2, k1, k2⟩ := ih run x.2 k
      rw [e]
      simp only [Option.bind_some]
      rw [e2]
      exact ⟨_, rfl, by simp only [List.length_cons]; omega, k2⟩
    · rw [if_neg hc]
      by_cases hr : run = 0
      · rw [if_pos hr]; exact ⟨_, rfl, by simp, h⟩
      · rw [if_neg hr]
        obtain ⟨y, e2, k1, k2⟩ := ih (run - 1) r h
        rw [e2]
        exact ⟨_, rfl, by simp only [List.length_cons]; omega, k2⟩

theorem safe_rest {d lo al} : ∀ (cs : List Int) (r : Reader), Alive d lo r →
    ∃ x, refRest d al cs r = some x ∧ Alive d lo x.2 ∧ x.1.length = cs.length := by
  intro cs
  induction cs with
  | nil => intro r h; exact ⟨_, rfl, h, rfl⟩
  | cons c cs ih =>
    intro r h
    rw [refRest]
    by_cases hc : c ≠ 0
    · rw [if_pos hc]
      obtain ⟨x, e, _, k⟩ := alive_bits h (n := 1) (by omega)
      obtain ⟨y, e2, k2, k3⟩ := ih x.2 k
      rw [e]
      simp only [Option.bind_some]
      rw [e2]
      exact ⟨_, rfl, k2, by simp only [List.length_cons]; omega⟩
    · rw [if_neg hc]
      obtain ⟨y, e2, k2, k3⟩ := ih r h
      rw [e2]
      exact ⟨_, rfl, k2, by simp only [List.length_cons]; omega⟩

theorem safe_loop {d lo t al allowed} (ht : LutSafe t) : ∀ (n : Nat) (first zero : Bool) (cs : List Int) (s : AcState),
    Alive d lo s.r → cs.length ≤ n → Ok (refLoop d t al allowed n first zero cs s) fun x => Alive d lo x.2.2.r ∧ x.1.length + x.2.1.length = cs.length := by
  intro n
  induction n with
  | zero =>
    intro first zero cs s h hn
    have hc : cs = [] := List.length_eq_zero_iff.mp (by omega)
    rw [refLoop, if_pos hc, hc]
    exact Ok.ite (fun _ => Ok.no) fun _ => ⟨h, rfl⟩
  | succ n ih =>
    intro first zero cs s h hn
    rw [refLoop]
    refine Ok.ite (fun hc => by rw [hc]; exact Ok.ite (fun _ => Ok.no) fun _ => ⟨h, rfl⟩) fun hne => ?_
    have hpos : 0 < cs.length := List.length_pos_iff.mpr hne
    refine Ok.andThen (Ok.always (alive_symbol h ht)) fun p hp => ?_
    refine Ok.ite (fun _ => Ok.no) fun h256 => ?_
    refine Ok.ite (fun hb => ?_) fun _ => ?_
    · refine Ok.ite (fun _ => Ok.no) fun _ => ?_
      obtain ⟨x, e, _, k⟩ := alive_bits hp (n := 1) (by omega)
      refine Ok.andThen (Ok.always (P := fun x => Alive d lo x.2) ⟨x, e, k⟩) fun q hq => ?_
      obtain ⟨y, e2, k1, k2⟩ := safe_skip (al := al) cs (p.1 / 16) q.2 hq
      refine Ok.andThen (Ok.always (P := fun y => y.1.length + y.2.1.length = cs.length ∧ Alive d lo y.2.2) ⟨y, e2, k1, k2⟩) fun y hy => ?_
      match hyl : y.2.1 with
      | [] => exact Ok.no
      | _ :: rest =>
        have hl := hy.1
        rw [hyl] at hl
        simp only [List.length_cons] at hl
        refine Ok.andThen (ih _ _ _ _ hy.2 (by omega)) fun z hz => ⟨hz.1, ?_⟩
        have := hz.2
        simp only [List.length_append, List.length_cons]
        omega
    · refine Ok.ite (fun _ => ?_) fun _ => ?_
      · obtain ⟨y, e2, k1, k2⟩ := safe_skip (al := al) cs 15 p.2 hp
        refine Ok.andThen (Ok.always (P := fun y => y.1.length + y.2.1.length = cs.length ∧ Alive d lo y.2.2) ⟨y, e2, k1, k2⟩) fun y hy => ?_
        match hyl : y.2.1 with
        | [] =>
          have : ∀ s', refLoop d t al allowed n false true [] s' = some none := by
            intro s'
            cases n <;> rw [refLoop, if_pos rfl, if_pos rfl]
          rw [this]
          exact Ok.no
        | c :: rest =>
          have hl := hy.1
          rw [hyl] at hl
          simp only [List.length_cons] at hl
          refine Ok.andThen (ih _ _ _ _ hy.2 (by omega)) fun z hz => ⟨hz.1, ?_⟩
          have := hz.2
          simp only [List.length_append, List.length_cons]
          omega
      · refine Ok.andThen (safe_eob (s := { s with r := p.2 }) hp (by omega)) fun z hz => ?_
        exact Ok.ite (fun _ => Ok.no) fun _ => ⟨hz, by simp⟩

theorem safe_refEnd {d lo al done rest} {s : AcState} (h : Alive d lo s.r) :
    Ok (refEnd d al done rest s) fun x => Alive d lo x.2.r ∧ x.1.length = done.length + rest.length := by
  unfold refEnd
  refine Ok.ite (fun _ => ?_) fun _ => ⟨h, by simp⟩
  exact Ok.andThen (Ok.always (safe_rest rest s.r h)) fun z hz => ⟨hz.1, by simp [hz.2]⟩

theorem safe_refineBand {d lo t al allowed cs eob r} (ht : LutSafe t) (h : Alive d lo r) (hn : cs.length ≤ 64) :
    Ok (refineBand d t al allowed cs eob r) fun x => Alive d lo x.2.r ∧ x.1.length = cs.length := by
  unfold refineBand
  refine Ok.ite (fun _ => Ok.mono (safe_refEnd h) fun z hz => ⟨hz.1, by simpa using hz.2⟩) fun _ => ?_
  exact Ok.andThen (safe_loop ht 64 true false cs _ h hn) fun z hz => Ok.mono (safe_refEnd hz.1) fun w hw => ⟨hw.1, by rw [hw.2, hz.2]⟩

theorem safe_withBand {d lo ss se coeffs last eob r f} (hse : se ≤ 63) (hc : coeffs.length = 64) (h : Alive d lo r)
    (hf : ∀ cs : List Int, cs.length ≤ 64 → Ok (f cs eob r) fun x => Alive d lo x.2.r ∧ x.1.length = cs.length) :
    Ok (withBand ss se coeffs last eob r f) fun b => Alive d lo b.ac.r ∧ b.coeffs.length = 64 := by
  unfold withBand
  refine Ok.ite (fun _ => ⟨h, hc⟩) fun hb => ?_
  refine Ok.andThen (hf _ ?_) fun z hz => ⟨hz.1, ?_⟩
  · rw [List.length_drop, List.length_take]; omega
  · have := hz.2
    rw [List.length_drop, List.length_take] at this
    show (putBand (max 1 ss) se coeffs z.1).length = 64
    unfold putBand
    simp only [List.length_append, List.length_take, List.length_drop]
    omega

theorem safe_decode {d lo t0 t ss se al eob last coeffs r} (ht0 : LutSafe t0) (ht : LutSafe t) (hse : se ≤ 63)
    (hc : coeffs.length = 64) (h : Alive d lo r) : Ok (decodeBlock d t0 t ss se al eob last coeffs r) fun b => Alive d lo b.ac.r ∧ b.coeffs.length = 64 := by
  unfold decodeBlock
  refine Ok.ite (fun _ => ?_) fun _ => ?_
  · refine Ok.andThen (safe_dc h ht0) fun p hp => ?_
    exact safe_withBand hse (by rw [List.length_set]; exact hc) hp fun cs hn => safe_band ht hp hn
  · exact safe_withBand hse hc h fun cs hn => safe_band ht h hn

theorem safe_refine {d lo t ss se al eob last coeffs r} (ht : LutSafe t) (hse : se ≤ 63)
    (hc : coeffs.length = 64) (h : Alive d lo r) : Ok (refineBlock d t ss se al eob last coeffs r) fun b => Alive d lo b.ac.r ∧ b.coeffs.length = 64 := by
  unfold refineBlock
  refine Ok.ite (fun _ => ?_) fun _ => ?_
  · obtain ⟨x, e, _, k⟩ := alive_bits h (n := 1) (by omega)
    refine Ok.andThen (Ok.always (P := fun x => Alive d lo x.2) ⟨x, e, k⟩) fun p hp => ?_
    exact safe_withBand hse (by rw [List.length_set]; exact hc) hp fun cs hn => safe_refineBand ht hp hn
  · exact safe_withBand hse hc h fun cs hn => safe_refineBand ht h hn

theorem safe_block {m d lo t0 t eob last coeffs r} (ht0 : LutSafe t0) (ht : LutSafe t) (hse : m.se ≤ 63)
    (hc : coeffs.length = 64) (h : Alive d lo r) : Ok (parseBlock m d t0 t eob last coeffs r) fun b => Alive d lo b.ac.r ∧ b.coeffs.length = 64 := by
  cases m with
  | sequential => exact safe_decode ht0 ht (by omega) hc h
  | first ss se al => exact safe_decode ht0 ht hse hc h
  | refine ss se al => exact safe_refine ht hse hc h

/-! ## Scans -/

theorem safe_restart {d lo} {st : ParseState} (h : Alive d lo st.r) :
    Ok (parseRestart d st) fun st' => Alive d lo st'.r ∧ st'.store = st.store := by
  unfold parseRestart
  refine Ok.andThen (alive_finish h) fun f hf => ?_
  have hr : ∃ a, restartAt d f.2 st.next = some a ∧ (a = true → d[f.2 + 1]? = some (0xD0 + st.next % 8)) := by
    unfold restartAt
    rw [if_neg (by omega), List.getElem?_eq_getElem (by omega), List.getElem?_eq_getElem (by omega)]
    refine ⟨_, rfl, fun ha => ?_⟩
    simp only [Bool.and_eq_true, beq_iff_eq] at ha
    rw [ha.2]
  refine Ok.andThen (Ok.always hr) fun ok hok => ?_
  refine Ok.ite (fun hk => ?_) fun _ => Ok.no
  obtain ⟨r, e, k⟩ := live_reset (d := d) (base := f.2 + 2) (by omega) (by omega)
  have ha : Alive d lo r := by
    refine ⟨f.2 + 2, by omega, Or.inr ?_, k⟩
    rw [show f.2 + 2 - 1 = f.2 + 1 by omega, hok hk]
    intro hh
    injection hh with hh
    omega
  refine Ok.andThen (Ok.always ⟨r, e, ha⟩) fun r hr => ?_
  exact Ok.ite (fun _ => Ok.no) fun _ => ⟨hr, rfl⟩

theorem safe_units {m d lo} (hse : m.se ≤ 63) : ∀ (us : List ScanUnit) (st : ParseState),
    (∀ u ∈ us, TablesOk u) → Alive d lo st.r → (∀ c i, (st.store c i).length = 64) →
    Ok (parseUnits m d us st) fun st' => Alive d lo st'.r ∧ ∀ c i, (st'.store c i).length = 64 := by
  intro us
  induction us with
  | nil => intro st _ h hl; exact ⟨h, hl⟩
  | cons u us ih =>
    intro st ht h hl
    rw [parseUnits]
    refine Ok.andThen (P := fun st' => Alive d lo st'.r ∧ ∀ c i, (st'.store c i).length = 64) ?_
      fun st' h' => ih st' (fun u hu => ht u (List.mem_cons_of_mem _ hu)) h'.1 h'.2
    cases u with
    | restart => exact Ok.mono (safe_restart h) fun st' h' => ⟨h'.1, by rw [h'.2]; exact hl⟩
    | block comp idx dc ac =>
      have := ht _ (List.mem_cons_self ..)
      refine Ok.andThen (safe_block (lutSafe_slot this.1) (lutSafe_slot this.2) hse (hl comp idx) h) fun b hb => ⟨hb.1, fun c i => ?_⟩
      show (st.store.put comp idx b.coeffs c i).length = 64
      unfold Store.put
      split
      · exact hb.2
      · exact hl c i

/-- A scan of arbitrary bytes: nothing undefined, and the position afterwards. -/
theorem safe_scan {m d us store lo} (h0 : 1 ≤ lo) (hd : 2 ≤ d.length) (hse : m.se ≤ 63) (ht : ∀ u ∈ us, TablesOk u)
    (hl : ∀ c i, (store c i).length = 64) :
    Ok (parseScan m d us store lo) fun o => lo ≤ o.pos + 1 ∧ (d[lo - 1]? ≠ some 255 → lo ≤ o.pos) ∧ o.pos + 2 ≤ d.length ∧
      ∀ c i, (o.store c i).length = 64 := by
  unfold parseScan
  obtain ⟨r, e, k⟩ := live_reset h0 hd
  refine Ok.andThen (Ok.always (P := fun r => Alive d lo r) ⟨r, e, lo, Nat.le_refl _, Or.inl rfl, k⟩) fun r hr => ?_
  refine Ok.andThen (safe_units hse us _ ht hr hl) fun st hst => ?_
  refine Ok.ite (fun _ => Ok.no) fun _ => ?_
  refine Ok.andThen (alive_finish hst.1) fun f hf => ?_
  exact Ok.ite (fun _ => Ok.no) fun _ => ⟨hf.1, hf.2.1, hf.2.2, hst.2⟩

end Jxl.Jpeg
