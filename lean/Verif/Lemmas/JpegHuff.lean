import Verif.Spec.JpegHuff
/-!
# The parser's Huffman table: every word of 16 bits finds the code that owns it
-/
namespace Jxl.Jpeg

theorem width16_nil : width16 [] = 0 := rfl
theorem width16_cons (c : Code) (cs : List Code) : width16 (c :: cs) = 2 ^ (16 - c.1) + width16 cs := rfl
theorem width16_append (a b : List Code) : width16 (a ++ b) = width16 a + width16 b := by simp [width16]

theorem putRun_get {t t' : List LutEntry} {i n : Nat} {e : LutEntry} (h : putRun t i n e = some t') :
    t'.length = t.length ∧ (∀ j, i ≤ j → j < i + n → t'[j]? = some e) ∧
      (∀ j, j < i ∨ i + n ≤ j → t'[j]? = t[j]?) := by
  unfold putRun at h
  split at h
  · rename_i hle
    cases h
    have hl : (List.take i t).length = i := by rw [List.length_take]; omega
    refine ⟨by simp; omega, ?_, ?_⟩
    · intro j h1 h2
      rw [List.getElem?_append_left (by simp; omega), List.getElem?_append_right (by omega), hl,
        List.getElem?_replicate, if_pos (by omega)]
    · intro j hj
      rcases hj with hj | hj
      · rw [List.append_assoc, List.getElem?_append_left (by omega), List.getElem?_take, if_pos hj]
      · rw [List.getElem?_append_right (by simp; omega), List.getElem?_drop]
        congr 1
        simp
        omega
  · cases h

theorem putRun_some (t : List LutEntry) {i n : Nat} (e : LutEntry) (h : i + n ≤ t.length) :
    ∃ t', putRun t i n e = some t' := by unfold putRun; rw [if_pos h]; exact ⟨_, rfl⟩

/-- The table walked with a word of 16 bits: length and symbol found. -/
def lookup (t : List LutEntry) (w : Nat) : Option (Nat × Nat) :=
  (t[w / 256]?).bind fun e =>
    if e.bits > 16 then none
    else if e.bits > 8 then
      (t[w / 256 + e.value + w % 256 / 2 ^ (16 - e.bits)]?).bind fun e' => some (8 + e'.bits, e'.value)
    else some (e.bits, e.value)

/-- A word whose walk only visits root entries below `key` and second-level entries below `front`. -/
def Safe (t : List LutEntry) (key front w : Nat) : Prop :=
  w / 256 < key ∧ ∃ e, t[w / 256]? = some e ∧
    (e.bits > 8 → 256 ≤ w / 256 + e.value + w % 256 / 2 ^ (16 - e.bits) ∧
      w / 256 + e.value + w % 256 / 2 ^ (16 - e.bits) < front)

theorem Safe.frame {t t' : List LutEntry} {key front w : Nat} (h : Safe t key front w) (hk : key ≤ 256)
    (h1 : ∀ i, i < key → t'[i]? = t[i]?) (h2 : ∀ i, 256 ≤ i → i < front → t'[i]? = t[i]?) {key' front' : Nat}
    (hk' : key ≤ key') (hf' : front ≤ front') : lookup t' w = lookup t w ∧ Safe t' key' front' w := by
  obtain ⟨hw, e, he, hs⟩ := h
  have e1 : t'[w / 256]? = some e := by rw [h1 _ hw, he]
  refine ⟨?_, by omega, e, e1, fun hb => ?_⟩
  · unfold lookup
    rw [e1, he]
    simp only [Option.bind_some]
    by_cases hb : e.bits > 8
    · have := hs hb
      rw [if_pos hb, if_pos (c := e.bits > 8) hb, h2 _ this.1 this.2]
    · rw [if_neg hb, if_neg hb]
  · have := hs hb; omega

/-- Every code finds itself; the first one owns the words from `p` on. -/
def AllGood (t : List LutEntry) : Nat → List Code → Prop
  | _, [] => True
  | p, c :: cs => (∀ w, p ≤ w → w < p + 2 ^ (16 - c.1) → lookup t w = some c) ∧ AllGood t (p + 2 ^ (16 - c.1)) cs

theorem AllGood.congr {t t' : List LutEntry} : ∀ {cs : List Code} {p : Nat}, AllGood t p cs →
    (∀ w, p ≤ w → w < p + width16 cs → lookup t' w = lookup t w) → AllGood t' p cs := by
  intro cs
  induction cs with
  | nil => intro p _ _; trivial
  | cons c cs ih =>
    intro p h hw
    rw [width16_cons] at hw
    have h0 : 0 < 2 ^ (16 - c.1) := Nat.two_pow_pos _
    refine ⟨fun w h1 h2 => ?_, ih h.2 fun w h1 h2 => hw w (by omega) (by omega)⟩
    rw [hw w h1 (by omega)]
    exact h.1 w h1 h2

theorem AllGood.append {t : List LutEntry} : ∀ {a b : List Code} {p : Nat}, AllGood t p a →
    AllGood t (p + width16 a) b → AllGood t p (a ++ b) := by
  intro a
  induction a with
  | nil => intro b p _ h; simpa [width16_nil] using h
  | cons c a ih =>
    intro b p h1 h2
    refine ⟨h1.1, ih h1.2 ?_⟩
    rw [width16_cons] at h2
    rw [Nat.add_assoc]; exact h2

/-! ## The root table -/

theorem pow_root {l : Nat} (h : l ≤ 8) : 2 ^ (16 - l) = 2 ^ (8 - l) * 256 := by
  rw [show 16 - l = 8 - l + 8 by omega, Nat.pow_add]

theorem rootLoop_spec (t0 : List LutEntry) : ∀ (cs : List Code) (key : Nat) (t : List LutEntry),
    (∀ c ∈ cs, 1 ≤ c.1 ∧ c.1 ≤ 16) → cs.Pairwise (fun a b => a.1 ≤ b.1) → key * 256 + width16 cs ≤ 2 ^ 16 →
    t.length = 1024 → (∀ w, w < key * 256 → Safe t key 256 w) → (∀ i, key ≤ i → t[i]? = t0[i]?) →
    ∃ done rest key' t', rootLoop cs key t = some (rest, key', t') ∧ cs = done ++ rest ∧
      key' * 256 = key * 256 + width16 done ∧ t'.length = 1024 ∧ (∀ c ∈ rest, 9 ≤ c.1) ∧
      (∀ c ∈ done, c.1 ≤ 8) ∧
      (∀ w, w < key' * 256 → Safe t' key' 256 w) ∧ (∀ i, key' ≤ i → t'[i]? = t0[i]?) ∧
      AllGood t' (key * 256) done ∧ (∀ w, w < key * 256 → lookup t' w = lookup t w) := by
  intro cs
  induction cs with
  | nil =>
    intro key t _ _ _ hl hs hu
    exact ⟨[], [], key, t, rfl, rfl, by simp [width16_nil], hl, by simp, by simp, hs, hu, trivial, fun w _ => rfl⟩
  | cons c cs ih =>
    intro key t hlen hsrt hfit hl hs hu
    have hc := hlen c (by simp)
    rw [width16_cons] at hfit
    rw [rootLoop]
    by_cases h8 : c.1 ≤ 8
    · rw [if_pos h8]
      have hp := pow_root h8
      have hpos : 0 < 2 ^ (8 - c.1) := Nat.two_pow_pos _
      have hm : (key + 2 ^ (8 - c.1)) * 256 = key * 256 + 2 ^ (16 - c.1) := by rw [Nat.add_mul, hp]
      have hkk : key + 2 ^ (8 - c.1) ≤ 256 := by rw [hp] at hfit; omega
      obtain ⟨t1, ht1⟩ := putRun_some t (i := key) (n := 2 ^ (8 - c.1)) ⟨c.1, c.2⟩ (by rw [hl]; omega)
      obtain ⟨g1, g2, g3⟩ := putRun_get ht1
      rw [ht1]
      simp only [Option.bind_some]
      have hfr : ∀ w, w < key * 256 → lookup t1 w = lookup t w ∧ Safe t1 (key + 2 ^ (8 - c.1)) 256 w := by
        intro w hw
        exact (hs w hw).frame (by omega) (fun i hi => g3 i (Or.inl hi)) (fun i h1 h2 => g3 i (Or.inr (by omega)))
          (by omega) (Nat.le_refl _)
      have hnew : ∀ w, key * 256 ≤ w → w < key * 256 + 2 ^ (16 - c.1) →
          lookup t1 w = some c ∧ Safe t1 (key + 2 ^ (8 - c.1)) 256 w := by
        intro w h1 h2
        rw [hp] at h2
        have hd : t1[w / 256]? = some ⟨c.1, c.2⟩ := g2 _ (by omega) (by omega)
        refine ⟨?_, by omega, _, hd, fun hb => ?_⟩
        · unfold lookup; rw [hd]
          simp only [Option.bind_some]
          rw [if_neg (by omega), if_neg (by omega)]
        · simp only at hb; omega
      obtain ⟨done, rest, key', t', e1, e2, e3, e4, e5, e6, e7, e8, e9, e10⟩ := ih (key + 2 ^ (8 - c.1)) t1
        (fun x hx => hlen x (by simp [hx])) (List.pairwise_cons.mp hsrt).2
        (by rw [hm, Nat.add_assoc]; exact hfit) (g1.trans hl) (by
          intro w hw
          rw [hm] at hw
          by_cases hlt : w < key * 256
          · exact (hfr w hlt).2
          · exact (hnew w (Nat.le_of_not_lt hlt) hw).2)
        (fun i hi => by rw [g3 i (Or.inr hi)]; exact hu i (by omega))
      refine ⟨c :: done, rest, key', t', e1, by rw [e2]; rfl, ?_, e4, e5, ?_, e7, e8, ⟨?_, ?_⟩, ?_⟩
      · rw [e3, width16_cons, hm, Nat.add_assoc]
      · intro x hx
        rcases List.mem_cons.mp hx with rfl | hx
        · exact h8
        · exact e6 x hx
      · intro w h1 h2
        rw [e10 w (by rw [hm]; exact h2)]
        exact (hnew w h1 h2).1
      · rw [hm] at e9; exact e9
      · intro w hw
        rw [e10 w (by rw [hm]; exact Nat.lt_of_lt_of_le hw (Nat.le_add_right _ _))]
        exact (hfr w hw).1
    · rw [if_neg h8]
      refine ⟨[], c :: cs, key, t, rfl, rfl, by simp [width16_nil], hl, ?_, by simp, hs, hu, trivial, fun w _ => rfl⟩
      intro x hx
      rcases List.mem_cons.mp hx with rfl | hx
      · omega
      · have := (List.pairwise_cons.mp hsrt).1 x hx; omega

/-! ## Sizes of the second-level tables -/

/-- Slots of a table with keys of `m` bits taken by the codes of at most `m` bits. -/
def wle (cs : List Code) (m : Nat) : Nat := (cs.map fun c => if c.1 ≤ m then 2 ^ (m - c.1) else 0).sum
/-- ... of fewer than `m` bits. -/
def wlt (cs : List Code) (m : Nat) : Nat := (cs.map fun c => if c.1 < m then 2 ^ (m - c.1) else 0).sum

theorem wle_eq (cs : List Code) (m : Nat) : wle cs m = wlt cs m + remaining cs m := by
  induction cs with
  | nil => rfl
  | cons c cs ih =>
    unfold wle wlt remaining at *
    simp only [List.map_cons, List.sum_cons, List.countP_cons, beq_iff_eq]
    rcases Nat.lt_trichotomy c.1 m with h | h | h
    · rw [if_pos (by omega), if_pos h, if_neg (by omega)]; omega
    · rw [if_pos (by omega), if_neg (by omega), if_pos h, h, Nat.sub_self]; omega
    · rw [if_neg (by omega), if_neg (by omega), if_neg (by omega)]; omega

theorem wlt_succ (cs : List Code) (m : Nat) : wlt cs (m + 1) = 2 * wle cs m := by
  induction cs with
  | nil => rfl
  | cons c cs ih =>
    unfold wle wlt at *
    simp only [List.map_cons, List.sum_cons]
    by_cases h : c.1 ≤ m
    · rw [if_pos (by omega), if_pos h, show m + 1 - c.1 = m - c.1 + 1 by omega, Nat.pow_succ]; omega
    · rw [if_neg (by omega), if_neg h]; omega

theorem wlt_zero {cs : List Code} {m : Nat} (h : ∀ c ∈ cs, m ≤ c.1) : wlt cs m = 0 := by
  induction cs with
  | nil => rfl
  | cons c cs ih =>
    have h1 := h c (by simp)
    unfold wlt at *
    simp only [List.map_cons, List.sum_cons]
    rw [if_neg (by omega), ih fun x hx => h x (by simp [hx])]

theorem nextLen_spec (cs : List Code) : ∀ f left len, len + f = 16 → 8 ≤ len → left + wlt cs len = 2 ^ (len - 8) →
    0 < left →
    ∃ m, nextLen (remaining cs) left len f = m ∧ len ≤ m ∧ m ≤ 16 ∧ wlt cs m < 2 ^ (m - 8) ∧
      (m = 16 ∨ 2 ^ (m - 8) ≤ wle cs m) := by
  intro f
  induction f with
  | zero => intro left len h1 h2 h3 h4; exact ⟨len, rfl, Nat.le_refl _, by omega, by omega, Or.inl (by omega)⟩
  | succ f ih =>
    intro left len h1 h2 h3 h4
    rw [nextLen]
    by_cases hc : left ≤ remaining cs len
    · rw [if_pos hc]
      exact ⟨len, rfl, Nat.le_refl _, by omega, by omega, Or.inr (by rw [wle_eq]; omega)⟩
    · rw [if_neg hc]
      obtain ⟨m, e1, e2, e3, e4, e5⟩ := ih ((left - remaining cs len) * 2) (len + 1) (by omega) (by omega) (by
        rw [wlt_succ, wle_eq, show len + 1 - 8 = len - 8 + 1 by omega, Nat.pow_succ]; omega) (by omega)
      exact ⟨m, e1, by omega, e3, e4, e5⟩

theorem nextTableBits_spec (cs : List Code) (len : Nat) (h1 : 9 ≤ len) (h2 : len ≤ 16) (h : ∀ c ∈ cs, len ≤ c.1) :
    ∃ tb, nextTableBits (remaining cs) len = tb ∧ 1 ≤ tb ∧ tb ≤ 8 ∧ len ≤ tb + 8 ∧ wlt cs (tb + 8) < 2 ^ tb ∧
      (tb = 8 ∨ 2 ^ tb ≤ wle cs (tb + 8)) := by
  obtain ⟨m, e1, e2, e3, e4, e5⟩ := nextLen_spec cs (16 - len) (2 ^ (len - 8)) len (by omega) (by omega)
    (by rw [wlt_zero h]; omega) (Nat.two_pow_pos _)
  refine ⟨m - 8, by unfold nextTableBits; rw [e1], by omega, by omega, by omega, ?_, ?_⟩
  · rw [show m - 8 + 8 = m by omega]; exact e4
  · rw [show m - 8 + 8 = m by omega]
    rcases e5 with h | h
    · left; omega
    · right; exact h

/-! ## The second-level tables -/

/-- What the second loop keeps: `p` is the next word of 16 bits, `D` counts codes in finished tables, and no code left
is shorter than `8 + tbp` bits. -/
structure SInv (t0 : List LutEntry) (R : List Code) (s : SubLut) (p tbp : Nat) : Prop where
  len : s.t.length = 1024
  key : s.key ≤ 256
  base : 256 ≤ s.base
  lens : ∀ c ∈ R, 8 + tbp ≤ c.1 ∧ c.1 ≤ 16
  sorted : R.Pairwise fun a b => a.1 ≤ b.1
  fits : p + width16 R ≤ 65536
  tbp1 : 1 ≤ tbp
  tbp8 : tbp ≤ 8
  safe : ∀ w, w < p → Safe s.t s.key (s.base + s.low) w
  free : ∀ i, (s.key ≤ i ∧ i < 256) ∨ s.base + s.low ≤ i → s.t[i]? = t0[i]?

/-- Between two tables. -/
structure SFull (t0 : List LutEntry) (R : List Code) (s : SubLut) (p D tbp : Nat) : Prop extends SInv t0 R s p tbp where
  pos : p = s.key * 256
  low : s.low = s.size
  room : s.base + s.size + 2 ≤ 256 + D + 2 ^ tbp
  count : D + R.length ≤ 257

/-- Inside a table of `2 ^ tbits` entries. -/
structure SOpen (t0 : List LutEntry) (R : List Code) (s : SubLut) (p D tbp cur : Nat) : Prop
    extends SInv t0 R s p tbp where
  low : s.low < 2 ^ s.tbits
  size : s.size = 2 ^ s.tbits
  tb1 : tbp ≤ s.tbits
  tb8 : s.tbits ≤ 8
  key1 : 1 ≤ s.key
  pos : p = (s.key - 1) * 256 + s.low * 2 ^ (8 - s.tbits)
  link : s.t[s.key - 1]? = some ⟨s.tbits + 8, s.base - (s.key - 1)⟩
  e1 : s.tbits = 8 ∨ 2 ^ s.tbits ≤ s.low + wle R (s.tbits + 8)
  e2 : s.low + wlt R (s.tbits + 8) < 2 ^ s.tbits
  room : s.base + 2 ≤ 256 + D + 2 ^ tbp
  used : s.low ≤ cur * 2 ^ (s.tbits - tbp)
  count : D + cur + R.length ≤ 257

theorem wle_zero {cs : List Code} {m : Nat} (h : ∀ c ∈ cs, m < c.1) : wle cs m = 0 := by
  induction cs with
  | nil => rfl
  | cons c cs ih =>
    have h1 := h c (by simp)
    unfold wle at *
    simp only [List.map_cons, List.sum_cons]
    rw [if_neg (by omega), ih fun x hx => h x (by simp [hx])]

theorem pow_le_256 {n : Nat} (h : n ≤ 8) : 2 ^ n ≤ 256 := by
  calc 2 ^ n ≤ 2 ^ 8 := Nat.pow_le_pow_right (by omega) h
    _ = 256 := rfl

theorem openSub_spec {t0 : List LutEntry} {c : Code} {R : List Code} {s : SubLut} {p D tbp : Nat}
    (h : SFull t0 (c :: R) s p D tbp) :
    ∃ s', openSub (c :: R) c.1 s = some s' ∧ SOpen t0 (c :: R) s' p D tbp 0 ∧
      (∀ w, w < p → lookup s'.t w = lookup s.t w) := by
  have hc := h.lens c (by simp)
  have hsrt := List.pairwise_cons.mp h.sorted
  have ht1 := h.tbp1
  obtain ⟨tb, f1, f2, f3, f4, f5, f6⟩ := nextTableBits_spec (c :: R) c.1 (by omega) hc.2 (by
    intro x hx
    rcases List.mem_cons.mp hx with rfl | hx
    · exact Nat.le_refl _
    · exact hsrt.1 x hx)
  have hfit := h.fits
  rw [width16_cons] at hfit
  have hp0 : 0 < 2 ^ (16 - c.1) := Nat.two_pow_pos _
  have hpos := h.pos
  have hk : s.key < 256 := by
    apply Nat.lt_of_not_le; intro hge
    have : 65536 ≤ s.key * 256 := by omega
    omega
  have hb := h.base
  have hroom := h.room
  have hcnt := h.count
  have htb := pow_le_256 h.tbp8
  obtain ⟨t1, g0⟩ := putRun_some s.t (i := s.key) (n := 1) ⟨tb + 8, (s.base + s.size - s.key) % 65536⟩
    (by rw [h.len]; omega)
  obtain ⟨g1, g2, g3⟩ := putRun_get g0
  have hmod : (s.base + s.size - s.key) % 65536 = s.base + s.size - s.key := Nat.mod_eq_of_lt (by omega)
  have hfr : ∀ w, w < p → lookup t1 w = lookup s.t w ∧ Safe t1 (s.key + 1) (s.base + s.size + 0) w := by
    intro w hw
    refine (h.safe w hw).frame h.key (fun i hi => g3 i (Or.inl hi)) (fun i hi _ => g3 i (Or.inr (by omega)))
      (by omega) ?_
    have := h.low; omega
  refine ⟨{ base := s.base + s.size, tbits := tb, size := 2 ^ tb, low := 0, key := s.key + 1, t := t1 }, ?_, ?_, fun w hw => (hfr w hw).1⟩
  · unfold openSub
    simp only [f1]
    rw [g0]; rfl
  · exact {
      len := by rw [← h.len]; exact g1
      key := hk
      base := by simp only; omega
      lens := h.lens
      sorted := h.sorted
      fits := h.fits
      tbp1 := h.tbp1
      tbp8 := h.tbp8
      safe := fun w hw => (hfr w hw).2
      free := by
        intro i hi
        simp only at hi ⊢
        rw [g3 i (by omega)]
        refine h.free i ?_
        have := h.low; omega
      low := Nat.two_pow_pos _
      size := rfl
      tb1 := by simp only; omega
      tb8 := f3
      key1 := by simp
      pos := by simp only [Nat.add_sub_cancel, Nat.zero_mul, Nat.add_zero]; exact hpos
      link := by
        simp only [Nat.add_sub_cancel]
        rw [g2 _ (Nat.le_refl _) (by omega), hmod]
      e1 := by simp only [Nat.zero_add]; exact f6
      e2 := by simp only [Nat.zero_add]; exact f5
      room := hroom
      used := Nat.zero_le _
      count := by simpa using hcnt }

/-- Placing a code inside an open table. -/
theorem putSub_spec {t0 : List LutEntry} {c : Code} {R : List Code} {s : SubLut} {p D tbp cur : Nat}
    (h : SOpen t0 (c :: R) s p D tbp cur) :
    ¬ s.tbits + 8 < c.1 ∧ ∃ t1, putRun s.t (s.base + s.low) (2 ^ (s.tbits - (c.1 - 8))) ⟨c.1 - 8, c.2⟩ = some t1 ∧
      (∀ w, w < p → lookup t1 w = lookup s.t w) ∧
      (∀ w, p ≤ w → w < p + 2 ^ (16 - c.1) → lookup t1 w = some c) ∧
      ((∃ cur', SOpen t0 R { s with low := s.low + 2 ^ (s.tbits - (c.1 - 8)), t := t1 } (p + 2 ^ (16 - c.1)) D tbp cur') ∨
       ∃ D', SFull t0 R { s with low := s.low + 2 ^ (s.tbits - (c.1 - 8)), t := t1 } (p + 2 ^ (16 - c.1)) D' s.tbits) := by
  have hc := h.lens c (by simp)
  have hsrt := List.pairwise_cons.mp h.sorted
  have ht1 := h.tbp1
  have ht2 := h.tb1
  have ht3 := h.tb8
  have hlow := h.low
  have hle : c.1 ≤ s.tbits + 8 := by
    rcases h.e1 with e | e
    · omega
    · apply Nat.le_of_not_lt; intro hgt
      rw [wle_zero (by
        intro x hx
        rcases List.mem_cons.mp hx with rfl | hx
        · exact hgt
        · have := hsrt.1 x hx; omega)] at e
      omega
  refine ⟨by omega, ?_⟩
  have hreps : s.tbits + 8 - c.1 = s.tbits - (c.1 - 8) := by omega
  have hwle : wle (c :: R) (s.tbits + 8) = 2 ^ (s.tbits - (c.1 - 8)) + wle R (s.tbits + 8) := by
    unfold wle; simp only [List.map_cons, List.sum_cons]; rw [if_pos hle, hreps]
  have hmul : 2 ^ (16 - c.1) = 2 ^ (s.tbits - (c.1 - 8)) * 2 ^ (8 - s.tbits) := by
    rw [← Nat.pow_add]; congr 1; omega
  have hsz : 2 ^ s.tbits * 2 ^ (8 - s.tbits) = 256 := by
    rw [← Nat.pow_add, show s.tbits + (8 - s.tbits) = 8 by omega]
  have hr0 : 0 < 2 ^ (s.tbits - (c.1 - 8)) := Nat.two_pow_pos _
  have hq0 : 0 < 2 ^ (8 - s.tbits) := Nat.two_pow_pos _
  have hwlt : (c.1 < s.tbits + 8 → s.low + 2 ^ (s.tbits - (c.1 - 8)) + wlt R (s.tbits + 8) < 2 ^ s.tbits) ∧
      (c.1 = s.tbits + 8 → wlt R (s.tbits + 8) = 0 ∧ 2 ^ (s.tbits - (c.1 - 8)) = 1) := by
    refine ⟨fun hlt => ?_, fun he => ⟨wlt_zero fun x hx => by have := hsrt.1 x hx; omega, ?_⟩⟩
    · have e := h.e2
      have : wlt (c :: R) (s.tbits + 8) = 2 ^ (s.tbits - (c.1 - 8)) + wlt R (s.tbits + 8) := by
        unfold wlt; simp only [List.map_cons, List.sum_cons]; rw [if_pos hlt, hreps]
      omega
    · rw [show s.tbits - (c.1 - 8) = 0 by omega]
  have hend : s.low + 2 ^ (s.tbits - (c.1 - 8)) ≤ 2 ^ s.tbits := by
    rcases Nat.lt_or_eq_of_le hle with hlt | he
    · have := hwlt.1 hlt; omega
    · have := hwlt.2 he; omega
  have hroom := h.room
  have hcnt := h.count
  simp only [List.length_cons] at hcnt
  have htb := pow_le_256 h.tbp8
  have htb' := pow_le_256 h.tb8
  obtain ⟨t1, g0⟩ := putRun_some s.t (i := s.base + s.low) (n := 2 ^ (s.tbits - (c.1 - 8))) ⟨c.1 - 8, c.2⟩
    (by rw [h.len]; omega)
  obtain ⟨g1, g2, g3⟩ := putRun_get g0
  have hb := h.base
  have hk := h.key
  have hk1 := h.key1
  have hfr : ∀ w, w < p → lookup t1 w = lookup s.t w ∧
      Safe t1 s.key (s.base + (s.low + 2 ^ (s.tbits - (c.1 - 8)))) w := by
    intro w hw
    exact (h.safe w hw).frame h.key (fun i hi => g3 i (Or.inl (by omega))) (fun i hi hj => g3 i (Or.inl (by omega)))
      (Nat.le_refl _) (by omega)
  have hpos := h.pos
  have hlink : t1[s.key - 1]? = some ⟨s.tbits + 8, s.base - (s.key - 1)⟩ := by
    rw [g3 _ (Or.inl (by omega))]; exact h.link
  have hnew : ∀ w, p ≤ w → w < p + 2 ^ (16 - c.1) → lookup t1 w = some c ∧
      Safe t1 s.key (s.base + (s.low + 2 ^ (s.tbits - (c.1 - 8)))) w := by
    intro w hw1 hw2
    have hbnd : (s.low + 2 ^ (s.tbits - (c.1 - 8))) * 2 ^ (8 - s.tbits) ≤ 256 := by
      rw [← hsz]; exact Nat.mul_le_mul_right _ hend
    rw [Nat.add_mul, ← hmul] at hbnd
    have hd : w / 256 = s.key - 1 := by omega
    have hm : w % 256 = w - (s.key - 1) * 256 := by omega
    have hx1 : s.low ≤ w % 256 / 2 ^ (8 - s.tbits) := by
      rw [Nat.le_div_iff_mul_le hq0]; omega
    have hx2 : w % 256 / 2 ^ (8 - s.tbits) < s.low + 2 ^ (s.tbits - (c.1 - 8)) := by
      rw [Nat.div_lt_iff_lt_mul hq0, Nat.add_mul, ← hmul]; omega
    have h16 : 16 - (s.tbits + 8) = 8 - s.tbits := by omega
    have hidx : s.key - 1 + (s.base - (s.key - 1)) = s.base := by omega
    refine ⟨?_, by omega, _, by rw [hd]; exact hlink, fun _ => ?_⟩
    · unfold lookup
      rw [hd, hlink]
      simp only [Option.bind_some]
      rw [if_neg (by omega), if_pos (by omega), h16, hidx, g2 _ (by omega) (by omega)]
      simp only [Option.bind_some, Option.some.injEq]
      apply Prod.ext
      · show 8 + (c.1 - 8) = c.1; omega
      · rfl
    · simp only
      rw [hd, h16, hidx]; omega
  have hsafe : ∀ w, w < p + 2 ^ (16 - c.1) → Safe t1 s.key (s.base + (s.low + 2 ^ (s.tbits - (c.1 - 8)))) w := by
    intro w hw
    by_cases hlt : w < p
    · exact (hfr w hlt).2
    · exact (hnew w (by omega) hw).2
  refine ⟨t1, g0, fun w hw => (hfr w hw).1, fun w h1 h2 => (hnew w h1 h2).1, ?_⟩
  have hfit := h.fits
  rw [width16_cons] at hfit
  have hfree : ∀ i, (s.key ≤ i ∧ i < 256) ∨ s.base + (s.low + 2 ^ (s.tbits - (c.1 - 8))) ≤ i → t1[i]? = t0[i]? := by
    intro i hi
    rw [g3 i (by omega)]
    exact h.free i (by omega)
  have hused : s.low + 2 ^ (s.tbits - (c.1 - 8)) ≤ (cur + 1) * 2 ^ (s.tbits - tbp) := by
    have := h.used
    have h2 : 2 ^ (s.tbits - (c.1 - 8)) ≤ 2 ^ (s.tbits - tbp) := Nat.pow_le_pow_right (by omega) (by omega)
    rw [Nat.add_mul, Nat.one_mul]; omega
  by_cases hfull : s.low + 2 ^ (s.tbits - (c.1 - 8)) < 2 ^ s.tbits
  · left
    refine ⟨cur + 1, ?_⟩
    exact {
      len := by simp only; rw [g1]; exact h.len
      key := h.key
      base := h.base
      lens := fun x hx => h.lens x (by simp [hx])
      sorted := hsrt.2
      fits := by omega
      tbp1 := h.tbp1
      tbp8 := h.tbp8
      safe := hsafe
      free := hfree
      low := hfull
      size := h.size
      tb1 := h.tb1
      tb8 := h.tb8
      key1 := h.key1
      pos := by simp only; rw [Nat.add_mul, ← hmul]; omega
      link := hlink
      e1 := by
        simp only
        rcases h.e1 with e | e
        · exact Or.inl e
        · right; omega
      e2 := by
        simp only
        rcases Nat.lt_or_eq_of_le hle with hlt | he
        · exact hwlt.1 hlt
        · rw [(hwlt.2 he).1]; omega
      room := h.room
      used := hused
      count := by omega }
  · right
    have hfull' : s.low + 2 ^ (s.tbits - (c.1 - 8)) = 2 ^ s.tbits := by omega
    have hcl : c.1 = s.tbits + 8 := by
      rcases Nat.lt_or_eq_of_le hle with hlt | he
      · have := hwlt.1 hlt; omega
      · exact he
    have hcur : 2 ^ tbp ≤ cur + 1 := by
      rw [hfull'] at hused
      have : 2 ^ s.tbits = 2 ^ tbp * 2 ^ (s.tbits - tbp) := by rw [← Nat.pow_add]; congr 1; omega
      rw [this] at hused
      exact Nat.le_of_mul_le_mul_right hused (Nat.two_pow_pos _)
    refine ⟨D + cur + 1, ?_⟩
    exact {
      len := by simp only; rw [g1]; exact h.len
      key := h.key
      base := h.base
      lens := fun x hx => ⟨by have := hsrt.1 x hx; omega, (h.lens x (by simp [hx])).2⟩
      sorted := hsrt.2
      fits := by omega
      tbp1 := by omega
      tbp8 := h.tb8
      safe := hsafe
      free := hfree
      pos := by
        simp only
        have : (s.low + 2 ^ (s.tbits - (c.1 - 8))) * 2 ^ (8 - s.tbits) = 256 := by rw [hfull', hsz]
        rw [Nat.add_mul, ← hmul] at this
        omega
      low := by simp only; rw [hfull', h.size]
      room := by
        simp only; rw [h.size]; omega
      count := by omega }

theorem subLoop_spec (t0 : List LutEntry) : ∀ (R : List Code) (s : SubLut) (p : Nat),
    ((∃ D tbp, SFull t0 R s p D tbp) ∨ ∃ D tbp cur, SOpen t0 R s p D tbp cur) →
    ∃ s', subLoop R s = some s' ∧ AllGood s'.t p R ∧ (∀ w, w < p → lookup s'.t w = lookup s.t w) ∧
      ((∃ D tbp, SFull t0 [] s' (p + width16 R) D tbp) ∨ ∃ D tbp cur, SOpen t0 [] s' (p + width16 R) D tbp cur) := by
  intro R
  induction R with
  | nil => intro s p h; exact ⟨s, rfl, trivial, fun w _ => rfl, by simpa [width16_nil] using h⟩
  | cons c R ih =>
    intro s p h
    have hopen : ∃ s1 D tbp cur, ensureSub (c :: R) c.1 s = some s1 ∧ SOpen t0 (c :: R) s1 p D tbp cur ∧
        (∀ w, w < p → lookup s1.t w = lookup s.t w) := by
      rcases h with ⟨D, tbp, h⟩ | ⟨D, tbp, cur, h⟩
      · obtain ⟨s1, e1, e2, e3⟩ := openSub_spec h
        refine ⟨s1, D, tbp, 0, ?_, e2, e3⟩
        unfold ensureSub; rw [if_pos (by rw [h.low]; exact Nat.le_refl _)]; exact e1
      · refine ⟨s, D, tbp, cur, ?_, h, fun w _ => rfl⟩
        unfold ensureSub; rw [if_neg]; rw [h.size]; exact Nat.not_le_of_lt h.low
    obtain ⟨s1, D, tbp, cur, e1, e2, e3⟩ := hopen
    obtain ⟨k1, t1, k2, k3, k4, k5⟩ := putSub_spec e2
    obtain ⟨s', m1, m2, m3, m4⟩ := ih { s1 with low := s1.low + 2 ^ (s1.tbits - (c.1 - 8)), t := t1 }
      (p + 2 ^ (16 - c.1)) (by
        rcases k5 with ⟨cur', k⟩ | ⟨D', k⟩
        · exact Or.inr ⟨_, _, _, k⟩
        · exact Or.inl ⟨_, _, k⟩)
    have hp0 : 0 < 2 ^ (16 - c.1) := Nat.two_pow_pos _
    refine ⟨s', ?_, ⟨?_, m2⟩, ?_, ?_⟩
    · rw [subLoop, e1]
      simp only [Option.bind_some]
      rw [if_neg k1, k2]
      simp only [Option.bind_some]
      exact m1
    · intro w h1 h2
      rw [m3 w h2]; exact k4 w h1 h2
    · intro w hw
      rw [m3 w (by omega), k3 w hw, e3 w hw]
    · rw [width16_cons, ← Nat.add_assoc]; exact m4

/-! ## The whole table -/

theorem tail_fresh {s : SubLut} {p : Nat}
    (h : (∃ D tbp, SFull (List.replicate 1024 LutEntry.fresh) [] s p D tbp) ∨
      ∃ D tbp cur, SOpen (List.replicate 1024 LutEntry.fresh) [] s p D tbp cur) (w : Nat) (h1 : p ≤ w) (h2 : w < 65536) :
    ∃ l, lookup s.t w = some (l, 0xffff) ∧ l ≤ 16 := by
  have hrep : ∀ i, i < 1024 → (List.replicate 1024 LutEntry.fresh)[i]? = some LutEntry.fresh := by
    intro i hi; rw [List.getElem?_replicate, if_pos hi]
  have root : ∀ (hk : s.key ≤ w / 256) (hf : s.t[w / 256]? = (List.replicate 1024 LutEntry.fresh)[w / 256]?),
      ∃ l, lookup s.t w = some (l, 0xffff) ∧ l ≤ 16 := by
    intro hk hf
    refine ⟨0, ?_, by omega⟩
    unfold lookup; rw [hf, hrep _ (by omega)]; rfl
  rcases h with ⟨D, tbp, h⟩ | ⟨D, tbp, cur, h⟩
  · have hp := h.pos
    exact root (by omega) (h.free _ (Or.inl (by omega)))
  · by_cases hk : s.key ≤ w / 256
    · exact root hk (h.free _ (Or.inl (by omega)))
    · have hk1 := h.key1
      have hp := h.pos
      have htb := h.tb8
      have hq0 : 0 < 2 ^ (8 - s.tbits) := Nat.two_pow_pos _
      have hsz : 2 ^ s.tbits * 2 ^ (8 - s.tbits) = 256 := by
        rw [← Nat.pow_add, show s.tbits + (8 - s.tbits) = 8 by omega]
      have hd : w / 256 = s.key - 1 := by omega
      have hx1 : s.low ≤ w % 256 / 2 ^ (8 - s.tbits) := by rw [Nat.le_div_iff_mul_le hq0]; omega
      have hx2 : w % 256 / 2 ^ (8 - s.tbits) < 2 ^ s.tbits := by rw [Nat.div_lt_iff_lt_mul hq0, hsz]; omega
      have hk256 := h.key
      have hb := h.base
      have hroom := h.room
      have hcnt := h.count
      simp only [List.length_nil] at hcnt
      have h8 := pow_le_256 h.tbp8
      have h8' := pow_le_256 h.tb8
      have ht1 := h.tbp1
      have ht2 := h.tb1
      refine ⟨8, ?_, by omega⟩
      unfold lookup
      rw [hd, h.link]
      simp only [Option.bind_some]
      rw [if_neg (by omega), if_pos (by omega), show 16 - (s.tbits + 8) = 8 - s.tbits by omega,
        show s.key - 1 + (s.base - (s.key - 1)) = s.base by omega, h.free _ (Or.inr (by omega)), hrep _ (by omega)]
      rfl

theorem buildLut_spec (cs : List Code) (t0 : List LutEntry) (hc : Canonical cs) (h2 : 2 ≤ cs.length)
    (hn : cs.length ≤ 257) (hl : t0.length = 1024) :
    ∃ t, buildLut cs t0 = some t ∧ t.length = 1024 ∧ AllGood t 0 cs ∧
      (t0 = List.replicate 1024 LutEntry.fresh → ∀ w, width16 cs ≤ w → w < 65536 →
        ∃ l, lookup t w = some (l, 0xffff) ∧ l ≤ 16) := by
  obtain ⟨done, rest, key, t1, e1, e2, e3, e4, e5, e6, e7, e8, e9, e10⟩ := rootLoop_spec t0 cs 0 t0 hc.len hc.sorted
    (by simpa using hc.fits) hl (by intro w hw; omega) (fun i _ => rfl)
  have hfit := hc.fits
  rw [e2, width16_append] at hfit
  have hsrt := hc.sorted
  rw [e2] at hsrt
  have hfull : SFull t0 rest { base := 256, tbits := 8, size := 0, low := 0, key := key, t := t1 } (key * 256) 0 1 :=
    { len := e4, key := by simp only; omega, base := by simp only; omega,
      lens := fun c hcm => ⟨e5 c hcm, (hc.len c (by rw [e2]; simp [hcm])).2⟩,
      sorted := (List.pairwise_append.mp hsrt).2.1, fits := by omega, tbp1 := by omega, tbp8 := by omega,
      safe := e7, free := fun i hi => e8 i (by simp only at hi; omega), pos := rfl, low := rfl, room := by simp,
      count := by rw [e2, List.length_append] at hn; omega }
  obtain ⟨s, g1, g2, g3, g4⟩ := subLoop_spec t0 rest _ _ (Or.inl ⟨_, _, hfull⟩)
  refine ⟨s.t, ?_, ?_, ?_, ?_⟩
  · unfold buildLut
    split
    · simp at h2
    · rw [e1]; simp only [Option.bind_some]; rw [g1]; rfl
  · rcases g4 with ⟨_, _, h⟩ | ⟨_, _, _, h⟩
    · exact h.len
    · exact h.len
  · rw [e2]
    refine AllGood.append ?_ ?_
    · rw [Nat.zero_mul] at e9 e3
      exact e9.congr fun w h1 h2 => g3 w (by rw [e3]; exact h2)
    · rw [show 0 + width16 done = key * 256 by omega]; exact g2
  · intro ht w hw1 hw2
    subst ht
    refine tail_fresh (p := key * 256 + width16 rest) g4 w ?_ hw2
    rw [e2, width16_append] at hw1
    omega

/-- The table of a single code. -/
theorem buildLut_single (c : Code) (t0 : List LutEntry) (hl : t0.length = 1024) :
    ∃ t, buildLut [c] t0 = some t ∧ t.length = 1024 ∧ ∀ w, w < 65536 → lookup t w = some (0, c.2) := by
  obtain ⟨t, g0⟩ := putRun_some t0 (i := 0) (n := 256) ⟨0, c.2⟩ (by omega)
  obtain ⟨g1, g2, _⟩ := putRun_get g0
  refine ⟨t, by unfold buildLut; exact g0, g1.trans hl, fun w hw => ?_⟩
  unfold lookup
  rw [g2 (w / 256) (by omega) (by omega)]; rfl

/-- The word a good table finds. -/
theorem AllGood.get {t : List LutEntry} : ∀ {cs : List Code} {p : Nat}, AllGood t p cs → ∀ i c, cs[i]? = some c →
    ∀ w, p + width16 (cs.take i) ≤ w → w < p + width16 (cs.take i) + 2 ^ (16 - c.1) → lookup t w = some c := by
  intro cs
  induction cs with
  | nil => intro p _ i c hc; simp at hc
  | cons x cs ih =>
    intro p h i c hc w h1 h2
    cases i with
    | zero =>
      simp only [List.getElem?_cons_zero, Option.some.injEq] at hc
      subst hc
      simp only [List.take_zero, width16_nil, Nat.add_zero] at h1 h2
      exact h.1 w h1 h2
    | succ i =>
      simp only [List.getElem?_cons_succ] at hc
      rw [List.take_succ_cons, width16_cons] at h1 h2
      exact ih h.2 i c hc w (by omega) (by omega)

/-- Every word below the total belongs to one of the codes. -/
theorem owner : ∀ (cs : List Code) (p w : Nat), p ≤ w → w < p + width16 cs →
    ∃ i c, cs[i]? = some c ∧ p + width16 (cs.take i) ≤ w ∧ w < p + width16 (cs.take i) + 2 ^ (16 - c.1) := by
  intro cs
  induction cs with
  | nil => intro p w h1 h2; rw [width16_nil] at h2; omega
  | cons x cs ih =>
    intro p w h1 h2
    rw [width16_cons] at h2
    by_cases h : w < p + 2 ^ (16 - x.1)
    · exact ⟨0, x, rfl, by simpa [width16_nil] using h1, by simpa [width16_nil] using h⟩
    · obtain ⟨i, c, e1, e2, e3⟩ := ih (p + 2 ^ (16 - x.1)) w (by omega) (by omega)
      refine ⟨i + 1, c, by simpa using e1, ?_, ?_⟩
      · rw [List.take_succ_cons, width16_cons]; omega
      · rw [List.take_succ_cons, width16_cons]; omega

end Jxl.Jpeg
