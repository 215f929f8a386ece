import Verif.Lemmas.JpegScanSafe
import Verif.Lemmas.JpegAt
/-!
# What the scan writer emits, as symbols and bits
-/
namespace Jxl.Jpeg

/-- A symbol and the bits that follow it. -/
abbrev Tok := Nat × List Bool

/-- The bits of a symbol. -/
def symBits (h : Huff) (s : Nat) : List Bool := msb (h.depth s) (h.code s)

def tokBits (h : Huff) (ts : List Tok) : List Bool := ts.flatMap fun t => symBits h t.1 ++ t.2

/-- The table has a code for the symbol. -/
def Coded (h : Huff) (s : Nat) : Prop := s < 256 ∧ h.depth s ≤ 16 ∧ h.code s < 2 ^ h.depth s

theorem tokBits_nil (h : Huff) : tokBits h [] = [] := rfl
theorem tokBits_cons (h : Huff) (t : Tok) (ts : List Tok) : tokBits h (t :: ts) = symBits h t.1 ++ t.2 ++ tokBits h ts := by
  simp [tokBits]
theorem tokBits_append (h : Huff) (a b : List Tok) : tokBits h (a ++ b) = tokBits h a ++ tokBits h b := by
  simp [tokBits]

theorem coded_of {x : List Code × List LutEntry} (hx : FromFile x) {v : Nat} (h : (codeTable x.1).depth v ≠ 127) :
    Coded (codeTable x.1) v := by
  obtain ⟨hacc, _⟩ := fromFile_spec hx
  obtain ⟨h1, h2, h3, i, hi⟩ := codeTable_pos hacc v h
  exact ⟨h1, h3, ((codeTable_spec hacc).1 i _ v hi h1).2.1⟩

/-- A run of sixteen zeros. -/
def zrl : Tok := (0xF0, [])

/-! ## Writing symbols -/

theorem writeSymbol_bits {pre B w w' s h} (hi : WInv pre B w) (hc : Coded h s) (hw : writeSymbol s h w = some w') :
    WInv pre (B ++ symBits h s) w' := by
  unfold writeSymbol at hw
  rw [if_pos hc.1] at hw
  exact (writeBits_inv hi (by have := hc.2.1; omega) hc.2.2 hw).1

theorem msb_join (d n c b : Nat) (hb : b < 2 ^ n) : msb (d + n) (c * 2 ^ n + b) = msb d c ++ msb n b := by
  rw [msb_add]
  congr 1
  · rw [Nat.mul_comm, Nat.mul_add_div (Nat.two_pow_pos _), Nat.div_eq_of_lt hb, Nat.add_zero]
  · rw [← msb_mod, Nat.mul_comm, Nat.mul_add_mod, Nat.mod_eq_of_lt hb]

theorem writeSymbolBits_bits {pre B w w' s h n b} (hi : WInv pre B w) (hc : Coded h s) (hn : n ≤ 16) (hb : b < 2 ^ n)
    (hw : writeSymbolBits s h n b w = some w') : WInv pre (B ++ (symBits h s ++ msb n b)) w' := by
  unfold writeSymbolBits at hw
  have hd := hc.2.1
  have e : b ||| (h.code s <<< n) = h.code s * 2 ^ n + b := by
    rw [Nat.or_comm, Nat.shiftLeft_eq, or_add _ _ _ hb]
  rw [if_pos hc.1, e, Nat.add_comm] at hw
  have hlt : h.code s * 2 ^ n + b < 2 ^ (h.depth s + n) := by
    rw [Nat.pow_add]
    have h1 : (h.code s + 1) * 2 ^ n ≤ 2 ^ h.depth s * 2 ^ n := Nat.mul_le_mul_right _ hc.2.2
    rw [Nat.add_mul, Nat.one_mul] at h1
    exact Nat.lt_of_lt_of_le (Nat.add_lt_add_left hb _) h1
  have := (writeBits_inv hi (by omega) hlt hw).1
  rw [msb_join _ _ _ _ hb] at this
  exact this

theorem writeZrl_bits {pre h} : ∀ n {B w w'}, WInv pre B w → (0 < n → Coded h 0xF0) → writeZrl h n w = some w' →
    WInv pre (B ++ tokBits h (List.replicate n zrl)) w' := by
  intro n
  induction n with
  | zero => intro B w w' hi _ hw; cases hw; simpa [tokBits] using hi
  | succ n ih =>
    intro B w w' hi hc hw
    rw [writeZrl, Option.bind_eq_some_iff] at hw
    obtain ⟨w1, e1, e2⟩ := hw
    have := ih (writeSymbol_bits hi (hc (by omega)) e1) (fun _ => hc (by omega)) e2
    rw [List.replicate_succ, tokBits_cons]
    simpa [zrl] using this

theorem writeOnes_bits {pre} : ∀ (bs : List Bool) {B w w'}, WInv pre B w → writeOnes (bs.map bit01) w = some w' →
    WInv pre (B ++ bs) w' := by
  intro bs
  induction bs with
  | nil => intro B w w' hi hw; cases hw; simpa using hi
  | cons b bs ih =>
    intro B w w' hi hw
    rw [List.map_cons, writeOnes, Option.bind_eq_some_iff] at hw
    obtain ⟨w1, e1, e2⟩ := hw
    have h1 := (writeBits_inv hi (by omega) (by cases b <;> decide) e1).1
    have hb : msb 1 (bit01 b) = [b] := by cases b <;> rfl
    rw [hb] at h1
    simpa using ih h1 e2

/-! ## The bits kept for later -/

/-- The words hold the given bits: full words, and an incomplete one. -/
def WordsOk (words : List Nat) (count : Nat) (pend : List Bool) : Prop :=
  ∃ ws L, (∀ x ∈ ws, x < 2 ^ 16) ∧ L.length < 16 ∧ pend = ws.reverse.flatMap (msb 16) ++ L ∧
    count = 16 * ws.length + L.length ∧ words = if L = [] then ws else valMsb L :: ws

structure Held (s : Coding) (pend : List Bool) : Prop where
  words : WordsOk s.words s.count pend
  zero : s.eobRun = 0 → pend = []

theorem held_flushed (s : Coding) : Held (flushed s) [] :=
  ⟨⟨[], [], by simp, by decide, rfl, rfl, rfl⟩, fun _ => rfl⟩

/-- The bits of a run of ends of band. -/
def runBits (h : Huff) (n : Nat) : List Bool :=
  if n = 0 then [] else symBits h (16 * Nat.log2 n) ++ msb (Nat.log2 n) (n % 2 ^ Nat.log2 n)

theorem flushRun_bits {pre B w w' s} (hi : WInv pre B w) (hr : s.eobRun ≤ 0x7FFF)
    (hc : 0 < s.eobRun → Coded s.huff (16 * Nat.log2 s.eobRun)) (hw : flushRun s w = some w') :
    WInv pre (B ++ runBits s.huff s.eobRun) w' := by
  unfold flushRun at hw
  unfold runBits
  by_cases h0 : s.eobRun > 0
  · rw [if_pos h0] at hw
    rw [if_neg (by omega)]
    simp only at hw
    rw [Option.bind_eq_some_iff] at hw
    obtain ⟨w1, e1, e2⟩ := hw
    have hsh : Nat.log2 s.eobRun <<< 4 = 16 * Nat.log2 s.eobRun := by rw [Nat.shiftLeft_eq]; omega
    rw [hsh] at e1
    have h1 := writeSymbol_bits (reserve_inv 16 hi) (hc h0) e1
    have hl : Nat.log2 s.eobRun < 15 := (Nat.log2_lt (by omega)).2 (by omega)
    by_cases hn : Nat.log2 s.eobRun > 0
    · rw [if_pos hn, Nat.and_two_pow_sub_one_eq_mod] at e2
      have := (writeBits_inv h1 (by omega) (Nat.mod_lt _ (Nat.two_pow_pos _)) e2).1
      rwa [List.append_assoc] at this
    · rw [if_neg hn] at e2
      cases e2
      have : Nat.log2 s.eobRun = 0 := by omega
      rw [this] at h1 ⊢
      simpa using h1
  · rw [if_neg h0] at hw
    cases hw
    rw [if_pos (by omega)]; simpa using hi

theorem writeWords_bits {pre} : ∀ (xs : List Nat) (i : Nat) {B w w'}, WInv pre B w → (∀ x ∈ xs, x < 2 ^ 16) →
    writeWords i xs w = some w' → WInv pre (B ++ xs.flatMap (msb 16)) w' := by
  intro xs
  induction xs with
  | nil => intro i B w w' hi _ hw; cases hw; simpa using hi
  | cons x xs ih =>
    intro i B w w' hi hx hw
    rw [writeWords, Option.bind_eq_some_iff] at hw
    obtain ⟨w1, e1, e2⟩ := hw
    have hi' : WInv pre B (if i % 124 = 0 then reserve w 512 else w) := by
      split
      · exact reserve_inv 512 hi
      · exact hi
    have h1 := (writeBits_inv hi' (by decide) (hx x (by simp)) e1).1
    have := ih (i + 1) h1 (fun y hy => hx y (by simp [hy])) e2
    simpa using this

theorem flush_bits {pre B w w' s s' pend} (hi : WInv pre B w) (hh : Held s pend) (hr : s.eobRun ≤ 0x7FFF)
    (hc : 0 < s.eobRun → Coded s.huff (16 * Nat.log2 s.eobRun)) (hw : flush s w = some (s', w')) :
    s' = flushed s ∧ WInv pre (B ++ runBits s.huff s.eobRun ++ pend) w' := by
  unfold flush at hw
  simp only [Option.bind_eq_some_iff] at hw
  obtain ⟨w1, e1, w2, e2, w3, e3, e4⟩ := hw
  cases e4
  refine ⟨rfl, ?_⟩
  have h1 := flushRun_bits hi hr hc e1
  obtain ⟨ws, L, k1, k2, k3, k4, k5⟩ := hh.words
  have hd : s.count / 16 = ws.length := by omega
  have hm : s.count % 16 = L.length := by omega
  have htk : s.words.reverse.take (s.count / 16) = ws.reverse := by
    rw [hd, k5]
    split
    · rw [List.take_of_length_le (by simp)]
    · rw [List.reverse_cons, List.take_append_of_le_length (by simp), List.take_of_length_le (by simp)]
  rw [htk] at e2
  have h2 := writeWords_bits _ 0 h1 (by intro x hx; exact k1 x (List.mem_reverse.mp hx)) e2
  rw [k3, ← List.append_assoc]
  unfold flushTail at e3
  rw [hm] at e3
  by_cases hL : L = []
  · subst hL
    rw [if_pos (by simp)] at e3
    cases e3
    rw [List.append_nil]
    exact reserve_inv 16 h2
  · have hl0 : L.length ≠ 0 := fun h => hL (List.length_eq_zero_iff.mp h)
    rw [if_neg hl0, k5, if_neg hL] at e3
    simp only at e3
    have h3 := (writeBits_inv (reserve_inv 16 h2) (by omega) (valMsb_lt L) e3).1
    rwa [msb_valMsb] at h3

/-! ## Keeping more bits -/

theorem packNew_bits (bs : List Bool) : packNew (bs.map bit01) = valMsb bs := by
  unfold packNew
  have : ∀ (bs p : List Bool), (bs.map bit01).foldl (fun a b => (a <<< 1) ||| b) (valMsb p) = valMsb (p ++ bs) := by
    intro bs
    induction bs with
    | nil => intro p; simp
    | cons b bs ih =>
      intro p
      have e : (valMsb p <<< 1) ||| bit01 b = valMsb (p ++ [b]) := by
        rw [valMsb_append, Nat.shiftLeft_eq, or_add _ _ _ (by cases b <;> decide)]
        cases b <;> rfl
      rw [List.map_cons, List.foldl_cons, e, ih]; simp
  have h := this bs []
  simpa using h

theorem pushWords_bits (nb : Nat) : ∀ (k : Nat) (N : List Bool) (ws : List Nat) (F : List Bool),
    N.length < 16 * k → nb % 2 ^ N.length = valMsb N → (∀ x ∈ ws, x < 2 ^ 16) → F = ws.reverse.flatMap (msb 16) →
    WordsOk (pushWords nb k N.length ws (16 * ws.length)).1 (pushWords nb k N.length ws (16 * ws.length)).2 (F ++ N) := by
  intro k
  induction k with
  | zero => intro N ws F h; omega
  | succ k ih =>
    intro N ws F hN hnb hw hF
    rw [pushWords]
    by_cases h16 : N.length ≥ 16
    · rw [if_pos h16]
      have hsplit : N = N.take 16 ++ N.drop 16 := (List.take_append_drop 16 N).symm
      have hdl : (N.drop 16).length = N.length - 16 := by rw [List.length_drop]
      have ht : nb >>> (N.length - 16) % 2 ^ 16 = valMsb (N.take 16) := by
        rw [valMsb_take _ _ h16, ← hnb, Nat.shiftRight_eq_div_pow]
        have : (2 : Nat) ^ N.length = 2 ^ (N.length - 16) * 2 ^ 16 := by rw [← Nat.pow_add]; congr 1; omega
        rw [this, Nat.mod_mul_right_div_self]
      have hd : nb % 2 ^ (N.drop 16).length = valMsb (N.drop 16) := by
        rw [valMsb_drop _ _ h16, hdl, ← hnb, Nat.mod_mod_of_dvd _ (Nat.pow_dvd_pow 2 (by omega))]
      have hm : msb 16 (valMsb (N.take 16)) = N.take 16 := by
        have := msb_valMsb (N.take 16)
        rwa [List.length_take, Nat.min_eq_left h16] at this
      have := ih (N.drop 16) (valMsb (N.take 16) :: ws) (F ++ N.take 16) (by omega) hd
        (by
          intro x hx
          rcases List.mem_cons.mp hx with rfl | hx
          · have := valMsb_lt (N.take 16); rwa [List.length_take, Nat.min_eq_left h16] at this
          · exact hw x hx)
        (by rw [hF]; simp [hm])
      rw [hdl, List.append_assoc, ← hsplit, List.length_cons, Nat.mul_add] at this
      rw [ht]
      exact this
    · rw [if_neg h16]
      by_cases h0 : N.length > 0
      · rw [if_pos h0]
        refine ⟨ws, N, hw, by omega, by rw [hF], rfl, ?_⟩
        rw [if_neg (by intro h; rw [h] at h0; simp at h0)]
        show (nb &&& (2 ^ N.length - 1)) :: ws = _
        rw [Nat.and_two_pow_sub_one_eq_mod, hnb]
      · rw [if_neg h0]
        have : N = [] := List.length_eq_zero_iff.mp (by omega)
        subst this
        exact ⟨ws, [], hw, by decide, by rw [hF], rfl, by rw [if_pos rfl]⟩

theorem stored_bits {s : Coding} {pend bs : List Bool} (hs : WordsOk s.words s.count pend) (hb : bs.length ≤ 63) :
    let t := stuffTail s (valMsb bs) bs.length
    let u := pushWords (valMsb bs) 5 t.2.2 t.1 t.2.1
    WordsOk u.1 u.2 (pend ++ bs) := by
  obtain ⟨ws, L, k1, k2, k3, k4, k5⟩ := hs
  have hm : s.count % 16 = L.length := by omega
  simp only
  unfold stuffTail
  simp only [hm]
  by_cases hL : L = []
  · subst hL
    simp only [List.length_nil, if_true] at k5 ⊢
    simp only [List.length_nil, Nat.add_zero] at k4
    rw [k4, k5, k3, List.append_nil]
    exact pushWords_bits _ 5 bs ws _ (by omega) (Nat.mod_eq_of_lt (valMsb_lt bs)) k1 rfl
  · have hl0 : L.length ≠ 0 := fun h => hL (List.length_eq_zero_iff.mp h)
    simp only [hl0, if_false]
    rw [if_neg hL] at k5
    obtain ⟨m, hmm⟩ : ∃ m, m = min (16 - L.length) bs.length := ⟨_, rfl⟩
    rw [← hmm, k5]
    have hmb : m ≤ bs.length := by omega
    have hx : valMsb bs >>> (bs.length - m) % 2 ^ 16 &&& (2 ^ m - 1) = valMsb (bs.take m) := by
      rw [Nat.and_two_pow_sub_one_eq_mod, Nat.mod_mod_of_dvd _ (Nat.pow_dvd_pow 2 (by omega)),
        Nat.shiftRight_eq_div_pow, valMsb_take _ _ hmb, Nat.mod_eq_of_lt]
      have := valMsb_lt (bs.take m)
      rwa [valMsb_take _ _ hmb, List.length_take, Nat.min_eq_left hmb] at this
    have htl : (bs.take m).length = m := by rw [List.length_take, Nat.min_eq_left hmb]
    have ho : ((valMsb L <<< m) ||| valMsb (bs.take m)) % 2 ^ 16 = valMsb (L ++ bs.take m) := by
      have hlt := valMsb_lt (bs.take m)
      rw [htl] at hlt
      rw [Nat.shiftLeft_eq, or_add _ _ _ hlt, valMsb_append, htl, Nat.mod_eq_of_lt]
      have h1 := valMsb_lt (L ++ bs.take m)
      rw [valMsb_append, List.length_append, htl] at h1
      exact Nat.lt_of_lt_of_le h1 (Nat.pow_le_pow_right (by decide) (by omega))
    rw [hx, orLast, ho]
    have hdl : (bs.drop m).length = bs.length - m := by rw [List.length_drop]
    by_cases hfull : L.length + m = 16
    · have hlt : valMsb (L ++ bs.take m) < 2 ^ 16 := by
        have := valMsb_lt (L ++ bs.take m); rwa [List.length_append, htl, hfull] at this
      have hmsb : msb 16 (valMsb (L ++ bs.take m)) = L ++ bs.take m := by
        have := msb_valMsb (L ++ bs.take m); rwa [List.length_append, htl, hfull] at this
      have hd : valMsb bs % 2 ^ (bs.drop m).length = valMsb (bs.drop m) := by
        rw [valMsb_drop _ _ hmb, hdl]
      have := pushWords_bits (valMsb bs) 5 (bs.drop m) (valMsb (L ++ bs.take m) :: ws)
        (ws.reverse.flatMap (msb 16) ++ (L ++ bs.take m)) (by omega) hd
        (by intro x hx; rcases List.mem_cons.mp hx with rfl | hx
            · exact hlt
            · exact k1 x hx) (by simp [hmsb])
      have ec : s.count + m = 16 * (valMsb (L ++ bs.take m) :: ws).length := by rw [List.length_cons]; omega
      have ep : pend ++ bs = ws.reverse.flatMap (msb 16) ++ (L ++ bs.take m) ++ bs.drop m := by
        rw [k3]; simp
      rw [ec, ep, ← hdl]
      exact this
    · have hmn : m = bs.length := by omega
      have hz : bs.length - m = 0 := by omega
      rw [hz]
      have e5 : pushWords (valMsb bs) 5 0 (valMsb (L ++ bs.take m) :: ws) (s.count + m) =
          (valMsb (L ++ bs.take m) :: ws, s.count + m) := by
        rw [pushWords, if_neg (by omega), if_neg (by omega)]
      rw [e5]
      have htb : bs.take m = bs := List.take_of_length_le (by omega)
      rw [htb]
      refine ⟨ws, L ++ bs, k1, by rw [List.length_append]; omega, by rw [k3]; simp, by
        rw [List.length_append]; omega, ?_⟩
      rw [if_neg (by intro h; exact hL (List.append_eq_nil_iff.mp h).1)]

theorem buffered_held {s : Coding} {ac : Huff} {pend bs : List Bool} (hs : Held s pend) (hb : bs.length ≤ 63) :
    Held (buffered s ac (bs.map bit01)) (pend ++ bs) ∧ (buffered s ac (bs.map bit01)).eobRun = s.eobRun + 1 ∧
      (buffered s ac (bs.map bit01)).huff = if s.eobRun = 0 then ac else s.huff := by
  unfold buffered
  simp only [List.length_map, packNew_bits]
  obtain ⟨s1, hs1⟩ : ∃ s1 : Coding, s1 = { (if s.eobRun = 0 then { s with huff := ac } else s) with
      eobRun := (if s.eobRun = 0 then { s with huff := ac } else s).eobRun + 1 } := ⟨_, rfl⟩
  have h1 : s1.words = s.words ∧ s1.count = s.count ∧ s1.eobRun = s.eobRun + 1 ∧
      s1.huff = if s.eobRun = 0 then ac else s.huff := by
    rw [hs1]; by_cases h : s.eobRun = 0 <;> simp [h]
  rw [← hs1]
  have hw : WordsOk s1.words s1.count pend := by rw [h1.1, h1.2.1]; exact hs.words
  by_cases h0 : bs.length = 0
  · have : bs = [] := List.length_eq_zero_iff.mp h0
    subst this
    simp only [List.length_nil, if_true, List.append_nil]
    exact ⟨⟨hw, fun h => by omega⟩, h1.2.2.1, h1.2.2.2⟩
  · simp only [h0, if_false]
    have := stored_bits hw hb
    have he : (if s.eobRun = 0 then { s with huff := ac } else s).eobRun = s.eobRun := by split <;> rfl
    exact ⟨⟨this, fun h => by simp only [he] at h; omega⟩, by simp only [he],
      by by_cases h : s.eobRun = 0 <;> simp [h]⟩

end Jxl.Jpeg
