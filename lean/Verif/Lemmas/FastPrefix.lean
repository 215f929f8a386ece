import Verif.Lemmas.FastCode
import Verif.Lemmas.HuffmanStore
import Verif.Model.FastPrefix
/-!
# The prefix codes of the fast lossless encoder
-/
namespace Jxl.FastCode
open Huffman (rev rev_lt rev_mod rev_split rev_add_div first code hist dropZeros)

/-! ## Canonical words -/

theorem nibble_rev : ∀ x < 16, nibbleLookup.getD x 0 = rev 4 x := by decide

theorem bitReverse_eq {n : Nat} (hn : n ≤ 16) (x : Nat) : bitReverse n x = rev n x := by
  unfold bitReverse
  have h : ∀ y, nibbleLookup.getD (y % 16) 0 = rev 4 y := fun y => by
    rw [nibble_rev _ (Nat.mod_lt _ (by omega)), show 16 = 2 ^ 4 from rfl, rev_mod]
  rw [h, h, h, h]
  have e : rev 4 x * 4096 + rev 4 (x / 16) * 256 + rev 4 (x / 256) * 16 + rev 4 (x / 4096) = rev 16 x := by
    have h1 : rev 16 x = rev 4 x * 4096 + rev 12 (x / 16) := rev_split 4 12 x
    have h2 : rev 12 (x / 16) = rev 4 (x / 16) * 256 + rev 8 (x / 16 / 16) := rev_split 4 8 (x / 16)
    have h3 : rev 8 (x / 256) = rev 4 (x / 256) * 16 + rev 4 (x / 256 / 16) := rev_split 4 4 (x / 256)
    rw [Nat.div_div_eq_div_mul] at h2 h3
    rw [show 16 * 16 = 256 from rfl] at h2
    rw [show 256 * 16 = 4096 from rfl] at h3
    omega
  rw [e]
  have := rev_add_div (16 - n) n x
  rw [show 16 - n + n = 16 by omega] at this
  exact this

theorem assign_spec : ∀ (ls : List Nat) (next : Nat → Nat) (y l : Nat), ls[y]? = some l → l ≤ 15 →
    (assign next ls)[y]? = some (rev l (next l + (ls.take y).count l))
  | [], _, y, l, h, _ => by simp at h
  | a :: ls, next, 0, l, h, h15 => by
    simp at h
    subst h
    simp [assign, bitReverse_eq (show a ≤ 16 by omega)]
  | a :: ls, next, y + 1, l, h, h15 => by
    have ih := assign_spec ls (fun x => if x = a then (next a + 1) % 65536 else next x) y l (by simpa using h) h15
    rw [assign, List.getElem?_cons_succ, ih]
    congr 1
    rw [List.take_succ_cons, List.count_cons]
    by_cases hla : l = a
    · subst hla
      simp only [if_true, beq_self_eq_true]
      rw [← rev_mod, ← rev_mod l (next l + _)]
      congr 1
      have hd : 2 ^ l ∣ 65536 := by rw [show 65536 = 2 ^ 16 from rfl]; exact Nat.pow_dvd_pow 2 (by omega)
      rw [Nat.add_mod, Nat.mod_mod_of_dvd _ hd, ← Nat.add_mod]
      congr 1; omega
    · simp only [if_neg hla]
      have : (a == l) = false := by simp; omega
      simp [this]

theorem nextOf_mod {ls : List Nat} (hlen : ls.length < 256) : ∀ l, l ≤ 15 → nextOf ls l % 2 ^ l = first (hist ls) l % 2 ^ l
  | 0, _ => by simp [Nat.mod_one]
  | l + 1, h => by
    have ih := nextOf_mod hlen l (by omega)
    rw [nextOf, first]
    have hd : 2 ^ (l + 1) ∣ 65536 := by rw [show 65536 = 2 ^ 16 from rfl]; exact Nat.pow_dvd_pow 2 (by omega)
    have hc : ls.count l < 256 := Nat.lt_of_le_of_lt List.count_le_length hlen
    rw [Nat.mod_mod_of_dvd _ hd, Nat.mod_eq_of_lt hc, Nat.pow_succ, Nat.mul_mod_mul_right, Nat.mul_mod_mul_right]
    congr 1
    by_cases h0 : l = 0
    · subst h0; simp [Nat.mod_one]
    · rw [if_neg h0, hist, Nat.add_mod, ih, ← Nat.add_mod]

theorem canonical_spec {a b : List Nat} (h15 : ∀ l ∈ a ++ b, l ≤ 15) (hlen : (a ++ b).length < 256) :
    ∃ c : List Nat, canonical a b = some ((c.take a.length).map (· % 256), c.drop a.length) ∧
      ∀ y l : Nat, (a ++ b)[y]? = some l → c[y]? = some (rev l (code (hist (a ++ b)) l (((a ++ b).take y).count l))) := by
  refine ⟨assign (nextOf (a ++ b)) (a ++ b), ?_, fun y l hy => ?_⟩
  · unfold canonical
    rw [if_neg]
    intro h
    obtain ⟨l, hl, hd⟩ := List.any_eq_true.mp h
    have := h15 l hl
    have := of_decide_eq_true hd
    omega
  · have hl := h15 l (List.mem_of_getElem? hy)
    rw [assign_spec _ _ y l hy hl]
    congr 1
    rw [← rev_mod, ← rev_mod l (code _ _ _), code]
    congr 1
    rw [Nat.add_mod, nextOf_mod hlen l hl, ← Nat.add_mod]

theorem first_congr {f g : Nat → Nat} (h : ∀ l, 1 ≤ l → f l = g l) : ∀ l, first f l = first g l
  | 0 => rfl
  | l + 1 => by
    rw [first, first, first_congr h l]
    by_cases h0 : l = 0
    · simp [h0]
    · rw [if_neg h0, if_neg h0, h l (by omega)]

theorem count_zeros {l : Nat} (h : 1 ≤ l) (k : Nat) : (List.replicate k 0).count l = 0 := by
  rw [List.count_eq_zero]
  intro hm
  have := List.eq_of_mem_replicate hm
  omega

/-- Zeros between two chunks change no word. -/
theorem word_gap_left {a b : List Nat} (k : Nat) {y l : Nat} (h15 : l ≤ 15) (hl : 1 ≤ l) (hy : a[y]? = some l) :
    Prefix.word (a ++ List.replicate k 0 ++ b) y = bitsOf l (rev l (code (hist (a ++ b)) l (((a ++ b).take y).count l))) := by
  have hlt : y < a.length := (List.getElem?_eq_some_iff.mp hy).1
  have hy' : (a ++ List.replicate k 0 ++ b)[y]? = some l := by
    rw [List.append_assoc, List.getElem?_append_left hlt, hy]
  rw [Huffman.word_eq _ hy' h15, code, code, first_congr (f := hist (a ++ List.replicate k 0 ++ b)) (g := hist (a ++ b))]
  · rw [List.append_assoc, List.take_append_of_le_length (by omega), List.take_append_of_le_length (by omega)]
  · intro x hx
    simp [hist, List.count_append, count_zeros hx]

theorem word_gap_right {a b : List Nat} (k : Nat) {y l : Nat} (h15 : l ≤ 15) (hl : 1 ≤ l) (hy : b[y]? = some l) :
    Prefix.word (a ++ List.replicate k 0 ++ b) (a.length + k + y) =
      bitsOf l (rev l (code (hist (a ++ b)) l (((a ++ b).take (a.length + y)).count l))) := by
  have hy' : (a ++ List.replicate k 0 ++ b)[a.length + k + y]? = some l := by
    rw [List.getElem?_append_right (by simp)]
    simp [hy]
  rw [Huffman.word_eq _ hy' h15, code, code, first_congr (f := hist (a ++ List.replicate k 0 ++ b)) (g := hist (a ++ b))]
  · have e : (a ++ List.replicate k 0 ++ b).take (a.length + k + y) = a ++ List.replicate k 0 ++ b.take y := by
      rw [show a.length + k + y = (a ++ List.replicate k 0).length + y by simp, List.take_length_add_append]
    rw [e, List.take_length_add_append]
    simp only [List.count_append, count_zeros hl, Nat.add_zero]
  · intro x hx
    simp [hist, List.count_append, count_zeros hx]

/-! ## Lengths exist -/

theorem within_uniform {L k : Nat} : ∀ (ss : List Sym) (n : Nat), (∀ s ∈ ss, s.lo ≤ 1 ∧ L ≤ s.hi) → 1 ≤ k → k + 1 ≤ L ∨ (k ≤ L ∧ ss.length ≤ n) →
    Within (ss.map Sym.atLeastOne) (List.replicate (min n ss.length) k ++ List.replicate (ss.length - n) (k + 1))
  | [], n, _, _, _ => by simp [Within]
  | s :: ss, n, h, hk, hL => by
    have hs := h s (by simp)
    cases n with
    | zero =>
      have ih := within_uniform ss 0 (fun t ht => h t (by simp [ht])) hk (by simp at hL ⊢; try omega)
      simp only [Nat.zero_min, List.replicate_zero, List.nil_append, Nat.sub_zero, List.length_cons, List.replicate_succ] at ih ⊢
      refine ⟨?_, ?_, ih⟩
      · show max 1 s.lo ≤ k + 1; omega
      · show k + 1 ≤ s.hi; simp at hL; omega
    | succ n =>
      have ih := within_uniform ss n (fun t ht => h t (by simp [ht])) hk (by simp at hL ⊢; omega)
      rw [show min (n + 1) (s :: ss).length = min n ss.length + 1 by simp, List.replicate_succ,
        show (s :: ss).length - (n + 1) = ss.length - n by simp]
      refine ⟨?_, ?_, ih⟩
      · show max 1 s.lo ≤ k; omega
      · show k ≤ s.hi; omega

theorem kraft_replicate (K n l : Nat) : kraft K (List.replicate n l) = n * 2 ^ (K - l) := by simp [kraft]

/-- Limits that let every symbol have any length from 1 to `L` leave a complete code for up to `2^L` symbols. -/
theorem uniform_allowed {syms : List Sym} {L : Nat} (h : ∀ s ∈ syms, s.lo ≤ 1 ∧ L ≤ s.hi ∧ s.hi ≤ 15) (h2 : 2 ≤ (used syms).length)
    (hL : (used syms).length ≤ 2 ^ L) : ∃ ls, CodeLengths.Allowed (syms.map (·.freq)) (syms.map (·.lo)) (syms.map (·.hi)) ls := by
  have hu : ∀ s ∈ used syms, s.lo ≤ 1 ∧ L ≤ s.hi := fun s hs => by
    have := h s (List.mem_filter.mp hs).1
    exact ⟨this.1, this.2.1⟩
  generalize hn : (used syms).length = n at h2 hL
  have hk1 : 2 ^ Nat.log2 n ≤ n := Nat.log2_self_le (by omega)
  have hk2 : n < 2 ^ (Nat.log2 n + 1) := Nat.lt_log2_self
  generalize Nat.log2 n = k at hk1 hk2
  have hk : 1 ≤ k := by
    rcases Nat.eq_zero_or_pos k with h | h
    · subst h; simp at hk2; omega
    · exact h
  have hkL : k ≤ L := by
    have : 2 ^ k ≤ 2 ^ L := by omega
    exact (Nat.pow_le_pow_iff_right (by omega)).mp this
  have hkL2 : k + 1 ≤ L ∨ (k ≤ L ∧ n ≤ 2 ^ (k + 1) - n) := by
    rcases Nat.lt_or_ge k L with g | g
    · left; omega
    · have : k = L := by omega
      subst this
      right
      refine ⟨by omega, ?_⟩
      rw [Nat.pow_succ]; omega
  have hpow : 2 ^ (k + 1) = 2 * 2 ^ k := by rw [Nat.pow_succ]; omega
  have hw := within_uniform (L := L) (k := k) (used syms) (2 ^ (k + 1) - n) hu hk (by rw [hn]; exact hkL2)
  rw [hn] at hw
  have hK : k ≤ prec syms := by
    obtain ⟨s, hs⟩ := List.exists_mem_of_ne_nil (used syms) (by intro h0; rw [h0] at hn; simp at hn; omega)
    have := (foldl_max_le ((used syms).map (·.hi)) 0).2 s.hi (List.mem_map_of_mem hs)
    have := (hu s hs).2
    show k ≤ ((used syms).map (·.hi)).foldl max 0
    omega
  refine ⟨_, (allowed_iff (fun s hs => (h s hs).2.2) _).mpr ⟨_, hw, ?_, rfl⟩⟩
  rw [kraft_append, kraft_replicate, kraft_replicate, show min (2 ^ (k + 1) - n) n = 2 ^ (k + 1) - n by omega]
  rcases hkL2 with g | ⟨_, g⟩
  · have hK2 : k + 1 ≤ prec syms := by
      obtain ⟨s, hs⟩ := List.exists_mem_of_ne_nil (used syms) (by intro h0; rw [h0] at hn; simp at hn; omega)
      have := (foldl_max_le ((used syms).map (·.hi)) 0).2 s.hi (List.mem_map_of_mem hs)
      have := (hu s hs).2
      show k + 1 ≤ ((used syms).map (·.hi)).foldl max 0
      omega
    rw [show 2 ^ prec syms = 2 ^ (k + 1) * 2 ^ (prec syms - (k + 1)) by rw [← Nat.pow_add]; congr 1; omega,
      show 2 ^ (prec syms - k) = 2 * 2 ^ (prec syms - (k + 1)) by rw [← Nat.pow_succ']; congr 1; omega,
      show n - (2 ^ (k + 1) - n) = 2 * n - 2 ^ (k + 1) by omega, ← Nat.mul_assoc, ← Nat.add_mul]
    congr 1
    omega
  · have hn2 : n = 2 ^ k := by omega
    have e1 : 2 ^ (k + 1) - n = 2 ^ k := by omega
    have e2 : n - (2 ^ (k + 1) - n) = 0 := by omega
    rw [e2, e1, Nat.zero_mul, Nat.add_zero, ← Nat.pow_add, show k + (prec syms - k) = prec syms by omega]

/-! ## The two levels -/

/-- The limits the encoder uses, with the number of raw symbols. -/
inductive Depth : List Nat → List Nat → Nat → Prop
  | b8 {n : Nat} (h1 : 1 ≤ n) (h : n ≤ 11) : Depth limits8.1 limits8.2 n
  | b13 {n : Nat} (h1 : 1 ≤ n) (h : n ≤ 16) : Depth limits13.1 limits13.2 n
  | b14 : Depth limits14.1 limits14.2 17
  | b16 : Depth limits16.1 limits16.2 19

/-- Counters from which a code can be made. -/
structure Counts (raw lz : List Nat) : Prop where
  rawLen : raw.length = 19
  lzLen : lz.length = 33
  rawPos : ∀ i, i < (dropZeros raw).length → raw.getD i 0 ≠ 0
  lzTwo : 2 ≤ lz.countP (· ≠ 0)
  lzMany : lz.countP (· ≠ 0) ≤ 32
  small : raw.sum + lz.sum < 2 ^ 59

theorem map_getD_range (l : List Nat) (n : Nat) (h : n ≤ l.length) : (List.range n).map (fun i => l.getD i 0) = l.take n := by
  refine List.ext_getElem (by simp; omega) fun i h1 h2 => ?_
  simp at h1
  simp [show i < l.length by omega]

theorem dropZeros_take (l : List Nat) : dropZeros l = l.take (dropZeros l).length ∧ (dropZeros l).length ≤ l.length := by
  obtain ⟨k, h1, _⟩ := Huffman.dropZeros_spec l
  have hle : (dropZeros l).length ≤ l.length := by
    conv => rhs; rw [h1]
    simp
  refine ⟨?_, hle⟩
  conv => rhs; rhs; rw [h1]
  rw [List.take_left']
  rfl

theorem dropZeros_sum (l : List Nat) : (dropZeros l).sum = l.sum ∧ (dropZeros l).countP (· ≠ 0) = l.countP (· ≠ 0) := by
  obtain ⟨k, h1, _⟩ := Huffman.dropZeros_spec l
  constructor
  · conv => rhs; rw [h1]
    simp
  · conv => rhs; rw [h1]
    rw [List.countP_append, List.countP_replicate]
    simp

theorem level1_freq {lo hi raw lz : List Nat} {n : Nat} (h : n ≤ raw.length) :
    (level1 lo hi raw lz n).map (·.freq) = raw.take n ++ [lz.sum % 2 ^ 64] := by
  unfold level1
  rw [List.map_map, List.range_succ, List.map_append, List.map_singleton]
  congr 1
  · rw [← map_getD_range raw n h]
    refine List.map_congr_left fun i hi => ?_
    simp at hi
    simp [hi]
  · simp

theorem level1_lo {lo hi raw lz : List Nat} {n : Nat} (h : n < lo.length) : (level1 lo hi raw lz n).map (·.lo) = lo.take (n + 1) := by
  rw [← map_getD_range lo (n + 1) h]
  unfold level1
  rw [List.map_map]
  rfl

theorem level1_hi {lo hi raw lz : List Nat} {n : Nat} (h : n < hi.length) : (level1 lo hi raw lz n).map (·.hi) = hi.take (n + 1) := by
  rw [← map_getD_range hi (n + 1) h]
  unfold level1
  rw [List.map_map]
  rfl

theorem depth_length {lo hi : List Nat} {n : Nat} (h : Depth lo hi n) : 1 ≤ n ∧ n < lo.length ∧ n < hi.length ∧ n ≤ 19 := by
  cases h <;> simp [limits8, limits13, limits14, limits16] <;> omega

theorem depth_hi {lo hi : List Nat} {n : Nat} (h : Depth lo hi n) : (∀ i, i < n → hi.getD i 0 ≤ 8) ∧ ∀ i, hi.getD i 0 ≤ 10 := by
  have key : ∀ (l : List Nat), (∀ x ∈ l, x ≤ 10) → ∀ i, l.getD i 0 ≤ 10 := by
    intro l hl i
    rw [List.getD_eq_getElem?_getD]
    cases e : l[i]? with
    | none => simp
    | some v => exact hl v (List.mem_of_getElem? e)
  cases h with
  | b8 h1 h =>
    refine ⟨fun i hi => ?_, key _ (by decide)⟩
    have : ∀ i < 11, limits8.2.getD i 0 ≤ 8 := by decide
    exact this i (by omega)
  | b13 h1 h =>
    refine ⟨fun i hi => ?_, key _ (by decide)⟩
    have : ∀ i < 16, limits13.2.getD i 0 ≤ 8 := by decide
    exact this i (by omega)
  | b14 =>
    refine ⟨?_, key _ (by decide)⟩
    decide
  | b16 =>
    refine ⟨?_, key _ (by decide)⟩
    decide

theorem getD_append_one (a : List Nat) (x i : Nat) (hi : i < (a ++ [x]).length) (ha : ∀ j, j < a.length → a.getD j 0 ≠ 0) (hx : x ≠ 0) :
    (a ++ [x]).getD i 0 ≠ 0 := by
  simp at hi
  rcases Nat.lt_or_ge i a.length with h | h
  · have := ha i h
    simpa [List.getD, List.getElem?_append_left h] using this
  · have : i = a.length := by omega
    subst this
    simpa [List.getD] using hx

theorem take_getD (l : List Nat) {n i : Nat} (h : i < n) : (l.take n).getD i 0 = l.getD i 0 := by
  simp [List.getD, List.getElem?_take, h]

theorem level1_lengths {lo hi raw lz : List Nat} (hd : Depth lo hi (dropZeros raw).length) (hc : Counts raw lz) :
    ∃ l1, lengths (level1 lo hi raw lz (dropZeros raw).length) = some l1 ∧ l1.length = (dropZeros raw).length + 1 ∧ Prefix.Complete l1 ∧
      ∀ i, i < (dropZeros raw).length + 1 → l1.getD i 0 ≠ 0 ∧ l1.getD i 0 ≤ hi.getD i 0 ∧ lo.getD i 0 ≤ l1.getD i 0 := by
  obtain ⟨d1, d2, d3, d4⟩ := depth_length hd
  obtain ⟨_, _⟩ := dropZeros_take raw
  have hraw := hc.rawPos
  generalize hn : (dropZeros raw).length = n at *
  have hnr : n ≤ raw.length := by rw [hc.rawLen]; exact d4
  have hsmall := hc.small
  have hmod : lz.sum % 2 ^ 64 = lz.sum := Nat.mod_eq_of_lt (by omega)
  have hlz : lz.sum ≠ 0 := by
    intro h0
    have h2 := hc.lzTwo
    have : lz.countP (· ≠ 0) = 0 := by
      rw [List.countP_eq_zero]
      intro x hx
      have : ∀ (l : List Nat), l.sum = 0 → ∀ x ∈ l, x = 0 := by
        intro l
        induction l with
        | nil => intro _ _ h; simp at h
        | cons a l ih =>
          intro h x hx
          rw [List.sum_cons] at h
          rcases List.mem_cons.mp hx with rfl | hx
          · omega
          · exact ih (by omega) x hx
      simp [this lz h0 x hx]
    omega
  have hfreq := level1_freq (lo := lo) (hi := hi) (lz := lz) hnr
  have hlo := level1_lo (hi := hi) (raw := raw) (lz := lz) d2
  have hhi := level1_hi (lo := lo) (raw := raw) (lz := lz) d3
  have hlen : (level1 lo hi raw lz n).length = n + 1 := by simp [level1]
  have hpos : ∀ i, i < n + 1 → ((level1 lo hi raw lz n).map (·.freq)).getD i 0 ≠ 0 := by
    intro i hi
    rw [hfreq]
    refine getD_append_one _ _ _ (by simp; omega) (fun j hj => ?_) (by rw [hmod]; exact hlz)
    simp at hj
    rw [take_getD raw (by omega)]
    exact hraw j (by omega)
  have hall : ∀ s ∈ level1 lo hi raw lz n, s.freq ≠ 0 := by
    intro s hs
    obtain ⟨i, hi, rfl⟩ := List.mem_iff_getElem.mp hs
    have := hpos i (by omega)
    simpa [List.getD, hi] using this
  have hused : used (level1 lo hi raw lz n) = level1 lo hi raw lz n := by
    refine List.filter_eq_self.mpr fun s hs => ?_
    simpa using hall s hs
  have hh15 : ∀ s ∈ level1 lo hi raw lz n, s.hi ≤ 15 := by
    intro s hs
    obtain ⟨i, _, rfl⟩ := List.mem_map.mp hs
    have := (depth_hi hd).2 i
    show hi.getD i 0 ≤ 15
    omega
  have hex : ∃ ls, CodeLengths.Allowed ((level1 lo hi raw lz n).map (·.freq)) ((level1 lo hi raw lz n).map (·.lo)) ((level1 lo hi raw lz n).map (·.hi)) ls := by
    have explicit : ∀ ls : List Nat, ls.length = n + 1 → Prefix.Complete ls → (∀ i, i < n + 1 → ls.getD i 0 ≠ 0 ∧ lo.getD i 0 ≤ ls.getD i 0 ∧ ls.getD i 0 ≤ hi.getD i 0) →
        CodeLengths.Allowed ((level1 lo hi raw lz n).map (·.freq)) ((level1 lo hi raw lz n).map (·.lo)) ((level1 lo hi raw lz n).map (·.hi)) ls := by
      intro ls h1 h2 h3
      refine ⟨by simp [h1, hlen], h2, fun i hi => ?_⟩
      have hi' : i < n + 1 := by simpa [hlen] using hi
      refine ⟨fun h => absurd h (hpos i hi'), fun _ => ?_⟩
      rw [hlo, hhi, take_getD lo hi', take_getD _ hi']
      exact h3 i hi'
    cases hd with
    | b8 h1 h =>
      refine uniform_allowed (L := 7) (fun s hs => ⟨?_, ?_, hh15 s hs⟩) (by rw [hused, hlen]; omega) (by rw [hused, hlen]; omega)
      · obtain ⟨i, hi, rfl⟩ := List.mem_map.mp hs
        have : ∀ i < 12, limits8.1.getD i 0 ≤ 1 := by decide
        simp at hi
        exact this i (by omega)
      · obtain ⟨i, hi, rfl⟩ := List.mem_map.mp hs
        have : ∀ i < 12, 7 ≤ limits8.2.getD i 0 := by decide
        simp at hi
        exact this i (by omega)
    | b13 h1 h =>
      refine uniform_allowed (L := 8) (fun s hs => ⟨?_, ?_, hh15 s hs⟩) (by rw [hused, hlen]; omega) (by rw [hused, hlen]; omega)
      · obtain ⟨i, hi, rfl⟩ := List.mem_map.mp hs
        have : ∀ i < 17, limits13.1.getD i 0 ≤ 1 := by decide
        simp at hi
        exact this i (by omega)
      · obtain ⟨i, hi, rfl⟩ := List.mem_map.mp hs
        have : ∀ i < 17, 8 ≤ limits13.2.getD i 0 := by decide
        simp at hi
        exact this i (by omega)
    | b14 => exact ⟨_, explicit [6, 5, 4, 4, 4, 4, 4, 4, 4, 4, 4, 4, 4, 3, 3, 8, 8, 7] rfl ⟨by decide, by decide⟩ (by decide)⟩
    | b16 => exact ⟨_, explicit [5, 4, 4, 4, 4, 4, 4, 4, 4, 4, 3, 3, 3, 8, 8, 8, 8, 8, 8, 7] rfl ⟨by decide, by decide⟩ (by decide)⟩
  have hone : ∃ s ∈ level1 lo hi raw lz n, s.freq ≠ 0 ∧ s.lo ≤ 1 := by
    have hm : (⟨if 0 < n then raw.getD 0 0 else lz.sum % 2 ^ 64, lo.getD 0 0, hi.getD 0 0⟩ : Sym) ∈ level1 lo hi raw lz n :=
      List.mem_map.mpr ⟨0, by simp, rfl⟩
    refine ⟨_, hm, hall _ hm, ?_⟩
    show lo.getD 0 0 ≤ 1
    cases hd <;> decide
  have hsum : ((level1 lo hi raw lz n).map (·.freq)).sum < 2 ^ 59 := by
    rw [hfreq, List.sum_append, hmod]
    have : (raw.take n).sum ≤ raw.sum := by
      have h := congrArg List.sum (List.take_append_drop n raw)
      rw [List.sum_append] at h
      omega
    rw [List.sum_singleton]
    omega
  obtain ⟨l1, e1, e2, _⟩ := lengths_best hh15 hsum hone hex
  refine ⟨l1, e1, by simpa [hlen] using e2.1, e2.2.1, fun i hi => ?_⟩
  have := (e2.2.2 i (by simpa [hlen] using hi)).2 (hpos i hi)
  rw [hlo, hhi, take_getD lo hi, take_getD _ hi] at this
  exact ⟨this.1, this.2.2, this.2.1⟩

theorem level2_lengths {raw lz : List Nat} (hc : Counts raw lz) {l : Nat} (hl : l ≤ 10) :
    ∃ l2, lengths (level2 lz l) = some l2 ∧ l2.length = (dropZeros lz).length ∧ Prefix.Complete l2 ∧
      ∀ i, i < (dropZeros lz).length → (l2.getD i 0 ≠ 0 ↔ lz.getD i 0 ≠ 0) ∧ l2.getD i 0 ≤ 15 - l := by
  have hfreq : (level2 lz l).map (·.freq) = dropZeros lz := by
    rw [level2, List.map_map]; exact List.map_id' _
  have hlen : (level2 lz l).length = (dropZeros lz).length := by simp [level2]
  have hused : (used (level2 lz l)).length = lz.countP (· ≠ 0) := by
    rw [← (dropZeros_sum lz).2, used, ← List.countP_eq_length_filter, level2, List.countP_map]
    congr 1
    funext x
    by_cases h : x = 0 <;> simp [h]
  have hsmall := hc.small
  have h2 := hc.lzTwo
  have hall : ∀ s ∈ level2 lz l, s.lo ≤ 1 ∧ 5 ≤ s.hi ∧ s.hi ≤ 15 := by
    intro s hs
    obtain ⟨x, _, rfl⟩ := List.mem_map.mp hs
    refine ⟨by simp, ?_, ?_⟩
    · show 5 ≤ 15 - l; omega
    · show 15 - l ≤ 15; omega
  have hex := uniform_allowed (L := 5) hall (by rw [hused]; exact h2) (by rw [hused]; exact hc.lzMany)
  have hone : ∃ s ∈ level2 lz l, s.freq ≠ 0 ∧ s.lo ≤ 1 := by
    obtain ⟨s, hs⟩ := List.exists_mem_of_ne_nil (used (level2 lz l)) (by intro h0; rw [h0] at hused; simp only [List.length_nil] at hused; omega)
    obtain ⟨h3, h4⟩ := List.mem_filter.mp hs
    exact ⟨s, h3, by simpa using h4, (hall s h3).1⟩
  obtain ⟨l2, e1, e2, _⟩ := lengths_best (fun s hs => (hall s hs).2.2) (by rw [hfreq, (dropZeros_sum lz).1]; omega) hone hex
  have hll : l2.length = (dropZeros lz).length := by rw [e2.1, hfreq]
  refine ⟨l2, e1, hll, e2.2.1, fun i hi => ?_⟩
  have := e2.2.2 i (by rw [hfreq]; exact hi)
  rw [hfreq] at this
  have hg : (dropZeros lz).getD i 0 = lz.getD i 0 := by
    rw [(dropZeros_take lz).1, take_getD lz hi]
  rw [hg] at this
  have hh : ((level2 lz l).map (·.hi)).getD i 0 = 15 - l := by
    simp [level2, List.getD, hi]
  rw [hh] at this
  by_cases h0 : lz.getD i 0 = 0
  · rw [h0, this.1 h0]
    simp
  · exact ⟨⟨fun _ => h0, fun _ => (this.2 h0).1⟩, (this.2 h0).2.2⟩

/-- All 257 lengths of the code. -/
def Code.lens (c : Code) : List Nat := c.raw ++ List.replicate 205 0 ++ c.lz

/-- What the rest of the encoder relies on. -/
structure Good (lo hi raw lz : List Nat) (c : Code) : Prop where
  rawLen : c.raw.length = 19
  rawBitsLen : c.rawBits.length = 19
  lzLen : c.lz.length = 33
  lzBitsLen : c.lzBits.length = 33
  complete : Prefix.Complete c.lens
  rawUsed : ∀ i, i < 19 → (c.raw.getD i 0 ≠ 0 ↔ raw.getD i 0 ≠ 0)
  lzUsed : ∀ i, i < 33 → (c.lz.getD i 0 ≠ 0 ↔ lz.getD i 0 ≠ 0)
  rawShort : ∀ i, c.raw.getD i 0 ≤ 8
  rawRange : ∀ i, i < (dropZeros raw).length → lo.getD i 0 ≤ c.raw.getD i 0 ∧ c.raw.getD i 0 ≤ hi.getD i 0
  rawWord : ∀ i, c.raw.getD i 0 ≠ 0 → bitsOf (c.raw.getD i 0) (c.rawBits.getD i 0) = Prefix.word c.lens i ∧ c.rawBits.getD i 0 < 2 ^ c.raw.getD i 0
  lzWord : ∀ i, c.lz.getD i 0 ≠ 0 → bitsOf (c.lz.getD i 0) (c.lzBits.getD i 0) = Prefix.word c.lens (224 + i) ∧ c.lzBits.getD i 0 < 2 ^ c.lz.getD i 0

theorem assign_length : ∀ (ls : List Nat) (next : Nat → Nat), (assign next ls).length = ls.length
  | [], _ => rfl
  | _ :: ls, _ => by simp [assign, assign_length ls]

theorem weight_shift (l : Nat) : ∀ (l2 : List Nat), (∀ x ∈ l2, x ≤ 15 - l) → l ≤ 15 →
    Prefix.weight (l2.map fun x => if x ≠ 0 then l + x else 0) * 2 ^ l = Prefix.weight l2
  | [], _, _ => by simp [Prefix.weight]
  | x :: l2, h, hl => by
    have ih := weight_shift l l2 (fun y hy => h y (by simp [hy])) hl
    have hx := h x (by simp)
    rw [List.map_cons, Huffman.weight_cons, Huffman.weight_cons, Nat.add_mul, ih]
    congr 1
    by_cases h0 : x = 0
    · simp [h0]
    · rw [if_pos h0, if_pos h0, if_pos (by omega), ← Nat.pow_add]
      congr 1; omega

theorem getD_pad (a : List Nat) (k i : Nat) : (a ++ List.replicate k 0).getD i 0 = a.getD i 0 := by
  rcases Nat.lt_or_ge i a.length with h | h
  · simp [List.getD, List.getElem?_append_left h]
  · rw [List.getD, List.getD, List.getElem?_append_right h, List.getElem?_eq_none h, List.getElem?_replicate]
    split <;> rfl

theorem some_of_getD {l : List Nat} {i : Nat} (h : l.getD i 0 ≠ 0) : l[i]? = some (l.getD i 0) := by
  rw [List.getD_eq_getElem?_getD, List.getElem?_eq_getElem (Huffman.getD_ne_lt h)]; rfl

theorem getD_of_getElem {l : List Nat} {i x : Nat} (h : l[i]? = some x) : l.getD i 0 = x := by
  rw [List.getD_eq_getElem?_getD, h]; rfl

theorem prefixCode_good {lo hi raw lz : List Nat} (hd : Depth lo hi (dropZeros raw).length) (hc : Counts raw lz) :
    ∃ c, prefixCode lo hi raw lz = some c ∧ Good lo hi raw lz c := by
  obtain ⟨d1, d2, d3, d4⟩ := depth_length hd
  obtain ⟨q1, q2⟩ := depth_hi hd
  obtain ⟨l1, a1, a2, a3, a4⟩ := level1_lengths hd hc
  have hrd := hc.rawPos
  have hrz : ∀ i, (dropZeros raw).length ≤ i → raw.getD i 0 = 0 := by
    intro i hi
    obtain ⟨k, h1, _⟩ := Huffman.dropZeros_spec raw
    rw [h1, getD_pad, List.getD, List.getElem?_eq_none hi]; rfl
  obtain ⟨t1, t2⟩ := dropZeros_take lz
  have hlzz : ∀ i, (dropZeros lz).length ≤ i → lz.getD i 0 = 0 := by
    intro i hi
    obtain ⟨k, h1, _⟩ := Huffman.dropZeros_spec lz
    rw [h1, getD_pad, List.getD, List.getElem?_eq_none hi]; rfl
  unfold prefixCode
  dsimp only
  generalize hn : (dropZeros raw).length = n at *
  rw [if_neg (by omega), a1, Option.bind_some]
  generalize hl : l1.getD n 0 = l
  have hl0 : l ≠ 0 ∧ l ≤ 10 := by
    have := a4 n (by omega)
    have := q2 n
    rw [hl] at *
    omega
  obtain ⟨l2, b1, b2, b3, b4⟩ := level2_lengths hc hl0.2
  rw [b1, Option.bind_some]
  rw [hc.lzLen] at t2
  generalize hm : (dropZeros lz).length = m at *
  have hl2le : ∀ x ∈ l2, x ≤ 15 - l := by
    intro x hx
    obtain ⟨i, hi, rfl⟩ := List.mem_iff_getElem.mp hx
    have := (b4 i (by omega)).2
    simpa [List.getD, hi] using this
  generalize hz : l2.map (fun x => if x ≠ 0 then l + x else 0) ++ List.replicate (33 - l2.length) 0 = lzn
  have hzlen : lzn.length = 33 := by rw [← hz]; simp; omega
  have hzget : ∀ i, lzn.getD i 0 = if l2.getD i 0 ≠ 0 then l + l2.getD i 0 else 0 := by
    intro i
    rw [← hz, getD_pad]
    rcases Nat.lt_or_ge i l2.length with h | h
    · simp [List.getD, h]
    · simp [List.getD, List.getElem?_eq_none h]
  have hz15 : ∀ x ∈ lzn, x ≤ 15 := by
    intro x hx
    rw [← hz] at hx
    rcases List.mem_append.mp hx with hx | hx
    · obtain ⟨y, hy, rfl⟩ := List.mem_map.mp hx
      have := hl2le y hy
      split <;> omega
    · have := List.eq_of_mem_replicate hx; omega
  have hr8 : ∀ x ∈ l1.take n, x ≤ 8 := by
    intro x hx
    obtain ⟨i, hi, rfl⟩ := List.mem_iff_getElem.mp hx
    simp at hi
    have h1 := (a4 i (by omega)).2.1
    have h2 := q1 i (by omega)
    have : l1.getD i 0 ≤ 8 := by omega
    simpa [List.getD, show i < l1.length by omega] using this
  have hrlen : (l1.take n).length = n := by simp; omega
  have h15 : ∀ x ∈ l1.take n ++ lzn, x ≤ 15 := by
    intro x hx
    rcases List.mem_append.mp hx with hx | hx
    · have := hr8 x hx; omega
    · exact hz15 x hx
  obtain ⟨cb, c1, c2⟩ := canonical_spec h15 (by simp; omega)
  have hcb : ∀ y, (l1.take n ++ lzn).length ≤ y ∨ y < cb.length := by
    intro y
    rcases Nat.lt_or_ge y (l1.take n ++ lzn).length with h | h
    · right
      have := c2 y _ (List.getElem?_eq_getElem h)
      exact (List.getElem?_eq_some_iff.mp this).1
    · left; exact h
  have hcbl : cb.length = n + 33 := by
    have h1 : (assign (nextOf (l1.take n ++ lzn)) (l1.take n ++ lzn)).length = n + 33 := by
      rw [assign_length]; simp; omega
    have h2 : canonical (l1.take n) lzn = some (((assign (nextOf (l1.take n ++ lzn)) (l1.take n ++ lzn)).take (l1.take n).length).map (· % 256),
        (assign (nextOf (l1.take n ++ lzn)) (l1.take n ++ lzn)).drop (l1.take n).length) := by
      unfold canonical
      rw [if_neg]
      intro h
      obtain ⟨x, hx, hdx⟩ := List.any_eq_true.mp h
      have := h15 x hx
      have := of_decide_eq_true hdx
      omega
    rw [c1] at h2
    injection h2 with h2
    have h3 := congrArg (fun p => p.1.length) h2
    have h4 := congrArg (fun p => p.2.length) h2
    simp [assign_length] at h3 h4
    omega
  rw [c1, Option.map_some, hrlen]
  refine ⟨_, rfl, ?_⟩
  have hlens : (⟨l1.take n ++ List.replicate (19 - n) 0, (cb.take n).map (· % 256) ++ List.replicate (19 - n) 0, lzn, cb.drop n⟩ : Code).lens =
      l1.take n ++ List.replicate (19 - n + 205) 0 ++ lzn := by
    show l1.take n ++ List.replicate (19 - n) 0 ++ List.replicate 205 0 ++ lzn = _
    rw [List.append_assoc (l1.take n), List.replicate_append_replicate]
  have hw1 : Prefix.weight (l1.take n) + 2 ^ (15 - l) = 2 ^ 15 := by
    have h1 := a3.2
    have h2 : l1 = l1.take n ++ [l] := by
      have h3 : l1.drop n = [l] := by
        rw [List.drop_eq_getElem_cons (by omega), List.drop_eq_nil_of_le (by omega)]
        rw [← hl]
        simp [List.getD, show n < l1.length by omega]
      rw [← h3, List.take_append_drop]
    rw [h2, Huffman.weight_append, Huffman.weight_cons, if_pos hl0.1] at h1
    simpa [Prefix.weight] using h1
  have hw2 : Prefix.weight lzn = 2 ^ (15 - l) := by
    have h1 := weight_shift l l2 hl2le (by omega)
    rw [b3.2] at h1
    have h2 : Prefix.weight lzn = Prefix.weight (l2.map fun x => if x ≠ 0 then l + x else 0) := by
      rw [← hz, Huffman.weight_append, Huffman.weight_zeros (l := List.replicate _ 0) fun x hx => List.eq_of_mem_replicate hx]; rfl
    rw [h2]
    have h3 : 2 ^ 15 = 2 ^ (15 - l) * 2 ^ l := by rw [← Nat.pow_add]; congr 1; omega
    rw [h3] at h1
    exact Nat.eq_of_mul_eq_mul_right (Nat.two_pow_pos l) h1
  have hrawget : ∀ i, (l1.take n ++ List.replicate (19 - n) 0).getD i 0 = (l1.take n).getD i 0 := fun i => getD_pad _ _ _
  refine ⟨by simp; omega, by simp; omega, hzlen, by simp; omega, ?_, ?_, ?_, ?_, ?_, ?_, ?_⟩
  · rw [hlens]
    refine ⟨?_, ?_⟩
    · intro x hx
      rw [List.append_assoc] at hx
      rcases List.mem_append.mp hx with hx | hx
      · have := hr8 x hx; omega
      · rcases List.mem_append.mp hx with hx | hx
        · have := List.eq_of_mem_replicate hx; omega
        · exact hz15 x hx
    · rw [Huffman.weight_append, Huffman.weight_append, Huffman.weight_zeros (l := List.replicate _ 0) fun x hx => List.eq_of_mem_replicate hx, hw2]
      omega
  · intro i _
    show (l1.take n ++ List.replicate (19 - n) 0).getD i 0 ≠ 0 ↔ _
    rw [hrawget]
    rcases Nat.lt_or_ge i n with h | h
    · rw [take_getD l1 h]
      exact ⟨fun _ => hrd i h, fun _ => (a4 i (by omega)).1⟩
    · rw [hrz i h, List.getD, List.getElem?_eq_none (by omega)]
      simp
  · intro i _
    show lzn.getD i 0 ≠ 0 ↔ _
    rw [hzget]
    rcases Nat.lt_or_ge i m with h | h
    · have := (b4 i h).1
      by_cases h0 : l2.getD i 0 = 0
      · rw [if_neg (fun h => h h0), ← this]; exact ⟨fun h => absurd rfl h, fun h => absurd h0 h⟩
      · rw [if_pos h0, ← this]
        exact ⟨fun _ => h0, fun _ => by omega⟩
    · rw [hlzz i h, List.getD, List.getElem?_eq_none (by omega)]
      simp
  · intro i
    show (l1.take n ++ List.replicate (19 - n) 0).getD i 0 ≤ 8
    rw [hrawget, List.getD_eq_getElem?_getD]
    cases e : (l1.take n)[i]? with
    | none => simp
    | some v => exact hr8 v (List.mem_of_getElem? e)
  · intro i hi
    show _ ≤ (l1.take n ++ List.replicate (19 - n) 0).getD i 0 ∧ (l1.take n ++ List.replicate (19 - n) 0).getD i 0 ≤ _
    rw [hn] at hi
    rw [hrawget, take_getD l1 hi]
    have := a4 i (by omega)
    exact ⟨this.2.2, this.2.1⟩
  · intro i hi
    rw [hlens]
    change (l1.take n ++ List.replicate (19 - n) 0).getD i 0 ≠ 0 at hi
    show bitsOf ((l1.take n ++ List.replicate (19 - n) 0).getD i 0) (((cb.take n).map (· % 256) ++ List.replicate (19 - n) 0).getD i 0) = _ ∧
      ((cb.take n).map (· % 256) ++ List.replicate (19 - n) 0).getD i 0 < 2 ^ (l1.take n ++ List.replicate (19 - n) 0).getD i 0
    rw [hrawget] at hi ⊢
    rw [getD_pad]
    have hs := some_of_getD hi
    have hin : i < n := by have := Huffman.getD_ne_lt hi; omega
    have h8 := hr8 _ (List.mem_of_getElem? hs)
    generalize (l1.take n).getD i 0 = x at hi hs h8
    have hc2 := c2 i x (by rw [List.getElem?_append_left (by omega), hs])
    rw [word_gap_left _ (by omega) (by omega) hs]
    generalize code (hist (l1.take n ++ lzn)) x _ = v at hc2 ⊢
    have hlt := rev_lt x v
    have h256 : 2 ^ x ≤ 2 ^ 8 := Nat.pow_le_pow_right (by omega) h8
    have hg : ((cb.take n).map (· % 256)).getD i 0 = rev x v := by
      rw [List.getD_eq_getElem?_getD, List.getElem?_map, List.getElem?_take, if_pos hin, hc2]
      show rev x v % 256 = rev x v
      exact Nat.mod_eq_of_lt (by omega)
    rw [hg]
    exact ⟨rfl, hlt⟩
  · intro i hi
    rw [hlens]
    change lzn.getD i 0 ≠ 0 at hi
    show bitsOf (lzn.getD i 0) ((cb.drop n).getD i 0) = _ ∧ (cb.drop n).getD i 0 < 2 ^ lzn.getD i 0
    have hs := some_of_getD hi
    have h15' := hz15 _ (List.mem_of_getElem? hs)
    generalize lzn.getD i 0 = x at hi hs h15'
    have hc2 := c2 (n + i) x (by rw [List.getElem?_append_right (by omega), hrlen, Nat.add_sub_cancel_left, hs])
    have hw := word_gap_right (a := l1.take n) (19 - n + 205) h15' (by omega) hs
    rw [hrlen, show n + (19 - n + 205) + i = 224 + i by omega] at hw
    rw [hw]
    generalize code (hist (l1.take n ++ lzn)) x _ = v at hc2 ⊢
    have hg : (cb.drop n).getD i 0 = rev x v := by
      rw [List.getD_eq_getElem?_getD, List.getElem?_drop, hc2]; rfl
    rw [hg]
    exact ⟨rfl, rev_lt x v⟩

theorem or_128 {x : Nat} (h : x < 128) : x ||| 128 = 128 + x := by
  have := Nat.two_pow_add_eq_or_of_lt (i := 7) (b := x) (by omega) 1
  rw [Nat.or_comm]
  simpa using this.symm

/-- Neighbouring symbols of eight bits, the first of even rank, have words that differ in the last bit. -/
theorem good_pair {lo hi raw lz : List Nat} {c : Code} (g : Good lo hi raw lz c) {i : Nat} (h1 : c.raw.getD i 0 = 8) (h2 : c.raw.getD (i + 1) 0 = 8)
    (he : (c.lens.take i).count 8 % 2 = 0) : c.rawBits.getD (i + 1) 0 = c.rawBits.getD i 0 ||| 128 := by
  have key : ∀ j, c.raw.getD j 0 = 8 → c.rawBits.getD j 0 = rev 8 (first (hist c.lens) 8 + (c.lens.take j).count 8) ∧ c.lens[j]? = some 8 := by
    intro j hj
    obtain ⟨w, lt⟩ := g.rawWord j (by omega)
    rw [hj] at w lt
    have hs := some_of_getD (l := c.raw) (i := j) (by omega)
    rw [hj] at hs
    have hs' : c.lens[j]? = some 8 := by
      rw [Code.lens, List.append_assoc, List.getElem?_append_left (List.getElem?_eq_some_iff.mp hs).1, hs]
    rw [Huffman.word_eq _ hs' (by omega)] at w
    have := congrArg ofBits w
    rw [ofBits_bitsOf_lt lt, ofBits_bitsOf_lt (rev_lt _ _)] at this
    exact ⟨this, hs'⟩
  obtain ⟨k1, s1⟩ := key i h1
  obtain ⟨k2, _⟩ := key (i + 1) h2
  have hc : (c.lens.take (i + 1)).count 8 = (c.lens.take i).count 8 + 1 := by
    rw [List.take_succ, s1, List.count_append]; rfl
  rw [k1, k2, hc]
  have hf : first (hist c.lens) 8 % 2 = 0 := by rw [first]; omega
  generalize first (hist c.lens) 8 = f at hf
  generalize (c.lens.take i).count 8 = m at he
  have e1 : rev 8 (f + (m + 1)) = 128 + rev 7 ((f + m) / 2) := by
    rw [show rev 8 (f + (m + 1)) = (f + (m + 1)) % 2 * 2 ^ 7 + rev 7 ((f + (m + 1)) / 2) from rfl, show (f + (m + 1)) % 2 = 1 by omega,
      show (f + (m + 1)) / 2 = (f + m) / 2 by omega]
  have e2 : rev 8 (f + m) = rev 7 ((f + m) / 2) := by
    rw [show rev 8 (f + m) = (f + m) % 2 * 2 ^ 7 + rev 7 ((f + m) / 2) from rfl, show (f + m) % 2 = 0 by omega]
    omega
  rw [e1, e2, or_128 (rev_lt 7 _)]

/-- The rank of a symbol of eight bits if the first `k` symbols have shorter words and those from there on have eight bits. -/
theorem rank_from {lo hi raw lz : List Nat} {c : Code} (g : Good lo hi raw lz c) {k : Nat} (hs : ∀ i, i < k → c.raw.getD i 0 ≤ 7) (hk : k ≤ 19) :
    ∀ d, k + d ≤ 19 → (∀ i, k ≤ i → i < k + d → c.raw.getD i 0 = 8) → (c.lens.take (k + d)).count 8 = d
  | 0, _, _ => by
    rw [List.count_eq_zero]
    intro hm
    rw [Code.lens, List.append_assoc, List.take_append_of_le_length (by rw [g.rawLen]; omega)] at hm
    obtain ⟨i, hi, he⟩ := List.mem_iff_getElem.mp hm
    have hr := g.rawLen
    simp only [List.length_take] at hi
    have h1 := hs i (by omega)
    rw [List.getElem_take] at he
    rw [List.getD_eq_getElem?_getD, List.getElem?_eq_getElem (by omega), he] at h1
    simp at h1
  | d + 1, hd, h8 => by
    have ih := rank_from g hs hk d (by omega) fun i h1 h2 => h8 i h1 (by omega)
    have h := h8 (k + d) (by omega) (by omega)
    have hsm := some_of_getD (l := c.raw) (i := k + d) (by omega)
    rw [h] at hsm
    have hs' : c.lens[k + d]? = some 8 := by
      rw [Code.lens, List.append_assoc, List.getElem?_append_left (List.getElem?_eq_some_iff.mp hsm).1, hsm]
    rw [show k + (d + 1) = (k + d) + 1 by omega, List.take_succ, hs', List.count_append, ih]; rfl

end Jxl.FastCode
