import Verif.Lemmas.AcTokensSplit
import Verif.Lemmas.Lehmer
import Verif.Lemmas.HybridUint
/-!
# C49: quantized coefficients
-/
namespace Jxl.Props
open AcTokens AcTokens.Spec CoeffOrder
open AcStrategy.Spec (Varblock Tiling)

/-- Both sides start from whatever their buffers happen to contain.  For every layout of a group, every subsampling that
goes with it, every context map, all usable coefficient orders and all passes: the encoder produces tokens for each pass,
in contexts that exist; and the decoder, with anything behind the tokens, takes exactly these tokens and adds the shifted
values of all the passes to each coefficient, leaving the low frequencies and everything else alone. -/
theorem C49_round_trip (bits : Nat) (e : Env) (w h : Nat) (bs : List Varblock) (ht : Tiling ⟨0, 0, w, h⟩ bs)
    (hs : Sampled e bs) (hm : MapOk e.cm) (hdc : ∀ b ∈ bs, e.qdc b.x b.y < e.cm.numDcCtxs)
    (qs : List Pass) (hp : ∀ q ∈ qs, PassOk e.cm q)
    (ho : ∀ q ∈ qs, ∀ b ∈ bs, ∀ c, c < 3 → GoodOrder b.t (q.order (ordOf b.t) c))
    (ac : Nat → Nat → Nat → Int) (hr : ∀ j c i, -2 ^ 31 ≤ ac j c i ∧ ac j c i < 2 ^ 31)
    (hz : ∀ (i : Nat) (v : Visit), (visits bs)[i]? = some v → ∀ c, c < 3 → e.has v c = true → area v.t ≠ 64 →
      ∀ k, k < area v.t → Low v k → ∀ j, j < qs.length → ac j c (encStart e (visits bs) c i + k) = 0)
    (nzE : Nat → Nat → NzImage) (nzD : Nat → Nat → NzImage) (co : Nat → Nat → Int)
    (hco : ∀ c k, wrap bits (co c k) = co c k) (rest : Nat → List Token) :
    ∃ toks : Nat → List Token,
      (∀ (j : Nat) (q : Pass), qs[j]? = some q →
        encGroup e q.order (ac j) (visits bs) ⟨nzE j, fun _ => 0⟩ = .ok (toks j) ∧
          ∀ x ∈ toks j, x.1 < e.cm.numACContexts ∧ x.2 < 2 ^ 32) ∧
      ∃ s', decGroup bits e qs (visits bs) 0 ⟨nzD, fun j => toks j ++ rest j, co⟩ = .ok s' ∧
        (∀ j, j < qs.length → s'.ts j = rest j) ∧
        (∀ (i : Nat) (v : Visit), (visits bs)[i]? = some v → ∀ c, c < 3 → ∀ k, k < area v.t →
          s'.co c (decStart (visits bs) i + k) =
            if e.has v c = true ∧ ¬ Low v k then
              wrap bits (co c (decStart (visits bs) i + k) +
                total qs 0 fun j => ac j c (encStart e (visits bs) c i + k))
            else co c (decStart (visits bs) i + k)) ∧
        ∀ c i, decStart (visits bs) (visits bs).length ≤ i → s'.co c i = co c i := by
  have H : Hyp e qs (fun j => ((qs[j]?).map (·.order)).getD fun _ _ => []) ac :=
    ⟨hm, hp, fun j q hq => by rw [hq]; rfl, hr⟩
  have mem : ∀ v ∈ visits bs, ∃ b ∈ bs, v = ⟨b.x, b.y, b.t⟩ := by
    intro v hv
    obtain ⟨b, hb, he⟩ := List.mem_map.1 hv
    exact ⟨b, hb, he.symm⟩
  obtain ⟨toks, g1, g2⟩ := group_ok H (visits bs) [] (fun j => ⟨nzE j, fun _ => 0⟩) (fun _ => 0)
    (fun v hv => by
      obtain ⟨b, hb, rfl⟩ := mem v hv
      refine ⟨(ht.fits b hb).1, hdc b hb, fun j hj c hc => ?_⟩
      rw [List.getElem?_eq_getElem hj]
      exact ho _ (List.getElem_mem hj) b hb c hc)
    (fun j _ c _ => rfl)
    (fun a v b hab c hc hh => ready_of_tiling ht hs hab hh)
    (fun i v hv c hc hh h1 k hk hl j hj => by
      rw [Nat.zero_add]
      exact hz i v hv c hc hh (fun h => h1 (by rw [area_eq, Visit.size] at h; omega)) k (by rw [area_eq]; exact hk) hl j hj)
  refine ⟨toks, ?_, ?_⟩
  · intro j q hq
    obtain ⟨hj, -⟩ := List.getElem?_eq_some_iff.1 hq
    have := g1 j hj
    rw [hq] at this
    exact this
  · obtain ⟨s', d1, d2, d3, d4⟩ := g2 bits 0 rest ⟨nzD, fun j => toks j ++ rest j, co⟩ hco (fun _ _ => rfl)
      (fun j _ c _ u hu => absurd hu List.not_mem_nil)
    refine ⟨s', d1, d2, ?_, ?_⟩
    · intro i v hv c hc k hk
      have := d3 i v hv c hc k (by rw [← area_eq]; exact hk)
      simpa only [Nat.zero_add] using this
    · intro c i hi
      exact d4 c i (Or.inr (by omega))

/-- Whatever the stream contains, the decoder's accesses to the context tables, the context map and the coefficients stay
in range; a wrong number of nonzeros is refused. -/
theorem C49_decoder_safe (bits : Nat) (e : Env) (hm : MapOk e.cm) (qs : List Pass) (hp : ∀ q ∈ qs, PassOk e.cm q)
    (vs : List Visit) (hv : ∀ v ∈ vs, v.t < 27 ∧ e.qdc v.bx v.by' < e.cm.numDcCtxs)
    (ho : ∀ q ∈ qs, ∀ v ∈ vs, ∀ c, c < 3 → GoodOrder v.t (q.order (ordOf v.t) c)) (off : Nat) (s : DecState) :
    decGroup bits e qs vs off s ≠ .ub := by
  refine group_safe bits hm qs hp vs (fun v hv' => ⟨(hv v hv').1, (hv v hv').2, fun q hq c hc p hp' => ?_⟩) off s
  have := List.mem_range.1 ((ho q hq v hv' c hc).1.mem_iff.1 hp')
  rw [Visit.size, covered_cxcy]; omega

/-- Splitting into refining passes loses nothing: the shifted parts of each coefficient other than the low frequencies
add up to its value. -/
theorem C49_split (cx cy x y : Nat) (v : Int) (ps : List PassDef) (hr : Refining 1 0 ps)
    (hin : x < 8 * cx ∧ y < 8 * cy) (hl : ¬ (x < cx ∧ y < cy)) : recombine ps (split cx cy x y v ps) = v :=
  split_sum cx cy x y v ⟨by omega, by omega⟩ ps hr (fun h => hl ⟨by have := h.1; omega, by have := h.2; omega⟩)

/-- The modes offered by the encoder (enc_frame.cc:266-277), and a single pass. -/
def builtinModes : List (List PassDef) := [[⟨8, 0⟩], [⟨2, 0⟩, ⟨3, 0⟩, ⟨8, 0⟩], [⟨8, 1⟩, ⟨8, 0⟩]]

example : ∀ m ∈ builtinModes, Refining 1 0 m := by
  simp [builtinModes, Refining]

/-- A mode that satisfies the assertions can lose bits: here the second pass leaves out what the first pass would have
carried if it had covered the coefficient.  3 becomes 1. -/
theorem C49_split_loses_bits : Asserted 1 0 [⟨4, 1⟩, ⟨8, 0⟩] ∧
    recombine [⟨4, 1⟩, ⟨8, 0⟩] (split 1 1 5 5 3 [⟨4, 1⟩, ⟨8, 0⟩]) = 1 := by
  refine ⟨by simp [Asserted], by decide +kernel⟩

/-- The value of a symbol has at most the number of bits that is recorded for the symbol. -/
theorem C49_symbol_bits (c : Hybrid.Config) (symbol : Nat) (s rest : List Bool) (v : Nat)
    (h : Hybrid.read c symbol s = some (v, rest)) : v < 2 ^ symbolBits c symbol := by
  unfold Hybrid.read at h
  unfold symbolBits
  by_cases hs : symbol < c.splitToken
  · rw [if_pos hs] at h ⊢
    cases h
    exact hs
  · rw [if_neg hs] at h ⊢
    dsimp only at h ⊢
    generalize c.splitExp - (c.msb + c.lsb) + (symbol - c.splitToken) >>> (c.msb + c.lsb) = ex at h
    obtain ⟨⟨b, s'⟩, h1, h2⟩ := Option.map_eq_some_iff.1 h
    have hb := rdBits_lt h1
    cases h2
    have hn : ex % 2 ^ 32 &&& 31 ≤ ex := Nat.le_trans Nat.and_le_left (Nat.mod_le _ _)
    generalize ex % 2 ^ 32 &&& 31 = n at hn hb
    refine Nat.lt_of_le_of_lt (Nat.mod_le _ _) ?_
    have a1 : 2 ^ c.msb ||| (symbol >>> c.lsb &&& 2 ^ c.msb - 1) < 2 ^ (c.msb + 1) := by
      apply Nat.or_lt_two_pow
      · exact Nat.pow_lt_pow_right (by omega) (by omega)
      · have := Nat.and_le_right (n := symbol >>> c.lsb) (m := 2 ^ c.msb - 1)
        have p1 := Nat.two_pow_pos c.msb
        have p2 : 2 ^ (c.msb + 1) = 2 ^ c.msb * 2 := Nat.pow_succ ..
        omega
    have a2 : (2 ^ c.msb ||| (symbol >>> c.lsb &&& 2 ^ c.msb - 1)) <<< n ||| b < 2 ^ (c.msb + 1 + n) := by
      apply Nat.or_lt_two_pow
      · rw [Nat.shiftLeft_eq, Nat.pow_add]
        exact Nat.mul_lt_mul_of_pos_right a1 (Nat.two_pow_pos n)
      · exact Nat.lt_of_lt_of_le hb (Nat.pow_le_pow_right (by omega) (by omega))
    have a3 : ((2 ^ c.msb ||| (symbol >>> c.lsb &&& 2 ^ c.msb - 1)) <<< n ||| b) <<< c.lsb |||
        (symbol &&& 2 ^ c.lsb - 1) < 2 ^ (c.msb + 1 + n + c.lsb) := by
      apply Nat.or_lt_two_pow
      · rw [Nat.shiftLeft_eq, Nat.pow_add]
        exact Nat.mul_lt_mul_of_pos_right a2 (Nat.two_pow_pos _)
      · have := Nat.and_le_right (n := symbol) (m := 2 ^ c.lsb - 1)
        have p1 := Nat.two_pow_pos c.lsb
        have : 2 ^ c.lsb ≤ 2 ^ (c.msb + 1 + n + c.lsb) := Nat.pow_le_pow_right (by omega) (by omega)
        omega
    exact Nat.lt_of_lt_of_le a3 (Nat.pow_le_pow_right (by omega) (by omega))

theorem zigzag_bound {b : Nat} {v : Int} (h : zigzag v < 2 ^ b) : -(2 ^ b : Int) ≤ 2 * v ∧ 2 * v < 2 ^ b := by
  have e : ((2 ^ b : Nat) : Int) = 2 ^ b := by norm_cast
  have : ((zigzag v : Nat) : Int) < 2 ^ b := by rw [← e]; exact Int.ofNat_lt.2 h
  unfold zigzag at this
  split at this <;> omega

theorem total_bound {b : Nat} (f : Nat → Int) (hf : ∀ j, zigzag (f j) < 2 ^ b) : ∀ (qs : List Pass) (i : Nat),
    (∀ q ∈ qs, q.shift ≤ 1) →
    -(qs.length * 2 ^ (b + 1) : Int) ≤ 2 * total qs i f ∧ 2 * total qs i f ≤ qs.length * 2 ^ (b + 1) := by
  intro qs
  induction qs with
  | nil => intro i _; simp [total]
  | cons q qs ih =>
    intro i hq
    have h1 := ih (i + 1) (fun q hq' => hq q (List.mem_cons_of_mem _ hq'))
    have h2 := zigzag_bound (hf i)
    have h3 := hq q List.mem_cons_self
    have hpos : (0 : Int) < 2 ^ b := Int.pow_pos (by omega)
    have hb : (2 : Int) ^ (b + 1) = 2 * 2 ^ b := by rw [Int.pow_succ, Int.mul_comm]
    have hl : (((q :: qs).length : Nat) : Int) * 2 ^ (b + 1) = qs.length * 2 ^ (b + 1) + 2 ^ (b + 1) := by
      rw [List.length_cons, Int.natCast_add, Int.add_mul]; simp
    unfold total
    rw [hl]
    have hs : q.shift = 0 ∨ q.shift = 1 := by omega
    rcases hs with hs | hs <;> rw [hs] <;> simp only [Int.pow_zero, Int.pow_one] <;> omega

theorem total_append (f : Nat → Int) : ∀ (qs : List Pass) (q : Pass) (i : Nat),
    total (qs ++ [q]) i f = total qs i f + f (i + qs.length) * 2 ^ q.shift := by
  intro qs
  induction qs with
  | nil => intro q i; simp [total]
  | cons p qs ih =>
    intro q i
    rw [List.cons_append, total, total, ih, List.length_cons, Int.add_assoc]
    congr 4
    omega

/-- If no pass but possibly earlier ones is shifted, and by one bit at most, then 16 bits are chosen only when they are
enough. -/
theorem C49_narrow_enough (maxBits : Nat) (qs : List Pass) (last : Pass) (f : Nat → Int)
    (hf : ∀ j, zigzag (f j) < 2 ^ maxBits) (hq : ∀ q ∈ qs, q.shift ≤ 1) (hl : last.shift = 0)
    (h16 : width maxBits (qs ++ [last]).length = 16) : wrap 16 (total (qs ++ [last]) 0 f) = total (qs ++ [last]) 0 f := by
  have hc : maxBits + Lehmer.ceilLog2 (qs ++ [last]).length < 16 := by
    unfold width at h16
    by_cases hc : maxBits + Lehmer.ceilLog2 (qs ++ [last]).length < 16
    · exact hc
    · rw [if_neg hc] at h16; cases h16
  rw [List.length_append, List.length_singleton] at hc
  have hn := (Lehmer.ceilLog2_spec (qs.length + 1) (by omega)).1
  rw [total_append, hl, Int.pow_zero, Int.mul_one, Nat.zero_add]
  have h1 := total_bound f hf qs 0 hq
  have h2 := zigzag_bound (hf qs.length)
  -- everything in natural numbers: (2 n + 1) 2^b ≤ 2^16
  have key : (2 * qs.length + 1) * 2 ^ maxBits < 2 ^ 16 := by
    have hle : 2 ^ maxBits * 2 ^ Lehmer.ceilLog2 (qs.length + 1) ≤ 2 ^ 15 := by
      rw [← Nat.pow_add]; exact Nat.pow_le_pow_right (by omega) (by omega)
    have hmul : 2 ^ maxBits * (qs.length + 1) ≤ 2 ^ maxBits * 2 ^ Lehmer.ceilLog2 (qs.length + 1) :=
      Nat.mul_le_mul_left _ hn
    have hpos := Nat.two_pow_pos maxBits
    rw [Nat.mul_comm]
    have : 2 ^ maxBits * (2 * qs.length + 1) + 2 ^ maxBits = 2 * (2 ^ maxBits * (qs.length + 1)) := by
      rw [Nat.mul_add, Nat.mul_add, Nat.mul_left_comm]; omega
    omega
  have keyZ : (2 * (qs.length : Int) + 1) * 2 ^ maxBits < 65536 := by
    have := Int.ofNat_lt.2 key
    simpa using this
  have hb : (2 : Int) ^ (maxBits + 1) = 2 * 2 ^ maxBits := by rw [Int.pow_succ, Int.mul_comm]
  rw [hb] at h1
  rw [Int.add_mul, Int.one_mul, Int.mul_assoc] at keyZ
  rw [Int.mul_left_comm] at h1
  apply wrap_id
  · generalize (2 : Int) ^ maxBits = P at *
    generalize (qs.length : Int) * P = R at *
    omega
  · generalize (2 : Int) ^ maxBits = P at *
    generalize (qs.length : Int) * P = R at *
    omega

/-- With a shift of two, which the format allows and a custom mode can use, 16 bits are chosen although the coefficient
does not fit: -32769 is split without loss into values of at most 14 bits, two passes make 15, and the decoder stores
32767. -/
theorem C49_narrow_wraps :
    Refining 1 0 [⟨8, 2⟩, ⟨8, 0⟩] ∧ split 1 1 3 4 (-32769) [⟨8, 2⟩, ⟨8, 0⟩] = [-8192, -1] ∧
      zigzag (-8192) < 2 ^ 14 ∧ zigzag (-1) < 2 ^ 14 ∧ width 14 2 = 16 ∧
      wrap 16 (total [⟨2, 0, 0, fun _ _ => []⟩, ⟨0, 0, 0, fun _ _ => []⟩] 0 fun j => [-8192, -1].getD j 0) = 32767 := by
  refine ⟨by simp [Refining], by decide +kernel, by decide +kernel, by decide +kernel, by decide +kernel, by decide +kernel⟩

/-- From the coefficients to the coefficients: split into refining passes, coded and decoded from zero, every coefficient
that fits the width is restored, apart from the low frequencies, which stay zero. -/
theorem C49_progressive (bits : Nat) (e : Env) (w h : Nat) (bs : List Varblock) (ht : Tiling ⟨0, 0, w, h⟩ bs)
    (hs : Sampled e bs) (hm : MapOk e.cm) (hdc : ∀ b ∈ bs, e.qdc b.x b.y < e.cm.numDcCtxs)
    (qs : List Pass) (hp : ∀ q ∈ qs, PassOk e.cm q)
    (ho : ∀ q ∈ qs, ∀ b ∈ bs, ∀ c, c < 3 → GoodOrder b.t (q.order (ordOf b.t) c))
    (ps : List PassDef) (hps : Refining 1 0 ps) (hsh : qs.map (·.shift) = ps.map (·.shift))
    (orig : Nat → Nat → Int) (ac : Nat → Nat → Nat → Int) (hr : ∀ j c i, -2 ^ 31 ≤ ac j c i ∧ ac j c i < 2 ^ 31)
    (hsplit : ∀ (i : Nat) (v : Visit), (visits bs)[i]? = some v → ∀ c, c < 3 → ∀ k, k < area v.t → ∀ j, j < ps.length →
      ac j c (encStart e (visits bs) c i + k) =
        (split (cxOf v.t) (cyOf v.t) (k % (8 * cxOf v.t)) (k / (8 * cxOf v.t)) (orig c (encStart e (visits bs) c i + k))
          ps).getD j 0)
    (hz : ∀ (i : Nat) (v : Visit), (visits bs)[i]? = some v → ∀ c, c < 3 → e.has v c = true → area v.t ≠ 64 →
      ∀ k, k < area v.t → Low v k → orig c (encStart e (visits bs) c i + k) = 0)
    (nzE : Nat → Nat → NzImage) (nzD : Nat → Nat → NzImage) (rest : Nat → List Token) :
    ∃ toks : Nat → List Token,
      (∀ (j : Nat) (q : Pass), qs[j]? = some q →
        encGroup e q.order (ac j) (visits bs) ⟨nzE j, fun _ => 0⟩ = .ok (toks j)) ∧
      ∃ s', decGroup bits e qs (visits bs) 0 ⟨nzD, fun j => toks j ++ rest j, fun _ _ => 0⟩ = .ok s' ∧
        ∀ (i : Nat) (v : Visit), (visits bs)[i]? = some v → ∀ c, c < 3 → ∀ k, k < area v.t →
          s'.co c (decStart (visits bs) i + k) =
            if e.has v c = true ∧ ¬ Low v k then wrap bits (orig c (encStart e (visits bs) c i + k)) else 0 := by
  have hlen : qs.length = ps.length := by
    have := congrArg List.length hsh
    simpa using this
  have hw0 : wrap bits 0 = 0 := Int.zero_bmod
  obtain ⟨toks, g1, s', d1, d2, d3, d4⟩ := C49_round_trip bits e w h bs ht hs hm hdc qs hp ho ac hr
    (fun i v hv c hc hh h1 k hk hl j hj => by
      rw [hsplit i v hv c hc k hk j (by omega), hz i v hv c hc hh h1 k hk hl]
      have hall : ∀ (ps : List PassDef) (a b d s : Nat) (x : Int), x ∈ splitLoop (cxOf v.t) (cyOf v.t) a b 0 ps d s → x = 0 := by
        intro ps
        have hsr : ∀ n, shiftRound0 0 n = 0 := fun n => by rw [sr_nonneg (Int.le_refl 0), Int.zero_ediv]
        induction ps with
        | nil => intro a b d s x hx; exact absurd hx List.not_mem_nil
        | cons p ps ih =>
          intro a b d s x hx
          unfold splitLoop at hx
          rcases List.mem_cons.1 hx with rfl | hx
          · dsimp only
            simp only [hsr, Int.zero_mul, Int.sub_zero, ite_self]
          · exact ih _ _ _ _ _ hx
      have : ∀ x ∈ split (cxOf v.t) (cyOf v.t) (k % (8 * cxOf v.t)) (k / (8 * cxOf v.t)) 0 ps, x = 0 := by
        intro x hx
        unfold split at hx
        split at hx
        · simpa using hx
        · exact hall _ _ _ _ _ _ hx
      generalize split (cxOf v.t) (cyOf v.t) (k % (8 * cxOf v.t)) (k / (8 * cxOf v.t)) 0 ps = l at this
      rw [List.getD_eq_getElem?_getD]
      cases hl : l[j]? with
      | none => rfl
      | some x => exact this x (List.mem_of_getElem? hl))
    nzE nzD (fun _ _ => 0) (fun _ _ => hw0) rest
  refine ⟨toks, fun j q hq => (g1 j q hq).1, s', d1, ?_⟩
  intro i v hv c hc k hk
  rw [d3 i v hv c hc k hk]
  by_cases hh : e.has v c = true ∧ ¬ Low v k
  · rw [if_pos hh, if_pos hh, Int.zero_add]
    congr 1
    have hcx : area v.t = 8 * cxOf v.t * (8 * cyOf v.t) := by
      rw [area, llf_eq]
      rw [Nat.mul_assoc 8, Nat.mul_left_comm (cxOf v.t) 8]; omega
    have hpos : 0 < 8 * cxOf v.t := by
      rcases Nat.eq_zero_or_pos (cxOf v.t) with h0 | h0
      · rw [hcx, h0] at hk; omega
      · omega
    have hx : k % (8 * cxOf v.t) < 8 * cxOf v.t := Nat.mod_lt _ hpos
    have hy : k / (8 * cxOf v.t) < 8 * cyOf v.t := Nat.div_lt_of_lt_mul (by rw [← hcx]; exact hk)
    rw [total_recombine qs ps _ 0 _ hsh (split_length _ _ _ _ _ ps) (fun j hj => by
      rw [Nat.zero_add, hsplit i v hv c hc k hk j (by rw [split_length] at hj; exact hj)])]
    exact C49_split _ _ _ _ _ ps hps ⟨hx, hy⟩ hh.2
  · rw [if_neg hh, if_neg hh]

theorem encLoop_zero {log2 histo : Nat} {block : Nat → Int} {nz : Nat} (h0 : 0 < nz) (hn : nz ≤ 63 * 2 ^ log2) :
    ∀ (ps : List Nat) (k prev : Nat), prev ≤ 1 → 2 ^ log2 ≤ k → k + ps.length ≤ 64 * 2 ^ log2 → (∀ p ∈ ps, block p = 0) →
      ∃ toks, encLoop (2 ^ log2) log2 histo block ps k nz prev = .ok (toks, nz) := by
  intro ps
  induction ps with
  | nil => intro k prev _ _ _ _; exact ⟨[], rfl⟩
  | cons p ps ih =>
    intro k prev hp hk hl hz
    rw [List.length_cons] at hl
    obtain ⟨c, hc, -, -⟩ := zd_ok (log2 := log2) (prev := prev) h0 hk (by omega) hn hp
    obtain ⟨toks, e1⟩ := ih (k + 1) 0 (by omega) (by omega) (by omega) (fun p hp => hz p (List.mem_cons_of_mem _ hp))
    refine ⟨(histo + c, zigzag (block p)) :: toks, ?_⟩
    rw [encLoop, if_neg (by omega), hc]
    simp only [Out.bind]
    have : block p = 0 := hz p List.mem_cons_self
    rw [if_neg (fun h => h this), Nat.sub_zero, e1]

/-- The mask that is meant to hide the low frequencies from the count of nonzeros hides nothing for transforms of 2 to 16
blocks across: if the array held a nonzero low frequency, the encoder would refuse the group.  (The quantizer keeps them
zero.) -/
theorem C49_low_frequency_refused (e : Env) (hm : MapOk e.cm) (v : Visit) (hv : v.t < 27) (hc : area v.t ≠ 64)
    (hx : cxOf v.t ≤ 28) (hdc : e.qdc v.bx v.by' < e.cm.numDcCtxs) (c : Nat) (order : List Nat)
    (ho : GoodOrder v.t order) (block : Nat → Int) (hb : ∀ i, block i ≠ 0 ↔ i = 0) (nz : NzImage) :
    encBlock e order v c block nz = .fail := by
  have hcov : v.covered ≠ 1 := fun h => hc (by rw [area_eq, Visit.size]; omega)
  have hpos := covered_pos hv
  have hpow := covered_pow hv
  have hone : countLarge (cxOf v.t) (cyOf v.t) block = 1 := by
    unfold countLarge
    rw [← covered_cxcy]
    obtain ⟨n, hn⟩ : ∃ n, v.covered * 64 = n + 1 := ⟨v.covered * 64 - 1, by omega⟩
    rw [hn, List.range_succ_eq_map, List.countP_cons]
    have h0 : (0 : Nat) % (cxOf v.t * 8) = 0 := Nat.zero_mod _
    rw [if_pos (by rw [decide_eq_true_iff, h0]; exact ⟨fun h => by omega, (hb 0).2 rfl⟩)]
    have : ((List.range n).map Nat.succ).countP (fun i =>
        decide (¬ (i / (cxOf v.t * 8) < cyOf v.t ∧ 32 - cxOf v.t + i % (cxOf v.t * 8) < 4) ∧ block i ≠ 0)) = 0 := by
      rw [List.countP_eq_zero]
      intro i hi hd
      obtain ⟨j, -, rfl⟩ := List.mem_map.1 hi
      rw [decide_eq_true_iff] at hd
      exact absurd ((hb _).1 hd.2) (Nat.succ_ne_zero j)
    rw [this]
  obtain ⟨b, hb1, hb2⟩ := context_ok (e := e) hm (qf := e.qf (v.bx >>> e.hs c) v.by') (c := c) hdc (covTable v.t hv).2.2.1
  obtain ⟨hlen, -, hmem, -⟩ := rest_facts ho
  rw [← covered_cxcy] at hlen hmem
  obtain ⟨toks, e1⟩ := encLoop_zero (log2 := v.log2) (histo := e.cm.zeroDensityOffset b) (block := block) (nz := 1)
    (by omega) (by omega) (order.drop v.covered) v.covered (if 1 > v.size / 16 then 0 else 1) (by split <;> omega)
    (by omega) (by rw [List.length_drop, hlen]; omega) (fun p hp => by
      have hnl := ((hmem p).1 hp).2
      have : ¬ block p ≠ 0 := fun h => by
        rw [(hb p).1 h] at hnl
        apply hnl
        rw [low_iff]
        refine ⟨0, by rw [← covered_cxcy]; exact hpos, ?_⟩
        unfold lowest
        rw [Nat.zero_div, Nat.zero_mod, Nat.zero_mul]
      exact Decidable.not_not.1 this)
  rw [← hpow] at e1
  unfold encBlock
  dsimp only
  rw [if_neg hcov, hone, hb1]
  simp only [Out.bind]
  rw [order_rest ho, e1]
  simp only
  rw [if_neg (by omega)]

/-! ## A concrete group -/

/-- A layout of one row: a transform of 2 × 1 blocks and one of a single block. -/
def acBs : List Varblock := [⟨0, 0, 7⟩, ⟨2, 0, 0⟩]
/-- The default context map. -/
def acMap : BlockCtxMap :=
  ⟨[], [0, 1, 2, 2, 3, 3, 4, 5, 6, 6, 6, 6, 6, 7, 8, 9, 9, 10, 11, 12, 13, 14, 14, 14, 14, 14,
    7, 8, 9, 9, 10, 11, 12, 13, 14, 14, 14, 14, 14], 15, 1⟩
def acEnv : Env := ⟨fun _ => 0, fun _ => 0, fun _ _ => 0, fun _ _ => 5, acMap⟩
def acOrder : Nat → Nat → List Nat := fun o _ => if o = 4 then List.range 128 else List.range 64
def acPasses : List Pass := [⟨1, 0, 15 * 495 + 16, acOrder⟩, ⟨0, 0, 15 * 495 + 16, acOrder⟩]
def acOrig (_ i : Nat) : Int := if i = 17 then -7 else if i = 100 then 3 else if i = 128 + 9 then 1000 else 0
def acSplit (j _ i : Nat) : Int := (split 1 1 7 7 (acOrig 0 i) [⟨8, 1⟩, ⟨8, 0⟩]).getD j 0

example : Tiling ⟨0, 0, 3, 1⟩ acBs ∧ Sampled acEnv acBs ∧ MapOk acMap ∧ (∀ q ∈ acPasses, PassOk acMap q) := by
  refine ⟨⟨?_, ?_, ?_, ?_⟩, Or.inl fun c => ⟨rfl, rfl⟩, ⟨by decide, by decide⟩, ?_⟩
  · intro b hb
    simp only [acBs, List.mem_cons, List.not_mem_nil, or_false] at hb
    rcases hb with rfl | rfl <;> unfold AcStrategy.Spec.Fits Varblock.cx Varblock.cy <;> decide
  · unfold acBs AcStrategy.Spec.Before; simp
  · rintro x y ⟨-, h1, -, h2⟩
    dsimp only at h1 h2
    rcases Nat.lt_or_ge x 2 with h | h
    · exact ⟨⟨0, 0, 7⟩, by simp [acBs], Nat.zero_le _, by unfold Varblock.cx; simp [coveredX]; omega, Nat.zero_le _,
        by unfold Varblock.cy; simp [coveredY]; omega⟩
    · exact ⟨⟨2, 0, 0⟩, by simp [acBs], by dsimp only; omega, by unfold Varblock.cx; simp [coveredX]; omega, Nat.zero_le _,
        by unfold Varblock.cy; simp [coveredY]; omega⟩
  · intro x y b hb b' hb' h h'
    simp only [acBs, List.mem_cons, List.not_mem_nil, or_false] at hb hb'
    unfold Varblock.Covers Varblock.cx Varblock.cy at h h'
    rcases hb with rfl | rfl <;> rcases hb' with rfl | rfl <;> simp [coveredX, coveredY] at h h' ⊢ <;> omega
  · unfold acPasses PassOk; simp [BlockCtxMap.numACContexts, acMap]

example : GoodOrder 7 (acOrder (ordOf 7) 0) ∧ GoodOrder 0 (acOrder (ordOf 0) 0) := by
  refine ⟨⟨by rfl, by decide +kernel⟩, ⟨by rfl, by decide +kernel⟩⟩

/-- The tokens of a pass, or none. -/
def acToks (j : Nat) : List Token :=
  match encGroup acEnv acOrder (acSplit j) (visits acBs) ⟨fun _ _ _ => 77, fun _ => 0⟩ with
  | .ok t => t
  | _ => []

def acResult (k : Nat) : Option (List Int) :=
  match decGroup 32 acEnv acPasses (visits acBs) 0 ⟨fun _ _ _ _ => 5, fun j => acToks j ++ [(9, 9)], fun _ _ => 0⟩ with
  | .ok s => some [s.co 0 k, s.co 1 k, s.co 2 k]
  | _ => none

example : (acToks 0).length = 330 ∧ acToks 0 ≠ acToks 1 := by decide +kernel
example : acResult 17 = some [-7, -7, -7] ∧ acResult 100 = some [3, 3, 3] ∧ acResult 137 = some [1000, 1000, 1000] ∧
    acResult 5 = some [0, 0, 0] := by decide +kernel
/-- A stream with too many nonzeros is refused. -/
example : (match decGroup 32 acEnv acPasses (visits acBs) 0
    ⟨fun _ _ _ _ => 5, fun _ => (acMap.nonZeroContext 32 4, 127) :: acToks 0, fun _ _ => 0⟩ with
  | .fail => true | _ => false) = true := by decide +kernel
example : symbolBits ⟨4, 2, 0⟩ 55 = 14 ∧ (Hybrid.encode ⟨4, 2, 0⟩ 16383).1 = 55 := by decide +kernel

end Jxl.Props
