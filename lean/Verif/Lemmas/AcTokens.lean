import Verif.Spec.AcTokens
import Verif.Lemmas.CoeffOrderDecode
/-! Counting coefficients, and the loop over the coefficients of one block. -/
namespace Jxl.AcTokens
open CoeffOrder Spec

theorem covTable : ∀ t, t < 27 → coveredX.getD t 0 * coveredY.getD t 0 = 2 ^ log2Covered.getD t 0 ∧
    cxOf t ≤ 32 ∧ ordOf t < 13 ∧ 0 < coveredX.getD t 0 ∧ 0 < coveredY.getD t 0 := by
  decide +kernel

theorem covered_pow {v : Visit} (h : v.t < 27) : v.covered = 2 ^ v.log2 := (covTable v.t h).1

theorem covered_pos {v : Visit} (h : v.t < 27) : 0 < v.covered := by
  rw [covered_pow h]; exact Nat.two_pow_pos _

theorem covered_cxcy (v : Visit) : v.covered = cxOf v.t * cyOf v.t := llf_eq v.t

theorem area_eq (v : Visit) : area v.t = v.size := by
  unfold area Visit.size Visit.covered; omega

theorem low_iff {cx cy i : Nat} : IsLow cx cy i ↔ ∃ k, k < cx * cy ∧ lowest cx k = i := by
  constructor
  · intro ⟨h1, h2⟩
    refine ⟨i / (8 * cx) * cx + i % (8 * cx), ?_, ?_⟩
    · calc i / (8 * cx) * cx + i % (8 * cx) < i / (8 * cx) * cx + cx := by omega
        _ = (i / (8 * cx) + 1) * cx := by rw [Nat.add_mul, Nat.one_mul]
        _ ≤ cy * cx := Nat.mul_le_mul_right _ h2
        _ = cx * cy := Nat.mul_comm _ _
    · have hc : 0 < cx := by omega
      unfold lowest
      rw [Nat.mul_comm (i / (8 * cx)) cx, Nat.mul_add_div hc, Nat.div_eq_of_lt h1, Nat.mul_add_mod, Nat.mod_eq_of_lt h1,
        Nat.add_zero]
      rw [Nat.mul_comm]
      exact Nat.div_add_mod i (8 * cx)
  · rintro ⟨k, hk, rfl⟩
    have hc : 0 < cx := by
      rcases Nat.eq_zero_or_pos cx with h | h
      · subst h; omega
      · exact h
    have hm : k % cx < 8 * cx := by have := Nat.mod_lt k hc; omega
    have h8 : 0 < 8 * cx := by omega
    unfold lowest IsLow
    rw [Nat.mul_comm (k / cx), Nat.mul_add_div h8, Nat.div_eq_of_lt hm, Nat.mul_add_mod, Nat.mod_eq_of_lt hm, Nat.add_zero]
    exact ⟨Nat.mod_lt _ hc, Nat.div_lt_of_lt_mul hk⟩

/-- The positions after the low frequencies are exactly the others, once each. -/
theorem rest_facts {t : Nat} {order : List Nat} (h : GoodOrder t order) :
    order.length = 64 * (cxOf t * cyOf t) ∧
      (order.drop (cxOf t * cyOf t)).Nodup ∧
      (∀ p, p ∈ order.drop (cxOf t * cyOf t) ↔ p < 64 * (cxOf t * cyOf t) ∧ ¬ IsLow (cxOf t) (cyOf t) p) ∧
      ∀ p ∈ order.take (cxOf t * cyOf t), IsLow (cxOf t) (cyOf t) p := by
  obtain ⟨hp, hl⟩ := h
  have hlen : order.length = 64 * (cxOf t * cyOf t) := by rw [hp.length_eq, List.length_range]
  have hnd : order.Nodup := hp.nodup_iff.2 List.nodup_range
  have htake : ∀ p, p ∈ order.take (cxOf t * cyOf t) ↔ IsLow (cxOf t) (cyOf t) p := by
    intro p
    rw [low_iff, List.mem_iff_getElem?]
    constructor
    · rintro ⟨i, hi⟩
      rw [List.getElem?_take] at hi
      by_cases hc : i < cxOf t * cyOf t
      · rw [if_pos hc, hl i hc] at hi
        exact ⟨i, hc, Option.some.inj hi⟩
      · rw [if_neg hc] at hi; cases hi
    · rintro ⟨k, hk, rfl⟩
      exact ⟨k, by rw [List.getElem?_take, if_pos hk, hl k hk]⟩
  refine ⟨hlen, hnd.sublist (List.drop_sublist _ _), ?_, fun p hp' => (htake p).1 hp'⟩
  intro p
  have hsplit : order = order.take (cxOf t * cyOf t) ++ order.drop (cxOf t * cyOf t) := (List.take_append_drop _ _).symm
  constructor
  · intro hm
    refine ⟨List.mem_range.1 (hp.mem_iff.1 (List.mem_of_mem_drop hm)), fun hlow => ?_⟩
    rw [hsplit, List.nodup_append] at hnd
    exact hnd.2.2 p ((htake p).2 hlow) p hm rfl
  · rintro ⟨hlt, hn⟩
    have : p ∈ order := hp.mem_iff.2 (List.mem_range.2 hlt)
    rw [hsplit, List.mem_append] at this
    rcases this with h | h
    · exact absurd ((htake p).1 h) hn
    · exact h

/-- The number of nonzero coefficients that the encoder is meant to count. -/
theorem count_rest {t : Nat} {order : List Nat} (h : GoodOrder t order) (block : Nat → Int) (f : Nat → Bool)
    (hf : ∀ i, i < 64 * (cxOf t * cyOf t) → (f i = true ↔ ¬ IsLow (cxOf t) (cyOf t) i ∧ block i ≠ 0)) :
    (List.range (64 * (cxOf t * cyOf t))).countP f =
      (order.drop (cxOf t * cyOf t)).countP fun p => decide (block p ≠ 0) := by
  obtain ⟨hlen, hnd, hm, hlow⟩ := rest_facts h
  rw [← h.1.countP_eq f]
  conv => lhs; rw [← List.take_append_drop (cxOf t * cyOf t) order, List.countP_append]
  have h0 : (order.take (cxOf t * cyOf t)).countP f = 0 := by
    rw [List.countP_eq_zero]
    intro p hp hfp
    have hlt := List.mem_range.1 (h.1.mem_iff.1 (List.mem_of_mem_take hp))
    exact ((hf p hlt).1 hfp).1 (hlow p hp)
  rw [h0, Nat.zero_add]
  apply List.countP_congr
  intro p hp
  have := (hm p).1 hp
  rw [hf p this.1, decide_eq_true_iff]
  exact ⟨fun h => h.2, fun h => ⟨this.2, h⟩⟩

theorem lowOne {i : Nat} (h : i < 64) : IsLow 1 1 i ↔ i = 0 := by
  unfold IsLow; omega

theorem cov_one {t : Nat} (h : t < 27) (h1 : coveredX.getD t 0 * coveredY.getD t 0 = 1) : cxOf t = 1 ∧ cyOf t = 1 := by
  rw [llf_eq] at h1
  exact ⟨Nat.eq_one_of_mul_eq_one_right h1, Nat.eq_one_of_mul_eq_one_left h1⟩

/-- The encoder's count is right if the low frequencies are zero (or there is only one). -/
theorem count_eq {v : Visit} (hv : v.t < 27) {order : List Nat} (h : GoodOrder v.t order) (block : Nat → Int)
    (hz : v.covered ≠ 1 → ∀ i, i < v.size → Low v i → block i = 0) :
    (if v.covered = 1 then countSmall block else countLarge (cxOf v.t) (cyOf v.t) block) =
      (order.drop v.covered).countP fun p => decide (block p ≠ 0) := by
  rw [covered_cxcy v]
  by_cases h1 : cxOf v.t * cyOf v.t = 1
  · rw [if_pos h1]
    obtain ⟨e1, e2⟩ := cov_one hv (by rw [llf_eq]; exact h1)
    rw [← count_rest h block (fun i => decide (i ≠ 0 ∧ block i ≠ 0)), h1]
    · rfl
    · intro i hi
      rw [h1] at hi
      rw [e1, e2, decide_eq_true_iff, lowOne hi]
  · rw [if_neg h1]
    rw [← count_rest h block (fun i =>
      decide (¬ (i / (cxOf v.t * 8) < cyOf v.t ∧ 32 - cxOf v.t + i % (cxOf v.t * 8) < 4) ∧ block i ≠ 0))]
    · unfold countLarge
      rw [Nat.mul_comm (cxOf v.t * cyOf v.t) 64]
    · intro i hi
      have hlow := hz (by rw [covered_cxcy]; exact h1) i (by unfold Visit.size; rw [covered_cxcy]; omega)
      have h32 := (covTable v.t hv).2.1
      have hmask : i / (cxOf v.t * 8) < cyOf v.t ∧ 32 - cxOf v.t + i % (cxOf v.t * 8) < 4 → Low v i := by
        intro ⟨a, b⟩
        refine ⟨?_, ?_⟩
        · rw [Nat.mul_comm 8]; omega
        · rw [Nat.mul_comm 8]; exact a
      rw [decide_eq_true_iff]
      constructor
      · intro ⟨_, b⟩
        exact ⟨fun hl => b (hlow hl), b⟩
      · intro ⟨a, b⟩
        exact ⟨fun hm => a (hmask hm), b⟩

/-! ## Contexts -/

theorem zdTable : ∀ a, a < 64 → ∀ b, b < 64 → 1 ≤ a → 1 ≤ b →
    (coeffNumNonzero.getD a 0 + coeffFreq.getD b 0) * 2 + 1 < 474 ∧
      (a + b ≤ 64 → (coeffNumNonzero.getD a 0 + coeffFreq.getD b 0) * 2 + 1 < 458) := by
  decide +kernel

theorem get_ok {l : List Nat} {i : Nat} (h : i < l.length) : get l i = .ok (l.getD i 0) := by
  unfold get
  rw [List.getElem?_eq_getElem h, List.getD_eq_getElem?_getD, List.getElem?_eq_getElem h]
  rfl

/-- Coefficient contexts are always found, and the count is below 458 for consistent numbers of nonzeros. -/
theorem zd_ok {log2 nz k prev : Nat} (h0 : 0 < nz) (hk : 2 ^ log2 ≤ k) (hk2 : k < 64 * 2 ^ log2)
    (hn : nz ≤ 63 * 2 ^ log2) (hp : prev ≤ 1) :
    ∃ c, zeroDensityContext nz k (2 ^ log2) log2 prev = .ok c ∧ c < 474 ∧ (nz + k ≤ 64 * 2 ^ log2 → c < 458) := by
  have hP := Nat.two_pow_pos log2
  have ha : (nz + 2 ^ log2 - 1) >>> log2 < 64 := by
    rw [Nat.shiftRight_eq_div_pow, Nat.div_lt_iff_lt_mul hP]; omega
  have ha1 : 1 ≤ (nz + 2 ^ log2 - 1) >>> log2 := by
    rw [Nat.shiftRight_eq_div_pow, Nat.le_div_iff_mul_le hP]; omega
  have hb : k >>> log2 < 64 := by
    rw [Nat.shiftRight_eq_div_pow, Nat.div_lt_iff_lt_mul hP]; omega
  have hb1 : 1 ≤ k >>> log2 := by
    rw [Nat.shiftRight_eq_div_pow, Nat.le_div_iff_mul_le hP]; omega
  have ht := zdTable _ ha _ hb ha1 hb1
  refine ⟨(coeffNumNonzero.getD ((nz + 2 ^ log2 - 1) >>> log2) 0 + coeffFreq.getD (k >>> log2) 0) * 2 + prev, ?_, ?_, ?_⟩
  · unfold zeroDensityContext
    rw [get_ok (l := coeffNumNonzero) ha, get_ok (l := coeffFreq) hb]
    rfl
  · have := ht.1; omega
  · intro hs
    have hab : (nz + 2 ^ log2 - 1) >>> log2 + k >>> log2 ≤ 64 := by
      rw [Nat.shiftRight_eq_div_pow, Nat.shiftRight_eq_div_pow]
      have e1 : (nz + 2 ^ log2 - 1) / 2 ^ log2 ≤ 64 - k / 2 ^ log2 := by
        apply Nat.le_of_lt_succ
        rw [Nat.div_lt_iff_lt_mul hP]
        rw [Nat.shiftRight_eq_div_pow] at hb
        have hd := Nat.div_add_mod k (2 ^ log2)
        have hm := Nat.mod_lt k hP
        have e2 : (64 - k / 2 ^ log2).succ * 2 ^ log2 = 65 * 2 ^ log2 - 2 ^ log2 * (k / 2 ^ log2) := by
          rw [Nat.mul_comm (2 ^ log2) (k / 2 ^ log2), ← Nat.sub_mul]; congr 1; omega
        omega
      rw [Nat.shiftRight_eq_div_pow] at hb
      omega
    have := ht.2 hab; omega

theorem unzigzag_zigzag (v : Int) : unzigzag (zigzag v) = v := by
  unfold unzigzag zigzag
  split <;> split <;> omega

theorem zigzag_zero {v : Int} : zigzag v = 0 ↔ v = 0 := by
  unfold zigzag; split <;> omega

theorem zigzag_lt {v : Int} (h1 : -2 ^ 31 ≤ v) (h2 : v < 2 ^ 31) : zigzag v < 2 ^ 32 := by
  unfold zigzag; split <;> omega

theorem wrap_add (n : Nat) (a b : Int) : wrap n (wrap n a + b) = wrap n (a + b) := by
  unfold wrap; exact Int.bmod_add_bmod

theorem wrap_wrap (n : Nat) (a : Int) : wrap n (wrap n a) = wrap n a := by
  have := wrap_add n a 0
  rwa [Int.add_zero, Int.add_zero] at this

/-- The array after adding a block. -/
def added (bits base shift : Nat) (ps : List Nat) (block : Nat → Int) (co : Nat → Int) : Nat → Int := fun i =>
  if base ≤ i ∧ i - base ∈ ps then wrap bits (co i + block (i - base) * 2 ^ shift) else co i

theorem added_zero {bits base shift : Nat} {ps : List Nat} {block co : Nat → Int} (hw : ∀ i, wrap bits (co i) = co i)
    (hz : ∀ p ∈ ps, block p = 0) : added bits base shift ps block co = co := by
  funext i
  unfold added
  split
  · next h => rw [hz _ h.2, Int.zero_mul, Int.add_zero, hw]
  · rfl

theorem added_range {bits base shift : Nat} {ps : List Nat} {block co : Nat → Int} (hw : ∀ i, wrap bits (co i) = co i)
    (i : Nat) : wrap bits (added bits base shift ps block co i) = added bits base shift ps block co i := by
  unfold added
  split
  · exact wrap_wrap _ _
  · exact hw i

theorem added_cons {bits base shift p : Nat} {ps : List Nat} {block co : Nat → Int} (hp : p ∉ ps) :
    added bits base shift ps block (set1 co (base + p) (wrap bits (co (base + p) + block p * 2 ^ shift))) =
      added bits base shift (p :: ps) block co := by
  funext i
  unfold added set1
  by_cases hi : i = base + p
  · subst hi
    rw [Nat.add_sub_cancel_left, if_neg (fun h => hp h.2), if_pos rfl,
      if_pos ⟨Nat.le_add_right _ _, List.mem_cons_self⟩]
  · rw [if_neg hi]
    have : base ≤ i ∧ i - base ∈ p :: ps ↔ base ≤ i ∧ i - base ∈ ps := by
      rw [List.mem_cons]; constructor
      · rintro ⟨h1, h2 | h2⟩
        · omega
        · exact ⟨h1, h2⟩
      · rintro ⟨h1, h2⟩; exact ⟨h1, Or.inr h2⟩
    by_cases hc : base ≤ i ∧ i - base ∈ ps
    · rw [if_pos hc, if_pos (this.2 hc)]
    · rw [if_neg hc, if_neg (fun h => hc (this.1 h))]

/-- The loop over the coefficients: the encoder finishes with all nonzeros accounted for, and the decoder, in front of
anything, takes exactly these tokens and adds the coefficients. -/
theorem loop_round_trip {log2 histo : Nat} {block : Nat → Int} (hr : ∀ p, -2 ^ 31 ≤ block p ∧ block p < 2 ^ 31) :
    ∀ (ps : List Nat) (k prev : Nat), prev ≤ 1 → 2 ^ log2 ≤ k → k + ps.length = 64 * 2 ^ log2 → ps.Nodup →
      (∀ p ∈ ps, p < 64 * 2 ^ log2) →
      ∃ toks, encLoop (2 ^ log2) log2 histo block ps k (ps.countP fun p => decide (block p ≠ 0)) prev = .ok (toks, 0) ∧
        (∀ x ∈ toks, histo ≤ x.1 ∧ x.1 < histo + 458 ∧ x.2 < 2 ^ 32) ∧
        ∀ (bits : Nat) (q : Pass) (base : Nat) (rest : List Token) (co : Nat → Int), (∀ i, wrap bits (co i) = co i) →
          q.ctxOffset + histo + 458 ≤ q.mapSize →
          decLoop bits q (2 ^ log2) log2 (q.ctxOffset + histo) base ps k
              (ps.countP fun p => decide (block p ≠ 0)) prev (toks ++ rest) co =
            .ok (0, rest, added bits base q.shift ps block co) := by
  intro ps
  induction ps with
  | nil =>
    intro k prev _ _ _ _ _
    refine ⟨[], rfl, fun x hx => (nomatch hx), ?_⟩
    intro bits q base rest co hw _
    rw [added_zero hw (fun p hp => absurd hp List.not_mem_nil)]
    rfl
  | cons p ps ih =>
    intro k prev hp1 hk hlen hnd hlt
    rw [List.nodup_cons] at hnd
    by_cases h0 : (p :: ps).countP (fun p => decide (block p ≠ 0)) = 0
    · rw [h0]
      refine ⟨[], by unfold encLoop; rw [if_pos rfl], fun x hx => (nomatch hx), ?_⟩
      intro bits q base rest co hw _
      rw [List.countP_eq_zero] at h0
      rw [added_zero hw (fun p hp => by
        have := h0 p hp
        rw [decide_eq_true_iff] at this
        exact Decidable.not_not.1 this)]
      unfold decLoop; rw [if_pos rfl]; rfl
    · have hP := Nat.two_pow_pos log2
      rw [List.length_cons] at hlen
      have hle : (p :: ps).countP (fun p => decide (block p ≠ 0)) ≤ ps.length + 1 := by
        have := List.countP_le_length (p := fun p => decide (block p ≠ 0)) (l := p :: ps)
        rwa [List.length_cons] at this
      obtain ⟨c, hc, hc1, hc2⟩ := zd_ok (log2 := log2) (prev := prev) (Nat.pos_of_ne_zero h0) hk (by omega)
        (by omega) hp1
      have hc458 := hc2 (by omega)
      have hnow : (if block p ≠ 0 then 1 else 0) ≤ 1 := by split <;> omega
      have hcount : (p :: ps).countP (fun p => decide (block p ≠ 0)) - (if block p ≠ 0 then 1 else 0) =
          ps.countP fun p => decide (block p ≠ 0) := by
        rw [List.countP_cons]
        by_cases hb : block p ≠ 0
        · rw [if_pos (decide_eq_true hb), if_pos hb]; omega
        · rw [if_neg (by rw [decide_eq_true_iff]; exact hb), if_neg hb]; omega
      obtain ⟨toks, e1, e2, e3⟩ := ih (k + 1) (if block p ≠ 0 then 1 else 0) hnow (by omega) (by omega) hnd.2
        (fun p hp => hlt p (List.mem_cons_of_mem _ hp))
      refine ⟨(histo + c, zigzag (block p)) :: toks, ?_, ?_, ?_⟩
      · rw [encLoop, if_neg h0, hc]
        simp only [Out.bind]
        rw [hcount, e1]
      · intro x hx
        rcases List.mem_cons.1 hx with rfl | hx
        · exact ⟨by dsimp only; omega, by dsimp only; omega, zigzag_lt (hr p).1 (hr p).2⟩
        · exact e2 x hx
      · intro bits q base rest co hw hmap
        rw [decLoop, if_neg h0, hc]
        simp only [Out.bind]
        rw [List.cons_append, next, if_neg (by omega)]
        rw [if_pos (by omega)]
        simp only [Out.bind]
        have hnz : (if zigzag (block p) ≠ 0 then 1 else 0) = if block p ≠ 0 then 1 else 0 := by
          by_cases hb : block p = 0
          · rw [if_neg (fun h => h (zigzag_zero.2 hb)), if_neg (fun h => h hb)]
          · rw [if_pos (fun h => hb (zigzag_zero.1 h)), if_pos hb]
        rw [hnz, hcount, if_pos (by have := hlt p List.mem_cons_self; omega), unzigzag_zigzag,
          e3 bits q base rest _ ?_ hmap, added_cons hnd.1]
        intro i
        unfold set1
        split
        · exact wrap_wrap _ _
        · exact hw i

/-- Whatever the tokens, the decoder's loop stays inside the tables and the block. -/
theorem decLoop_safe (bits : Nat) (q : Pass) {log2 histo base : Nat} (hm : histo + 474 ≤ q.mapSize) :
    ∀ (ps : List Nat) (k nz prev : Nat) (ts : List Token) (co : Nat → Int), prev ≤ 1 → 2 ^ log2 ≤ k →
      k + ps.length ≤ 64 * 2 ^ log2 → nz ≤ 63 * 2 ^ log2 → (∀ p ∈ ps, p < 64 * 2 ^ log2) →
      decLoop bits q (2 ^ log2) log2 histo base ps k nz prev ts co ≠ .ub := by
  intro ps
  induction ps with
  | nil => intro k nz prev ts co _ _ _ _ _ h; cases h
  | cons p ps ih =>
    intro k nz prev ts co hp1 hk hlen hn hlt
    rw [List.length_cons] at hlen
    rw [decLoop]
    by_cases h0 : nz = 0
    · rw [if_pos h0]; exact fun h => nomatch h
    · obtain ⟨c, hc, hc1, -⟩ := zd_ok (log2 := log2) (prev := prev) (Nat.pos_of_ne_zero h0) hk (by omega) hn hp1
      rw [if_neg h0, hc]
      simp only [Out.bind]
      cases ts with
      | nil =>
        rw [next, if_neg (by omega)]
        exact fun h => nomatch h
      | cons x ts =>
        rw [next, if_neg (by omega)]
        by_cases hx : q.ctxOffset + x.1 = histo + c
        · rw [if_pos hx]
          simp only
          rw [if_pos (by have := hlt p List.mem_cons_self; omega)]
          exact ih _ _ _ _ _ (by split <;> omega) (by omega) (by omega) (by omega)
            (fun p hp => hlt p (List.mem_cons_of_mem _ hp))
        · rw [if_neg hx]; exact fun h => nomatch h

end Jxl.AcTokens
