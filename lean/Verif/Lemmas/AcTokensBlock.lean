import Verif.Lemmas.AcTokens
/-! One channel of one transform. -/
namespace Jxl.AcTokens
open CoeffOrder Spec

theorem context_ok {e : Env} (hm : MapOk e.cm) {dc qf ord c : Nat} (hdc : dc < e.cm.numDcCtxs) (ho : ord < 13) :
    ∃ b, e.cm.context dc qf ord c = .ok b ∧ b < e.cm.numCtxs := by
  have hq : (e.cm.qfThresholds.filter fun t => decide (qf > t)).length ≤ e.cm.qfThresholds.length :=
    List.length_filter_le _ _
  have hi : (if c < 2 then c ^^^ 1 else 2) ≤ 2 := by
    by_cases h : c < 2
    · have : c = 0 ∨ c = 1 := by omega
      rcases this with rfl | rfl <;> decide
    · rw [if_neg h]; exact Nat.le_refl 2
  unfold BlockCtxMap.context
  dsimp only
  generalize (if c < 2 then c ^^^ 1 else 2) = i at hi
  generalize (e.cm.qfThresholds.filter fun t => decide (qf > t)).length = qi at hq
  have hlt : ((i * 13 + ord) * (e.cm.qfThresholds.length + 1) + qi) * e.cm.numDcCtxs + dc < e.cm.ctxMap.length := by
    rw [hm.size]
    have h1 : i * 13 + ord + 1 ≤ 3 * 13 := by omega
    have h2 : (i * 13 + ord) * (e.cm.qfThresholds.length + 1) + qi + 1 ≤ 3 * 13 * (e.cm.qfThresholds.length + 1) := by
      calc (i * 13 + ord) * (e.cm.qfThresholds.length + 1) + qi + 1
          ≤ (i * 13 + ord) * (e.cm.qfThresholds.length + 1) + (e.cm.qfThresholds.length + 1) := by omega
        _ = (i * 13 + ord + 1) * (e.cm.qfThresholds.length + 1) := by rw [Nat.add_mul (i * 13 + ord) 1, Nat.one_mul]
        _ ≤ 3 * 13 * (e.cm.qfThresholds.length + 1) := Nat.mul_le_mul_right _ h1
    generalize (i * 13 + ord) * (e.cm.qfThresholds.length + 1) + qi = a at h2
    calc a * e.cm.numDcCtxs + dc < a * e.cm.numDcCtxs + e.cm.numDcCtxs := by omega
      _ = (a + 1) * e.cm.numDcCtxs := by rw [Nat.add_mul, Nat.one_mul]
      _ ≤ _ := Nat.mul_le_mul_right _ h2
  refine ⟨_, get_ok hlt, hm.entries _ ?_⟩
  rw [List.getD_eq_getElem?_getD, List.getElem?_eq_getElem hlt]
  exact List.getElem_mem hlt

theorem nonZero_lt (m : BlockCtxMap) (n : Nat) {b : Nat} (hb : b < m.numCtxs) : m.nonZeroContext n b < m.numCtxs * 37 := by
  unfold BlockCtxMap.nonZeroContext
  dsimp only
  have h : (if (if n ≥ 64 then 64 else n) < 8 then (if n ≥ 64 then 64 else n) else 4 + (if n ≥ 64 then 64 else n) / 2) ≤ 36 := by
    split <;> split <;> omega
  generalize (if (if n ≥ 64 then 64 else n) < 8 then (if n ≥ 64 then 64 else n) else 4 + (if n ≥ 64 then 64 else n) / 2) = k at h
  have := Nat.mul_le_mul_right m.numCtxs h
  omega

theorem zdOffset_le (m : BlockCtxMap) {b : Nat} (hb : b < m.numCtxs) : m.zeroDensityOffset b + 458 ≤ m.numACContexts := by
  unfold BlockCtxMap.zeroDensityOffset BlockCtxMap.numACContexts
  omega

theorem predict_fill (nz : NzImage) (x y cx cy v : Nat) : predict (fill nz x y cx cy v) x y = predict nz x y := by
  have h1 : ∀ b, x ≠ 0 → fill nz x y cx cy v (x - 1) b = nz (x - 1) b := by
    intro b hx
    unfold fill
    rw [if_neg (by omega)]
  have h2 : ∀ a, y ≠ 0 → fill nz x y cx cy v a (y - 1) = nz a (y - 1) := by
    intro a hy
    unfold fill
    rw [if_neg (by omega)]
  unfold predict
  by_cases hx : x = 0
  · rw [if_pos hx, if_pos hx]
    by_cases hy : y = 0
    · rw [if_pos hy, if_pos hy]
    · rw [if_neg hy, if_neg hy, h2 _ hy]
  · rw [if_neg hx, if_neg hx]
    by_cases hy : y = 0
    · rw [if_pos hy, if_pos hy, h1 _ hx]
    · rw [if_neg hy, if_neg hy, h1 _ hx, h2 _ hy]

/-- The column and row of the transform in the channel. -/
def Env.sx (e : Env) (v : Visit) (c : Nat) : Nat := v.bx >>> e.hs c
def Env.sy (e : Env) (v : Visit) (c : Nat) : Nat := v.by' >>> e.vs c

/-- What happens to the image of numbers of nonzeros. -/
def Env.mark (e : Env) (v : Visit) (c : Nat) (nz : NzImage) (st : Nat) : NzImage :=
  fill nz (e.sx v c) (e.sy v c) (coveredX.getD v.t 0) (coveredY.getD v.t 0) st

theorem order_rest {v : Visit} {order : List Nat} (ho : GoodOrder v.t order) :
    (order.take v.size).drop v.covered = order.drop v.covered := by
  have : order.length ≤ v.size := by
    rw [(rest_facts ho).1, Visit.size, covered_cxcy]; omega
  rw [List.take_of_length_le this]

theorem block_round_trip {e : Env} {v : Visit} {c : Nat} {order : List Nat} {block : Nat → Int} (hv : v.t < 27)
    (ho : GoodOrder v.t order) (hm : MapOk e.cm) (hdc : e.qdc v.bx v.by' < e.cm.numDcCtxs)
    (hr : ∀ p, -2 ^ 31 ≤ block p ∧ block p < 2 ^ 31)
    (hz : v.covered ≠ 1 → ∀ i, i < v.size → Low v i → block i = 0) (nzE : NzImage) :
    ∃ toks st, encBlock e order v c block nzE = .ok (toks, e.mark v c nzE st) ∧
      (∀ x ∈ toks, x.1 < e.cm.numACContexts ∧ x.2 < 2 ^ 32) ∧
      ∀ (bits : Nat) (q : Pass) (base : Nat) (rest : List Token) (co : Nat → Int) (nzD : NzImage),
        q.order (ordOf v.t) c = order → PassOk e.cm q → (∀ i, wrap bits (co i) = co i) →
        predict nzD (e.sx v c) (e.sy v c) = predict nzE (e.sx v c) (e.sy v c) →
        decBlock bits e q v c base nzD (toks ++ rest) co =
          .ok (e.mark v c nzD st, rest, added bits base q.shift (order.drop v.covered) block co) := by
  obtain ⟨hlen, hnd, hmem, -⟩ := rest_facts ho
  rw [← covered_cxcy] at hlen hnd hmem
  have hpow := covered_pow hv
  have hpos := covered_pos hv
  have hcount := count_eq hv ho block hz
  obtain ⟨b, hb, hb2⟩ := context_ok (e := e) hm (qf := e.qf (e.sx v c) v.by') (c := c) hdc (covTable v.t hv).2.2.1
  have hdl : (order.drop v.covered).length = v.size - v.covered := by
    rw [List.length_drop, hlen, Visit.size]; omega
  obtain ⟨toks, e1, e2, e3⟩ := loop_round_trip (log2 := v.log2) (histo := e.cm.zeroDensityOffset b) hr
    (order.drop v.covered) v.covered
    (if (order.drop v.covered).countP (fun p => decide (block p ≠ 0)) > v.size / 16 then 0 else 1)
    (by split <;> omega) (by omega) (by rw [hdl, ← hpow, Visit.size]; omega) hnd
    (fun p hp => by have := ((hmem p).1 hp).1; omega)
  rw [← hpow] at e1 e3
  have hNle : (order.drop v.covered).countP (fun p => decide (block p ≠ 0)) ≤ v.size - v.covered := by
    rw [← hdl]; exact List.countP_le_length
  have hzd := zdOffset_le e.cm hb2
  generalize hN : (order.drop v.covered).countP (fun p => decide (block p ≠ 0)) = N at *
  refine ⟨(e.cm.nonZeroContext (predict nzE (e.sx v c) (e.sy v c)) b, N) :: toks, (N + v.covered - 1) >>> v.log2,
    ?_, ?_, ?_⟩
  · unfold encBlock
    dsimp only
    rw [hcount]
    have hst : (if v.covered = 1 then N else (N + v.covered - 1) >>> v.log2) = (N + v.covered - 1) >>> v.log2 := by
      by_cases h1 : v.covered = 1
      · have : v.log2 = 0 := by
          rcases Nat.eq_zero_or_pos v.log2 with h | h
          · exact h
          · have := Nat.lt_two_pow_self (n := v.log2); omega
        rw [if_pos h1, h1, this]; rfl
      · rw [if_neg h1]
    rw [hst]
    have hb' := hb
    unfold Env.sx at hb'
    rw [hb']
    simp only [Out.bind]
    rw [order_rest ho, e1]
    simp only
    rw [if_pos trivial, predict_fill]
    rfl
  · intro x hx
    rcases List.mem_cons.1 hx with rfl | hx
    · refine ⟨?_, ?_⟩
      · have := nonZero_lt e.cm (predict nzE (e.sx v c) (e.sy v c)) hb2
        unfold BlockCtxMap.numACContexts
        dsimp only
        omega
      · dsimp only
        have h1024 : v.covered ≤ 1024 := by
          have : ∀ t, t < 27 → coveredX.getD t 0 * coveredY.getD t 0 ≤ 1024 := by decide +kernel
          exact this v.t hv
        unfold Visit.size at hNle
        omega
    · have := e2 x hx
      exact ⟨by omega, this.2.2⟩
  · intro bits q base rest co nzD hq hpass hw hpred
    unfold PassOk at hpass
    unfold decBlock
    dsimp only
    have hb' := hb
    unfold Env.sx at hb'
    rw [hb']
    simp only [Out.bind]
    have hnzc := nonZero_lt e.cm (predict nzE (e.sx v c) (e.sy v c)) hb2
    have hctx : e.cm.numCtxs * 37 ≤ e.cm.numACContexts := by unfold BlockCtxMap.numACContexts; omega
    have hpred' := hpred
    unfold Env.sx Env.sy at hpred' hnzc
    rw [List.cons_append, hpred', next, if_neg (by omega)]
    unfold Env.sx Env.sy
    rw [if_pos (Nat.add_comm _ _), Nat.one_shiftLeft, ← hpow]
    simp only
    rw [if_neg (by unfold Visit.size at hNle; omega), hq]
    have hs : v.covered * 64 = v.size := rfl
    rw [hs, order_rest ho, e3 bits q base rest co hw (by omega)]
    simp only
    rw [if_neg (fun h => h rfl)]
    rfl

/-- Whatever the tokens, reading a block stays inside all tables and inside the block. -/
theorem block_safe (bits : Nat) {e : Env} {q : Pass} {v : Visit} {c : Nat} (base : Nat) (nz : NzImage) (ts : List Token)
    (co : Nat → Int) (hv : v.t < 27) (hm : MapOk e.cm) (hdc : e.qdc v.bx v.by' < e.cm.numDcCtxs)
    (hp : PassOk e.cm q) (ho : ∀ p ∈ q.order (ordOf v.t) c, p < v.size) :
    decBlock bits e q v c base nz ts co ≠ .ub := by
  obtain ⟨b, hb, hb2⟩ := context_ok (e := e) hm (qf := e.qf (v.bx >>> e.hs c) v.by') (c := c) hdc (covTable v.t hv).2.2.1
  have hzd := zdOffset_le e.cm hb2
  have hpow := covered_pow hv
  have hnz := nonZero_lt e.cm (predict nz (v.bx >>> e.hs c) (v.by' >>> e.vs c)) hb2
  have hctx : e.cm.numCtxs * 37 ≤ e.cm.numACContexts := by unfold BlockCtxMap.numACContexts; omega
  unfold PassOk at hp
  unfold decBlock
  dsimp only
  rw [hb]
  simp only [Out.bind]
  cases ts with
  | nil =>
    rw [next, if_neg (by omega)]
    exact fun h => nomatch h
  | cons x ts =>
    rw [next, if_neg (by omega)]
    by_cases hx : q.ctxOffset + x.1 = e.cm.nonZeroContext (predict nz (v.bx >>> e.hs c) (v.by' >>> e.vs c)) b + q.ctxOffset
    · rw [if_pos hx]
      simp only
      by_cases hn : x.2 > 1 <<< v.log2 * 64 - 1 <<< v.log2
      · rw [if_pos hn]; exact fun h => nomatch h
      · rw [if_neg hn]
        rw [Nat.one_shiftLeft] at hn ⊢
        have hs := decLoop_safe bits q (log2 := v.log2) (histo := q.ctxOffset + e.cm.zeroDensityOffset b) (base := base)
          (by omega) (((q.order (ordOf v.t) c).take (2 ^ v.log2 * 64)).drop (2 ^ v.log2)) (2 ^ v.log2) x.2
          (if x.2 > 2 ^ v.log2 * 64 / 16 then 0 else 1) ts co (by split <;> omega) (Nat.le_refl _)
          (by rw [List.length_drop, List.length_take]; have := Nat.two_pow_pos v.log2; omega) (by omega)
          (fun p hp' => by
            have := ho p (List.mem_of_mem_take (List.mem_of_mem_drop hp'))
            rw [Visit.size, hpow] at this; omega)
        generalize decLoop bits q (2 ^ v.log2) v.log2 (q.ctxOffset + e.cm.zeroDensityOffset b) base _ _ _ _ ts co = r at hs
        cases r with
        | ok d =>
          simp only
          by_cases hd : d.1 ≠ 0
          · rw [if_pos hd]; exact fun h => nomatch h
          · rw [if_neg hd]; exact fun h => nomatch h
        | fail => exact fun h => nomatch h
        | ub => exact absurd rfl hs
    · rw [if_neg hx]; exact fun h => nomatch h

end Jxl.AcTokens
