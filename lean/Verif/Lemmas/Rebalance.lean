import Verif.Model.Rebalance
import Verif.Lemmas.Histogram
/-! Lemmas for C13: the normalisation keeps the sum. -/
namespace Jxl.Histo

/-! ## The table of allowed counts -/

theorem smallestIncLog_le (c shift : Nat) : smallestIncLog c shift ≤ c.log2 := by
  unfold smallestIncLog; split <;> omega

theorem allow_le (shift c : Nat) : allow shift c ≤ c := Nat.div_mul_le_self _ _

theorem allow_ge {c : Nat} (shift : Nat) (hc : c ≠ 0) : 2 ^ c.log2 ≤ allow shift c := by
  unfold allow
  have h1 := smallestIncLog_le c shift
  have h2 := Nat.log2_self_le hc
  have e : 2 ^ c.log2 = 2 ^ (c.log2 - smallestIncLog c shift) * 2 ^ smallestIncLog c shift := by rw [← Nat.pow_add]; congr 1; omega
  rw [e]
  refine Nat.mul_le_mul_right _ ?_
  rw [Nat.le_div_iff_mul_le (Nat.pow_pos (by omega)), ← e]; exact h2

theorem log2_eq {n k : Nat} (h1 : 2 ^ k ≤ n) (h2 : n < 2 ^ (k + 1)) : n.log2 = k := by
  have hn : n ≠ 0 := by have := Nat.pow_pos (n := k) (show 0 < 2 by omega); omega
  have a := (Nat.le_log2 hn).2 h1
  have b := (Nat.log2_lt hn).2 h2
  omega

theorem log2_allow {c : Nat} (shift : Nat) (hc : c ≠ 0) : (allow shift c).log2 = c.log2 :=
  log2_eq (allow_ge shift hc) (Nat.lt_of_le_of_lt (allow_le shift c) Nat.lt_log2_self)

theorem allow_pos {c : Nat} (shift : Nat) (hc : c ≠ 0) : 0 < allow shift c :=
  Nat.lt_of_lt_of_le (Nat.pow_pos (by omega)) (allow_ge shift hc)

theorem allow_zero (shift : Nat) : allow shift 0 = 0 := by simp [allow]

/-- An allowed count has zeros below its precision. -/
theorem allow_dvd (shift c : Nat) (h : 0 < allow shift c) :
    2 ^ ((allow shift c).log2 - precision (allow shift c).log2 shift) ∣ allow shift c := by
  have hc : c ≠ 0 := by rintro rfl; rw [allow_zero] at h; omega
  rw [log2_allow shift hc]
  have e : c.log2 - precision c.log2 shift = smallestIncLog c shift := by unfold smallestIncLog; rw [if_neg hc]
  rw [e]
  exact ⟨_, Nat.mul_comm _ _⟩

theorem log2_succ (i : Nat) (hi : i ≠ 0) : (i + 1).log2 = i.log2 ∨ i + 1 = 2 ^ (i.log2 + 1) := by
  have h1 := Nat.log2_self_le hi
  have h2 := Nat.lt_log2_self (n := i)
  by_cases h : i + 1 = 2 ^ (i.log2 + 1)
  · exact .inr h
  · exact .inl (log2_eq (by omega) (by omega))

/-- Neighbouring allowed counts differ by a power of two. -/
theorem allow_succ (shift i : Nat) (h : allow shift (i + 1) ≠ allow shift i) :
    ∃ k, allow shift (i + 1) = allow shift i + 2 ^ k ∧ (allow shift i = 0 → k = 0) := by
  by_cases hi : i = 0
  · subst hi
    refine ⟨0, ?_, fun _ => rfl⟩
    have h1 : allow shift 1 ≤ 1 := allow_le shift 1
    have h2 := allow_pos (c := 1) shift (by omega)
    rw [allow_zero]; simp; omega
  · have hd := smallestIncLog_le i shift
    have hpos : 0 < 2 ^ smallestIncLog i shift := Nat.pow_pos (by omega)
    refine ⟨smallestIncLog i shift, ?_, fun h0 => by have := allow_pos shift hi; omega⟩
    have key : 2 ^ smallestIncLog i shift ∣ i + 1 → allow shift i + 2 ^ smallestIncLog i shift = i + 1 := by
      rintro ⟨q, hq⟩
      unfold allow
      generalize 2 ^ smallestIncLog i shift = D at *
      have hq0 : q ≠ 0 := by rintro rfl; omega
      have e : i / D = q - 1 := by
        have : i = D * (q - 1) + (D - 1) := by
          have : D * q = D * (q - 1) + D := by rw [← Nat.mul_succ]; congr 1; omega
          omega
        rw [this, Nat.mul_add_div hpos, Nat.div_eq_of_lt (by omega)]; omega
      rw [e, Nat.mul_comm, ← Nat.mul_succ, show (q - 1).succ = q by omega, hq]
    rcases log2_succ i hi with hl | hl
    · have e : smallestIncLog (i + 1) shift = smallestIncLog i shift := by
        unfold smallestIncLog; rw [if_neg hi, if_neg (by omega), hl]
      have hdv : 2 ^ smallestIncLog i shift ∣ i + 1 := by
        apply Decidable.byContradiction
        intro hn
        apply h
        unfold allow
        rw [e, Nat.succ_div, if_neg hn]; rfl
      have hk := key hdv
      rw [hk]
      unfold allow
      rw [e, Nat.div_mul_cancel hdv]
    · have hdv : 2 ^ smallestIncLog i shift ∣ i + 1 := by rw [hl]; exact Nat.pow_dvd_pow 2 (by omega)
      have hk := key hdv
      rw [hk]
      have h1 := smallestIncLog_le (i + 1) shift
      have h2 : (i + 1).log2 = i.log2 + 1 := by rw [hl, Nat.log2_two_pow]
      have hdv2 : 2 ^ smallestIncLog (i + 1) shift ∣ i + 1 := by
        conv => rhs; rw [hl]
        exact Nat.pow_dvd_pow 2 (by omega)
      unfold allow
      rw [Nat.div_mul_cancel hdv2]

/-- Neighbours in a list differ by powers of two, by one down to zero. -/
def Steps : Nat → List Nat → Prop
  | _, [] => True
  | a, b :: l => (∃ k, a = b + 2 ^ k ∧ (b = 0 → k = 0)) ∧ Steps b l

theorem steps_from (shift : Nat) : ∀ n, Steps (allow shift n) (allowedFrom shift n (some (allow shift n))) := by
  intro n
  have gen : ∀ i v, v = allow shift i → Steps v (allowedFrom shift i (some v)) := by
    intro i
    induction i with
    | zero => intro v _; exact trivial
    | succ i ih =>
      intro v hv
      rw [allowedFrom]
      by_cases h : some v = some (allow shift i)
      · rw [if_pos h]
        injection h with h
        exact ih v h
      · rw [if_neg h]
        have hne : allow shift (i + 1) ≠ allow shift i := by
          intro he; apply h; rw [hv, he]
        refine ⟨?_, ih _ rfl⟩
        rw [hv]; exact allow_succ shift i hne
  exact gen n _ rfl

theorem steps_get {a : Nat} {l : List Nat} (h : Steps a l) : ∀ slot, slot < l.length →
    ∃ k, (a :: l).getD slot 0 = (a :: l).getD (slot + 1) 0 + 2 ^ k ∧ ((a :: l).getD (slot + 1) 0 = 0 → k = 0) := by
  induction l generalizing a with
  | nil => intro s hs; simp at hs
  | cons b l ih =>
    intro s hs
    cases s with
    | zero => exact h.1
    | succ s => exact ih h.2 s (by simpa using hs)

theorem allowed_eq (shift : Nat) : allowed shift = allow shift 4095 :: allowedFrom shift 4095 (some (allow shift 4095)) := by
  unfold allowed
  rw [allowedFrom, if_neg (by simp)]

/-- A step of the table is the power of two the loop adds or subtracts. -/
theorem allowed_step (shift slot : Nat) (h : slot + 1 < (allowed shift).length) :
    (allowed shift).getD slot 0 = (allowed shift).getD (slot + 1) 0 + 2 ^ stepLog (allowed shift) (slot + 1) := by
  have hs := steps_from shift 4095
  rw [allowed_eq] at h ⊢
  obtain ⟨k, h1, h2⟩ := steps_get hs slot (by simpa using h)
  have e : stepLog (allow shift 4095 :: allowedFrom shift 4095 (some (allow shift 4095))) (slot + 1) = k := by
    unfold stepLog
    rw [Nat.add_sub_cancel]
    by_cases hz : (allow shift 4095 :: allowedFrom shift 4095 (some (allow shift 4095))).getD (slot + 1) 0 = 0
    · rw [if_pos (.inr hz), h2 hz]
    · rw [if_neg (by omega), h1, Nat.add_sub_cancel_left, Nat.log2_two_pow]
  rw [e]; exact h1

theorem mem_allowedFrom (shift : Nat) : ∀ n last x, x ∈ allowedFrom shift n last → ∃ i, i < n ∧ x = allow shift i := by
  intro n
  induction n with
  | zero => intro l x h; simp [allowedFrom] at h
  | succ n ih =>
    intro l x h
    rw [allowedFrom] at h
    split at h
    · obtain ⟨i, h1, h2⟩ := ih _ _ h; exact ⟨i, by omega, h2⟩
    · rcases List.mem_cons.1 h with rfl | h
      · exact ⟨n, by omega, rfl⟩
      · obtain ⟨i, h1, h2⟩ := ih _ _ h; exact ⟨i, by omega, h2⟩

theorem allow_mem (shift : Nat) : ∀ n last i, i < n → allow shift i ∈ allowedFrom shift n last ∨ last = some (allow shift i) := by
  intro n
  induction n with
  | zero => intro l i h; omega
  | succ n ih =>
    intro l i h
    rw [allowedFrom]
    by_cases hin : i = n
    · subst hin
      split
      · rename_i hl; exact .inr hl
      · exact .inl (by simp)
    · split
      · exact ih l i (by omega)
      · rcases ih (some (allow shift n)) i (by omega) with h1 | h1
        · exact .inl (List.mem_cons_of_mem _ h1)
        · injection h1 with h1; exact .inl (by rw [h1]; simp)

theorem allow_mem_allowed (shift : Nat) {c : Nat} (h : c < 4096) : allow shift c ∈ allowed shift := by
  rcases allow_mem shift 4096 none c h with h1 | h1
  · exact h1
  · exact absurd h1 (by simp)

theorem getD_idxOf {l : List Nat} {x : Nat} (h : x ∈ l) : l.idxOf x < l.length ∧ l.getD (l.idxOf x) 0 = x := by
  have h1 := List.idxOf_lt_length_iff.2 h
  refine ⟨h1, ?_⟩
  rw [List.getD_eq_getElem?_getD, List.getElem?_eq_getElem h1]
  simp

/-! ## Storing the adjusted counts -/

theorem applyBins_length (ac : List Nat) (bs : List Bin) : ∀ cs, (applyBins ac bs cs).length = cs.length := by
  induction bs with
  | nil => intro cs; rfl
  | cons b bs ih => intro cs; rw [applyBins, ih]; simp

theorem applyBins_set (ac : List Nat) (bs : List Bin) (p v : Nat) (h : ∀ b ∈ bs, b.pos ≠ p) : ∀ cs,
    applyBins ac bs (cs.set p v) = (applyBins ac bs cs).set p v := by
  induction bs with
  | nil => intro cs; rfl
  | cons b bs ih =>
    intro cs
    rw [applyBins, applyBins, List.set_comm _ _ (fun e => h b (by simp) e.symm), ih (fun b hb => h b (List.mem_cons_of_mem _ hb))]

theorem applyBins_get (ac : List Nat) (bs : List Bin) (p : Nat) (h : ∀ b ∈ bs, b.pos ≠ p) : ∀ cs,
    (applyBins ac bs cs).getD p 0 = cs.getD p 0 := by
  induction bs with
  | nil => intro cs; rfl
  | cons b bs ih =>
    intro cs
    rw [applyBins, ih (fun b hb => h b (List.mem_cons_of_mem _ hb)), getD_set_ne (h b (by simp))]

theorem applyBins_update (ac : List Nat) : ∀ (bs : List Bin) (cs : List Nat) (k m : Nat) (b : Bin), bs[k]? = some b → (bs.map Bin.pos).Nodup →
    b.pos < cs.length →
    applyBins ac (bs.set k { b with ind := m }) cs = (applyBins ac bs cs).set b.pos (ac.getD m 0) ∧
    (applyBins ac bs cs).getD b.pos 0 = ac.getD b.ind 0 := by
  intro bs
  induction bs with
  | nil => intro cs k m b h; simp at h
  | cons x bs ih =>
    intro cs k m b h hn hl
    simp only [List.map_cons, List.nodup_cons, List.mem_map, not_exists, not_and] at hn
    cases k with
    | zero =>
      simp only [List.getElem?_cons_zero, Option.some.injEq] at h
      subst h
      have hp : ∀ b ∈ bs, b.pos ≠ x.pos := fun b hb => hn.1 b hb
      rw [List.set_cons_zero, applyBins, applyBins, applyBins_set ac bs _ _ hp, applyBins_set ac bs _ _ hp, List.set_set]
      refine ⟨rfl, ?_⟩
      rw [getD_set_self (by rw [applyBins_length]; exact hl)]
    | succ k =>
      rw [List.getElem?_cons_succ] at h
      rw [List.set_cons_succ, applyBins, applyBins]
      exact ih (cs.set x.pos (ac.getD x.ind 0)) k m b h hn.2 (by simpa using hl)

/-! ## The loop invariant -/

/-- The bins are distinct positions other than the balancing one, at allowed counts. -/
structure BinsOk (ac : List Nat) (cs : List Nat) (pos : Nat) (bins : List Bin) : Prop where
  nodup : (bins.map Bin.pos).Nodup
  inside : ∀ b ∈ bins, b.pos < cs.length ∧ b.pos ≠ pos ∧ b.ind < ac.length

/-- The counts with the balancing bin replaced by `rest` sum to 4096. -/
def Balanced (ac : List Nat) (cs : List Nat) (pos : Nat) (bins : List Bin) (rest : Int) : Prop :=
  rest + ((applyBins ac bins cs).sum : Int) = 4096 + ((cs.getD pos 0 : Nat) : Int)

theorem map_pos_set (bins : List Bin) (k m : Nat) (b : Bin) (h : bins[k]? = some b) :
    (bins.set k { b with ind := m }).map Bin.pos = bins.map Bin.pos := by
  apply List.ext_getElem?
  intro j
  simp only [List.getElem?_map, List.getElem?_set]
  split
  · rename_i hkj
    subst hkj
    rw [h]
    obtain ⟨hk, _⟩ := List.getElem?_eq_some_iff.1 h
    simp [hk]
  · rfl

theorem binsOk_set {ac cs : List Nat} {pos : Nat} {bins : List Bin} (h : BinsOk ac cs pos bins) {k m : Nat} {b : Bin} (hk : bins[k]? = some b)
    (hm : m < ac.length) : BinsOk ac cs pos (bins.set k { b with ind := m }) := by
  constructor
  · rw [map_pos_set bins k m b hk]; exact h.nodup
  · intro x hx
    rcases List.mem_or_eq_of_mem_set hx with hx | rfl
    · exact h.inside x hx
    · obtain ⟨h1, h2, _⟩ := h.inside b (List.mem_of_getElem? hk)
      exact ⟨h1, h2, hm⟩

theorem balanced_set {ac cs : List Nat} {pos : Nat} {bins : List Bin} {rest rest' : Int} (h : BinsOk ac cs pos bins) (hb : Balanced ac cs pos bins rest)
    {k m : Nat} {b : Bin} (hk : bins[k]? = some b) (hm : rest' + ((ac.getD m 0 : Nat) : Int) = rest + ((ac.getD b.ind 0 : Nat) : Int)) :
    Balanced ac cs pos (bins.set k { b with ind := m }) rest' := by
  obtain ⟨h1, h2, _⟩ := h.inside b (List.mem_of_getElem? hk)
  obtain ⟨e1, e2⟩ := applyBins_update ac bins cs k m b hk h.nodup h1
  unfold Balanced at hb ⊢
  rw [e1]
  have hs := sum_set (l := applyBins ac bins cs) (i := b.pos) (c := ac.getD m 0) (by rw [applyBins_length]; exact h1)
  rw [e2] at hs
  omega

theorem two_pow_cast (k : Nat) : ((2 ^ k : Nat) : Int) = (2 : Int) ^ k := by simp

theorem iterate_inv {F : Float64} {shift mf : Nat} {cs : List Nat} {pos : Nat} {bins bins' : List Bin} {rest rest' : Int}
    (h : BinsOk (allowed shift) cs pos bins) (hb : Balanced (allowed shift) cs pos bins rest)
    (hi : iterate ⟨F, allowed shift, mf⟩ bins rest = .next bins' rest') :
    BinsOk (allowed shift) cs pos bins' ∧ Balanced (allowed shift) cs pos bins' rest' := by
  unfold iterate at hi
  split at hi
  · exact absurd hi (by simp)
  cases hbi : bins[bestInc ⟨F, allowed shift, mf⟩ rest bins]? with
  | none => rw [hbi] at hi; exact absurd hi (by simp)
  | some b =>
    rw [hbi] at hi
    dsimp only at hi
    have hin := (h.inside b (List.mem_of_getElem? hbi)).2.2
    by_cases hd : deltaInc ⟨F, allowed shift, mf⟩ rest b > 0
    · rw [if_pos hd] at hi
      by_cases hz : b.ind = 0
      · rw [if_pos hz] at hi; exact absurd hi (by simp)
      · rw [if_neg hz] at hi
        injection hi with h1 h2
        subst h1; subst h2
        have hst := allowed_step shift (b.ind - 1) (by omega)
        rw [show b.ind - 1 + 1 = b.ind by omega] at hst
        refine ⟨binsOk_set h hbi (by omega), balanced_set h hb hbi ?_⟩
        rw [hst, Int.natCast_add, two_pow_cast]; omega
    · rw [if_neg hd] at hi
      unfold decStep at hi
      split at hi
      · exact absurd hi (by simp)
      rename_i hany
      cases hbd : bins[bestDec ⟨F, allowed shift, mf⟩ rest bins]? with
      | none => rw [hbd] at hi; exact absurd hi (by simp)
      | some d =>
        rw [hbd] at hi
        dsimp only at hi
        have hlt : d.ind + 1 < (allowed shift).length := by
          have : ¬ ∃ x ∈ bins, (allowed shift).length ≤ x.ind + 1 := by simpa using hany
          apply Decidable.byContradiction
          intro hn
          exact this ⟨d, List.mem_of_getElem? hbd, by omega⟩
        split at hi
        · exact absurd hi (by simp)
        · injection hi with h1 h2
          subst h1; subst h2
          have hst := allowed_step shift d.ind hlt
          refine ⟨binsOk_set h hbd hlt, balanced_set h hb hbd ?_⟩
          rw [hst, Int.natCast_add, two_pow_cast]; omega

theorem loop_inv {F : Float64} {shift mf : Nat} {cs : List Nat} {pos : Nat} (k : Nat) : ∀ {bins bins' : List Bin} {rest rest' : Int},
    BinsOk (allowed shift) cs pos bins → Balanced (allowed shift) cs pos bins rest →
    rebalanceLoop ⟨F, allowed shift, mf⟩ k bins rest = some (bins', rest') →
    BinsOk (allowed shift) cs pos bins' ∧ Balanced (allowed shift) cs pos bins' rest' := by
  induction k with
  | zero => intro b b' r r' _ _ h; exact absurd h (by simp [rebalanceLoop])
  | succ k ih =>
    intro b b' r r' h1 h2 h
    rw [rebalanceLoop] at h
    cases hi : iterate ⟨F, allowed shift, mf⟩ b r with
    | outside => rw [hi] at h; exact absurd h (by simp)
    | done => rw [hi] at h; injection h with h; injection h with h3 h4; subst h3; subst h4; exact ⟨h1, h2⟩
    | next b2 r2 =>
      rw [hi] at h
      obtain ⟨g1, g2⟩ := iterate_inv h1 h2 hi
      exact ih g1 g2 h

/-! ## The first approximation -/

/-- What `start` builds from the frequencies. -/
structure StartOk (F : Float64) (shift : Nat) (ac : List Nat) (n : Nat) (s : Start) : Prop where
  length : s.counts.length = n
  nodup : (s.bins.map Bin.pos).Nodup
  inside : ∀ b ∈ s.bins, b.pos < n ∧ b.ind < ac.length ∧ ac.getD b.ind 0 = s.counts.getD b.pos 0
  fromFreq : ∀ c ∈ s.counts, ∃ f, c = startCount F shift f
  small : ∀ p, p < n → (∀ b ∈ s.bins, b.pos ≠ p) → ∃ f, F.big f = false ∧ s.counts.getD p 0 = startCount F shift f
  posOk : s.pos < n ∨ s.pos = 0

theorem getD_append_left {a b : List Nat} {i : Nat} (h : i < a.length) : (a ++ b).getD i 0 = a.getD i 0 := by
  rw [List.getD_eq_getElem?_getD, List.getElem?_append_left h, List.getD_eq_getElem?_getD]

theorem getD_append_last (a : List Nat) (x : Nat) : (a ++ [x]).getD a.length 0 = x := by
  rw [List.getD_eq_getElem?_getD, List.getElem?_append_right (Nat.le_refl _)]; simp

theorem startCount_mem (F : Float64) (shift f : Nat) : startCount F shift f ∈ allowed shift :=
  allow_mem_allowed shift (by omega)

theorem start_ok (F : Float64) (shift : Nat) (fs : List Nat) : ∀ (n : Nat) (s : Start), StartOk F shift (allowed shift) n s →
    StartOk F shift (allowed shift) (n + fs.length) (start F shift (allowed shift) fs n s) := by
  induction fs with
  | nil => intro n s h; exact h
  | cons f fs ih =>
    intro n s h
    rw [start, List.length_cons, show n + (fs.length + 1) = (n + 1) + fs.length by omega]
    refine ih (n + 1) _ ?_
    have hm := getD_idxOf (startCount_mem F shift f)
    refine ⟨by simp [h.length], ?_, ?_, ?_, ?_, ?_⟩
    · dsimp only
      split
      · rw [List.map_append, List.nodup_append]
        refine ⟨h.nodup, by simp, ?_⟩
        intro a ha b hb
        simp only [List.map_cons, List.map_nil, List.mem_singleton] at hb
        obtain ⟨x, hx, rfl⟩ := List.mem_map.1 ha
        have := (h.inside x hx).1
        omega
      · exact h.nodup
    · intro b hb
      have old : ∀ b ∈ s.bins, b.pos < n + 1 ∧ b.ind < (allowed shift).length ∧
          (allowed shift).getD b.ind 0 = (s.counts ++ [startCount F shift f]).getD b.pos 0 := by
        intro b hb
        obtain ⟨h1, h2, h3⟩ := h.inside b hb
        refine ⟨by omega, h2, ?_⟩
        rw [getD_append_left (by rw [h.length]; exact h1), h3]
      dsimp only at hb ⊢
      split at hb
      · rcases List.mem_append.1 hb with hb | hb
        · exact old b hb
        · simp only [List.mem_singleton] at hb
          subst hb
          refine ⟨by dsimp only; omega, hm.1, ?_⟩
          dsimp only
          rw [hm.2, ← h.length, getD_append_last]
      · exact old b hb
    · intro c hc
      dsimp only at hc
      rcases List.mem_append.1 hc with hc | hc
      · exact h.fromFreq c hc
      · exact ⟨f, by simpa using hc⟩
    · intro p hp hb
      dsimp only at hb ⊢
      by_cases hpn : p = n
      · rw [hpn, ← h.length, getD_append_last]
        refine ⟨f, ?_, rfl⟩
        cases hbig : F.big f with
        | false => rfl
        | true =>
          rw [hbig, if_pos rfl] at hb
          exact absurd hpn.symm (hb ⟨f, (allowed shift).idxOf (startCount F shift f), n⟩ (by simp))
      · rw [getD_append_left (by rw [h.length]; omega)]
        refine h.small p (by omega) ?_
        intro b hbs
        refine hb b ?_
        split
        · exact List.mem_append_left _ hbs
        · exact hbs
    · dsimp only
      split
      · exact .inl (by omega)
      · rcases h.posOk with h1 | h1
        · exact .inl (by omega)
        · exact .inr h1

theorem start_init (F : Float64) (shift : Nat) (ac : List Nat) : StartOk F shift ac 0 ⟨[], [], 0, 0⟩ :=
  ⟨rfl, List.nodup_nil, by simp, by simp, by intro p hp; omega, .inr rfl⟩

/-! ## The result -/

/-- Every count is an allowed one. -/
def AllAllowed (shift : Nat) (cs : List Nat) : Prop := ∀ p, p < cs.length → ∃ x, cs.getD p 0 = allow shift x

theorem applyBins_same (ac : List Nat) (bs : List Bin) : ∀ cs, (∀ b ∈ bs, ac.getD b.ind 0 = cs.getD b.pos 0) → applyBins ac bs cs = cs := by
  induction bs with
  | nil => intro cs _; rfl
  | cons b bs ih =>
    intro cs h
    have e : cs.set b.pos (ac.getD b.ind 0) = cs := by
      rw [h b (by simp)]
      apply List.ext_getElem?
      intro j
      rw [List.getElem?_set]
      split
      · rename_i hj
        subst hj
        split
        · rename_i hl; rw [List.getD_eq_getElem?_getD, List.getElem?_eq_getElem hl]; rfl
        · rename_i hl; rw [List.getElem?_eq_none (by omega)]
      · rfl
    rw [applyBins, e]
    exact ih cs (fun b hb => h b (List.mem_cons_of_mem _ hb))

theorem applyBins_allowed {shift : Nat} (bs : List Bin) : ∀ cs, (∀ b ∈ bs, b.ind < (allowed shift).length) → AllAllowed shift cs →
    AllAllowed shift (applyBins (allowed shift) bs cs) := by
  induction bs with
  | nil => intro cs _ h; exact h
  | cons b bs ih =>
    intro cs hb h
    rw [applyBins]
    refine ih _ (fun b h => hb b (List.mem_cons_of_mem _ h)) ?_
    intro p hp
    rw [List.length_set] at hp
    by_cases hpb : b.pos = p
    · subst hpb
      rw [getD_set_self hp]
      have hlt := hb b (by simp)
      rw [List.getD_eq_getElem?_getD, List.getElem?_eq_getElem hlt]
      obtain ⟨i, _, hi⟩ := mem_allowedFrom shift 4096 none _ (List.getElem_mem hlt)
      exact ⟨i, hi⟩
    · rw [getD_set_ne hpb]; exact h p hp

/-- The guarantees of the normalisation. -/
structure Normalised (shift : Nat) (cs : List Nat) (om : Nat) : Prop where
  sum : cs.sum = 4096
  omitted : om < cs.length ∧ 0 < cs.getD om 0
  before : ∀ p, p < om → cs.getD p 0 < 2048
  precise : ∀ p, p < cs.length → p ≠ om → 0 < cs.getD p 0 →
    2 ^ ((cs.getD p 0).log2 - precision (cs.getD p 0).log2 shift) ∣ cs.getD p 0

theorem allowed_precise {shift : Nat} {cs : List Nat} {p : Nat} (h : ∃ x, cs.getD p 0 = allow shift x) (hp : 0 < cs.getD p 0) :
    2 ^ ((cs.getD p 0).log2 - precision (cs.getD p 0).log2 shift) ∣ cs.getD p 0 := by
  obtain ⟨x, hx⟩ := h
  rw [hx] at hp ⊢
  exact allow_dvd shift x hp

theorem finish_ok {shift : Nat} {cs : List Nat} {pos rest : Nat} (hp : pos < cs.length) (hr : 0 < rest) (ha : AllAllowed shift cs)
    (hs : rest + cs.sum = 4096 + cs.getD pos 0) : Normalised shift (finish cs pos rest).1 (finish cs pos rest).2 := by
  have hset := sum_set (l := cs) (i := pos) (c := rest) hp
  unfold finish
  cases hf : findBig cs pos with
  | none =>
    dsimp only
    have hsm : ∀ n, n < pos → cs.getD n 0 < 2048 := by
      intro n hn
      have := List.find?_eq_none.1 hf n (List.mem_range.2 hn)
      simp at this
      simpa using this
    refine ⟨by omega, ⟨by simpa using hp, by rw [getD_set_self hp]; exact hr⟩, ?_, ?_⟩
    · intro p h; rw [getD_set_ne (by omega)]; exact hsm p h
    · intro p h1 h2 h3
      refine allowed_precise ?_ h3
      rw [getD_set_ne (by omega)]
      exact ha p (by simpa using h1)
  | some n =>
    dsimp only
    have hn := List.mem_range.1 (List.mem_of_find?_eq_some hf)
    have hsm : ∀ p, p < n → cs.getD p 0 < 2048 := by
      intro p hp2
      have h1 := List.find?_range_eq_some.1 hf
      have := h1.2.2 p hp2
      simpa using this
    have h2 := sum_set (l := cs) (i := pos) (c := cs.getD n 0) hp
    have h3 := sum_set (l := cs.set pos (cs.getD n 0)) (i := n) (c := rest) (by simp; omega)
    rw [getD_set_ne (by omega)] at h3
    refine ⟨by omega, ⟨by simp; omega, by rw [getD_set_self (by simp; omega)]; exact hr⟩, ?_, ?_⟩
    · intro p h; rw [getD_set_ne (by omega), getD_set_ne (by omega)]; exact hsm p h
    · intro p h4 h5 h6
      refine allowed_precise ?_ h6
      rw [getD_set_ne (by omega)]
      by_cases hpp : pos = p
      · subst hpp; rw [getD_set_self hp]; exact ha n (by omega)
      · rw [getD_set_ne hpp]; exact ha p (by simpa using h4)

theorem startCount_small {F : Float64} (hF : ∀ f, F.big f = false → F.round f ≤ 1) (shift : Nat) {f : Nat} (h : F.big f = false) : startCount F shift f ≤ 1 := by
  unfold startCount
  have := allow_le shift (min (max (F.round f) (if f > 0 then 1 else 0)) 4095)
  have h2 := hF f h
  have h3 : min (max (F.round f) (if f > 0 then 1 else 0)) 4095 ≤ 1 := by split <;> omega
  omega

theorem rebalance_ok {F : Float64} (hF : ∀ f, F.big f = false → F.round f ≤ 1) {shift : Nat} {freqs : List Nat} {k : Nat} {cs : List Nat} {om : Nat}
    (h : rebalance F shift freqs k = some (cs, om)) : cs.length = freqs.length ∧ Normalised shift cs om := by
  unfold rebalance at h
  dsimp only at h
  have hs := start_ok F shift freqs 0 _ (start_init F shift (allowed shift))
  rw [Nat.zero_add] at hs
  generalize start F shift (allowed shift) freqs 0 ⟨[], [], 0, 0⟩ = s at h hs
  have eb : s.loopBins = s.bins.filter fun b => b.pos != s.pos := rfl
  have er : s.rest = 4096 - s.counts.sum + s.counts.getD s.pos 0 := rfl
  rw [eb, er] at h
  split at h
  · exact absurd h (by simp)
  rename_i hex
  have hpos : s.pos < s.counts.length := by
    have : ∃ b ∈ s.bins, b.pos = s.pos := by simpa using hex
    obtain ⟨b, hb, he⟩ := this
    rw [hs.length, ← he]; exact (hs.inside b hb).1
  have hall : AllAllowed shift s.counts := by
    intro p hp
    rw [List.getD_eq_getElem?_getD, List.getElem?_eq_getElem hp]
    obtain ⟨f, hf⟩ := hs.fromFreq _ (List.getElem_mem hp)
    exact ⟨_, hf⟩
  split at h
  · rename_i hem
    split at h
    · rename_i hr
      injection h with h; injection h with h1 h2
      subst h1; subst h2
      have hset := sum_set (l := s.counts) (i := s.pos) (c := (4096 - (s.counts.sum : Int) + (s.counts.getD s.pos 0 : Nat)).toNat) hpos
      refine ⟨by simp [hs.length], by omega, ⟨by simpa using hpos, by rw [getD_set_self hpos]; omega⟩, ?_, ?_⟩
      · intro p hp
        rw [getD_set_ne (by omega)]
        obtain ⟨f, hf, he⟩ := hs.small p (by rw [← hs.length]; omega) (by
          intro b hb hbp
          have : s.bins.filter (fun b => b.pos != s.pos) = [] := by simpa using hem
          have := List.filter_eq_nil_iff.1 this b hb
          simp at this
          omega)
        rw [he]
        have := startCount_small hF shift hf
        omega
      · intro p h1 h2 h3
        refine allowed_precise ?_ h3
        rw [getD_set_ne (by omega)]
        exact hall p (by simpa using h1)
    · exact absurd h (by simp)
  · obtain ⟨⟨bins, rest⟩, hl, h⟩ := Option.bind_eq_some_iff.1 h
    dsimp only at h
    split at h
    · rename_i hr
      injection h with h
      have hbo : BinsOk (allowed shift) s.counts s.pos (s.bins.filter fun b => b.pos != s.pos) := by
        constructor
        · exact (List.filter_sublist.map _).nodup hs.nodup
        · intro b hb
          obtain ⟨h1, h2⟩ := List.mem_filter.1 hb
          obtain ⟨h3, h4, _⟩ := hs.inside b h1
          exact ⟨by rw [hs.length]; exact h3, by simpa using h2, h4⟩
      have hba : Balanced (allowed shift) s.counts s.pos (s.bins.filter fun b => b.pos != s.pos) (4096 - (s.counts.sum : Int) + (s.counts.getD s.pos 0 : Nat)) := by
        unfold Balanced
        rw [applyBins_same _ _ _ (fun b hb => (hs.inside b (List.mem_filter.1 hb).1).2.2)]
        omega
      obtain ⟨g1, g2⟩ := loop_inv k hbo hba hl
      have hlen := applyBins_length (allowed shift) bins s.counts
      have hf := finish_ok (shift := shift) (cs := applyBins (allowed shift) bins s.counts) (pos := s.pos) (rest := rest.toNat) (by omega) (by omega)
        (applyBins_allowed bins _ (fun b hb => (g1.inside b hb).2.2) hall) (by
          rw [applyBins_get _ _ _ (fun b hb => (g1.inside b hb).2.1)]
          unfold Balanced at g2
          omega)
      rw [h] at hf
      refine ⟨?_, hf⟩
      have : (finish (applyBins (allowed shift) bins s.counts) s.pos rest.toNat).1.length = s.counts.length := by
        unfold finish; split <;> simp [hlen]
      rw [h] at this
      rw [← hs.length]; exact this
    · exact absurd h (by simp)

/-! ## A histogram that leaves the table -/

theorem start_congr (F G : Float64) (shift : Nat) (ac : List Nat) (fs : List Nat) : (∀ f ∈ fs, startCount F shift f = startCount G shift f ∧ F.big f = G.big f) →
    ∀ n s, start F shift ac fs n s = start G shift ac fs n s := by
  induction fs with
  | nil => intro _ n s; rfl
  | cons f fs ih =>
    intro h n s
    obtain ⟨h1, h2⟩ := h f (by simp)
    rw [start, start, h1, h2, ih (fun f hf => h f (List.mem_cons_of_mem _ hf))]

theorem minIdx_first (key : Bin → Int) (bs : List Bin) : ∀ i best k, (∀ b ∈ bs, k ≤ key b) → minIdx key bs i best k = best := by
  induction bs with
  | nil => intro i best k _; rfl
  | cons b bs ih =>
    intro i best k h
    rw [minIdx, if_neg (by have := h b (by simp); omega)]
    exact ih _ _ _ (fun b hb => h b (List.mem_cons_of_mem _ hb))

theorem maxIdx_lt (key : Bin → Int) (bs : List Bin) : ∀ i best k, best < i → maxIdx key bs i best k < i + bs.length := by
  induction bs with
  | nil => intro i best k h; exact h
  | cons b bs ih =>
    intro i best k h
    rw [maxIdx, List.length_cons]
    split
    · have := ih (i + 1) i (key b) (by omega); omega
    · have := ih (i + 1) best k (by omega); omega

theorem bestInc_lt (c : Ctx) (rest : Int) {bins : List Bin} (h : bins ≠ []) : bestInc c rest bins < bins.length := by
  cases bins with
  | nil => exact absurd rfl h
  | cons b bs => unfold bestInc; have := maxIdx_lt (incKey c rest) bs 1 0 (incKey c rest b) (by omega); simp; omega

/-- While the balancing bin is not positive, no bin grows. -/
theorem iterate_shrinks {c : Ctx} {bins : List Bin} {rest : Int} (hr : rest ≤ 1) (hne : bins ≠ []) (hin : ∀ b ∈ bins, b.ind < c.ac.length)
    (hsmall : ∀ b ∈ bins, (b.freq : Int) * deltaLg2 c.F c.ac b.ind ≤ int64Max) : iterate c bins rest = decStep c bins rest := by
  unfold iterate
  rw [if_neg (by simp; intro b hb; have := hin b hb; omega)]
  have hlt := bestInc_lt c rest hne
  rw [List.getElem?_eq_getElem hlt]
  dsimp only
  rw [if_neg]
  have := hsmall _ (List.getElem_mem hlt)
  unfold deltaInc balanceInc
  rw [if_neg (by omega), if_neg (by omega)]
  omega

/-- 199 symbols seen once, one seen 160 times, 55 seen 9216 times and one seen 17049 times: 524288 in all. -/
def badFreqs : List Nat := List.replicate 199 1 ++ 160 :: (List.replicate 55 9216 ++ [17049])

/-- The floating-point results for `badFreqs`, where `norm` is 2^-7 and every target is exact; the logarithms do not matter here. -/
def exactFloat : Float64 := ⟨fun f => (f + 64) / 128, fun f => decide (f > 128), fun _ => 0, fun _ _ => 0⟩

/-- The bins after the first step: the symbol seen 160 times has lost its only count. -/
def badBins (i : Nat) : List Bin := ⟨160, i, 199⟩ :: (List.range 55).map fun j => ⟨9216, 166, 200 + j⟩

theorem bad_start : (start exactFloat 6 (allowed 6) badFreqs 0 ⟨[], [], 0, 0⟩).loopBins = badBins 188 ∧
    (start exactFloat 6 (allowed 6) badFreqs 0 ⟨[], [], 0, 0⟩).rest = -64 ∧ (start exactFloat 6 (allowed 6) badFreqs 0 ⟨[], [], 0, 0⟩).maxFreq = 17049 := by
  decide +kernel

theorem bad_table : (allowed 6).length = 190 ∧ (allowed 6).getD 189 0 = 0 ∧ (allowed 6).getD 188 0 = 1 ∧ (allowed 6).getD 187 0 = 2 ∧
    (allowed 6).getD 166 0 = 72 ∧ (allowed 6).getD 165 0 = 80 ∧ (allowed 6).getD 167 0 = 64 ∧ stepLog (allowed 6) 167 = 3 ∧ stepLog (allowed 6) 189 = 0 := by
  decide +kernel

theorem badBins_mem {i : Nat} {b : Bin} (h : b ∈ badBins i) : (b.freq = 160 ∧ b.ind = i) ∨ (b.freq = 9216 ∧ b.ind = 166) := by
  rcases List.mem_cons.1 h with rfl | h
  · exact .inl ⟨rfl, rfl⟩
  · obtain ⟨j, _, rfl⟩ := List.mem_map.1 h
    exact .inr ⟨rfl, rfl⟩

theorem bad_first (F : Float64) (mf : Nat) (hr : ∀ a b, 0 ≤ F.ratio a b ∧ F.ratio a b < 2 ^ 31) :
    iterate ⟨F, allowed 6, mf⟩ (badBins 188) (-64) = .next (badBins 189) (-63) := by
  obtain ⟨t1, t2, t3, t4, t5, t6, t7, t8, t9⟩ := bad_table
  rw [iterate_shrinks (by omega) (by simp [badBins])]
  · unfold decStep
    dsimp only
    rw [if_neg (by
      intro h
      obtain ⟨b, hb, hle⟩ := List.any_eq_true.1 h
      have := of_decide_eq_true hle
      rcases badBins_mem hb with ⟨_, h2⟩ | ⟨_, h2⟩ <;> omega)]
    have hdx : deltaLg2 F (allowed 6) 189 = 2 ^ 31 - 1 := by unfold deltaLg2; rw [if_neg (by omega), if_pos t2]
    have hdy : deltaLg2 F (allowed 6) 167 = F.ratio 72 64 := by unfold deltaLg2; rw [if_neg (by omega), if_neg (by omega), t5, t7]
    have hbal : ∀ l, balanceDec F mf (-64) l = int64Max := by intro l; unfold balanceDec; rw [if_neg (by omega), if_neg (by omega)]
    have hbest : bestDec ⟨F, allowed 6, mf⟩ (-64) (badBins 188) = 0 := by
      unfold bestDec badBins
      dsimp only
      refine minIdx_first _ _ _ _ _ ?_
      intro b hb
      obtain ⟨j, _, rfl⟩ := List.mem_map.1 hb
      unfold decKey deltaDec
      dsimp only
      rw [hdx, hdy, hbal, hbal, t8, t9]
      have h1 := hr 72 64
      unfold int64Max
      omega
    rw [hbest]
    have h0 : (badBins 188)[0]? = some ⟨160, 188, 199⟩ := rfl
    rw [h0]
    dsimp only
    rw [if_neg (by
      unfold deltaDec
      dsimp only
      rw [hdx, hbal]
      unfold int64Max; omega), t9]
    rfl
  · intro b hb
    dsimp only
    rcases badBins_mem hb with ⟨_, h2⟩ | ⟨_, h2⟩ <;> omega
  · intro b hb
    dsimp only
    have h1 := hr 2 1
    have h2 := hr 80 72
    have e1 : deltaLg2 F (allowed 6) 188 = F.ratio 2 1 := by unfold deltaLg2; rw [if_neg (by omega), if_neg (by omega), t3, t4]
    have e2 : deltaLg2 F (allowed 6) 166 = F.ratio 80 72 := by unfold deltaLg2; rw [if_neg (by omega), if_neg (by omega), t5, t6]
    unfold int64Max
    rcases badBins_mem hb with ⟨h3, h4⟩ | ⟨h3, h4⟩ <;> rw [h3, h4] <;> omega

theorem bad_second (F : Float64) (mf : Nat) (hr : ∀ a b, 0 ≤ F.ratio a b ∧ F.ratio a b < 2 ^ 31) :
    iterate ⟨F, allowed 6, mf⟩ (badBins 189) (-63) = .outside := by
  obtain ⟨t1, t2, t3, t4, t5, t6, t7, t8, t9⟩ := bad_table
  rw [iterate_shrinks (by omega) (by simp [badBins])]
  · unfold decStep
    rw [if_pos]
    refine List.any_eq_true.2 ⟨⟨160, 189, 199⟩, by simp [badBins], ?_⟩
    dsimp only
    rw [t1]; rfl
  · intro b hb
    dsimp only
    rcases badBins_mem hb with ⟨_, h2⟩ | ⟨_, h2⟩ <;> omega
  · intro b hb
    dsimp only
    have h2 := hr 80 72
    have e1 : deltaLg2 F (allowed 6) 189 = 2 ^ 31 - 1 := by unfold deltaLg2; rw [if_neg (by omega), if_pos t2]
    have e2 : deltaLg2 F (allowed 6) 166 = F.ratio 80 72 := by unfold deltaLg2; rw [if_neg (by omega), if_neg (by omega), t5, t6]
    unfold int64Max
    rcases badBins_mem hb with ⟨h3, h4⟩ | ⟨h3, h4⟩ <;> rw [h3, h4] <;> omega

/-- The balancing position is the first of the most frequent symbols seen so far. -/
theorem start_pos (F : Float64) (shift : Nat) (ac : List Nat) (fs : List Nat) : ∀ (n : Nat) (s : Start) (done : List Nat), done.length = n →
    s.maxFreq = done.getD s.pos 0 → (∀ p, done.getD p 0 ≤ s.maxFreq) → (∀ p, p < s.pos → done.getD p 0 < s.maxFreq) →
    (start F shift ac fs n s).maxFreq = (done ++ fs).getD (start F shift ac fs n s).pos 0 ∧
      (∀ p, (done ++ fs).getD p 0 ≤ (start F shift ac fs n s).maxFreq) ∧
      (∀ p, p < (start F shift ac fs n s).pos → (done ++ fs).getD p 0 < (start F shift ac fs n s).maxFreq) := by
  induction fs with
  | nil => intro n s done _ h1 h2 h3; rw [List.append_nil]; exact ⟨h1, h2, h3⟩
  | cons f fs ih =>
    intro n s done hn h1 h2 h3
    have hget : ∀ p, (done ++ [f]).getD p 0 = if p = n then f else done.getD p 0 := by
      intro p
      simp only [List.getD_eq_getElem?_getD, List.getElem?_append]
      by_cases hp : p < done.length
      · rw [if_pos hp, if_neg (by omega)]
      · rw [if_neg hp]
        by_cases e : p = n
        · rw [if_pos e, e, hn, Nat.sub_self]; rfl
        · rw [if_neg e, List.getElem?_eq_none (by simp; omega), List.getElem?_eq_none (by omega)]
    have hend : done.getD n 0 = 0 := by rw [List.getD_eq_getElem?_getD, List.getElem?_eq_none (by omega)]; rfl
    rw [start, show done ++ f :: fs = (done ++ [f]) ++ fs by simp]
    refine ih (n + 1) _ (done ++ [f]) (by simp [hn]) ?_ ?_ ?_
    · dsimp only
      by_cases hf : f > s.maxFreq
      · rw [if_pos hf, hget, if_pos rfl]; omega
      · rw [if_neg hf, hget]
        split
        · rename_i e; rw [e, hend] at h1; omega
        · omega
    · intro p
      dsimp only
      rw [hget]
      have := h2 p
      split <;> omega
    · intro p hp
      dsimp only at hp ⊢
      rw [hget]
      have a := h2 p
      by_cases hf : f > s.maxFreq
      · rw [if_pos hf] at hp
        rw [if_neg (by omega)]; omega
      · rw [if_neg hf] at hp
        have b := h3 p hp
        split
        · have e : done.getD s.pos 0 = 0 := by rw [List.getD_eq_getElem?_getD, List.getElem?_eq_none (by omega)]; rfl
          omega
        · omega

theorem getD_set_here {l : List Nat} {i v : Nat} (h : i < l.length) : (l.set i v).getD i 0 = v := by
  rw [List.getD_eq_getElem?_getD, List.getElem?_set_self h]; rfl

theorem finish_pos {cs : List Nat} {pos rest : Nat} (hp : pos < cs.length) :
    (finish cs pos rest).2 = pos ∨ (finish cs pos rest).2 < pos ∧ 2048 ≤ (finish cs pos rest).1.getD pos 0 := by
  unfold finish
  split
  · rename_i n hn
    unfold findBig at hn
    have h1 := List.mem_of_find?_eq_some hn
    have h2 := List.find?_some hn
    simp only [decide_eq_true_eq] at h2
    rw [List.mem_range] at h1
    refine .inr ⟨h1, ?_⟩
    dsimp only
    rw [List.getD_eq_getElem?_getD, List.getElem?_set_ne (by omega), ← List.getD_eq_getElem?_getD, getD_set_here hp]
    exact h2
  · exact .inl rfl

end Jxl.Histo
