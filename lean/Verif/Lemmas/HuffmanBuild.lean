import Verif.Lemmas.HuffmanSub
/-! # The finished table, and code lengths -/
namespace Jxl.Huffman

/-! ## Counting -/

theorem offsets_eq (lens : List Nat) (L : Nat) :
    offsets (hist lens) L = lens.countP (fun l => decide (0 < l ∧ l < L)) := by
  induction L with
  | zero =>
    symm
    simp only [offsets]
    rw [List.countP_eq_zero]
    intro a _; simp
  | succ L ih =>
    rw [offsets, ih]
    split
    · subst L
      simp only [Nat.add_zero]
      apply List.countP_congr
      intro x _; simp; omega
    · rename_i h0
      clear ih
      unfold hist
      induction lens with
      | nil => rfl
      | cons a lens ih2 =>
        simp only [List.countP_cons, List.count_cons]
        have : ((a == L) = true) ↔ a = L := by simp
        simp only [decide_eq_true_eq, this]
        split <;> split <;> split <;> omega

theorem weight_cons (a : Nat) (lens : List Nat) :
    Prefix.weight (a :: lens) = (if a ≠ 0 then 2 ^ (15 - a) else 0) + Prefix.weight lens := by
  unfold Prefix.weight
  by_cases h : a = 0
  · simp [h]
  · simp [h]

theorem base_eq_weight (lens : List Nat) (L : Nat) :
    base (hist lens) L = Prefix.weight (lens.filter (· < L)) := by
  induction L with
  | zero =>
    rw [List.filter_eq_nil_iff.mpr (by simp)]; rfl
  | succ L ih =>
    rw [base, ih]
    clear ih
    unfold hist
    induction lens with
    | nil => simp [Prefix.weight]
    | cons a lens ih =>
      have hw : ∀ p : Nat → Bool, Prefix.weight ((a :: lens).filter p) =
          (if p a = true ∧ a ≠ 0 then 2 ^ (15 - a) else 0) + Prefix.weight (lens.filter p) := by
        intro p
        by_cases hp : p a = true
        · rw [List.filter_cons_of_pos hp, weight_cons]; simp [hp]
        · rw [List.filter_cons_of_neg hp]; simp [hp]
      rw [hw, hw, ← ih, List.count_cons]
      simp only [decide_eq_true_eq, beq_iff_eq]
      by_cases hL : L = 0
      · subst hL; simp only [if_pos]; rw [if_neg (by omega), if_neg (by omega)]; omega
      · rw [if_neg hL, if_neg hL]
        by_cases haL : a = L
        · subst haL
          rw [if_neg (by omega), if_pos rfl, if_pos (by omega)]
          rw [Nat.add_mul]; omega
        · rw [if_neg haL, Nat.add_zero]
          by_cases hlt : a < L ∧ a ≠ 0
          · rw [if_pos hlt, if_pos (by omega)]; omega
          · rw [if_neg hlt, if_neg (by omega)]; omega

theorem complete_base {lens : List Nat} (h : Prefix.Complete lens) : base (hist lens) 16 = 2 ^ 15 := by
  rw [base_eq_weight, List.filter_eq_self.mpr, h.2]
  intro a ha
  have := h.1 a ha
  simp; omega

theorem offsets_le (lens : List Nat) (L : Nat) : offsets (hist lens) L ≤ lens.length := by
  rw [offsets_eq]; exact List.countP_le_length

/-- Each word owns at most half of the interval. -/
theorem base_le_offsets (cnt : Nat → Nat) (L : Nat) : base cnt L ≤ offsets cnt L * 2 ^ 14 := by
  induction L with
  | zero => simp [base]
  | succ L ih =>
    rw [base, offsets]
    split
    · omega
    · have : (2:Nat) ^ (15 - L) ≤ 2 ^ 14 := Nat.pow_le_pow_right (by omega) (by omega)
      have := Nat.mul_le_mul_left (cnt L) this
      rw [Nat.add_mul]; omega

/-- The rank of a symbol among those of its length. -/
def rank (lens : List Nat) (s : Nat) : Nat := (lens.take s).count (lens.getD s 0)

theorem exists_rank (lens : List Nat) (l k : Nat) (h : k < lens.count l) :
    ∃ s, lens[s]? = some l ∧ (lens.take s).count l = k := by
  induction lens generalizing k with
  | nil => simp at h
  | cons a lens ih =>
    by_cases ha : a = l
    · subst ha
      cases k with
      | zero => exact ⟨0, by simp, by simp⟩
      | succ k =>
        obtain ⟨s, h1, h2⟩ := ih k (by rw [List.count_cons_self] at h; omega)
        exact ⟨s + 1, by simpa using h1, by simp [h2]⟩
    · obtain ⟨s, h1, h2⟩ := ih k (by rwa [List.count_cons_of_ne ha] at h)
      exact ⟨s + 1, by simpa using h1, by simp [List.count_cons_of_ne ha, h2]⟩

theorem rank_lt {lens : List Nat} {s l : Nat} (h : lens[s]? = some l) : (lens.take s).count l < lens.count l := by
  obtain ⟨hlt, he⟩ := List.getElem?_eq_some_iff.mp h
  have h1 : (lens.take (s + 1)).count l ≤ lens.count l := (List.take_sublist _ _).count_le l
  rw [List.take_add_one, h] at h1
  simp only [Option.toList_some, List.count_append, List.count_singleton_self] at h1
  omega

/-! ## Sorting -/

structure SortInv (lens pre : List Nat) (off : Nat → Nat) (sorted : List Nat) : Prop where
  size : sorted.length = lens.length
  off : ∀ l, 1 ≤ l → off l = offsets (hist lens) l + pre.count l
  done : ∀ s l, 1 ≤ l → pre[s]? = some l → sorted[offsets (hist lens) l + (pre.take s).count l]? = some s

theorem slot_inj {cnt : Nat → Nat} {l k l' k' : Nat} (hl : 1 ≤ l) (hl' : 1 ≤ l') (hk : k < cnt l) (hk' : k' < cnt l')
    (h : offsets cnt l + k = offsets cnt l' + k') : l = l' ∧ k = k' := by
  rcases Nat.lt_trichotomy l l' with g | g | g
  · have := offsets_mono cnt g; rw [offsets_succ cnt hl] at this; omega
  · subst g; exact ⟨rfl, by omega⟩
  · have := offsets_mono cnt g; rw [offsets_succ cnt hl'] at this; omega

theorem sortGo_spec (lens : List Nat) (h15 : ∀ l ∈ lens, l ≤ 15) (ls pre : List Nat) (he : lens = pre ++ ls)
    (off : Nat → Nat) (sorted : List Nat) (h : SortInv lens pre off sorted) :
    ∃ os, sortGo off sorted pre.length ls = some os ∧ SortInv lens lens os.1 os.2 := by
  induction ls generalizing pre off sorted with
  | nil =>
    rw [List.append_nil] at he
    exact ⟨(off, sorted), rfl, by rw [← he] at h; exact h⟩
  | cons l ls ih =>
    have he2 : lens = (pre ++ [l]) ++ ls := by rw [he]; simp
    have hpl : (pre ++ [l]).length = pre.length + 1 := by simp
    rw [sortGo]
    by_cases h0 : l = 0
    · rw [if_pos h0]
      suffices hI : SortInv lens (pre ++ [l]) off sorted by
        obtain ⟨os, h1, h2⟩ := ih (pre ++ [l]) he2 off sorted hI
        exact ⟨os, by rw [← hpl]; exact h1, h2⟩
      refine ⟨h.size, ?_, ?_⟩
      · intro x hx
        rw [h.off x hx, List.count_append, List.count_singleton]
        simp [show ¬ l = x by omega]
      · intro s x hx hs
        rcases Nat.lt_or_ge s pre.length with hlt | hge
        · rw [List.getElem?_append_left hlt] at hs
          rw [List.take_append_of_le_length (by omega)]
          exact h.done s x hx hs
        · rw [List.getElem?_append_right hge] at hs
          have : s - pre.length = 0 := by
            rcases Nat.eq_zero_or_pos (s - pre.length) with e | e
            · exact e
            · rw [List.getElem?_eq_none (by simp; omega)] at hs; cases hs
          rw [this] at hs
          simp only [List.getElem?_cons_zero, Option.some.injEq] at hs
          omega
    · have hl : 1 ≤ l := by omega
      have hl15 : l ≤ 15 := h15 l (by rw [he]; simp)
      have hget : lens[pre.length]? = some l := by rw [he]; simp
      have htake : lens.take pre.length = pre := by rw [he]; simp
      have hrk : pre.count l < hist lens l := by
        have := rank_lt hget
        rwa [htake] at this
      have hslot : off l < sorted.length := by
        rw [h.off l hl, h.size]
        have h1 := offsets_le lens (l + 1)
        rw [offsets_succ _ hl] at h1
        omega
      rw [if_neg h0, if_pos ⟨hl15, hslot⟩]
      suffices hI : SortInv lens (pre ++ [l]) (fun x => if x = l then off l + 1 else off x)
          (sorted.set (off l) pre.length) by
        obtain ⟨os, h1, h2⟩ := ih (pre ++ [l]) he2 _ _ hI
        exact ⟨os, by rw [← hpl]; exact h1, h2⟩
      refine ⟨?_, ?_, ?_⟩
      · rw [List.length_set]; exact h.size
      · intro x hx
        simp only [List.count_append, List.count_singleton]
        by_cases e : x = l
        · subst e; simp [h.off x hx]; omega
        · simp [e, h.off x hx, show ¬ l = x from fun g => e g.symm]
      · intro s x hx hs
        rcases Nat.lt_or_ge s pre.length with hlt | hge
        · rw [List.getElem?_append_left hlt] at hs
          rw [List.take_append_of_le_length (by omega), List.getElem?_set_ne, h.done s x hx hs]
          intro e
          rw [h.off l hl] at e
          have hkx : (pre.take s).count x < pre.count x := rank_lt hs
          have hkx2 : pre.count x ≤ lens.count x := by
            rw [he, List.count_append]; omega
          have := slot_inj hl hx hrk (show _ < hist lens x from Nat.lt_of_lt_of_le hkx hkx2) e
          obtain ⟨rfl, h5⟩ := this
          omega
        · rw [List.getElem?_append_right hge] at hs
          have hz : s - pre.length = 0 := by
            rcases Nat.eq_zero_or_pos (s - pre.length) with e | e
            · exact e
            · rw [List.getElem?_eq_none (by simp; omega)] at hs; cases hs
          rw [hz] at hs
          simp only [List.getElem?_cons_zero, Option.some.injEq] at hs
          subst hs
          have hse : s = pre.length := by omega
          subst hse
          rw [List.take_left' rfl, ← h.off l hl, List.getElem?_set_self hslot]

/-! ## The longest word -/

theorem le_maxLen (cnt : Nat → Nat) (n : Nat) {l : Nat} (h1 : 1 ≤ l) (hn : l ≤ n) (h : cnt l ≠ 0) :
    l ≤ maxLen cnt n := by
  induction n with
  | zero => omega
  | succ n ih =>
    rw [maxLen]
    split
    · exact hn
    · rename_i h0
      apply ih
      rcases Nat.lt_or_ge l (n + 1) with g | g
      · omega
      · have : l = n + 1 := by omega
        rw [this] at h; exact absurd h h0

theorem maxLen_le (cnt : Nat → Nat) (n : Nat) (hn : 1 ≤ n) : 1 ≤ maxLen cnt n ∧ maxLen cnt n ≤ n := by
  induction n with
  | zero => omega
  | succ n ih =>
    rw [maxLen]
    split
    · omega
    · rcases Nat.eq_zero_or_pos n with h | h
      · subst h; simp [maxLen]
      · have := ih h; omega

theorem maxLen_bound (cnt : Nat → Nat) (n R : Nat) (hR : 1 ≤ R) (h : ∀ l, 1 ≤ l → l ≤ n → cnt l ≠ 0 → l ≤ R) :
    maxLen cnt n ≤ R := by
  induction n with
  | zero => simpa [maxLen] using hR
  | succ n ih =>
    rw [maxLen]
    split
    · rename_i h0; exact h _ (by omega) (by omega) h0
    · exact ih (fun l a b c => h l a (by omega) c)

/-! ## The finished table -/

/-- What a lookup along the bits `x` finds when they run into the word `(l, k)`. -/
def Found (symAt : Nat → Nat → Nat) (R total : Nat) (t : List Entry) (l k x : Nat) : Prop :=
  (l ≤ R ∧ t[x % 2 ^ R]? = some ⟨l, symAt l k⟩) ∨
  (R < l ∧ ∃ st tb, t[x % 2 ^ R]? = some ⟨tb + R, st - x % 2 ^ R⟩ ∧ 1 ≤ tb ∧ 2 ^ R ≤ st ∧ st + 2 ^ tb ≤ total ∧
    t[st + x / 2 ^ R % 2 ^ tb]? = some ⟨l - R, symAt l k⟩)

theorem build_spec (t : List Entry) (R : Nat) (lens : List Nat) (hR1 : 1 ≤ R) (hR15 : R < 15)
    (hcomp : Prefix.Complete lens) (hlen : lens.length ≤ 2 ^ 15) (hN2 : t.length ≤ 65536) (hroot : 2 ^ R ≤ t.length)
    (hcap : 2 ^ R + lens.length + 2 ^ (15 - R) ≤ t.length + (15 - R) + 1 ∨ ∀ l ∈ lens, l ≤ R) :
    ∃ total t' symAt, build t R lens = some (total, t') ∧ t'.length = t.length ∧ 2 ^ R ≤ total ∧ total ≤ t.length ∧
      (∀ s l, 1 ≤ l → lens[s]? = some l → symAt l ((lens.take s).count l) = s) ∧
      (∀ l k x, 1 ≤ l → l ≤ 15 → k < hist lens l → x % 2 ^ l = rev l (code (hist lens) l k) →
        Found symAt R total t' l k x) := by
  have hc := complete_base hcomp
  have hoff : (offsets (hist lens) 16) ≠ 1 := by
    intro e
    have := base_le_offsets (hist lens) 16
    rw [hc, e] at this; simp at this
  obtain ⟨os, hsort, hinv⟩ := sortGo_spec lens hcomp.1 lens [] rfl (offsets (hist lens))
    (List.replicate lens.length 0) ⟨List.length_replicate, fun l _ => by simp, fun s l _ h => by simp at h⟩
  have hsort' : sortGo (offsets (hist lens)) (List.replicate lens.length 0) 0 lens = some os := hsort
  have ho15 : os.1 15 ≠ 1 := by
    rw [hinv.off 15 (by omega)]
    intro e; apply hoff
    rw [offsets_succ _ (by omega)]; exact e
  let symAt := fun l k => os.2.getD (offsets (hist lens) l + k) 0
  have hsym : ∀ s l, 1 ≤ l → lens[s]? = some l → symAt l ((lens.take s).count l) = s := by
    intro s l hl hs
    show os.2.getD _ 0 = s
    rw [List.getD_eq_getElem?_getD, hinv.done s l hl hs]; rfl
  have hs : ∀ l k, 1 ≤ l → l ≤ 15 → k < hist lens l →
      os.2[offsets (hist lens) l + k]? = some (symAt l k) := by
    intro l k hl _ hk
    obtain ⟨s, h1, h2⟩ := exists_rank lens l k hk
    have := hinv.done s l hl h1
    rw [h2] at this
    rw [this, ← h2, hsym s l hl h1]
  have hmx := maxLen_le (hist lens) 15 (by omega)
  have hmxge : ∀ l k, 1 ≤ l → l ≤ 15 → k < hist lens l → l ≤ maxLen (hist lens) 15 :=
    fun l k h1 h2 h3 => le_maxLen _ 15 h1 h2 (by omega)
  have htb1 : min R (maxLen (hist lens) 15) ≤ R := Nat.min_le_left _ _
  have hNtb : 2 ^ min R (maxLen (hist lens) 15) ≤ t.length :=
    Nat.le_trans (Nat.pow_le_pow_right (by omega) htb1) hroot
  obtain ⟨r, hr1, hr2⟩ := rootFill_spec (symAt := symAt) (sorted := os.2) (N := t.length)
    (tb := min R (maxLen (hist lens) 15)) hc (by omega) hNtb hs (min R (maxLen (hist lens) 15)) 1
    (by omega) (by omega) ⟨0, 0, t⟩ (rootInv_init t rfl)
  have hRsum : min R (maxLen (hist lens) 15) + (R - min R (maxLen (hist lens) 15)) = R := by omega
  obtain ⟨t1, ht1, ht2, ht3⟩ := doubleUp_spec (R - min R (maxLen (hist lens) 15))
    (min R (maxLen (hist lens) 15)) r.t (by rw [hRsum, hr2.size]; exact hroot)
  rw [hRsum] at ht3
  -- the root part of the final table
  have hrootOk : ∀ l k, 1 ≤ l → l ≤ R → k < hist lens l → ∀ i < 2 ^ R,
      i % 2 ^ l = rev l (code (hist lens) l k) → t1[i]? = some ⟨l, symAt l k⟩ := by
    intro l k h1 h2 h3 i hi hik
    have hlm := hmxge l k h1 (by omega) h3
    have hltb : l ≤ min R (maxLen (hist lens) 15) := by omega
    rw [ht3 i hi]
    apply hr2.filled l k h1 (Or.inl ⟨by omega, h3⟩) _ (Nat.mod_lt _ (Nat.two_pow_pos _))
    rw [← hik]
    obtain ⟨d, hd⟩ : ∃ d, min R (maxLen (hist lens) 15) = l + d := ⟨_ - l, (by omega : _ = l + (min R (maxLen (hist lens) 15) - l))⟩
    rw [hd, Nat.pow_add, Nat.mod_mul_right_mod]
  have hmodl : ∀ l x, l ≤ R → x % 2 ^ R % 2 ^ l = x % 2 ^ l := by
    intro l x h
    obtain ⟨d, rfl⟩ : ∃ d, R = l + d := ⟨R - l, by omega⟩
    rw [Nat.pow_add, Nat.mod_mul_right_mod]
  have hbuild : ∀ s', subFill os.2 R (hist lens) (R + 1) (maxLen (hist lens) 15 - R)
      ⟨r.key, r.sym, none, 0, R, 2 ^ R, t1⟩ = some s' → build t R lens = some (s'.total, s'.t) := by
    intro s' h
    unfold build
    rw [if_neg (by omega), hsort', Option.bind_some, if_neg ho15]
    dsimp only
    rw [hr1, Option.bind_some, ht1, Option.bind_some, h]; rfl
  by_cases hbig : maxLen (hist lens) 15 ≤ R
  · refine ⟨2 ^ R, t1, symAt, ?_, by rw [ht2, hr2.size], Nat.le_refl _, hroot, hsym, ?_⟩
    · rw [hbuild ⟨r.key, r.sym, none, 0, R, 2 ^ R, t1⟩ (by
        rw [show maxLen (hist lens) 15 - R = 0 by omega]; rfl)]
    · intro l k x h1 h2 h3 hx
      have hlR : l ≤ R := Nat.le_trans (hmxge l k h1 h2 h3) hbig
      left
      exact ⟨hlR, hrootOk l k h1 hlR h3 _ (Nat.mod_lt _ (Nat.two_pow_pos _)) (by rw [hmodl l x hlR, hx])⟩
  · have hcap' : 2 ^ R + lens.length + 2 ^ (15 - R) ≤ t.length + (15 - R) + 1 := by
      rcases hcap with h | h
      · exact h
      · exfalso; apply hbig
        apply maxLen_bound _ _ _ hR1
        intro l _ _ h0
        exact h l (List.count_pos_iff.mp (Nat.pos_of_ne_zero h0))
    have htbR : min R (maxLen (hist lens) 15) = R := by omega
    rw [htbR] at hr2
    have hinit : SubInv (hist lens) symAt t.length R (R + 1) 0 (first (hist lens) (R + 1) / 2)
        ⟨r.key, r.sym, none, 0, R, 2 ^ R, t1⟩ := by
      refine ⟨hr2.key, hr2.sym, by show t1.length = _; rw [ht2, hr2.size], by simp, hrootOk, ?_, ?_⟩
      · intro l k hl hb; unfold Before at hb; omega
      · left
        refine ⟨rfl, ?_, rfl⟩
        rw [pos_zero, base_eq_first _ (by omega), pow_15_sub hR15, first, Nat.mul_div_cancel _ (by omega),
          Nat.mul_assoc]
    obtain ⟨s', Q', hf1, hf2⟩ := subFill_spec hc (offsets_le lens 16) hcap' hN2 hR1 hs
      (maxLen (hist lens) 15 - R) (R + 1) _ (by omega) (by omega) _ hinit
    have htot : 2 ^ R ≤ s'.total := by
      rcases hf2.cur with ⟨_, _, h3⟩ | ⟨q, j, _, _, _, _, _, hl, _⟩
      · omega
      · exact Nat.le_trans hl.low (Nat.le_trans (Nat.le_add_right _ _) hl.high)
    refine ⟨s'.total, s'.t, symAt, hbuild s' hf1, hf2.size, htot,
      cap_of hc (offsets_le lens 16) hcap' hR1 hR15 hf2.cur, hsym, ?_⟩
    intro l k x h1 h2 h3 hx
    rcases Nat.lt_or_ge R l with hlR | hlR
    · right
      refine ⟨hlR, ?_⟩
      obtain ⟨_, st, tb, hlk, _, _, hg⟩ := hf2.sub l k hlR (Or.inl ⟨by
        have := hmxge l k h1 h2 h3; omega, h3⟩)
      have hxR : x % 2 ^ R = rev R (pfx (hist lens) R l k) := by
        rw [pfx, ← rev_mod_root (by omega), ← hx]
        obtain ⟨d, rfl⟩ : ∃ d, l = R + d := ⟨l - R, by omega⟩
        rw [Nat.pow_add, Nat.mod_mul_right_mod]
      have hltb := hlk.len_le (m := k) (by omega) h2 rfl
      refine ⟨st, tb, by rw [hxR]; exact hlk.link, hlk.some_bits, hlk.low, hlk.high, ?_⟩
      apply hg _ (Nat.mod_lt _ (Nat.two_pow_pos _))
      have e1 : x / 2 ^ R % 2 ^ tb % 2 ^ (l - R) = x / 2 ^ R % 2 ^ (l - R) := by
        obtain ⟨d, hd⟩ : ∃ d, tb = (l - R) + d := ⟨tb - (l - R), by omega⟩
        rw [hd, Nat.pow_add, Nat.mod_mul_right_mod]
      rw [e1, ← rev_div_root (by omega : R ≤ l), ← hx]
      have e2 : (2:Nat) ^ l = 2 ^ R * 2 ^ (l - R) := by rw [← Nat.pow_add]; congr 1; omega
      rw [e2, Nat.mod_mul_right_div_self]
    · left
      exact ⟨hlR, hf2.root l k h1 hlR h3 _ (Nat.mod_lt _ (Nat.two_pow_pos _)) (by rw [hmodl l x hlR, hx])⟩

end Jxl.Huffman
