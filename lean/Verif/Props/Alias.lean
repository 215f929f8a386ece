import Verif.Lemmas.Alias
/-!
# C11: the alias table partitions the state space
-/
namespace Jxl.Props
open Alias

/-- A table is an exact partition for the frequencies `f`: every slot gives a symbol with its frequency and an offset below it,
and every (symbol, offset) pair is the value of exactly one slot. -/
def ExactPartition (table : List Entry) (logAlpha : Nat) (f : Nat → Nat) : Prop :=
  (∀ v, v < 4096 → ∃ s o, lookup table logAlpha v = some (s, o, f s) ∧ o < f s ∧ s < 2 ^ logAlpha) ∧
  (∀ s o, o < f s → ∃ v, v < 4096 ∧ lookup table logAlpha v = some (s, o, f s) ∧
    ∀ v' q, v' < 4096 → lookup table logAlpha v' = some (s, o, q) → v' = v)

/-- From a correct `slot` function to the partition property. -/
theorem partition_of_slot (table : List Entry) (la E T : Nat) (f : Nat → Nat) (sl : Nat → Nat → Nat × Nat)
    (hE : E = 2 ^ (12 - la)) (hT : T = 2 ^ la) (hla : la ≤ 12)
    (hlook : ∀ i pos, i < T → pos < E → lookup table la (i * E + pos) = some ((sl i pos).1, (sl i pos).2, f (sl i pos).1))
    (h1 : ∀ i pos, i < T → pos < E → (sl i pos).2 < f (sl i pos).1 ∧ (sl i pos).1 < T)
    (h2 : ∀ s x, x < f s → ∃ i pos, i < T ∧ pos < E ∧ sl i pos = (s, x) ∧
      ∀ i' pos', i' < T → pos' < E → sl i' pos' = (s, x) → i' = i ∧ pos' = pos) : ExactPartition table la f := by
  have hTE : T * E = 4096 := by rw [hE, hT, ← Nat.pow_add, show la + (12 - la) = 12 by omega]
  have hEp : 0 < E := by rw [hE]; exact Nat.two_pow_pos _
  have hdec : ∀ v, v < 4096 → v / E < T ∧ v % E < E ∧ v / E * E + v % E = v := by
    intro v hv
    refine ⟨Nat.div_lt_of_lt_mul (by rw [Nat.mul_comm]; omega), Nat.mod_lt _ hEp, ?_⟩
    rw [Nat.mul_comm]; exact Nat.div_add_mod v E
  constructor
  · intro v hv
    obtain ⟨d1, d2, d3⟩ := hdec v hv
    have := hlook _ _ d1 d2
    rw [d3] at this
    exact ⟨_, _, this, (h1 _ _ d1 d2).1, hT ▸ (h1 _ _ d1 d2).2⟩
  · intro s o ho
    obtain ⟨i, pos, hi, hp, e, hu⟩ := h2 s o ho
    have hlt : i * E + pos < 4096 := by
      have : (i + 1) * E ≤ T * E := Nat.mul_le_mul_right _ (by omega)
      rw [Nat.add_mul] at this; omega
    refine ⟨i * E + pos, hlt, by rw [hlook i pos hi hp, e], ?_⟩
    intro v' q hv' hl
    obtain ⟨d1, d2, d3⟩ := hdec v' hv'
    have h3 := hlook _ _ d1 d2
    rw [d3, hl] at h3
    simp only [Option.some.injEq, Prod.mk.injEq] at h3
    obtain ⟨g1, g2⟩ := hu _ _ d1 d2 (Prod.ext h3.1.symm h3.2.1.symm)
    rw [← d3, g1, g2]

theorem lookup_at (table : List Entry) (la i pos : Nat) (hp : pos < 2 ^ (12 - la)) :
    lookup table la (i * 2 ^ (12 - la) + pos) = (table[i]?).map fun e =>
      (if pos ≥ e.cutoff then e.right else i, (if pos ≥ e.cutoff then e.offsets1 else 0) + pos,
        e.freq0 ^^^ (if pos ≥ e.cutoff then e.freqXor else 0)) := by
  unfold lookup
  have e1 : (i * 2 ^ (12 - la) + pos) >>> (12 - la) = i := by
    rw [Nat.shiftRight_eq_div_pow, Nat.mul_comm, Nat.mul_add_div (Nat.two_pow_pos _), Nat.div_eq_of_lt hp, Nat.add_zero]
  have e2 : (i * 2 ^ (12 - la) + pos) &&& (2 ^ (12 - la) - 1) = pos := by
    rw [Nat.and_two_pow_sub_one_eq_mod, Nat.mul_comm, Nat.mul_add_mod, Nat.mod_eq_of_lt hp]
  rw [e1, e2]

theorem findSingle_spec (d : List Nat) (i : Nat) (r : Option Nat) (hs : d.sum ≤ 4096) (hr : r ≠ none → ∀ v ∈ d, v ≠ 4096) :
    findSingle d i r = some (if r = none then (d.idxOf? 4096).map (i + ·) else r) := by
  induction d generalizing i r with
  | nil => cases r <;> simp [findSingle]
  | cons v d ih =>
    simp only [List.sum_cons] at hs
    simp only [findSingle]
    by_cases h4 : v = 4096
    · subst h4
      rw [if_pos rfl]
      have hrn : r = none := by
        apply Classical.byContradiction; intro hn
        exact hr hn 4096 (by simp) rfl
      subst hrn
      rw [if_pos rfl, ih (i + 1) (some i) (by omega) (fun _ v hv => by
        have : v ≤ d.sum := Alias.le_sum_of_mem hv
        omega)]
      simp [List.idxOf?_cons]
    · rw [if_neg h4, ih (i + 1) r (by omega) (fun hn v hv => hr hn v (by simp [hv]))]
      cases r with
      | none =>
        simp only [if_true, Option.some.injEq, List.idxOf?_cons, beq_iff_eq, h4]
        cases List.idxOf? 4096 d <;> simp; omega
      | some x => simp

/-- **C11.**  For every distribution of total 4096 that fits in the alphabet, whatever the table memory held before. -/
theorem C11_alias_partition (dist : List Nat) (la : Nat) (a0 : List Entry) (hla : 5 ≤ la ∧ la ≤ 8) (hsum : dist.sum = 4096)
    (hlen : dist.length ≤ 2 ^ la) (ha : a0.length = 2 ^ la) :
    ∃ table, initTable dist la a0 = some table ∧ table.length = 2 ^ la ∧ ExactPartition table la (fun s => dist.getD s 0) := by
  have hT256 : 2 ^ la ≤ 256 := by
    calc 2 ^ la ≤ 2 ^ 8 := Nat.pow_le_pow_right (by omega) hla.2
      _ = 256 := rfl
  have hf : (fun s => dist.getD s 0) = fun s => (popZeros dist).getD s 0 := funext fun s => (popZeros_getD dist s).symm
  have hsum' : (popZeros dist).sum = 4096 := by rw [popZeros_sum, hsum]
  have hlen' : (popZeros dist).length ≤ 2 ^ la := Nat.le_trans (popZeros_length dist) hlen
  rw [hf]
  unfold initTable
  generalize popZeros dist = d at *
  clear hf hsum hlen dist
  have hne : d ≠ [] := by intro h; subst h; simp at hsum'
  have hEeq : 4096 >>> la = 2 ^ (12 - la) := by
    rw [Nat.shiftRight_eq_div_pow, show 4096 = 2 ^ 12 from rfl, Nat.pow_div (by omega) (by omega)]
  have hTE : 2 ^ la * 2 ^ (12 - la) = 4096 := by rw [← Nat.pow_add, show la + (12 - la) = 12 by omega]
  have hfle : ∀ i, d.getD i 0 ≤ 4096 := by
    intro i
    by_cases hi : i < d.length
    · have h1 : d.getD i 0 ∈ d := by
        simp [List.getD_eq_getElem?_getD, List.getElem?_eq_getElem hi]
      have := Alias.le_sum_of_mem h1
      omega
    · simp [List.getD_eq_getElem?_getD, List.getElem?_eq_none (by omega : d.length ≤ i)]
  dsimp only
  rw [if_pos (by omega), if_neg hne, if_pos hlen', findSingle_spec d 0 none (by omega) (by simp)]
  simp only [Option.bind_eq_bind, Option.bind_some, if_true, hsum', hEeq]
  rcases hidx : d.idxOf? 4096 with _ | s
  · -- general case
    simp only [Option.map_none]
    rcases hcl : classify (2 ^ (12 - la)) d 0 [] [] with ⟨u, o⟩
    have hinv := init_inv d (2 ^ la) (2 ^ (12 - la)) (Nat.two_pow_pos _) hlen' (by rw [hsum', hTE]) u o a0 hcl
    obtain ⟨st, e1, l1, l2, e2, _⟩ := reassign_spec (fun i => d.getD i 0) (2 ^ la) (2 ^ (12 - la)) hT256 hfle
      ((((List.range (2 ^ la - d.length)).map (· + d.length)).reverse ++ u).length + o.length + 1)
      ⟨d ++ List.replicate (2 ^ la - d.length) 0, ((List.range (2 ^ la - d.length)).map (· + d.length)).reverse ++ u, o, a0⟩
      (by simp; omega) ha hinv (Nat.lt_succ_self _)
    dsimp only
    rw [e1]
    refine ⟨_, rfl, by rw [finish_length _ _ _ _ _ (by omega), l1], ?_⟩
    have hf0 : ∀ s, 2 ^ la ≤ s → d.getD s 0 = 0 := by
      intro s hs; simp [List.getD_eq_getElem?_getD, List.getElem?_eq_none (by omega : d.length ≤ s)]
    obtain ⟨b1, b2⟩ := e2.bijective hf0
    apply partition_of_slot _ la (2 ^ (12 - la)) (2 ^ la) _ (slot (cf st) (rf st) (off st)) rfl rfl (by omega) _ b1 b2
    intro i pos hi hp
    rw [lookup_at _ la i pos hp, finish_get _ _ _ _ _ i (by omega) (by omega)]
    have hci : st.cutoffs[i] = cf st i := by
      simp [cf, List.getD_eq_getElem?_getD, List.getElem?_eq_getElem (by omega : i < st.cutoffs.length)]
    have hri : st.a[i].right = rf st i := by
      simp [rf, List.getD_eq_getElem?_getD, List.getElem?_eq_getElem (by omega : i < st.a.length)]
    have hoi : st.a[i].offsets1 = off st i := by
      simp [off, List.getD_eq_getElem?_getD, List.getElem?_eq_getElem (by omega : i < st.a.length)]
    rw [hci]
    have hxor : ∀ x y : Nat, x ≤ 4096 → y ≤ 4096 → u16 x ^^^ u16 (y ^^^ x) = y := by
      intro x y hx hy
      have hlt : y ^^^ x < 2 ^ 16 := Nat.xor_lt_two_pow (by omega) (by omega)
      rw [u16_eq (by omega), u16_eq hlt, Nat.xor_comm y x, ← Nat.xor_assoc, Nat.xor_self, Nat.zero_xor]
    have hfi := hfle i
    simp only [Option.map_some, finishEntry, Nat.zero_add, Option.some.injEq]
    rcases e2.final.2 i hi with hcE | hfin
    · rw [if_pos hcE]
      simp only [ge_iff_le, Nat.zero_le, if_true, u8_eq (x := i) (by omega), slot, hcE, hp]
      rw [hxor _ _ hfi hfi, Nat.zero_add]
    · obtain ⟨g1, g2, g3, g4⟩ := e2.range i hfin
      have hlt := hfin.2.1
      have hfr := hfle (rf st i)
      have hE128 : 2 ^ (12 - la) ≤ 128 := by
        calc 2 ^ (12 - la) ≤ 2 ^ 7 := Nat.pow_le_pow_right (by omega) (by omega)
          _ = 128 := rfl
      have hcne : ¬ cf st i = 2 ^ (12 - la) := by omega
      simp only [if_neg hcne, hri, hoi, u8_eq (x := cf st i) (by omega), u16_eq (x := cf st i) (by omega), slot]
      have ho : u16 (off st i + 2 ^ 16 - cf st i) = off st i - cf st i := by
        have g3' : off st i + (2 ^ (12 - la) - cf st i) ≤ d.getD (rf st i) 0 := g3
        unfold u16; omega
      by_cases hpc : pos < cf st i
      · have hge : ¬ pos ≥ cf st i := by omega
        simp only [if_neg hge, if_pos hpc, u16_eq (x := d.getD i 0) (by omega), Nat.xor_zero, Nat.zero_add]
      · have hge : pos ≥ cf st i := by omega
        simp only [if_pos hge, if_neg hpc, ho, hxor _ _ hfi hfr]
  · -- a single symbol
    have hs : d[s]? = some 4096 := by
      have := List.of_findIdx?_eq_some (xs := d) (p := (· == 4096)) (i := s) (by simpa [List.idxOf?] using hidx)
      rcases hd : d[s]? with _ | v
      · simp [hd] at this
      · simp [hd] at this; rw [this]
    have hsl : s < d.length := by
      rcases Nat.lt_or_ge s d.length with h | h
      · exact h
      · rw [List.getElem?_eq_none h] at hs; cases hs
    simp only [Option.map_some, Nat.zero_add]
    rw [if_pos (by omega)]
    refine ⟨_, rfl, by simp, ?_⟩
    have hfs : ∀ j, d.getD j 0 = if j = s then 4096 else 0 := by
      intro j
      by_cases hj : j = s
      · subst hj; rw [if_pos rfl, List.getD_eq_getElem?_getD, hs]; rfl
      · rw [if_neg hj]
        have h1 := sum_eq_sumTo d d.length (Nat.le_refl _)
        have h2 := sumTo_upd (fun i => d.getD i 0) s 0 d.length hsl
        have h3 : d.getD s 0 = 4096 := by rw [List.getD_eq_getElem?_getD, hs]; rfl
        by_cases hjl : j < d.length
        · have h4 := le_sumTo (upd (fun i => d.getD i 0) s 0) j d.length hjl
          have h5 : upd (fun i => d.getD i 0) s 0 j = d.getD j 0 := by simp only [upd, if_neg hj]
          rw [h5] at h4
          rw [h3] at h2
          omega
        · simp [List.getD_eq_getElem?_getD, List.getElem?_eq_none (by omega : d.length ≤ j)]
    have hcov : ∀ i pos, i < 2 ^ la → pos < 2 ^ (12 - la) → 2 ^ (12 - la) * i + pos < 4096 := by
      intro i pos hi hp
      have : 2 ^ (12 - la) * (i + 1) ≤ 2 ^ (12 - la) * 2 ^ la := Nat.mul_le_mul_left _ (by omega)
      rw [Nat.mul_comm _ (2 ^ la), hTE, Nat.mul_add] at this; omega
    apply partition_of_slot _ la (2 ^ (12 - la)) (2 ^ la) _ (fun i pos => (s, 2 ^ (12 - la) * i + pos)) rfl rfl (by omega)
    · intro i pos hi hp
      have := hcov i pos hi hp
      rw [lookup_at _ la i pos hp]
      simp [List.getElem?_range hi, hs, u16_eq (x := 2 ^ (12 - la) * i) (by omega)]
    · intro i pos hi hp
      simp only [hfs, if_true]
      exact ⟨hcov i pos hi hp, by omega⟩
    · intro s' x hx
      simp only [hfs] at hx
      split at hx
      · rename_i he; subst he
        have hEp : 0 < 2 ^ (12 - la) := Nat.two_pow_pos _
        refine ⟨x / 2 ^ (12 - la), x % 2 ^ (12 - la), Nat.div_lt_of_lt_mul (by rw [Nat.mul_comm, hTE]; omega), Nat.mod_lt _ hEp,
          by rw [Nat.div_add_mod], ?_⟩
        intro i' pos' hi' hp' he
        simp only [Prod.mk.injEq, true_and] at he
        rw [← he, Nat.mul_add_div hEp, Nat.div_eq_of_lt hp', Nat.mul_add_mod, Nat.mod_eq_of_lt hp']
        exact ⟨rfl, rfl⟩
      · omega

/-- The table does not depend on what its memory held before, so encoder and decoder get the same one. -/
theorem C11_deterministic (dist : List Nat) (la : Nat) (a0 a1 : List Entry) (hla : 5 ≤ la ∧ la ≤ 8) (hsum : dist.sum = 4096)
    (hlen : dist.length ≤ 2 ^ la) (ha0 : a0.length = 2 ^ la) (ha1 : a1.length = 2 ^ la) :
    initTable dist la a0 = initTable dist la a1 := by
  have hT256 : 2 ^ la ≤ 256 := by
    calc 2 ^ la ≤ 2 ^ 8 := Nat.pow_le_pow_right (by omega) hla.2
      _ = 256 := rfl
  have hsum' : (popZeros dist).sum = 4096 := by rw [popZeros_sum, hsum]
  have hlen' : (popZeros dist).length ≤ 2 ^ la := Nat.le_trans (popZeros_length dist) hlen
  unfold initTable
  generalize popZeros dist = d at *
  clear hsum hlen dist
  have hne : d ≠ [] := by intro h; subst h; simp at hsum'
  have hEeq : 4096 >>> la = 2 ^ (12 - la) := by
    rw [Nat.shiftRight_eq_div_pow, show 4096 = 2 ^ 12 from rfl, Nat.pow_div (by omega) (by omega)]
  have hTE : 2 ^ la * 2 ^ (12 - la) = 4096 := by rw [← Nat.pow_add, show la + (12 - la) = 12 by omega]
  have hfle : ∀ i, d.getD i 0 ≤ 4096 := by
    intro i
    by_cases hi : i < d.length
    · have h1 : d.getD i 0 ∈ d := by
        simp [List.getD_eq_getElem?_getD, List.getElem?_eq_getElem hi]
      have := Alias.le_sum_of_mem h1
      omega
    · simp [List.getD_eq_getElem?_getD, List.getElem?_eq_none (by omega : d.length ≤ i)]
  dsimp only
  have h4096 : 2 ^ la ≤ 4096 := by omega
  simp only [if_pos h4096, if_neg hne, if_pos hlen']
  rw [findSingle_spec d 0 none (by omega) (by simp)]
  simp only [Option.bind_eq_bind, Option.bind_some, if_true, hsum', hEeq]
  rcases hidx : d.idxOf? 4096 with _ | s
  · simp only [Option.map_none]
    rcases hcl : classify (2 ^ (12 - la)) d 0 [] [] with ⟨u, o⟩
    have hinv := init_inv d (2 ^ la) (2 ^ (12 - la)) (Nat.two_pow_pos _) hlen' (by rw [hsum', hTE]) u o a0 hcl
    obtain ⟨st, e1, l1, l2, e2, e3⟩ := reassign_spec (fun i => d.getD i 0) (2 ^ la) (2 ^ (12 - la)) hT256 hfle
      ((((List.range (2 ^ la - d.length)).map (· + d.length)).reverse ++ u).length + o.length + 1)
      ⟨d ++ List.replicate (2 ^ la - d.length) 0, ((List.range (2 ^ la - d.length)).map (· + d.length)).reverse ++ u, o, a0⟩
      (by simp; omega) ha0 hinv (Nat.lt_succ_self _)
    dsimp only
    have hag : Agree (2 ^ (12 - la)) (d ++ List.replicate (2 ^ la - d.length) 0)
        (((List.range (2 ^ la - d.length)).map (· + d.length)).reverse ++ u) a0 a1 := by
      refine ⟨by rw [ha0, ha1], fun i hi hu => ?_⟩
      by_cases hiT : i < 2 ^ la
      · exact absurd (init_under d (2 ^ la) (2 ^ (12 - la)) u o hcl i hiT hi) hu
      · simp [List.getD_eq_getElem?_getD, List.getElem?_eq_none (by omega : a0.length ≤ i), List.getElem?_eq_none (by omega : a1.length ≤ i)]
    obtain ⟨a', g1, g2⟩ := reassign_indep _ _ _ _ _ _ _ _ hag e1
    rw [e1, g1]
    simp only [Option.bind_some, Option.some.injEq]
    apply List.ext_getElem
    · rw [finish_length _ _ _ _ _ (by omega), finish_length _ _ _ _ _ (by have := g2.1; omega)]
    · intro i h1 h2
      rw [finish_length _ _ _ _ _ (by omega)] at h1
      have hl := g2.1
      have k1 := finish_get (2 ^ (12 - la)) d st.cutoffs st.a 0 i h1 (by omega)
      have k2 := finish_get (2 ^ (12 - la)) d st.cutoffs a' 0 i h1 (by omega)
      rw [List.getElem?_eq_getElem (by rw [finish_length _ _ _ _ _ (by omega)]; exact h1), Option.some.injEq] at k1
      rw [List.getElem?_eq_getElem (by rw [finish_length _ _ _ _ _ (by omega)]; exact h1), Option.some.injEq] at k2
      rw [k1, k2]
      have hci : st.cutoffs[i] = cf st i := by
        simp [cf, List.getD_eq_getElem?_getD, List.getElem?_eq_getElem h1]
      rcases e2.final.2 i (by omega) with hcE | hfin
      · simp only [finishEntry, hci, hcE, if_true]
      · obtain ⟨r1, r2⟩ := g2.2 i hfin.2.1 (by rw [e3]; simp)
        have q1 : st.a.getD i default = st.a[i]'(by omega) := by
          simp [List.getD_eq_getElem?_getD, List.getElem?_eq_getElem (by omega : i < st.a.length)]
        have q2 : a'.getD i default = a'[i]'(by omega) := by
          simp [List.getD_eq_getElem?_getD, List.getElem?_eq_getElem (by omega : i < a'.length)]
        rw [q1, q2] at r1 r2
        have hne : ¬ cf st i = 2 ^ (12 - la) := by have := hfin.2.1; omega
        simp only [finishEntry, hci, if_neg hne, r1, r2]
  · simp only [Option.map_some]

/-- Symbols of frequency zero are never produced. -/
theorem C11_no_zero_frequency (table : List Entry) (la : Nat) (f : Nat → Nat) (h : ExactPartition table la f) (v s o q : Nat) (hv : v < 4096)
    (hl : lookup table la v = some (s, o, q)) : 0 < f s := by
  obtain ⟨s', o', h1, h2, _⟩ := h.1 v hv
  rw [hl] at h1
  simp only [Option.some.injEq, Prod.mk.injEq] at h1
  obtain ⟨rfl, rfl, _⟩ := h1; omega

-- an uneven distribution with an unused symbol, looked up in three kinds of slots
example : ((initTable [1000, 0, 3000, 90, 6] 5 (List.replicate 32 default)).map fun t =>
    (lookup t 5 0, lookup t 5 (3 * 128 + 89), lookup t 5 (3 * 128 + 90))) =
    some (some (0, 0, 1000), some (3, 89, 90), some (0, 256, 1000)) := by decide +kernel

end Jxl.Props
