import Verif.Lemmas.Huffman
/-! # Filling the root table -/
namespace Jxl.Huffman

theorem put_some {t : List Entry} {i : Nat} (c : Entry) (h : i < t.length) : put t i c = some (t.set i c) := by
  rw [put, if_pos h]

theorem replGo_spec (base step : Nat) (c : Entry) (hs : 0 < step) (k : Nat) (t : List Entry)
    (h : base + k * step < t.length + step ∨ k = 0) (hk : k = 0 ∨ base + (k - 1) * step < t.length) :
    ∃ t', replGo t base step c k = some t' ∧ t'.length = t.length ∧
      (∀ j < k, t'[base + j * step]? = some c) ∧
      (∀ i, (∀ j < k, i ≠ base + j * step) → t'[i]? = t[i]?) := by
  induction k generalizing t with
  | zero => exact ⟨t, rfl, rfl, by simp, fun _ _ => rfl⟩
  | succ k ih =>
    have hk' : base + k * step < t.length := by
      rcases hk with h | h
      · omega
      · simpa using h
    obtain ⟨t', h1, h2, h3, h4⟩ := ih (t.set (base + k * step) c) (by
      rw [List.length_set]; left; omega) (by
      rw [List.length_set]
      rcases Nat.eq_zero_or_pos k with h0 | h0
      · left; exact h0
      · right
        have : (k - 1) * step ≤ k * step := Nat.mul_le_mul_right _ (by omega)
        omega)
    refine ⟨t', by rw [replGo, put_some c hk']; exact h1, by rw [h2, List.length_set], ?_, ?_⟩
    · intro j hj
      rcases Nat.lt_or_ge j k with h5 | h5
      · exact h3 j h5
      · have : j = k := by omega
        subst this
        rw [h4]
        · rw [List.getElem?_set_self hk']
        · intro j' hj' e
          have : j * step = j' * step := by omega
          have := Nat.eq_of_mul_eq_mul_right hs this
          omega
    · intro i hi
      rw [h4 i (fun j hj => hi j (by omega)), List.getElem?_set_ne (fun e => hi k (by omega) e.symm)]

/-- `ReplicateValue` sets every index congruent to `key` within its table, and nothing else. -/
theorem repl_spec (t : List Entry) (off key len tb : Nat) (c : Entry) (hl : len ≤ tb) (hk : key < 2 ^ len)
    (hb : off + 2 ^ tb ≤ t.length) :
    ∃ t', repl t (off + key) (2 ^ len) (2 ^ tb) c = some t' ∧ t'.length = t.length ∧
      (∀ i < 2 ^ tb, i % 2 ^ len = key → t'[off + i]? = some c) ∧
      (∀ i < 2 ^ tb, i % 2 ^ len ≠ key → t'[off + i]? = t[off + i]?) ∧
      (∀ i, (i < off ∨ off + 2 ^ tb ≤ i) → t'[i]? = t[i]?) := by
  have hp := Nat.two_pow_pos tb
  have hq := Nat.two_pow_pos len
  have he : (2:Nat) ^ tb = 2 ^ (tb - len) * 2 ^ len := by rw [← Nat.pow_add]; congr 1; omega
  have hmod : (2:Nat) ^ tb % 2 ^ len = 0 := by rw [he, Nat.mul_mod_left]
  have hdiv : (2:Nat) ^ tb / 2 ^ len = 2 ^ (tb - len) := by rw [he, Nat.mul_div_cancel _ hq]
  have hr := Nat.two_pow_pos (tb - len)
  have hbound : ∀ j, j < 2 ^ (tb - len) → j * 2 ^ len + 2 ^ len ≤ 2 ^ tb := by
    intro j hj
    rw [he, ← Nat.succ_mul]
    exact Nat.mul_le_mul_right _ hj
  obtain ⟨t', h1, h2, h3, h4⟩ := replGo_spec (off + key) (2 ^ len) c hq (2 ^ (tb - len)) t (by
    left; rw [← he]; omega) (by
    right
    have := hbound (2 ^ (tb - len) - 1) (by omega)
    omega)
  refine ⟨t', ?_, h2, ?_, ?_, ?_⟩
  · rw [repl, if_neg (by rw [hmod]; omega), hdiv, h1]
  · intro i hi hik
    have hd : i / 2 ^ len < 2 ^ (tb - len) := by
      apply Nat.div_lt_of_lt_mul; rw [Nat.mul_comm, ← he]; exact hi
    have := h3 _ hd
    have e : off + key + i / 2 ^ len * 2 ^ len = off + i := by
      have := Nat.div_add_mod i (2 ^ len)
      rw [Nat.mul_comm] at this; omega
    rwa [e] at this
  · intro i hi hik
    apply h4
    intro j hj e
    apply hik
    have e2 : i = key + j * 2 ^ len := by omega
    rw [e2, Nat.add_mul_mod_self_right, Nat.mod_eq_of_lt hk]
  · intro i hi
    apply h4
    intro j hj e
    have := hbound j hj
    omega

/-- The part of the table that holds the words before `(len, m)`. -/
structure RootInv (cnt : Nat → Nat) (symAt : Nat → Nat → Nat) (N tb len m : Nat) (s : Root) : Prop where
  key : code cnt len m < 2 ^ len → s.key = rev len (code cnt len m)
  sym : s.sym = offsets cnt len + m
  size : s.t.length = N
  filled : ∀ l k, 1 ≤ l → Before cnt l k len m → ∀ i < 2 ^ tb, i % 2 ^ l = rev l (code cnt l k) →
    s.t[i]? = some ⟨l, symAt l k⟩

variable {cnt : Nat → Nat} {symAt : Nat → Nat → Nat} {sorted : List Nat} {N tb : Nat}

theorem RootInv.step (hc : base cnt 16 = 2 ^ 15) (htb : tb ≤ 15) (hN : 2 ^ tb ≤ N)
    {len m : Nat} {s : Root} (hs : sorted[offsets cnt len + m]? = some (symAt len m))
    (hlen : 1 ≤ len) (hle : len ≤ tb) (hm : m < cnt len) (h : RootInv cnt symAt N tb len m s) :
    ∃ t', repl s.t s.key (2 ^ len) (2 ^ tb) ⟨len, symAt len m⟩ = some t' ∧
      sorted[s.sym]? = some (symAt len m) ∧
      RootInv cnt symAt N tb len (m + 1) ⟨nextKey s.key len, s.sym + 1, t'⟩ := by
  have hlt := code_lt hc hlen (by omega) hm
  have hkey := h.key hlt
  obtain ⟨t', h1, h2, h3, h4, _⟩ := repl_spec s.t 0 s.key len tb ⟨len, symAt len m⟩ hle
    (by rw [hkey]; exact rev_lt _ _) (by rw [h.size]; omega)
  simp only [Nat.zero_add] at h1 h3 h4
  refine ⟨t', h1, by rw [h.sym]; exact hs, ?_, ?_, ?_, ?_⟩
  · intro hlt2
    have hlt3 : code cnt len m + 1 < 2 ^ len := hlt2
    have := nextKey_rev len 0 (code cnt len m) hlt3
    simp only [Nat.zero_mul, Nat.zero_add] at this
    show nextKey s.key len = _
    rw [hkey, this]; rfl
  · show s.sym + 1 = _; rw [h.sym]; omega
  · show t'.length = N; rw [h2, h.size]
  · intro l k hl hb i hi hik
    show t'[i]? = _
    by_cases hsame : l = len ∧ k = m
    · obtain ⟨rfl, rfl⟩ := hsame
      exact h3 i hi (by rw [hik, hkey])
    · have hb' : Before cnt l k len m := by
        unfold Before at hb ⊢; omega
      rw [h4 i hi, h.filled l k hl hb' i hi hik]
      intro e
      rw [hkey] at e
      exact not_both hc hl (by omega) hm hlen hb' hik e

theorem rootRun_spec (hc : base cnt 16 = 2 ^ 15) (htb : tb ≤ 15) (hN : 2 ^ tb ≤ N) {len : Nat}
    (hs : ∀ k < cnt len, sorted[offsets cnt len + k]? = some (symAt len k))
    (hlen : 1 ≤ len) (hle : len ≤ tb) (k m : Nat) (hm : m + k = cnt len) (s : Root)
    (h : RootInv cnt symAt N tb len m s) :
    ∃ s', rootRun sorted (2 ^ tb) len k s = some s' ∧ RootInv cnt symAt N tb len (cnt len) s' := by
  induction k generalizing m s with
  | zero => exact ⟨s, rfl, by rw [← hm]; exact h⟩
  | succ k ih =>
    obtain ⟨t', h1, h2, h3⟩ := h.step hc htb hN (hs m (by omega)) hlen hle (by omega)
    obtain ⟨s', h4, h5⟩ := ih (m + 1) (by omega) _ h3
    refine ⟨s', ?_, h5⟩
    rw [rootRun, h2, Option.bind_some, h1, Option.bind_some, h4]

theorem RootInv.next {len : Nat} {s : Root} (hlen : 1 ≤ len) (h : RootInv cnt symAt N tb len (cnt len) s) :
    RootInv cnt symAt N tb (len + 1) 0 s := by
  refine ⟨?_, ?_, h.size, ?_⟩
  · intro hlt
    rw [code_next cnt hlen] at hlt ⊢
    rw [Nat.pow_succ] at hlt
    rw [rev_double]
    exact h.key (by omega)
  · rw [h.sym, offsets_succ cnt hlen]; omega
  · intro l k hl hb
    exact h.filled l k hl (by unfold Before at hb ⊢; rcases hb with ⟨a, b⟩ | ⟨a, b⟩
                              · by_cases e : l = len
                                · subst e; right; exact ⟨rfl, b⟩
                                · left; exact ⟨by omega, b⟩
                              · omega)

theorem rootFill_spec (hc : base cnt 16 = 2 ^ 15) (htb : tb ≤ 15) (hN : 2 ^ tb ≤ N)
    (hs : ∀ l k, 1 ≤ l → l ≤ 15 → k < cnt l → sorted[offsets cnt l + k]? = some (symAt l k))
    (n len : Nat) (hlen : 1 ≤ len) (hle : len + n = tb + 1) (s : Root)
    (h : RootInv cnt symAt N tb len 0 s) :
    ∃ s', rootFill sorted cnt (2 ^ tb) len n s = some s' ∧ RootInv cnt symAt N tb (tb + 1) 0 s' := by
  induction n generalizing len s with
  | zero => exact ⟨s, rfl, by rw [← hle]; exact h⟩
  | succ n ih =>
    obtain ⟨s1, h1, h2⟩ := rootRun_spec hc htb hN (fun k hk => hs len k hlen (by omega) hk) hlen (by omega)
      (cnt len) 0 (by omega) s h
    obtain ⟨s2, h3, h4⟩ := ih (len + 1) (by omega) (by omega) s1 (h2.next hlen)
    exact ⟨s2, by rw [rootFill, h1, Option.bind_some, h3], h4⟩

theorem rootInv_init (t : List Entry) (ht : t.length = N) : RootInv cnt symAt N tb 1 0 ⟨0, 0, t⟩ := by
  refine ⟨?_, ?_, ht, ?_⟩
  · intro _
    have : code cnt 1 0 = 0 := by simp [code, first]
    rw [this, rev_zero_right]
  · simp [offsets]
  · intro l k hl hb
    unfold Before at hb; omega

theorem doubleUp_spec (n : Nat) : ∀ (tb : Nat) (t : List Entry), 2 ^ (tb + n) ≤ t.length →
    ∃ t', doubleUp t tb n = some t' ∧ t'.length = t.length ∧
      ∀ i < 2 ^ (tb + n), t'[i]? = t[i % 2 ^ tb]? := by
  induction n with
  | zero =>
    intro tb t _
    exact ⟨t, rfl, rfl, fun i hi => by rw [Nat.mod_eq_of_lt (by simpa using hi)]⟩
  | succ n ih =>
    intro tb t ht
    have hp := Nat.two_pow_pos tb
    have hpow : (2:Nat) ^ (tb + 1) = 2 * 2 ^ tb := by rw [Nat.pow_succ, Nat.mul_comm]
    have hle : 2 ^ (tb + 1) ≤ t.length :=
      Nat.le_trans (Nat.pow_le_pow_right (by omega) (by omega)) ht
    generalize hu : t.take (2 ^ tb) ++ t.take (2 ^ tb) ++ t.drop (2 ^ (tb + 1)) = u
    have hlen : u.length = t.length := by
      rw [← hu]; simp only [List.length_append, List.length_take, List.length_drop]; omega
    have hget : ∀ j < 2 ^ (tb + 1), u[j]? = t[j % 2 ^ tb]? := by
      intro j hj
      have hl : (t.take (2 ^ tb)).length = 2 ^ tb := by rw [List.length_take]; omega
      rw [← hu, List.getElem?_append_left (by simp only [List.length_append, hl]; omega)]
      rcases Nat.lt_or_ge j (2 ^ tb) with h | h
      · rw [List.getElem?_append_left (by rw [hl]; exact h), List.getElem?_take, if_pos h, Nat.mod_eq_of_lt h]
      · rw [List.getElem?_append_right (by rw [hl]; exact h), hl, List.getElem?_take, if_pos (by omega)]
        congr 1
        rw [Nat.mod_eq_sub_mod h, Nat.mod_eq_of_lt (by omega)]
    obtain ⟨t', h1, h2, h3⟩ := ih (tb + 1) u (by rw [hlen]; rwa [show tb + 1 + n = tb + (n + 1) by omega])
    refine ⟨t', ?_, by rw [h2, hlen], ?_⟩
    · rw [doubleUp, if_pos hle, hu, h1]
    · intro i hi
      rw [h3 i (by rwa [show tb + 1 + n = tb + (n + 1) by omega]),
        hget _ (Nat.mod_lt _ (Nat.two_pow_pos _)), Nat.pow_succ, Nat.mod_mul_right_mod]

end Jxl.Huffman
