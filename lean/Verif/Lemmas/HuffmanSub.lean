import Verif.Lemmas.HuffmanRoot
/-! # Filling the second-level tables, and their total size -/
namespace Jxl.Huffman

theorem phi_mono {a b : Nat} (h : a ≤ b) : 2 ^ a + b ≤ 2 ^ b + a := by
  induction b with
  | zero => rw [Nat.le_zero.mp h]; exact Nat.le_refl _
  | succ b ih =>
    rcases Nat.lt_or_ge a (b + 1) with h1 | h1
    · have := ih (by omega)
      have := Nat.two_pow_pos b
      rw [Nat.pow_succ]; omega
    · rw [show a = b + 1 by omega]; exact Nat.le_refl _

variable {cnt : Nat → Nat} {symAt : Nat → Nat → Nat} {sorted : List Nat} {N R : Nat}

/-- What `NextTableBitSize` finds: the length `T` of the last word below `E`, and a lower bound for the number of
words up to `E`. -/
theorem nextLen_spec (E : Nat) (hE : E ≤ base cnt 16) (f : Nat) : ∀ (count : Nat → Nat) (left len m : Nat),
    1 ≤ len → len + f = 15 → m ≤ cnt len → count len = cnt len - m → (∀ l, len < l → count l = cnt l) →
    1 ≤ left → pos cnt len m + left * 2 ^ (15 - len) = E →
    ∃ T j, nextLen count left len f = T ∧ len ≤ T ∧ T ≤ 15 ∧ E ≤ base cnt (T + 1) ∧ 1 ≤ j ∧
      E = base cnt T + j * 2 ^ (15 - T) ∧ offsets cnt len + m + left + T ≤ offsets cnt T + j + len := by
  induction f with
  | zero =>
    intro count left len m h1 h2 h3 h4 h5 h6 h7
    have : len = 15 := by omega
    subst this
    refine ⟨15, m + left, rfl, by omega, by omega, hE, by omega, ?_, by omega⟩
    rw [← h7, pos]; omega
  | succ f ih =>
    intro count left len m h1 h2 h3 h4 h5 h6 h7
    by_cases hb : left ≤ count len
    · refine ⟨len, m + left, by rw [nextLen, if_pos hb], by omega, by omega, ?_, by omega, ?_, by omega⟩
      · rw [← h7, base_succ cnt h1, pos, Nat.add_assoc, ← Nat.add_mul]
        exact Nat.add_le_add_left (Nat.mul_le_mul_right _ (by omega)) _
      · rw [← h7, pos, Nat.add_mul]; omega
    · obtain ⟨T, j, a, b, c, d, e, g, i⟩ := ih count ((left - count len) * 2) (len + 1) 0 (by omega) (by omega)
        (by omega) (by rw [h5 _ (by omega)]; omega) (fun l hl => h5 l (by omega)) (by omega) (by
          rw [pos_zero, base_succ cnt h1, ← h7, pos]
          rw [pow_15_sub (l := len) (by omega)]
          have : cnt len + (left - count len) = m + left := by omega
          generalize 2 ^ (15 - (len + 1)) = P
          have : cnt len * (2 * P) + (left - count len) * 2 * P = (cnt len + (left - count len)) * (2 * P) := by
            rw [Nat.add_mul, Nat.mul_assoc (left - count len)]
          rw [Nat.add_assoc, this, ‹cnt len + _ = _›, Nat.add_mul, Nat.add_assoc])
      refine ⟨T, j, by rw [nextLen, if_neg hb, a], by omega, c, d, e, g, ?_⟩
      rw [offsets_succ cnt h1] at i
      omega

/-- The leading `R` bits of a word. -/
def pfx (cnt : Nat → Nat) (R l k : Nat) : Nat := code cnt l k / 2 ^ (l - R)

theorem pow_pfx {l : Nat} (h : R ≤ l) (h2 : l ≤ 15) : (2:Nat) ^ (15 - R) = 2 ^ (l - R) * 2 ^ (15 - l) := by
  rw [← Nat.pow_add]; congr 1; omega

theorem pfx_le {l : Nat} (h : R ≤ l) (h2 : l ≤ 15) (k : Nat) : pfx cnt R l k * 2 ^ (15 - R) ≤ pos cnt l k := by
  rw [pos_eq cnt h2, pow_pfx h h2, ← Nat.mul_assoc]
  exact Nat.mul_le_mul_right _ (Nat.div_mul_le_self _ _)

theorem le_pfx {l : Nat} (h : R ≤ l) (h2 : l ≤ 15) (k : Nat) :
    pos cnt l k + 2 ^ (15 - l) ≤ (pfx cnt R l k + 1) * 2 ^ (15 - R) := by
  rw [← pos_succ, pos_eq cnt h2, pow_pfx h h2, ← Nat.mul_assoc]
  apply Nat.mul_le_mul_right
  have := Nat.lt_div_mul_add (a := code cnt l k) (Nat.two_pow_pos (l - R))
  rw [Nat.add_mul, Nat.one_mul]
  show code cnt l k + 1 ≤ _
  unfold pfx; omega

theorem pfx_lt (hc : base cnt 16 = 2 ^ 15) {l k : Nat} (h : R ≤ l) (h1 : 1 ≤ l) (h2 : l ≤ 15) (hk : k < cnt l) :
    pfx cnt R l k < 2 ^ R := by
  have := code_lt hc h1 h2 hk
  apply Nat.div_lt_of_lt_mul
  rwa [← Nat.pow_add, show l - R + R = l by omega]

theorem rev_mod_root {l : Nat} (h : R ≤ l) (c : Nat) : rev l c % 2 ^ R = rev R (c / 2 ^ (l - R)) := by
  have := rev_add_mod R (l - R) c
  rwa [show R + (l - R) = l by omega] at this

theorem rev_div_root {l : Nat} (h : R ≤ l) (c : Nat) : rev l c / 2 ^ R = rev (l - R) c := by
  have := rev_add_div R (l - R) c
  rwa [show R + (l - R) = l by omega] at this

/-- The second-level table of prefix `p` is open at `[st, st + 2^tb)` and long enough for all its words. -/
structure Linked (cnt : Nat → Nat) (R p st tb total : Nat) (t : List Entry) : Prop where
  low : 2 ^ R ≤ st
  high : st + 2 ^ tb ≤ total
  bits : tb + R ≤ 15
  enough : (p + 1) * 2 ^ (15 - R) ≤ base cnt (tb + R + 1)
  link : t[rev R p]? = some ⟨tb + R, st - rev R p⟩
  some_bits : 1 ≤ tb

/-- The table currently open, or none yet: `Q` is one more than the last prefix opened. -/
def Current (cnt : Nat → Nat) (R len m Q : Nat) (s : Sub) : Prop :=
  (s.low = none ∧ pos cnt len m = Q * 2 ^ (15 - R) ∧ s.total = 2 ^ R) ∨
  ∃ q j, Q = q + 1 ∧ q < 2 ^ R ∧ s.low = some (rev R q) ∧ q * 2 ^ (15 - R) ≤ pos cnt len m ∧
    pos cnt len m ≤ Q * 2 ^ (15 - R) ∧ Linked cnt R q s.start s.tbits s.total s.t ∧ 1 ≤ j ∧
    Q * 2 ^ (15 - R) = base cnt (s.tbits + R) + j * 2 ^ (15 - (s.tbits + R)) ∧
    s.total + s.tbits + 1 + offsets cnt (R + 1) ≤ 2 ^ R + (offsets cnt (s.tbits + R) + j) + 2 ^ s.tbits

structure SubInv (cnt : Nat → Nat) (symAt : Nat → Nat → Nat) (N R len m Q : Nat) (s : Sub) : Prop where
  key : code cnt len m < 2 ^ len → s.key = rev len (code cnt len m)
  sym : s.sym = offsets cnt len + m
  size : s.t.length = N
  total : s.total = s.start + 2 ^ s.tbits
  root : ∀ l k, 1 ≤ l → l ≤ R → k < cnt l → ∀ i < 2 ^ R, i % 2 ^ l = rev l (code cnt l k) →
    s.t[i]? = some ⟨l, symAt l k⟩
  sub : ∀ l k, R < l → Before cnt l k len m → pfx cnt R l k < Q ∧
    ∃ st tb, Linked cnt R (pfx cnt R l k) st tb s.total s.t ∧
      (pfx cnt R l k + 1 = Q → st = s.start ∧ tb = s.tbits) ∧
      (pfx cnt R l k + 1 < Q → st + 2 ^ tb ≤ s.start) ∧
      ∀ i < 2 ^ tb, i % 2 ^ (l - R) = rev (l - R) (code cnt l k) → s.t[st + i]? = some ⟨l - R, symAt l k⟩
  cur : Current cnt R len m Q s

theorem before_cnt {l k len m : Nat} (hm : m < cnt len) (h : Before cnt l k len m) : k < cnt l ∧ l ≤ len := by
  rcases h with h | ⟨rfl, h⟩
  · exact ⟨h.2, by omega⟩
  · exact ⟨by omega, Nat.le_refl _⟩

/-- A root slot that leads to a second-level table is not the slot of a short word. -/
theorem root_ne (hc : base cnt 16 = 2 ^ 15) {l k len m : Nat} (hl : 1 ≤ l) (hlR : l ≤ R) (hk : k < cnt l)
    (hR : R < len) (h15 : len ≤ 15) (hm : m < cnt len)
    (h : rev R (pfx cnt R len m) % 2 ^ l = rev l (code cnt l k)) : False := by
  apply not_both hc (i := rev len (code cnt len m)) hl h15 hm (by omega) (Or.inl ⟨by omega, hk⟩) ?_ ?_
  · rw [← h, pfx, ← rev_mod_root (by omega)]
    obtain ⟨d, rfl⟩ : ∃ d, R = l + d := ⟨R - l, by omega⟩
    rw [Nat.pow_add, Nat.mod_mul_right_mod]
  · rw [Nat.mod_eq_of_lt (rev_lt _ _)]

theorem ensure_spec (hc : base cnt 16 = 2 ^ 15) {n : Nat} (hn : offsets cnt 16 ≤ n)
    (hN : 2 ^ R + n + 2 ^ (15 - R) ≤ N + (15 - R) + 1) (hN2 : N ≤ 65536) (hR1 : 1 ≤ R)
    {len m Q : Nat} {s : Sub} (hlen : R < len) (h15 : len ≤ 15) (hm : m < cnt len)
    (count : Nat → Nat) (hcl : count len = cnt len - m) (hco : ∀ l, len < l → count l = cnt l)
    (h : SubInv cnt symAt N R len m Q s) :
    ∃ s', ensureTable R count len s = some s' ∧ s'.key = s.key ∧ s'.sym = s.sym ∧
      SubInv cnt symAt N R len m (pfx cnt R len m + 1) s' ∧ s'.low = some (rev R (pfx cnt R len m)) := by
  have hlt := code_lt hc (by omega) h15 hm
  have hkey := h.key hlt
  have hkm : s.key % 2 ^ R = rev R (pfx cnt R len m) := by rw [hkey, rev_mod_root (by omega)]; rfl
  have hp1 := pfx_le (cnt := cnt) (R := R) (by omega) h15 m
  have hp2 := le_pfx (cnt := cnt) (R := R) (by omega) h15 m
  have hp3 := pfx_lt (R := R) hc (by omega) (by omega) h15 hm
  have hD := Nat.two_pow_pos (15 - R)
  have hU := Nat.two_pow_pos (15 - len)
  unfold ensureTable
  rw [hkm]
  by_cases hlow : s.low = some (rev R (pfx cnt R len m))
  · rw [if_pos hlow]
    refine ⟨s, rfl, rfl, rfl, ?_, hlow⟩
    rcases h.cur with ⟨h1, _⟩ | ⟨q, j, h1, h2, h3, _⟩
    · rw [h1] at hlow; cases hlow
    · rw [h3] at hlow
      have := rev_inj h2 hp3 (Option.some.inj hlow)
      rw [← this, ← h1]; exact h
  · rw [if_neg hlow]
    -- the word opens its prefix
    have hfresh : pos cnt len m = pfx cnt R len m * 2 ^ (15 - R) ∧ Q ≤ pfx cnt R len m := by
      rcases h.cur with ⟨h1, h2, _⟩ | ⟨q, j, h1, h2, h3, h4, h5, _⟩
      · rw [h2] at hp1 hp2 ⊢
        have a := Nat.le_of_mul_le_mul_right hp1 hD
        have b : Q < pfx cnt R len m + 1 := by
          apply Nat.lt_of_mul_lt_mul_right (a := 2 ^ (15 - R)); omega
        rw [show Q = pfx cnt R len m by omega]; exact ⟨rfl, Nat.le_refl _⟩
      · have hq : q ≠ pfx cnt R len m := by
          intro e; rw [h3, e] at hlow; exact hlow rfl
        have b : q < pfx cnt R len m + 1 := by
          apply Nat.lt_of_mul_lt_mul_right (a := 2 ^ (15 - R)); omega
        have c : Q ≤ pfx cnt R len m := by omega
        have := Nat.mul_le_mul_right (2 ^ (15 - R)) c
        exact ⟨by omega, c⟩
    obtain ⟨hpos, hQ⟩ := hfresh
    have hEle : (pfx cnt R len m + 1) * 2 ^ (15 - R) ≤ base cnt 16 := by
      rw [hc, show (2:Nat) ^ 15 = 2 ^ R * 2 ^ (15 - R) by rw [← Nat.pow_add]; congr 1; omega]
      exact Nat.mul_le_mul_right _ hp3
    obtain ⟨T, j, hT, hT1, hT2, hT3, hj, hT4, hT5⟩ := nextLen_spec
      ((pfx cnt R len m + 1) * 2 ^ (15 - R)) hEle (15 - len) count (2 ^ (len - R)) len m (by omega) (by omega)
      (by omega) hcl hco (Nat.two_pow_pos _) (by
        rw [hpos, ← pow_pfx (by omega) h15, Nat.add_mul, Nat.one_mul])
    have hnb : nextTableBits count len R = T - R := by rw [nextTableBits, hT]
    have hTR : T - R + R = T := by omega
    -- memory
    have hphi : 2 ^ (T - R) + (15 - R) ≤ 2 ^ (15 - R) + (T - R) := phi_mono (by omega)
    have hjle : offsets cnt T + j ≤ n := by
      have : j ≤ cnt T := by
        rw [hT4, base_succ cnt (by omega : 1 ≤ T)] at hT3
        exact Nat.le_of_mul_le_mul_right (Nat.le_of_add_le_add_left hT3) (Nat.two_pow_pos _)
      calc offsets cnt T + j ≤ offsets cnt (T + 1) := by rw [offsets_succ cnt (by omega)]; omega
        _ ≤ offsets cnt 16 := offsets_mono cnt (by omega)
        _ ≤ n := hn
    have htot0 : 2 ^ R ≤ s.total := by
      rcases h.cur with ⟨_, _, h3⟩ | ⟨q, j, _, _, _, _, _, hl, _⟩
      · omega
      · exact Nat.le_trans hl.low (Nat.le_trans (Nat.le_add_right _ _) hl.high)
    have hmem : s.total + 2 ^ (T - R) + (T - R) + 1 + offsets cnt (R + 1) ≤
        2 ^ R + (offsets cnt T + j) + 2 ^ (T - R) := by
      have hoff : offsets cnt (R + 1) ≤ offsets cnt len := offsets_mono cnt (by omega)
      rcases h.cur with ⟨_, _, h3⟩ | ⟨q, j', h1, h2, h3, h4, h5, hl, hj', hE, hM⟩
      · have : len - R + 1 ≤ 2 ^ (len - R) := Nat.lt_two_pow_self
        omega
      · -- the earlier table ends no later than this word begins
        have hb := hl.bits
        have hpos' : Q * 2 ^ (15 - R) ≤ pos cnt len m := by
          rw [hpos]; exact Nat.mul_le_mul_right _ hQ
        have hT' : s.tbits + R ≤ len := by
          rcases Nat.lt_or_ge len (s.tbits + R) with hlt' | hge
          · exfalso
            have hbm : base cnt (len + 1) ≤ base cnt (s.tbits + R) := base_mono cnt hlt'
            have : pos cnt len m ≤ base cnt (len + 1) := by
              rw [← pos_cnt cnt (by omega)]; exact pos_mono cnt len (by omega)
            have : 1 * 2 ^ (15 - (s.tbits + R)) ≤ j' * 2 ^ (15 - (s.tbits + R)) := Nat.mul_le_mul_right _ hj'
            have := Nat.two_pow_pos (15 - (s.tbits + R))
            omega
          · exact hge
        have hX : offsets cnt (s.tbits + R) + j' ≤ offsets cnt len + m := by
          rcases Nat.lt_or_eq_of_le hT' with hlt' | heq
          · have : j' ≤ cnt (s.tbits + R) := by
              have he := hl.enough
              rw [← h1, hE, base_succ cnt (by omega : 1 ≤ s.tbits + R)] at he
              exact Nat.le_of_mul_le_mul_right (Nat.le_of_add_le_add_left he) (Nat.two_pow_pos _)
            calc offsets cnt (s.tbits + R) + j' ≤ offsets cnt (s.tbits + R + 1) := by
                  rw [offsets_succ cnt (by omega)]; omega
              _ ≤ offsets cnt len := offsets_mono cnt hlt'
              _ ≤ _ := by omega
          · rw [hE, heq, pos] at hpos'
            have := Nat.le_of_mul_le_mul_right (Nat.le_of_add_le_add_left hpos') (Nat.two_pow_pos _)
            rw [heq]; omega
        have hphi2 : 2 ^ s.tbits + (len - R) ≤ 2 ^ (len - R) + s.tbits := phi_mono (by omega)
        omega
    have hcap : s.total + 2 ^ (T - R) ≤ N := by omega
    have hrl : rev R (pfx cnt R len m) < 2 ^ R := rev_lt _ _
    have hT1' : 0 < 2 ^ (T - R) := Nat.two_pow_pos _
    have hplow : rev R (pfx cnt R len m) < s.t.length := by rw [h.size]; omega
    have hmod : (s.start + 2 ^ s.tbits - rev R (pfx cnt R len m)) % 65536 =
        s.total - rev R (pfx cnt R len m) := by
      rw [← h.total, Nat.mod_eq_of_lt (by omega)]
    rw [openTable, hkm, hnb, hmod, put_some _ hplow, hTR]
    refine ⟨_, rfl, rfl, rfl, ⟨h.key, h.sym, ?_, ?_, ?_, ?_, ?_⟩, rfl⟩
    · show (s.t.set _ _).length = N; rw [List.length_set, h.size]
    · show s.total + _ = s.start + 2 ^ s.tbits + _; rw [h.total]
    · intro l k hl hlR hk i hi hik
      show (s.t.set _ _)[i]? = _
      rw [List.getElem?_set_ne, h.root l k hl hlR hk i hi hik]
      intro e
      rw [← e] at hik
      exact root_ne hc hl hlR hk hlen h15 hm hik
    · intro l k hRl hb
      obtain ⟨g1, st, tb, g2, g3, g4, g5⟩ := h.sub l k hRl hb
      refine ⟨by omega, st, tb, ⟨g2.low, ?_, g2.bits, g2.enough, ?_, g2.some_bits⟩, ?_, ?_, ?_⟩
      · show st + 2 ^ tb ≤ s.total + 2 ^ (T - R); have := g2.high; omega
      · show (s.t.set _ _)[_]? = _
        rw [List.getElem?_set_ne, g2.link]
        intro e
        have hk := before_cnt hm hb
        have := rev_inj hp3 (pfx_lt hc (by omega) (by omega) (by omega) hk.1) e
        omega
      · intro e; omega
      · intro _
        show st + 2 ^ tb ≤ s.start + 2 ^ s.tbits
        have := g2.high
        rw [← h.total]; exact this
      · intro i hi hik
        show (s.t.set _ _)[st + i]? = _
        rw [List.getElem?_set_ne, g5 i hi hik]
        have := g2.low
        omega
    · refine Or.inr ⟨pfx cnt R len m, j, rfl, hp3, rfl, by omega, by omega, ⟨?_, ?_, ?_, ?_, ?_, ?_⟩, hj, ?_, ?_⟩
      · show 2 ^ R ≤ s.start + 2 ^ s.tbits; rw [← h.total]; exact htot0
      · show s.start + 2 ^ s.tbits + 2 ^ (T - R) ≤ s.total + 2 ^ (T - R); rw [← h.total]; exact Nat.le_refl _
      · show T - R + R ≤ 15; omega
      · show _ ≤ base cnt (T - R + R + 1); rw [hTR]; exact hT3
      · show (s.t.set _ _)[_]? = some (Entry.mk (T - R + R) (s.start + 2 ^ s.tbits - _))
        rw [List.getElem?_set_self hplow, hTR, ← h.total]
      · show 1 ≤ T - R; omega
      · show _ = base cnt (T - R + R) + j * 2 ^ (15 - (T - R + R)); rw [hTR]; exact hT4
      · show s.total + 2 ^ (T - R) + (T - R) + 1 + _ ≤ _ + (offsets cnt (T - R + R) + j) + 2 ^ (T - R)
        rw [hTR]; exact hmem

/-- The words of one prefix fit its table. -/
theorem Linked.len_le {p st tb total : Nat} {t : List Entry} (h : Linked cnt R p st tb total t) {len m : Nat}
    (hR : R ≤ len) (h15 : len ≤ 15) (hp : pfx cnt R len m = p) : len ≤ tb + R := by
  rcases Nat.lt_or_ge (tb + R) len with hlt | hge
  · exfalso
    have h1 := h.enough
    have h2 := base_mono cnt (show tb + R + 1 ≤ len from hlt)
    have h3 := le_pfx (cnt := cnt) (R := R) hR h15 m
    rw [hp] at h3
    have h4 : base cnt len ≤ pos cnt len m := by rw [pos]; omega
    have := Nat.two_pow_pos (15 - len)
    omega
  · exact hge

theorem step_spec (hc : base cnt 16 = 2 ^ 15) {len m Q : Nat} {s : Sub} (hR1 : 1 ≤ R) (hlen : R < len)
    (h15 : len ≤ 15) (hm : m < cnt len) (hQ : Q = pfx cnt R len m + 1) (hcap : s.total ≤ N)
    (hlow : s.low = some (rev R (pfx cnt R len m))) (h : SubInv cnt symAt N R len m Q s) :
    ∃ t', repl s.t (s.start + s.key / 2 ^ R) (2 ^ (len - R)) (2 ^ s.tbits) ⟨len - R, symAt len m⟩ = some t' ∧
      SubInv cnt symAt N R len (m + 1) Q { s with key := nextKey s.key len, sym := s.sym + 1, t := t' } := by
  have hlt := code_lt hc (by omega) h15 hm
  have hkey := h.key hlt
  have hp3 := pfx_lt (R := R) hc (by omega) (by omega) h15 hm
  have hp2 := le_pfx (cnt := cnt) (R := R) (by omega) h15 m
  have hp1 := pfx_le (cnt := cnt) (R := R) (by omega) h15 m
  have hcur : ∃ j, Linked cnt R (pfx cnt R len m) s.start s.tbits s.total s.t ∧ 1 ≤ j ∧
      Q * 2 ^ (15 - R) = base cnt (s.tbits + R) + j * 2 ^ (15 - (s.tbits + R)) ∧
      s.total + s.tbits + 1 + offsets cnt (R + 1) ≤ 2 ^ R + (offsets cnt (s.tbits + R) + j) + 2 ^ s.tbits := by
    rcases h.cur with ⟨h1, _⟩ | ⟨q, j, h1, h2, h3, h4, h5, h6, h7, h8, h9⟩
    · rw [h1] at hlow; cases hlow
    · have : q = pfx cnt R len m := by omega
      subst this
      exact ⟨j, h6, h7, h8, h9⟩
  obtain ⟨j, hlink, hj, hj2, hj3⟩ := hcur
  have hlb := hlink.len_le (m := m) (by omega) h15 rfl
  have hkd : s.key / 2 ^ R = rev (len - R) (code cnt len m) := by rw [hkey, rev_div_root (by omega)]
  obtain ⟨t', h1, h2, h3, h4, h5⟩ := repl_spec s.t s.start (s.key / 2 ^ R) (len - R) s.tbits
    ⟨len - R, symAt len m⟩ (by omega) (by rw [hkd]; exact rev_lt _ _)
    (by rw [h.size]; have := h.total; omega)
  refine ⟨t', h1, ?_, ?_, ?_, h.total, ?_, ?_, ?_⟩
  · intro hlt2
    have hlt3 : code cnt len m + 1 < 2 ^ len := hlt2
    have := nextKey_rev len 0 (code cnt len m) hlt3
    simp only [Nat.zero_mul, Nat.zero_add] at this
    show nextKey s.key len = _
    rw [hkey, this]; rfl
  · show s.sym + 1 = _; rw [h.sym]; omega
  · show t'.length = N; rw [h2, h.size]
  · intro l k hl hlR hk i hi hik
    show t'[i]? = _
    rw [h5 i (Or.inl (by have := hlink.low; omega)), h.root l k hl hlR hk i hi hik]
  · intro l k hRl hb
    by_cases hsame : l = len ∧ k = m
    · obtain ⟨rfl, rfl⟩ := hsame
      refine ⟨by omega, s.start, s.tbits, ⟨hlink.low, hlink.high, hlink.bits, hlink.enough, ?_, hlink.some_bits⟩,
        fun _ => ⟨rfl, rfl⟩, fun e => by omega, ?_⟩
      · show t'[_]? = _
        rw [h5 _ (Or.inl (by have := hlink.low; have := rev_lt R (pfx cnt R l k); omega)), hlink.link]
      · intro i hi hik
        show t'[s.start + i]? = _
        exact h3 i hi (by rw [hik, hkd])
    · have hb' : Before cnt l k len m := by unfold Before at hb ⊢; omega
      obtain ⟨g1, st, tb, g2, g3, g4, g5⟩ := h.sub l k hRl hb'
      refine ⟨g1, st, tb, ⟨g2.low, g2.high, g2.bits, g2.enough, ?_, g2.some_bits⟩, g3, g4, ?_⟩
      · show t'[_]? = _
        rw [h5 _ (Or.inl (by have := hlink.low; have := rev_lt R (pfx cnt R l k); omega)), g2.link]
      · intro i hi hik
        show t'[st + i]? = _
        by_cases hpe : pfx cnt R l k + 1 = Q
        · obtain ⟨rfl, rfl⟩ := g3 hpe
          rw [h4 i hi, g5 i hi hik]
          intro e
          rw [hkd] at e
          -- the common path from the root
          have hpp : pfx cnt R l k = pfx cnt R len m := by omega
          have key : ∀ l' k', R ≤ l' → pfx cnt R l' k' = pfx cnt R len m →
              i % 2 ^ (l' - R) = rev (l' - R) (code cnt l' k') →
              (i * 2 ^ R + rev R (pfx cnt R len m)) % 2 ^ l' = rev l' (code cnt l' k') := by
            intro l' k' hl' hp' hi'
            have hl0 : rev R (pfx cnt R len m) < 2 ^ R := rev_lt _ _
            have e1 : (2:Nat) ^ l' = 2 ^ R * 2 ^ (l' - R) := by rw [← Nat.pow_add]; congr 1; omega
            have e2 : rev l' (code cnt l' k') = rev (l' - R) (code cnt l' k') * 2 ^ R +
                rev R (code cnt l' k' / 2 ^ (l' - R)) := by
              rw [← rev_split]; congr 1; omega
            rw [e1, Nat.mod_mul, e2, ← hi']
            have e3 : (i * 2 ^ R + rev R (pfx cnt R len m)) % 2 ^ R = rev R (pfx cnt R len m) := by
              rw [Nat.mul_comm, Nat.mul_add_mod, Nat.mod_eq_of_lt hl0]
            have e4 : (i * 2 ^ R + rev R (pfx cnt R len m)) / 2 ^ R = i := by
              rw [Nat.mul_comm, Nat.mul_add_div (Nat.two_pow_pos R), Nat.div_eq_of_lt hl0]; omega
            rw [e3, e4, ← hp', pfx]
            rw [Nat.mul_comm (2 ^ R)]; omega
          exact not_both hc (by omega) h15 hm (by omega) hb'
            (key l k (by omega) hpp hik) (key len m (by omega) rfl e)
        · have := g4 (by omega)
          rw [h5 _ (Or.inl (by omega)), g5 i hi hik]
  · refine Or.inr ⟨pfx cnt R len m, j, hQ, hp3, hlow, ?_, ?_, ⟨hlink.low, hlink.high, hlink.bits, hlink.enough, ?_,
      hlink.some_bits⟩, hj, hj2, hj3⟩
    · rw [pos_succ]; exact Nat.le_trans hp1 (Nat.le_add_right _ _)
    · rw [pos_succ, hQ]; exact hp2
    · show t'[_]? = _
      rw [h5 _ (Or.inl (by have := hlink.low; have := rev_lt R (pfx cnt R len m); omega)), hlink.link]

theorem cap_of (hc : base cnt 16 = 2 ^ 15) {n : Nat} (hn : offsets cnt 16 ≤ n)
    (hN : 2 ^ R + n + 2 ^ (15 - R) ≤ N + (15 - R) + 1) {len m Q : Nat} {s : Sub} (hR1 : 1 ≤ R) (hR15 : R < 15)
    (h : Current cnt R len m Q s) : s.total ≤ N := by
  rcases h with ⟨_, _, h3⟩ | ⟨q, j', h1, h2, h3, h4, h5, hl, hj', hE, hM⟩
  · have : 15 - R + 1 ≤ 2 ^ (15 - R) := Nat.lt_two_pow_self
    omega
  · have hb := hl.bits
    have : j' ≤ cnt (s.tbits + R) := by
      have he := hl.enough
      rw [← h1, hE, base_succ cnt (by omega : 1 ≤ s.tbits + R)] at he
      exact Nat.le_of_mul_le_mul_right (Nat.le_of_add_le_add_left he) (Nat.two_pow_pos _)
    have h6 : offsets cnt (s.tbits + R) + j' ≤ n := by
      calc offsets cnt (s.tbits + R) + j' ≤ offsets cnt (s.tbits + R + 1) := by
            rw [offsets_succ cnt (by omega)]; omega
        _ ≤ offsets cnt 16 := offsets_mono cnt (by omega)
        _ ≤ n := hn
    have hphi : 2 ^ s.tbits + (15 - R) ≤ 2 ^ (15 - R) + s.tbits := phi_mono (by omega)
    omega

theorem subRun_spec (hc : base cnt 16 = 2 ^ 15) {n : Nat} (hn : offsets cnt 16 ≤ n)
    (hN : 2 ^ R + n + 2 ^ (15 - R) ≤ N + (15 - R) + 1) (hN2 : N ≤ 65536) (hR1 : 1 ≤ R)
    {len : Nat} (hs : ∀ k < cnt len, sorted[offsets cnt len + k]? = some (symAt len k))
    (hlen : R < len) (h15 : len ≤ 15) (k m Q : Nat) (hm : m + k = cnt len) (s : Sub)
    (h : SubInv cnt symAt N R len m Q s) :
    ∃ s' Q', subRun sorted R cnt len k s = some s' ∧ SubInv cnt symAt N R len (cnt len) Q' s' := by
  induction k generalizing m Q s with
  | zero => exact ⟨s, Q, rfl, by rw [← hm]; exact h⟩
  | succ k ih =>
    obtain ⟨s1, h1, h2, h3, h4, h5⟩ := ensure_spec hc hn hN hN2 hR1 hlen h15 (by omega)
      (fun l => if l = len then k + 1 else cnt l) (by simp; omega)
      (fun l hl => by simp [show l ≠ len by omega]) h
    have hcap := cap_of hc hn hN hR1 (by omega) h4.cur
    obtain ⟨t', h6, h7⟩ := step_spec hc hR1 hlen h15 (by omega) rfl hcap h5 h4
    obtain ⟨s', Q', h8, h9⟩ := ih (m + 1) _ (by omega) _ h7
    refine ⟨s', Q', ?_, h9⟩
    have hsym : sorted[s1.sym]? = some (symAt len m) := by rw [h4.sym]; exact hs m (by omega)
    rw [subRun, h1, Option.bind_some, hsym, Option.bind_some, h6, Option.bind_some, h8]

theorem SubInv.next {len Q : Nat} {s : Sub} (hlen : R < len) (hR1 : 1 ≤ R)
    (h : SubInv cnt symAt N R len (cnt len) Q s) : SubInv cnt symAt N R (len + 1) 0 Q s := by
  have hp : pos cnt (len + 1) 0 = pos cnt len (cnt len) := by rw [pos_zero, pos_cnt cnt (by omega)]
  refine ⟨?_, ?_, h.size, h.total, h.root, ?_, ?_⟩
  · intro hlt
    rw [code_next cnt (by omega)] at hlt ⊢
    rw [Nat.pow_succ] at hlt
    rw [rev_double]
    exact h.key (by omega)
  · rw [h.sym, offsets_succ cnt (by omega)]; omega
  · intro l k hl hb
    exact h.sub l k hl (by unfold Before at hb ⊢; rcases hb with ⟨a, b⟩ | ⟨a, b⟩
                           · by_cases e : l = len
                             · subst e; right; exact ⟨rfl, b⟩
                             · left; exact ⟨by omega, b⟩
                           · omega)
  · have := h.cur
    unfold Current at this ⊢
    rw [hp]; exact this

theorem subFill_spec (hc : base cnt 16 = 2 ^ 15) {n : Nat} (hn : offsets cnt 16 ≤ n)
    (hN : 2 ^ R + n + 2 ^ (15 - R) ≤ N + (15 - R) + 1) (hN2 : N ≤ 65536) (hR1 : 1 ≤ R)
    (hs : ∀ l k, 1 ≤ l → l ≤ 15 → k < cnt l → sorted[offsets cnt l + k]? = some (symAt l k))
    (f len Q : Nat) (hlen : R < len) (hle : len + f ≤ 16) (s : Sub)
    (h : SubInv cnt symAt N R len 0 Q s) :
    ∃ s' Q', subFill sorted R cnt len f s = some s' ∧ SubInv cnt symAt N R (len + f) 0 Q' s' := by
  induction f generalizing len Q s with
  | zero => exact ⟨s, Q, rfl, h⟩
  | succ f ih =>
    obtain ⟨s1, Q1, h1, h2⟩ := subRun_spec hc hn hN hN2 hR1 (fun k hk => hs len k (by omega) (by omega) hk)
      hlen (by omega) (cnt len) 0 Q (by omega) s h
    obtain ⟨s2, Q2, h3, h4⟩ := ih (len + 1) Q1 (by omega) (by omega) s1 (h2.next hlen hR1)
    refine ⟨s2, Q2, by rw [subFill, h1, Option.bind_some, h3], ?_⟩
    rwa [show len + (f + 1) = len + 1 + f by omega]

end Jxl.Huffman
