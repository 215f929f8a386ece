import Verif.Lemmas.Ans
/-!
# C12: ANS coding is lossless
-/
namespace Jxl.Props
open Ans

/-- Frequency of a symbol in a distribution; the empty distribution stands for the single symbol 0. -/
def frequency (counts : List Nat) (s : Nat) : Nat := (eff counts).getD s 0

/-- The alias tables of the decoder (contents of the fresh memory: `mem`) are made from the distributions. -/
def MakesTables (dists : List (List Nat)) (la : Nat) (tables : List (List Alias.Entry)) : Prop :=
  tables.length = dists.length ∧ ∀ (h : Nat) counts table, dists[h]? = some counts → tables[h]? = some table →
    ∃ mem, mem.length = 2 ^ la ∧ Alias.initTable counts la mem = some table

/-- The encoder tables are made from the distributions, through the encoder's own alias tables. -/
def MakesInfos (dists : List (List Nat)) (la : Nat) (infos : List (List Info)) : Prop :=
  infos.length = dists.length ∧ ∀ (h : Nat) counts info, dists[h]? = some counts → infos[h]? = some info →
    ∃ mem table, mem.length = 2 ^ la ∧ Alias.initTable counts la mem = some table ∧ buildInfo counts table la = some info

/-- The symbol that stands for a token. -/
def tokenSymbol (p : Params) (histo : Nat) (t : Token) : Nat :=
  if t.isLen then (Hybrid.encode p.lengthConfig t.value).1 + p.minSymbol
  else (Hybrid.encode (p.config.getD histo ⟨0, 0, 0⟩) t.value).1

/-- Distributions are normalised and fit in the alphabet. -/
def ValidDists (dists : List (List Nat)) (la : Nat) : Prop :=
  ∀ counts ∈ dists, (counts = [] ∨ counts.sum = 4096) ∧ counts.length ≤ 2 ^ la

structure ValidParams (p : Params) (n : Nat) : Prop where
  lengthConfig : p.lengthConfig.msb + p.lengthConfig.lsb ≤ p.lengthConfig.splitExp
  config : ∀ c ∈ p.config, c.msb + c.lsb ≤ c.splitExp
  config_length : p.config.length = n
  contextMap : ∀ h ∈ p.contextMap, h < n
  single : p.contextMap.length ≤ 1 → p.contextMap = [0]

/-- A token that may be written: its context exists, its symbol has a non-zero frequency, and with LZ77 the symbols of lengths are
exactly those from `minSymbol` on. -/
structure ValidToken (p : Params) (dists : List (List Nat)) (off : Nat) (t : Token) : Prop where
  value : t.value < 2 ^ 32
  ctx : off + t.ctx < p.contextMap.length
  freq : 0 < frequency (dists.getD (p.contextMap.getD (off + t.ctx) 0) []) (tokenSymbol p (p.contextMap.getD (off + t.ctx) 0) t)
  isLen : t.isLen = true → p.lz77 = true
  notLen : t.isLen = false → p.lz77 = true → tokenSymbol p (p.contextMap.getD (off + t.ctx) 0) t < p.minSymbol

theorem step_round_trip (p : Params) (dists : List (List Nat)) (la off : Nat) (tables : List (List Alias.Entry)) (infos : List (List Info))
    (hla : 5 ≤ la ∧ la ≤ 8) (hd : ValidDists dists la) (hp : ValidParams p dists.length) (htab : MakesTables dists la tables)
    (hinf : MakesInfos dists la infos) (t : Token) (ht : ValidToken p dists off t) (x : Nat) (hx : 2 ^ 16 ≤ x ∧ x < 2 ^ 32) :
    ∃ nbits bits i b n x', encodeToken p infos off t = some (nbits, bits, i) ∧ bits < 2 ^ nbits ∧ nbits ≤ 31 ∧
      putSymbol x i = some (b, n, x') ∧ b < 2 ^ n ∧ n ≤ 16 ∧ 2 ^ 16 ≤ x' ∧ x' < 2 ^ 32 ∧
      ∀ rest, readToken p tables la (off + t.ctx) x' (bitsOf n b ++ (bitsOf nbits bits ++ rest)) = some ((t.isLen, t.value), x, rest) := by
  obtain ⟨h, hh⟩ : ∃ h, p.contextMap[off + t.ctx]? = some h := ⟨_, List.getElem?_eq_getElem ht.ctx⟩
  have hgd : p.contextMap.getD (off + t.ctx) 0 = h := by rw [List.getD_eq_getElem?_getD, hh]; rfl
  have hhn : h < dists.length := hp.contextMap h (List.mem_of_getElem? hh)
  obtain ⟨hv, _, hfreq, hisLen, hnotLen⟩ := ht
  rw [hgd] at hfreq hnotLen
  -- the pieces for cluster `h`
  have hdh : dists[h]? = some dists[h] := List.getElem?_eq_getElem hhn
  have hth : tables[h]? = some (tables[h]'(htab.1 ▸ hhn)) := List.getElem?_eq_getElem _
  have hih : infos[h]? = some (infos[h]'(hinf.1 ▸ hhn)) := List.getElem?_eq_getElem _
  have hch : p.config[h]? = some (p.config[h]'(hp.config_length ▸ hhn)) := List.getElem?_eq_getElem _
  generalize htable : tables[h]'(htab.1 ▸ hhn) = table at hth
  generalize hinfo : infos[h]'(hinf.1 ▸ hhn) = info at hih
  generalize hcfg : p.config[h]'(hp.config_length ▸ hhn) = cfg at hch
  generalize hcnt : dists[h] = counts at hdh
  have hcval : cfg.msb + cfg.lsb ≤ cfg.splitExp := hp.config cfg (List.mem_of_getElem? hch)
  have hgc : p.config.getD h ⟨0, 0, 0⟩ = cfg := by rw [List.getD_eq_getElem?_getD, hch]; rfl
  have hgdist : dists.getD h [] = counts := by rw [List.getD_eq_getElem?_getD, hdh]; rfl
  rw [hgdist] at hfreq
  obtain ⟨hcs, hcl⟩ := hd counts (List.mem_of_getElem? hdh)
  have hes : (eff counts).sum = 4096 := by
    unfold eff; split
    · rfl
    · rcases hcs with h | h
      · contradiction
      · exact h
  -- encoder and decoder tables agree
  obtain ⟨mem, m1, m2⟩ := htab.2 h counts table hdh hth
  obtain ⟨mem', table', m1', m2', m3'⟩ := hinf.2 h counts info hdh hih
  obtain ⟨T, I, t1, t2, hs⟩ := tables_spec counts la mem' hla hes hcl m1'
  have hTt : T = table' := by rw [m2'] at t1; exact (Option.some.inj t1).symm
  subst hTt
  rw [m3'] at t2
  obtain rfl := Option.some.inj t2
  have hel : (eff counts).length ≤ 2 ^ la := by
    unfold eff; split
    · simp; exact Nat.one_le_two_pow
    · exact hcl
  have hTT : T = table := by
    have := C11_deterministic (eff counts) la mem mem' hla hes hel m1 m1'
    rw [popZeros_eff, popZeros_eff, m2, m2'] at this
    exact (Option.some.inj this).symm
  subst hTT
  obtain ⟨hfle, i, R, i1, i2, i3⟩ := hs _ hfreq
  obtain ⟨b, n, x', p1, p2, p3, p4, p5, p6⟩ := put_read x _ _ i R T la hx hfreq hfle i2 i3
  -- the hybrid coding
  have hcfg2 : ∃ c : Hybrid.Config, c.msb + c.lsb ≤ c.splitExp ∧ tokenConfig p h t = some c ∧
      tokenSymbol p h t = (Hybrid.encode c t.value).1 + (if t.isLen then p.minSymbol else 0) ∧
      (∀ sym, sym = tokenSymbol p h t → ∀ s r, Hybrid.read c (Hybrid.encode c t.value).1 s = some (t.value, r) → ∀ x : Nat,
        (if p.lz77 ∧ sym ≥ p.minSymbol then do
          let (v, s) ← Hybrid.read p.lengthConfig (sym - p.minSymbol) s
          some ((true, v), x, s)
        else do
          let cfg ← p.config[h]?
          let (v, s) ← Hybrid.read cfg sym s
          some ((false, v), x, s)) = some ((t.isLen, t.value), x, r)) := by
    rcases hl : t.isLen with _ | _
    · refine ⟨cfg, hcval, by rw [tokenConfig, hl]; exact hch, by rw [tokenSymbol, hl, hgc]; rfl, ?_⟩
      intro sym hsym s r hr x
      have hns : ¬ (p.lz77 = true ∧ sym ≥ p.minSymbol) := by
        rintro ⟨a, b⟩
        have := hnotLen hl a
        omega
      rw [if_neg hns, hch, Option.bind_eq_bind, Option.bind_some]
      have : sym = (Hybrid.encode cfg t.value).1 := by rw [hsym, tokenSymbol, hl, hgc]; rfl
      rw [this, hr]; rfl
    · refine ⟨p.lengthConfig, hp.lengthConfig, by rw [tokenConfig, hl]; rfl, by rw [tokenSymbol, hl]; rfl, ?_⟩
      intro sym hsym s r hr x
      have : sym = (Hybrid.encode p.lengthConfig t.value).1 + p.minSymbol := by rw [hsym, tokenSymbol, hl]; rfl
      rw [if_pos ⟨hisLen hl, by omega⟩, this, Nat.add_sub_cancel, hr]; rfl
  obtain ⟨c, c1, c2, c3, c4⟩ := hcfg2
  obtain ⟨tok, nbits, bits, e1, e2, e3, e4, e5⟩ := C10_round_trip c c1 t.value hv
  have hsymlt : tokenSymbol p h t < 2 ^ 32 := by
    have hlt : tokenSymbol p h t < (eff counts).length := by
      rcases Nat.lt_or_ge (tokenSymbol p h t) (eff counts).length with h' | h'
      · exact h'
      · rw [frequency, List.getD_eq_getElem?_getD, List.getElem?_eq_none h'] at hfreq; exact absurd hfreq (by simp)
    have : 2 ^ la ≤ 2 ^ 8 := Nat.pow_le_pow_right (by omega) hla.2
    omega
  have henc : encodeToken p infos off t = some (nbits, bits, i) := by
    unfold encodeToken
    by_cases hb : p.lz77 = true ∨ p.contextMap.length > 1
    · rw [if_pos hb, hh, Option.bind_eq_bind, Option.bind_some, c2, Option.bind_eq_bind, Option.bind_some, hih, e1]
      dsimp only
      rw [Option.bind_eq_bind, Option.bind_some]
      have : (tok + if t.isLen then p.minSymbol else 0) = tokenSymbol p h t := by rw [c3, e1]
      rw [this, Nat.mod_eq_of_lt hsymlt, i1, Option.bind_eq_bind, Option.bind_some]
    · rw [if_neg hb]
      have hl0 : p.lz77 = false := by
        rcases hl : p.lz77 with _ | _
        · rfl
        · exact absurd (Or.inl hl) hb
      have hcm := hp.single (by
        rcases Nat.lt_or_ge 1 p.contextMap.length with h | h
        · exact absurd (Or.inr h) hb
        · exact h)
      have hh0 : h = 0 := by
        have := List.mem_of_getElem? hh
        rw [hcm] at this; simpa using this
      subst hh0
      have hlf : t.isLen = false := by
        rcases hl : t.isLen with _ | _
        · rfl
        · rw [hisLen hl] at hl0; cases hl0
      rw [tokenConfig, hlf] at c2
      simp only [Bool.false_eq_true, if_false] at c2
      rw [c2, Option.bind_eq_bind, Option.bind_some, hih, e1]
      dsimp only
      rw [Option.bind_eq_bind, Option.bind_some]
      have : tok = tokenSymbol p 0 t := by rw [c3, e1, hlf]; rfl
      rw [this, i1, Option.bind_eq_bind, Option.bind_some]
  refine ⟨nbits, bits, i, b, n, x', henc, e4, e3, p1, p3, by omega, p4, p5, fun rest => ?_⟩
  unfold readToken
  rw [hh, Option.bind_eq_bind, Option.bind_some, hth, Option.bind_eq_bind, Option.bind_some, p6, Option.bind_eq_bind, Option.bind_some]
  exact c4 _ rfl _ _ (by rw [e1]; exact e5 rest) x

/-- **C12.**  Any sequence of tokens whose symbols have non-zero frequencies is decoded to itself, the decoder ends in the check state,
and nothing after the tokens is consumed. -/
theorem C12_round_trip (p : Params) (dists : List (List Nat)) (la off : Nat) (tables : List (List Alias.Entry)) (infos : List (List Info))
    (hla : 5 ≤ la ∧ la ≤ 8) (hd : ValidDists dists la) (hp : ValidParams p dists.length) (htab : MakesTables dists la tables)
    (hinf : MakesInfos dists la infos) (ts : List Token) (hts : ∀ t ∈ ts, ValidToken p dists off t) :
    ∃ bits, writeTokens p infos off ts = some bits ∧ ∀ rest,
      decodeAll p tables la (ts.map fun t => off + t.ctx) (bits ++ rest) = some (ts.map fun t => (t.isLen, t.value), true, rest) := by
  have key : ∃ w x, putAll p infos off ts = some (w, x) ∧ w.Ok ∧ 2 ^ 16 ≤ x ∧ x < 2 ^ 32 ∧
      ∀ rest, readAll p tables la (ts.map fun t => off + t.ctx) x (w.stream ++ rest) =
        some (ts.map fun t => (t.isLen, t.value), 0x13 <<< 16, rest) := by
    induction ts with
    | nil => exact ⟨{}, 0x13 <<< 16, rfl, ⟨by simp, by simp, by simp⟩, by decide, by decide, fun rest => rfl⟩
    | cons t ts ih =>
      obtain ⟨w, x, h1, h2, h3, h4, h5⟩ := ih (fun t ht => hts t (by simp [ht]))
      obtain ⟨nbits, bits, i, b, n, x', g1, g2, g3, g4, g5, g6, g7, g8, g9⟩ :=
        step_round_trip p dists la off tables infos hla hd hp htab hinf t (hts t (by simp)) x ⟨h3, h4⟩
      obtain ⟨a1, a2⟩ := addbits_spec w bits nbits h2 g2 (by omega)
      obtain ⟨b1, b2⟩ := addbits_spec (addbits w bits nbits) b n a1 g5 (by omega)
      refine ⟨addbits (addbits w bits nbits) b n, x', ?_, b1, g7, g8, fun rest => ?_⟩
      · simp only [putAll, h1, g1, g4, Option.bind_eq_bind, Option.bind_some]
      · simp only [List.map_cons, readAll, b2, a2, List.append_assoc, g9, h5, Option.bind_eq_bind, Option.bind_some]
  obtain ⟨w, x, h1, h2, h3, h4, h5⟩ := key
  refine ⟨bitsOf 32 x ++ w.stream, by simp only [writeTokens, h1, Option.bind_eq_bind, Option.bind_some, Buf.stream], fun rest => ?_⟩
  simp only [decodeAll, List.append_assoc, rdBits_append h4, h5, Option.bind_eq_bind, Option.bind_some]
  rfl

/-- Tables exist for all valid distributions. -/
theorem tables_exist (dists : List (List Nat)) (la : Nat) (hla : 5 ≤ la ∧ la ≤ 8) (hd : ValidDists dists la) :
    ∃ tables infos, MakesTables dists la tables ∧ MakesInfos dists la infos := by
  have key : ∀ counts ∈ dists, ∃ T I, Alias.initTable counts la (List.replicate (2 ^ la) default) = some T ∧ buildInfo counts T la = some I := by
    intro counts hc
    obtain ⟨hcs, hcl⟩ := hd counts hc
    have hes : (eff counts).sum = 4096 := by
      unfold eff; split
      · rfl
      · rcases hcs with h | h
        · contradiction
        · exact h
    obtain ⟨T, I, t1, t2, _⟩ := tables_spec counts la (List.replicate (2 ^ la) default) hla hes hcl (by simp)
    exact ⟨T, I, t1, t2⟩
  refine ⟨dists.map fun c => (Alias.initTable c la (List.replicate (2 ^ la) default)).getD [],
    dists.map fun c => (buildInfo c ((Alias.initTable c la (List.replicate (2 ^ la) default)).getD []) la).getD [],
    ⟨by simp, ?_⟩, ⟨by simp, ?_⟩⟩
  · intro h counts table h1 h2
    obtain ⟨T, I, t1, t2⟩ := key counts (List.mem_of_getElem? h1)
    rw [List.getElem?_map, h1, Option.map_some, t1, Option.some.injEq] at h2
    exact ⟨List.replicate (2 ^ la) default, by simp, by rw [t1, ← h2]; rfl⟩
  · intro h counts info h1 h2
    obtain ⟨T, I, t1, t2⟩ := key counts (List.mem_of_getElem? h1)
    rw [List.getElem?_map, h1, Option.map_some, t1, Option.getD_some, t2, Option.some.injEq] at h2
    exact ⟨List.replicate (2 ^ la) default, T, by simp, t1, by rw [t2, ← h2]; rfl⟩

/-- Every piece handed to the bit writer satisfies the writer's contract (value below `2^n`, at most 56 bits). -/
theorem C12_pieces (p : Params) (dists : List (List Nat)) (la off : Nat) (infos : List (List Info))
    (hla : 5 ≤ la ∧ la ≤ 8) (hd : ValidDists dists la) (hp : ValidParams p dists.length)
    (hinf : MakesInfos dists la infos) (ts : List Token) (hts : ∀ t ∈ ts, ValidToken p dists off t) :
    ∃ w x, putAll p infos off ts = some (w, x) ∧ x < 2 ^ 32 ∧ w.all < 2 ^ w.num ∧ w.num ≤ 56 ∧ ∀ q ∈ w.out, q.2 < 2 ^ q.1 ∧ q.1 ≤ 56 := by
  obtain ⟨tables, _, htab, _⟩ := tables_exist dists la hla hd
  have key : ∃ w x, putAll p infos off ts = some (w, x) ∧ w.Ok ∧ 2 ^ 16 ≤ x ∧ x < 2 ^ 32 := by
    induction ts with
    | nil => exact ⟨{}, 0x13 <<< 16, rfl, ⟨by simp, by simp, by simp⟩, by decide, by decide⟩
    | cons t ts ih =>
      obtain ⟨w, x, h1, h2, h3, h4⟩ := ih (fun t ht => hts t (by simp [ht]))
      obtain ⟨nbits, bits, i, b, n, x', g1, g2, g3, g4, g5, g6, g7, g8, g9⟩ :=
        step_round_trip p dists la off tables infos hla hd hp htab hinf t (hts t (by simp)) x ⟨h3, h4⟩
      obtain ⟨a1, a2⟩ := addbits_spec w bits nbits h2 g2 (by omega)
      obtain ⟨b1, b2⟩ := addbits_spec (addbits w bits nbits) b n a1 g5 (by omega)
      refine ⟨addbits (addbits w bits nbits) b n, x', ?_, b1, g7, g8⟩
      simp only [putAll, h1, g1, g4, Option.bind_eq_bind, Option.bind_some]
  obtain ⟨w, x, h1, h2, h3, h4⟩ := key
  exact ⟨w, x, h1, h4, h2.1, h2.2.1, h2.2.2⟩

/-- The multiplication by the reciprocal stays within 64 bits and gives the exact quotient, for every reachable state and frequency. -/
theorem C12_reciprocal (f state : Nat) (hf : 0 < f) (hf' : f ≤ 4096) (hs : 2 ^ 16 ≤ state ∧ state < 2 ^ 32) :
    (renorm state f).2.2 * ((2 ^ 44 + f - 1) / f) < 2 ^ 64 ∧
      ((renorm state f).2.2 * ((2 ^ 44 + f - 1) / f)) / 2 ^ 44 = (renorm state f).2.2 / f := by
  obtain ⟨b, n, y, e1, l1, l2, l3, e2⟩ := renorm_spec state f hs hf hf'
  rw [e1]
  have h := mul_recip_lt f y hf hf' l2
  refine ⟨h, ?_⟩
  obtain ⟨e, he, hI⟩ := ceil_mul (2 ^ 44) f hf
  have hy32 : y < 2 ^ 32 := by
    have : f * 2 ^ 20 ≤ 4096 * 2 ^ 20 := Nat.mul_le_mul_right _ hf'
    omega
  have hex : e * y < 2 ^ 44 := by
    have : e * y ≤ 4095 * y := Nat.mul_le_mul_right _ (by omega)
    omega
  have hd := Nat.div_add_mod y f
  exact recip_core (2 ^ 44) f (y / f) (y % f) _ e y (by rw [Nat.mul_comm]; exact hd.symm) hI (Nat.mod_lt _ hf) hex

/-! ### A concrete instance -/

def exDists : List (List Nat) := [[1000, 0, 3000, 90, 6], []]
def exParams : Params := ⟨false, 0, ⟨0, 0, 0⟩, [⟨1, 0, 0⟩, ⟨4, 2, 0⟩], [1, 0, 0]⟩
def exTokens : List Token := [⟨false, 1, 4⟩, ⟨false, 0, 0⟩, ⟨false, 2, 3⟩, ⟨false, 1, 0⟩, ⟨false, 1, 12⟩]

example : ∃ tables infos bits, MakesTables exDists 5 tables ∧ MakesInfos exDists 5 infos ∧ writeTokens exParams infos 0 exTokens = some bits ∧
    decodeAll exParams tables 5 [1, 0, 2, 1, 1] (bits ++ [true, false]) =
      some ([(false, 4), (false, 0), (false, 3), (false, 0), (false, 12)], true, [true, false]) := by
  have hd : ValidDists exDists 5 := by
    intro c hc
    simp only [exDists, List.mem_cons, List.not_mem_nil, or_false] at hc
    rcases hc with rfl | rfl <;> decide
  obtain ⟨tables, infos, h1, h2⟩ := tables_exist exDists 5 (by decide) hd
  have hp : ValidParams exParams exDists.length := ⟨by decide, by decide, by decide, by decide, by decide⟩
  obtain ⟨bits, h3, h4⟩ := C12_round_trip exParams exDists 5 0 tables infos (by decide) hd hp h1 h2 exTokens (by
    intro t ht
    simp only [exTokens, List.mem_cons, List.not_mem_nil, or_false] at ht
    rcases ht with rfl | rfl | rfl | rfl | rfl <;>
      exact ⟨by decide, by decide, by decide +kernel, by decide, by decide +kernel⟩)
  exact ⟨tables, infos, bits, h1, h2, h3, h4 _⟩

end Jxl.Props
