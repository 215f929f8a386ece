import Verif.Lemmas.EntropyCluster
/-!
# The symbols of a token stream are read back one after the other
-/
namespace Jxl.Stream
open Ans (Token Info Buf)

/-- The tables of encoder and decoder fit together. -/
def Fits : Stats → Infos → Tables → Prop
  | .ans la hs, .ans infos, .ans la' ts => la = la' ∧ infos.length = hs.length ∧ ts.length = hs.length ∧
      ∀ (h : Nat) hist info table, hs[h]? = some hist → infos[h]? = some info → ts[h]? = some table → AnsFits la (fun y => hist.counts.getD y 0) info table
  | .huff cs, .huff infos, .huff ts => infos.length = cs.length ∧ ts.length = cs.length ∧
      ∀ (h : Nat) counts info table, cs[h]? = some counts → infos[h]? = some info → ts[h]? = some table → HuffFits (fun y => counts.getD y 0) info table
  | _, _, _ => False

/-- What is read for a token: a symbol of a cluster, and extra bits behind it. -/
structure Item where
  histo : Nat
  sym : Nat
  nbits : Nat
  extra : Nat

/-- The coding of integers that applies to a token. -/
def tokenCfg (p : Plan) (off : Nat) (t : Token) : Hybrid.Config :=
  match t.isLen, p.lz with
  | true, some z => z.lengthConfig
  | _, _ => p.config.getD (cluster p off t) ⟨0, 0, 0⟩

def item (p : Plan) (off : Nat) (t : Token) : Item :=
  ⟨cluster p off t, symbol p off t, (Hybrid.encode (tokenCfg p off t) t.value).2.1, (Hybrid.encode (tokenCfg p off t) t.value).2.2⟩

/-- The items are read from the state `x` and the bits `w`, ending in the check state. -/
def Emits (t : Tables) : List Item → Nat → List Bool → Prop
  | [], x, w => x = 0x13 <<< 16 ∧ w = []
  | it :: its, x, w => ∃ x1 w1, (∀ rest, readSym t it.histo x (w ++ rest) = .ok (it.sym, x1, bitsOf it.nbits it.extra ++ (w1 ++ rest))) ∧ Emits t its x1 w1

theorem plan_single {p : Plan} (hp : PlanOk p) (h : p.map.length ≤ 1) : p.map = [0] := by
  match hm : p.map, hp.nonempty with
  | [], h0 => exact absurd rfl h0
  | [m], _ =>
    have h1 := hp.inMap m (by rw [hm]; simp)
    have h2 := hp.allUsed 0 (by omega)
    rw [hm] at h2
    simp only [List.mem_singleton] at h2
    rw [h2]
  | _ :: _ :: _, _ => rw [hm] at h; simp at h

theorem token_parts {p : Plan} (hp : PlanOk p) {off : Nat} {t : Token} (ht : TokenOk p off t) :
    p.map[off + t.ctx]? = some (cluster p off t) ∧ cluster p off t < p.clusters ∧
      Ans.tokenConfig p.params (cluster p off t) t = some (tokenCfg p off t) ∧
      (tokenCfg p off t).msb + (tokenCfg p off t).lsb ≤ (tokenCfg p off t).splitExp ∧
      symbol p off t = (Hybrid.encode (tokenCfg p off t) t.value).1 + (if t.isLen then p.params.minSymbol else 0) := by
  have hm : p.map[off + t.ctx]? = some (cluster p off t) := by
    rw [cluster, List.getD_eq_getElem?_getD, List.getElem?_eq_getElem ht.ctx]; rfl
  have hc := hp.inMap _ (List.mem_of_getElem? hm)
  have hcfg : p.config[cluster p off t]? = some (p.config.getD (cluster p off t) ⟨0, 0, 0⟩) := by
    rw [List.getD_eq_getElem?_getD, List.getElem?_eq_getElem (by rw [hp.configs]; exact hc)]; rfl
  refine ⟨hm, hc, ?_⟩
  rcases hl : t.isLen with _ | _
  · have e1 : tokenCfg p off t = p.config.getD (cluster p off t) ⟨0, 0, 0⟩ := by unfold tokenCfg; rw [hl]
    have e2 : symbol p off t = (Hybrid.encode (p.config.getD (cluster p off t) ⟨0, 0, 0⟩) t.value).1 := by unfold symbol; rw [hl]
    rw [e1, e2]
    refine ⟨?_, (hp.config _ (List.mem_of_getElem? hcfg)).1, rfl⟩
    unfold Ans.tokenConfig; rw [hl]; exact hcfg
  · match hz : p.lz, ht.length hl with
    | none, h => exact absurd rfl h
    | some z, _ =>
      have e1 : tokenCfg p off t = z.lengthConfig := by unfold tokenCfg; rw [hl, hz]
      have e2 : symbol p off t = (Hybrid.encode z.lengthConfig t.value).1 + z.minSymbol := by unfold symbol; rw [hl, hz]
      rw [e1, e2]
      refine ⟨?_, (hp.lz z hz).config.1, ?_⟩
      · unfold Ans.tokenConfig; rw [hl, Plan.params, hz]; rfl
      · rw [Plan.params, hz]; rfl

theorem token_hybrid {p : Plan} (hp : PlanOk p) {off : Nat} {t : Token} (ht : TokenOk p off t) :
    (item p off t).nbits ≤ 31 ∧ (item p off t).extra < 2 ^ (item p off t).nbits ∧
      ∀ rest, Hybrid.read (tokenCfg p off t) (Hybrid.encode (tokenCfg p off t) t.value).1
        (bitsOf (item p off t).nbits (item p off t).extra ++ rest) = some (t.value, rest) := by
  obtain ⟨_, _, _, hc, _⟩ := token_parts hp ht
  obtain ⟨tok, n, b, e1, e2, e3, e4, e5⟩ := Props.C10_round_trip _ hc t.value ht.value
  unfold item
  rw [e1]
  exact ⟨e3, e4, e5⟩

/-! ### ANS -/

theorem ansEncode {p : Plan} (hp : PlanOk p) {off : Nat} {t : Token} (ht : TokenOk p off t) {infos : List (List Info)} {info : List Info} {i : Info}
    (h1 : infos[cluster p off t]? = some info) (h2 : info[symbol p off t]? = some i) (hlt : symbol p off t < 2 ^ 32) :
    Ans.encodeToken p.params infos off t = some ((item p off t).nbits, (item p off t).extra, i) := by
  obtain ⟨a1, a2, a3, a4, a5⟩ := token_parts hp ht
  unfold Ans.encodeToken
  by_cases hb : p.params.lz77 = true ∨ p.params.contextMap.length > 1
  · rw [if_pos hb]
    show (p.map[off + t.ctx]?).bind _ = _
    rw [a1, Option.bind_some, a3, Option.bind_eq_bind, Option.bind_some]
    dsimp only
    rw [← a5, Nat.mod_eq_of_lt hlt, h1, Option.bind_eq_bind, Option.bind_some, h2]
    rfl
  · rw [if_neg hb]
    have hlen : p.map.length ≤ 1 := by
      rcases Nat.lt_or_ge 1 p.map.length with h | h
      · exact absurd (Or.inr h) hb
      · exact h
    have hm := plan_single hp hlen
    have hc0 : cluster p off t = 0 := by
      have := List.mem_of_getElem? a1
      rw [hm] at this
      simpa using this
    have hlf : t.isLen = false := by
      rcases hl : t.isLen with _ | _
      · rfl
      · exfalso; apply hb; left
        have := ht.length hl
        match hz : p.lz, this with
        | some z, _ => rw [Plan.params, hz]; rfl
        | none, h => exact absurd rfl h
    rw [Ans.tokenConfig, hlf, hc0] at a3
    rw [hlf] at a5
    rw [if_neg (by decide)] at a3
    rw [a3, Option.bind_eq_bind, Option.bind_some]
    dsimp only
    rw [show (Hybrid.encode (tokenCfg p off t) t.value).1 = symbol p off t from a5.symm, ← hc0, h1, Option.bind_eq_bind, Option.bind_some, h2]
    rfl

theorem emits_ans {p : Plan} (hp : PlanOk p) {off la : Nat} {hs : List Histo.Hist} {infos : List (List Info)} {ts : List (List Alias.Entry)}
    (hst : p.stats = .ans la hs) (hf : Fits (.ans la hs) (.ans infos) (.ans la ts)) (toks : List Token) (hts : ∀ t ∈ toks, TokenOk p off t) :
    ∃ w x, Ans.putAll p.params infos off toks = some (w, x) ∧ w.Ok ∧ 2 ^ 16 ≤ x ∧ x < 2 ^ 32 ∧ Emits (.ans la ts) (toks.map (item p off)) x w.stream := by
  obtain ⟨_, hf1, hf2, hf3⟩ := hf
  have hcl : p.clusters = hs.length := by rw [Plan.clusters, hst]
  have hla : la ≤ 8 := by have := hp.stats; rw [hst] at this; exact this.2.1
  induction toks with
  | nil => exact ⟨{}, 0x13 <<< 16, rfl, ⟨by simp, by simp, by simp⟩, by decide, by decide, rfl, by simp [Buf.stream]⟩
  | cons t toks ih =>
    obtain ⟨w, x, h1, h2, h3, h4, h5⟩ := ih (fun t ht => hts t (by simp [ht]))
    have ht := hts t (by simp)
    obtain ⟨a1, a2, a3, a4, a5⟩ := token_parts hp ht
    obtain ⟨b1, b2, b3⟩ := token_hybrid hp ht
    rw [hcl] at a2
    have e1 : hs[cluster p off t]? = some hs[cluster p off t] := List.getElem?_eq_getElem a2
    have e2 : infos[cluster p off t]? = some (infos[cluster p off t]'(by omega)) := List.getElem?_eq_getElem _
    have e3 : ts[cluster p off t]? = some (ts[cluster p off t]'(by omega)) := List.getElem?_eq_getElem _
    have hw : 0 < hs[cluster p off t].counts.getD (symbol p off t) 0 := by
      have := ht.counted
      rw [hst, weight, e1] at this
      exact this
    obtain ⟨hlt, i, i1, i2⟩ := hf3 _ _ _ _ e1 e2 e3 _ hw
    have hlt32 : symbol p off t < 2 ^ 32 := by
      have : 2 ^ la ≤ 2 ^ 8 := Nat.pow_le_pow_right (by omega) hla
      omega
    have henc := ansEncode hp ht e2 i1 hlt32
    obtain ⟨b, n, x', p1, p2, p3, p4, p5, p6⟩ := i2 x ⟨h3, h4⟩
    obtain ⟨c1, c2⟩ := Ans.addbits_spec w _ _ h2 b2 (by omega)
    obtain ⟨d1, d2⟩ := Ans.addbits_spec _ b n c1 p2 (by omega)
    refine ⟨_, x', ?_, d1, p4, p5, x, w.stream, fun rest => ?_, h5⟩
    · simp only [Ans.putAll, h1, henc, p1, Option.bind_eq_bind, Option.bind_some]
    · rw [d2, c2, List.append_assoc, List.append_assoc]
      have hr := p6 (bitsOf (item p off t).nbits (item p off t).extra ++ (w.stream ++ rest))
      show Out.bind (req ts[cluster p off t]?) _ = _
      rw [e3]
      show readAns _ la x' _ = _
      unfold Ans.readSymbol at hr
      unfold readAns
      obtain ⟨⟨s0, o0, f0⟩, g1, g2⟩ := Option.bind_eq_some_iff.mp hr
      rw [g1]
      dsimp only at g2
      show (if _ then _ else _ : Out _) = _
      split at g2
      · rename_i hlt2
        rw [if_pos hlt2]
        obtain ⟨⟨v, s⟩, k1, k2⟩ := Option.bind_eq_some_iff.mp g2
        rw [k1]
        dsimp only at k2
        injection k2 with k2
        exact congrArg Out.ok k2
      · rename_i hlt2
        rw [if_neg hlt2]
        injection g2 with g2
        exact congrArg Out.ok g2

/-! ### Prefix codes -/

theorem join_bits {depth word n b : Nat} (hd : depth ≤ 15) (hw : word < 2 ^ depth) (hn : n ≤ 31) (hb : b < 2 ^ n) :
    bitsOf (depth + n) ((word ||| (b <<< depth)) % 2 ^ 64) = bitsOf depth word ++ bitsOf n b := by
  have h1 : word ||| (b <<< depth) = 2 ^ depth * b + word := by
    rw [Nat.shiftLeft_eq, Nat.mul_comm, Nat.or_comm, Nat.two_pow_add_eq_or_of_lt hw]
  have h2 : 2 ^ depth * b + word < 2 ^ (depth + n) := by
    rw [Nat.pow_add]
    have : 2 ^ depth * (b + 1) ≤ 2 ^ depth * 2 ^ n := Nat.mul_le_mul_left _ hb
    rw [Nat.mul_succ] at this
    omega
  have h3 : 2 ^ (depth + n) ≤ 2 ^ 64 := Nat.pow_le_pow_right (by omega) (by omega)
  rw [h1, Nat.mod_eq_of_lt (by omega), bitsOf_add]
  congr 1
  · rw [← bitsOf_mod depth (2 ^ depth * b + word), Nat.mul_add_mod, Nat.mod_eq_of_lt hw]
  · rw [Nat.mul_add_div (Nat.two_pow_pos _), Nat.div_eq_of_lt hw, Nat.add_zero]

theorem emits_huff {p : Plan} (hp : PlanOk p) {off : Nat} {cs : List (List Nat)} {infos : List (List (Nat × Nat))} {ts : List (List Huffman.Entry)}
    (hst : p.stats = .huff cs) (hf : Fits (.huff cs) (.huff infos) (.huff ts)) (toks : List Token) (hts : ∀ t ∈ toks, TokenOk p off t) :
    ∃ w, huffTokens p.params infos off toks = some w ∧ Emits (.huff ts) (toks.map (item p off)) (0x13 <<< 16) w := by
  obtain ⟨hf1, hf2, hf3⟩ := hf
  have hcl : p.clusters = cs.length := by rw [Plan.clusters, hst]
  induction toks with
  | nil => exact ⟨[], rfl, rfl, rfl⟩
  | cons t toks ih =>
    obtain ⟨w, h1, h5⟩ := ih (fun t ht => hts t (by simp [ht]))
    have ht := hts t (by simp)
    obtain ⟨a1, a2, a3, a4, a5⟩ := token_parts hp ht
    obtain ⟨b1, b2, b3⟩ := token_hybrid hp ht
    rw [hcl] at a2
    have e1 : cs[cluster p off t]? = some cs[cluster p off t] := List.getElem?_eq_getElem a2
    have e2 : infos[cluster p off t]? = some (infos[cluster p off t]'(by omega)) := List.getElem?_eq_getElem _
    have e3 : ts[cluster p off t]? = some (ts[cluster p off t]'(by omega)) := List.getElem?_eq_getElem _
    have hw : 0 < cs[cluster p off t].getD (symbol p off t) 0 := by
      have := ht.counted
      rw [hst, weight, e1] at this
      exact this
    obtain ⟨hlt, depth, word, i1, i2, i3, i4⟩ := hf3 _ _ _ _ e1 e2 e3 _ hw
    have hone : huffToken p.params infos off t = some (bitsOf depth word ++ bitsOf (item p off t).nbits (item p off t).extra) := by
      unfold huffToken
      show (p.map[off + t.ctx]?).bind _ = _
      rw [a1, Option.bind_some, a3, Option.bind_eq_bind, Option.bind_some]
      dsimp only
      rw [← a5, Nat.mod_eq_of_lt (by omega), e2, Option.bind_eq_bind, Option.bind_some, i1, Option.bind_eq_bind, Option.bind_some, ← join_bits i2 i3 b1 b2]
      rfl
    refine ⟨_, by simp only [huffTokens, h1, hone, Option.bind_eq_bind, Option.bind_some]; rfl, 0x13 <<< 16, w, fun rest => ?_, h5⟩
    show Out.bind (req ts[cluster p off t]?) _ = _
    rw [e3]
    show Out.bind (req (Huffman.readSymbol _ _)) _ = _
    rw [List.append_assoc, List.append_assoc, i4]
    rfl

/-- Tokens that can be written are written, and read back symbol by symbol. -/
theorem tokens_emitted {p : Plan} (hp : PlanOk p) {off : Nat} {i : Infos} {t : Tables} (hf : Fits p.stats i t) (toks : List Token)
    (hts : ∀ t ∈ toks, TokenOk p off t) :
    ∃ bits, writeTokens p i off toks = some bits ∧ ∃ x w, Emits t (toks.map (item p off)) x w ∧
      ∀ rest, start t (bits ++ rest) = .ok ⟨x, Lz77.start, w ++ rest⟩ := by
  match hst : p.stats, i, t with
  | .ans la hs, .ans infos, .ans la' ts =>
    rw [hst] at hf
    obtain rfl : la = la' := hf.1
    obtain ⟨w, x, h1, h2, h3, h4, h5⟩ := emits_ans hp hst hf toks hts
    refine ⟨bitsOf 32 x ++ w.stream, ?_, x, w.stream, h5, fun rest => ?_⟩
    · simp only [writeTokens, Ans.writeTokens, h1, Option.bind_eq_bind, Option.bind_some, Buf.stream]
    · unfold start
      dsimp only
      rw [List.append_assoc, rdBits_append h4]; rfl
  | .huff cs, .huff infos, .huff ts =>
    rw [hst] at hf
    obtain ⟨w, h1, h2⟩ := emits_huff hp hst hf toks hts
    exact ⟨w, h1, _, w, h2, fun rest => rfl⟩
  | .ans _ _, .huff _, _ => rw [hst] at hf; exact hf.elim
  | .ans _ _, .ans _, .huff _ => rw [hst] at hf; exact hf.elim
  | .huff _, .ans _, _ => rw [hst] at hf; exact hf.elim
  | .huff _, .huff _, .ans _ _ => rw [hst] at hf; exact hf.elim

end Jxl.Stream
