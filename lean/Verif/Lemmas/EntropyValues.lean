import Verif.Lemmas.EntropyTokens
import Verif.Lemmas.Lz77Spec
/-!
# The values of a token stream are read back, copies included
-/
namespace Jxl.Stream
open Ans (Token)
open Lz77 (Holds Pending)

/-- The decoder knows what the encoder chose; codings of integers agree on the symbols of the alphabet. -/
structure Agrees (p : Plan) (c : Code) : Prop where
  lz : c.lz = p.lz
  map : c.map = p.map
  length : c.config.length = p.config.length
  config : ∀ (h : Nat) a b, p.config[h]? = some a → c.config[h]? = some b → ∀ token s, token < 2 ^ p.stats.la →
    Hybrid.read b token s = Hybrid.read a token s

theorem symbol_lt {p : Plan} (hp : PlanOk p) {off : Nat} {t : Token} (ht : TokenOk p off t) : symbol p off t < 2 ^ p.stats.la := by
  have hc := ht.counted
  have hs := hp.stats
  generalize symbol p off t = y at *
  generalize cluster p off t = h at *
  match hst : p.stats with
  | .ans la hs' =>
    rw [hst] at hc hs
    unfold weight at hc
    dsimp only at hc
    match hh : hs'[h]? with
    | none => rw [hh] at hc; simp at hc
    | some hist =>
      rw [hh, Option.map_some, Option.getD_some] at hc
      obtain ⟨h1, h2⟩ := hs.2.2 hist (List.mem_of_getElem? hh)
      show y < 2 ^ la
      rcases Nat.lt_or_ge y hist.size with h' | h'
      · omega
      · have := storable_beyond h1 y h'; omega
  | .huff cs =>
    rw [hst] at hc hs
    unfold weight at hc
    dsimp only at hc
    match hh : cs[h]? with
    | none => rw [hh] at hc; simp at hc
    | some counts =>
      rw [hh, Option.map_some, Option.getD_some] at hc
      have h1 := (hs counts (List.mem_of_getElem? hh)).1
      show y < 2 ^ 15
      have := Huffman.getD_ne_lt (l := counts) (i := y) (by omega)
      omega

/-- The integer of a token that is not a length. -/
theorem int_read {p : Plan} (hp : PlanOk p) {c : Code} (ha : Agrees p c) {off : Nat} {t : Token} (ht : TokenOk p off t) (hl : t.isLen = false) :
    ∃ cfg, c.config[cluster p off t]? = some cfg ∧ ∀ rest,
      Hybrid.read cfg (symbol p off t) (bitsOf (item p off t).nbits (item p off t).extra ++ rest) = some (t.value, rest) := by
  obtain ⟨a1, a2, a3, a4, a5⟩ := token_parts hp ht
  obtain ⟨b1, b2, b3⟩ := token_hybrid hp ht
  have hlt : cluster p off t < c.config.length := by rw [ha.length, hp.configs]; exact a2
  refine ⟨c.config[cluster p off t], List.getElem?_eq_getElem hlt, fun rest => ?_⟩
  rw [hl] at a5
  have e1 : tokenCfg p off t = p.config.getD (cluster p off t) ⟨0, 0, 0⟩ := by unfold tokenCfg; rw [hl]
  have e2 : p.config[cluster p off t]? = some (tokenCfg p off t) := by
    rw [e1, List.getD_eq_getElem?_getD, List.getElem?_eq_getElem (by rw [hp.configs]; exact a2)]; rfl
  rw [ha.config _ _ _ e2 (List.getElem?_eq_getElem hlt) _ _ (symbol_lt hp ht)]
  rw [show symbol p off t = (Hybrid.encode (tokenCfg p off t) t.value).1 from a5]
  exact b3 rest

theorem readValues_cons {c : Code} {mult x h : Nat} {xs : List Nat} {st st1 st2 : St} {v : Nat} {vs : List Nat} (h0 : c.map[x]? = some h)
    (h1 : readValue c mult h st = .ok (v, st1)) (h2 : readValues c mult xs st1 = .ok (vs, st2)) :
    readValues c mult (x :: xs) st = .ok (v :: vs, st2) := by
  show Out.bind (req c.map[x]?) _ = _
  rw [h0]
  show Out.bind (readValue c mult h st) _ = _
  rw [h1]
  show Out.bind (readValues c mult xs st1) _ = _
  rw [h2]; rfl

theorem copyFrom_one_step {n d v : Nat} {h vs : List Nat} (e : h ++ v :: vs = Lz77.copyFrom (n + 1) d h) :
    v = Lz77.back h d ∧ (h ++ [v]) ++ vs = Lz77.copyFrom n d (h ++ [v]) := by
  rw [Lz77.copyFrom_succ] at e
  obtain ⟨t, ht⟩ := Lz77.copyFrom_prefix n d (h ++ [Lz77.back h d])
  have hv : v = Lz77.back h d := by
    rw [← ht, List.append_assoc] at e
    have := List.append_cancel_left e
    simp only [List.cons_append, List.nil_append, List.cons.injEq] at this
    exact this.1
  refine ⟨hv, ?_⟩
  rw [hv, ← e, ← hv, List.append_assoc]; rfl

/-- The values of a copy that has been started. -/
theorem copies_read {c : Code} {mult off x d : Nat} {z : Lz} (hz : c.lz = some z) (bits : List Bool) : ∀ (xs : List (Nat × Nat)) (h : List Nat) (s : Lz77.State),
    (∀ v ∈ xs, off + v.1 < c.map.length) → Holds s h → Pending s h d → s.toCopy = xs.length → h.length + xs.length < 2 ^ 32 →
    h ++ xs.map Prod.snd = Lz77.copyFrom xs.length d h →
    ∃ s', Holds s' (h ++ xs.map Prod.snd) ∧ s'.toCopy = 0 ∧ s'.bad = s.bad ∧ ∀ more vs st, readValues c mult more ⟨x, s', bits⟩ = .ok (vs, st) →
      readValues c mult (xs.map (fun v => off + v.1) ++ more) ⟨x, s, bits⟩ = .ok (xs.map Prod.snd ++ vs, st) := by
  intro xs
  induction xs with
  | nil =>
    intro h s _ H _ h0 _ _
    exact ⟨s, by simpa using H, h0, rfl, fun more vs st hm => hm⟩
  | cons v xs ih =>
    intro h s hctx H P h0 hl he
    rw [List.length_cons] at h0 hl he
    rw [List.map_cons] at he
    obtain ⟨hv, he2⟩ := copyFrom_one_step he
    obtain ⟨t, t1, t2, t3, t4, t5, t6⟩ := Lz77.copyStep_holds H P (by omega) (by omega) (by omega)
    rw [← hv] at t1 t2 t3
    obtain ⟨s', k1, k2, k3, k4⟩ := ih (h ++ [v.2]) t (fun w hw => hctx w (by simp [hw])) t2 t3 (by omega) (by simp; omega) he2
    refine ⟨s', by simpa using k1, k2, by rw [k3, t6], fun more vs st hm => ?_⟩
    have hmap : c.map[off + v.1]? = some (c.map[off + v.1]'(hctx v (by simp))) := List.getElem?_eq_getElem _
    refine readValues_cons hmap (v := v.2) (st1 := ⟨x, t, bits⟩) ?_ (k4 more vs st hm)
    unfold readValue
    rw [hz]
    dsimp only
    rw [if_pos (by omega)]
    unfold copyOne
    dsimp only
    rw [t1]; rfl

theorem stands_read {p : Plan} (hp : PlanOk p) {c : Code} (ha : Agrees p c) {off mult dctx : Nat} (hd : p.lz ≠ none → off + dctx + 1 = p.map.length)
    {h : List Nat} {ts : List Token} {vs : List (Nat × Nat)} (hst : Stands (p.meaning mult) p.lz.isSome dctx h ts vs) :
    (∀ t ∈ ts, TokenOk p off t) → (∀ v ∈ vs, off + v.1 < p.map.length) → h.length + vs.length < 2 ^ 32 →
    ∀ (x : Nat) (w : List Bool) (s : Lz77.State), Emits c.tables (ts.map (item p off)) x w → (p.lz ≠ none → Holds s h ∧ s.toCopy = 0) →
    ∀ rest, ∃ s', s'.bad = s.bad ∧ readValues c mult (vs.map fun v => off + v.1) ⟨x, s, w ++ rest⟩ = .ok (vs.map Prod.snd, ⟨0x13 <<< 16, s', rest⟩) := by
  induction hst with
  | done h =>
    intro _ _ _ x w s he _ rest
    obtain ⟨rfl, rfl⟩ := he
    exact ⟨s, rfl, rfl⟩
  | @literal h ctx v ts vs hst ih =>
    intro hts hctx hlen x w s he hs rest
    obtain ⟨x1, w1, e1, e2⟩ := he
    have ht := hts _ (List.mem_cons_self ..)
    have hih := fun (s : Lz77.State) (hs : p.lz ≠ none → Holds s (h ++ [v]) ∧ s.toCopy = 0) =>
      ih (fun t ht => hts t (by simp [ht])) (fun u hu => hctx u (by simp [hu])) (by simp at hlen ⊢; omega) x1 w1 s e2 hs rest
    have hmap : c.map[off + ctx]? = some (cluster p off ⟨false, ctx, v⟩) := by rw [ha.map]; exact (token_parts hp ht).1
    obtain ⟨cfg, g1, g2⟩ := int_read hp ha ht rfl
    have e1' := e1 rest
    change readSym c.tables (cluster p off ⟨false, ctx, v⟩) x (w ++ rest) = .ok (symbol p off ⟨false, ctx, v⟩, x1, _) at e1'
    match hz : p.lz with
    | none =>
      obtain ⟨s', k1, k2⟩ := hih s (fun hne => absurd hz hne)
      refine ⟨s', k1, readValues_cons hmap (v := v) (st1 := ⟨x1, s, w1 ++ rest⟩) ?_ k2⟩
      unfold readValue
      rw [ha.lz, hz]
      dsimp only
      show Out.bind (readInt c _ x (w ++ rest)) _ = _
      have : readInt c (cluster p off ⟨false, ctx, v⟩) x (w ++ rest) = .ok (v, x1, w1 ++ rest) := by
        unfold readInt
        rw [e1']
        show Out.bind (req c.config[_]?) _ = _
        rw [g1]
        show Out.bind (chk (Hybrid.read cfg _ _)) _ = _
        rw [g2]; rfl
      rw [this]; rfl
    | some z =>
      obtain ⟨H, h0⟩ := hs (by rw [hz]; simp)
      obtain ⟨s', k1, k2⟩ := hih { s with win := fun j => if j = s.num % Lz77.W then some (v % 2 ^ 32) else s.win j, num := Lz77.wadd s.num 1 }
        (fun _ => ⟨Lz77.holds_push H ht.value (by simp at hlen; omega) _ (by intro j; rw [Nat.mod_eq_of_lt ht.value]) rfl, h0⟩)
      refine ⟨s', k1, readValues_cons hmap (v := v) ?_ k2⟩
      unfold readValue
      rw [ha.lz, hz]
      dsimp only
      rw [if_neg (by omega)]
      show Out.bind (readSym c.tables _ x (w ++ rest)) _ = _
      rw [e1']
      show (if symbol p off ⟨false, ctx, v⟩ ≥ z.minSymbol then _ else _ : Out _) = _
      have := ht.literal rfl z hz
      rw [if_neg (by omega)]
      unfold readLit
      rw [g1]
      show Out.bind (chk (Hybrid.read cfg _ _)) _ = _
      rw [g2]
      show Out.bind (req (Lz77.push s v)) _ = _
      rw [Lz77.push_eq]; rfl
  | @copy h y ys l d ts vs hcop hcopy hst ih =>
    intro hts hctx hlen x w s he hs rest
    obtain ⟨x1, w1, e1, x2, w2, e2, e3⟩ := he
    match hz : p.lz, hcop with
    | none, hh => cases hh
    | some z, _ =>
    have hne : p.lz ≠ none := by rw [hz]; simp
    obtain ⟨H, h0⟩ := hs hne
    have ht := hts ⟨true, y.1, l⟩ (by simp)
    have ht2 := hts ⟨false, dctx, d⟩ (by simp)
    have hmean : (p.meaning mult) = Lz77.meaning z.minLength mult := by rw [Plan.meaning, hz]; rfl
    rw [hmean] at hcopy
    have hll : (y :: ys).length = l + z.minLength := by
      have := congrArg List.length hcopy
      rw [Lz77.copyFrom_length, List.length_append, List.length_map] at this
      exact Nat.add_left_cancel this
    rw [List.length_append] at hlen
    -- the length
    obtain ⟨q1, q2, q3⟩ := token_hybrid hp ht
    obtain ⟨a1, a2, a3, a4, a5⟩ := token_parts hp ht
    have hcfg : tokenCfg p off ⟨true, y.1, l⟩ = z.lengthConfig := by unfold tokenCfg; rw [hz]
    have hsym : symbol p off ⟨true, y.1, l⟩ = (Hybrid.encode z.lengthConfig l).1 + z.minSymbol := by unfold symbol; rw [hz]
    have hlast : c.map.getLast? = some (cluster p off ⟨false, dctx, d⟩) := by
      rw [ha.map, List.getLast?_eq_getElem?, show p.map.length - 1 = off + dctx by have := hd hne; omega]
      exact (token_parts hp ht2).1
    -- the distance
    obtain ⟨cfg, g1, g2⟩ := int_read hp ha ht2 rfl
    have e2' := e2 rest
    change readSym c.tables (cluster p off ⟨false, dctx, d⟩) x1 (w1 ++ rest) = .ok (symbol p off ⟨false, dctx, d⟩, x2, _) at e2'
    have hdist : readInt c (cluster p off ⟨false, dctx, d⟩) x1 (w1 ++ rest) = .ok (d, x2, w2 ++ rest) := by
      unfold readInt
      rw [e2']
      show Out.bind (req c.config[_]?) _ = _
      rw [g1]
      show Out.bind (chk (Hybrid.read cfg _ _)) _ = _
      rw [g2]; rfl
    obtain ⟨t, t1, t2, t3, t4, t5, t6⟩ := Lz77.startCopy_holds ⟨z.minLength, mult⟩ H l d (by dsimp only; omega)
    dsimp only at t4
    have hcl : c.lz = some z := by rw [ha.lz, hz]
    have hcopy' : h ++ (y :: ys).map Prod.snd = Lz77.copyFrom (y :: ys).length (Lz77.usable (Lz77.codeDistance mult d) h.length) h := by
      rw [hll]; exact hcopy
    obtain ⟨s1, k1, k2, k3, k4⟩ := copies_read (off := off) (mult := mult) (x := x2) hcl (w2 ++ rest) (y :: ys) h t
      (fun v hv => by rw [ha.map]; exact hctx v (by simp only [List.mem_append]; exact Or.inl hv)) t2 t3 (by omega) (by omega) hcopy'
    obtain ⟨s', r1, r2⟩ := ih (fun t ht => hts t (by simp [ht])) (fun v hv => hctx v (by simp [hv])) (by simp at hlen ⊢; omega) x2 w2 s1 e3
      (fun _ => ⟨k1, k2⟩) rest
    refine ⟨s', by rw [r1, k3, t6], ?_⟩
    have hk := k4 _ _ _ r2
    rw [List.map_append, List.map_append]
    have hmap : c.map[off + y.1]? = some (cluster p off ⟨true, y.1, l⟩) := by rw [ha.map]; exact a1
    -- the first value of the copy is read by the call that reads length and distance
    have hfirst : readValue c mult (cluster p off ⟨true, y.1, l⟩) ⟨x, s, w ++ rest⟩ = readValue c mult (cluster p off ⟨true, y.1, l⟩) ⟨x2, t, w2 ++ rest⟩ := by
      have hpos : t.toCopy > 0 := by rw [t4, ← hll]; simp
      unfold readValue
      rw [hcl]
      dsimp only
      rw [if_neg (by omega), if_pos hpos]
      have e1' := e1 rest
      change readSym c.tables (cluster p off ⟨true, y.1, l⟩) x (w ++ rest) = .ok (symbol p off ⟨true, y.1, l⟩, x1, _) at e1'
      show Out.bind (readSym c.tables _ x (w ++ rest)) _ = _
      rw [e1']
      show (if symbol p off ⟨true, y.1, l⟩ ≥ z.minSymbol then _ else _ : Out _) = _
      rw [if_pos (by omega)]
      unfold readCopy
      rw [hsym, Nat.add_sub_cancel]
      rw [hcfg] at q3
      have q3' := q3 (w1 ++ rest)
      dsimp only at q3' ⊢
      rw [q3']
      show Out.bind (req c.map.getLast?) _ = _
      rw [hlast]
      show Out.bind (readInt c _ x1 (w1 ++ rest)) _ = _
      rw [hdist]
      show Out.bind (req (Lz77.startCopy ⟨z.minLength, mult⟩ s l d)) _ = _
      rw [t1]
      show (if t.toCopy < z.minLength then _ else _ : Out _) = _
      rw [if_neg (by omega)]
    rw [List.map_cons, List.cons_append] at hk ⊢
    unfold readValues at hk ⊢
    rw [hmap] at hk ⊢
    change Out.bind (readValue c mult _ _) _ = _ at hk
    show Out.bind (readValue c mult _ _) _ = _
    rw [hfirst]
    exact hk

/-- Tokens that stand for values are written, and the decoder reads the values back. -/
theorem values_read {p : Plan} (hp : PlanOk p) {c : Code} (ha : Agrees p c) {i : Infos} (hf : Fits p.stats i c.tables) {off mult : Nat}
    {ts : List Token} {vs : List (Nat × Nat)} (ht : Tokenised p off mult ts vs) :
    ∃ bits, writeTokens p i off ts = some bits ∧ ∀ rest, ∃ s, s.bad = false ∧
      decode c mult (vs.map fun v => off + v.1) (bits ++ rest) = .ok (vs.map Prod.snd, ⟨0x13 <<< 16, s, rest⟩) := by
  obtain ⟨bits, h1, x, w, h2, h3⟩ := tokens_emitted hp hf ts ht.ok
  refine ⟨bits, h1, fun rest => ?_⟩
  obtain ⟨dctx, d1, d2⟩ := ht.stands
  obtain ⟨s', k1, k2⟩ := stands_read hp ha d1 d2 ht.ok ht.ctx (by simpa using ht.count) x w Lz77.start h2 (fun _ => ⟨Lz77.start_holds, rfl⟩) rest
  refine ⟨s', k1, ?_⟩
  unfold decode
  rw [h3]
  exact k2

end Jxl.Stream
