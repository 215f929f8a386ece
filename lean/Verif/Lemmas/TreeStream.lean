import Verif.Model.TreeStream
import Verif.Lemmas.MaTreeTokens
import Verif.Lemmas.EntropyHeader
import Verif.Lemmas.EntropySafe
/-!
# Lemmas about trees in entropy-coded streams
-/
namespace Jxl.TreeStream
open Jxl.MaTree

/-- A reader gives the values of the tokens, one after the other, and is fine before each. -/
def Feed {ρ : Type} (R : Reader ρ) : ρ → List (Nat × Nat) → ρ → Prop
  | r, [], r' => r = r'
  | r, (c, v) :: ts, r' => R.ok r = true ∧ ∃ m, R.read r c = (v, m) ∧ Feed R m ts r'

theorem tok_some {s : Option (List (Nat × Nat))} {c v : Nat} {ts : List (Nat × Nat)} (h : tokReader.read s c = (v, some ts)) :
    s = some ((c, v) :: ts) := by
  unfold tokReader at h
  dsimp only at h
  split at h
  · split at h
    · rename_i hc
      cases h
      rw [hc]
    · cases h
  · cases h

theorem tok_none (c : Nat) : tokReader.read none c = (0, none) := rfl

theorem readLeaf_none {r : Option (List (Nat × Nat))} {l : Nat} {n : Node} {r' : List (Nat × Nat)} (h : readLeaf tokReader r l = some (n, some r')) :
    ∃ v ts, r = some ((kPredictorContext, v) :: ts) := by
  cases hr : tokReader.read r kPredictorContext with
  | mk v m =>
    cases m with
    | some ts => exact ⟨v, ts, tok_some hr⟩
    | none =>
      exfalso
      unfold readLeaf at h
      rw [hr] at h
      dsimp only at h
      rw [tok_none] at h
      dsimp only at h
      rw [tok_none] at h
      dsimp only at h
      rw [tok_none] at h
      dsimp only at h
      (repeat' split at h) <;> cases h

/-- A leaf is four tokens. -/
theorem readLeaf_four {s : Option (List (Nat × Nat))} {l : Nat} {n : Node} {rest : List (Nat × Nat)} (h : readLeaf tokReader s l = some (n, some rest)) :
    ∃ a b c d, s = some ((kPredictorContext, a) :: (kOffsetContext, b) :: (kMultiplierLogContext, c) :: (kMultiplierBitsContext, d) :: rest) := by
  unfold readLeaf at h
  dsimp only at h
  split at h
  · cases h
  · split at h
    · cases h
    · split at h
      · cases h
      · injection h with h
        injection h with h1 h2
        generalize e1 : tokReader.read s kPredictorContext = p1 at h2
        obtain ⟨a, m1⟩ := p1
        generalize e2 : tokReader.read m1 kOffsetContext = p2 at h2
        obtain ⟨b, m2⟩ := p2
        generalize e3 : tokReader.read m2 kMultiplierLogContext = p3 at h2
        obtain ⟨c, m3⟩ := p3
        generalize e4 : tokReader.read m3 kMultiplierBitsContext = p4 at h2
        obtain ⟨d, m4⟩ := p4
        dsimp only at h2
        subst h2
        have h3 := tok_some e4
        subst h3
        have h4 := tok_some e3
        subst h4
        have h5 := tok_some e2
        subst h5
        exact ⟨a, b, c, d, tok_some e1⟩

theorem readLeaf_sim {ρ : Type} {R : Reader ρ} {r r' : ρ} {toks rest : List (Nat × Nat)} (hf : Feed R r toks r') {l : Nat} {n : Node}
    (h : readLeaf tokReader (some toks) l = some (n, some rest)) : ∃ m, readLeaf R r l = some (n, m) ∧ Feed R m rest r' := by
  obtain ⟨a, b, c, d, e⟩ := readLeaf_four h
  injection e with e
  subst e
  obtain ⟨-, m1, e1, -, m2, e2, -, m3, e3, -, m4, e4, hf⟩ := hf
  refine ⟨m4, ?_, hf⟩
  unfold readLeaf at h ⊢
  rw [e1]
  rw [tok_read] at h
  dsimp only at h ⊢
  rw [e2]
  rw [tok_read] at h
  dsimp only at h ⊢
  rw [e3]
  rw [tok_read] at h
  dsimp only at h ⊢
  rw [e4]
  rw [tok_read] at h
  dsimp only at h ⊢
  split at h
  · cases h
  · rename_i g1
    rw [if_neg g1]
    split at h
    · cases h
    · rename_i g2
      rw [if_neg g2]
      split at h
      · cases h
      · rename_i g3
        rw [if_neg g3]
        injection h with h
        injection h with h1 h2
        rw [h1]

/-- A loop over tokens that ends well starts well. -/
theorem decodeLoop_none {limit : Nat} {fuel l d : Nat} {tree out : List Node} {rest : List (Nat × Nat)} :
    decodeLoop tokReader limit fuel none l d tree ≠ some (some (out, some rest)) := by
  intro h
  cases fuel with
  | zero => cases h
  | succ fuel =>
    rw [decodeLoop] at h
    split at h
    · cases h
    · rw [if_pos (by decide)] at h
      cases h

theorem decodeLoop_sim {ρ : Type} {R : Reader ρ} {limit : Nat} {r' : ρ} : ∀ (fuel : Nat) (r : ρ) (toks : List (Nat × Nat)) (l d : Nat) (tree out : List Node)
    (rest : List (Nat × Nat)), Feed R r toks r' → decodeLoop tokReader limit fuel (some toks) l d tree = some (some (out, some rest)) →
      ∃ m, decodeLoop R limit fuel r l d tree = some (some (out, m)) ∧ Feed R m rest r'
  | 0, _, _, _, _, _, _, _, _, h => by cases h
  | fuel + 1, r, toks, l, d, tree, out, rest, hf, h => by
    rw [decodeLoop] at h ⊢
    by_cases h0 : d = 0
    · rw [if_pos h0] at h ⊢
      injection h with h
      injection h with h
      injection h with h1 h2
      injection h2 with h2
      subst h1 h2
      exact ⟨r, rfl, hf⟩
    rw [if_neg h0] at h ⊢
    rw [if_neg (by simp [tokReader])] at h
    by_cases h1 : tree.length > limit
    · rw [if_pos h1] at h
      cases h
    rw [if_neg h1] at h
    dsimp only at h
    cases hp : tokReader.read (some toks) kPropertyContext with
    | mk v m =>
      rw [hp] at h
      cases m with
      | none =>
        exfalso
        dsimp only at h
        split at h
        · cases h
        split at h
        · split at h
          · cases h
          · rename_i n r2 hl
            cases r2 with
            | none => exact decodeLoop_none h
            | some ts =>
              obtain ⟨a, b, c, d, e⟩ := readLeaf_four hl
              cases e
        · rw [tok_none] at h
          exact decodeLoop_none h
      | some ts =>
        have e := tok_some hp
        injection e with e
        subst e
        obtain ⟨g1, m1, g2, hf⟩ := hf
        rw [if_neg (by simp [g1]), if_neg h1, g2]
        dsimp only at h ⊢
        by_cases k1 : v > 256
        · rw [if_pos k1] at h
          cases h
        rw [if_neg k1] at h ⊢
        by_cases k2 : v = 0
        · rw [if_pos k2] at h ⊢
          cases hl : readLeaf tokReader (some ts) l with
          | none => rw [hl] at h; cases h
          | some q =>
            obtain ⟨n, r2⟩ := q
            rw [hl] at h
            dsimp only at h
            cases r2 with
            | none => exact absurd h decodeLoop_none
            | some ts2 =>
              obtain ⟨m2, e2, hf2⟩ := readLeaf_sim hf hl
              rw [e2]
              exact decodeLoop_sim fuel m2 ts2 _ _ _ _ _ hf2 h
        · rw [if_neg k2] at h ⊢
          cases hs : tokReader.read (some ts) kSplitValContext with
          | mk w m =>
            rw [hs] at h
            cases m with
            | none => exact absurd h decodeLoop_none
            | some ts2 =>
              have e := tok_some hs
              injection e with e
              subst e
              obtain ⟨-, m2, g3, hf⟩ := hf
              rw [g3]
              exact decodeLoop_sim fuel m2 ts2 _ _ _ _ _ hf h

theorem decodeTree_sim {ρ : Type} {R : Reader ρ} {limit : Nat} {r r' : ρ} {toks : List (Nat × Nat)} {out : List Node} (hf : Feed R r toks r')
    (h : decodeTree tokReader (some toks) limit = some (some (out, some []))) : decodeTree R r limit = some (some (out, r')) := by
  unfold decodeTree at h ⊢
  cases hd : decodeLoop tokReader limit (limit + 2) (some toks) 0 1 [] with
  | none => rw [hd] at h; cases h
  | some q =>
    cases q with
    | none => rw [hd] at h; cases h
    | some q =>
      obtain ⟨t, m⟩ := q
      rw [hd] at h
      dsimp only at h
      cases hv : validateTree t with
      | none => rw [hv] at h; cases h
      | some b =>
        rw [hv] at h
        cases b with
        | false => cases h
        | true =>
          injection h with h
          injection h with h
          injection h with h1 h2
          subst h1 h2
          obtain ⟨m', e, hf'⟩ := decodeLoop_sim _ _ _ _ _ _ _ _ hf hd
          have hf' : m' = r' := hf'
          rw [e]
          dsimp only
          rw [hv, hf']

/-- In a tree there is a leaf. -/
theorem leaf_mem {limit : Nat} : ∀ (fuel : Nat) (toks : List (Nat × Nat)) (l d : Nat) (tree out : List Node) (rest : List (Nat × Nat)), 0 < d →
    decodeLoop tokReader limit fuel (some toks) l d tree = some (some (out, some rest)) → (kPropertyContext, 0) ∈ toks
  | 0, _, _, _, _, _, _, _, h => by cases h
  | fuel + 1, toks, l, d, tree, out, rest, hd, h => by
    rw [decodeLoop, if_neg (by omega), if_neg (by simp [tokReader])] at h
    by_cases h1 : tree.length > limit
    · rw [if_pos h1] at h
      cases h
    rw [if_neg h1] at h
    dsimp only at h
    cases hp : tokReader.read (some toks) kPropertyContext with
    | mk v m =>
      rw [hp] at h
      dsimp only at h
      by_cases k1 : v > 256
      · rw [if_pos k1] at h
        cases h
      rw [if_neg k1] at h
      cases m with
      | none =>
        exfalso
        split at h
        · split at h
          · cases h
          · rename_i n r2 hl
            cases r2 with
            | none => exact decodeLoop_none h
            | some ts =>
              obtain ⟨a, b, c, d, e⟩ := readLeaf_four hl
              cases e
        · rw [tok_none] at h
          exact decodeLoop_none h
      | some ts =>
        have e := tok_some hp
        injection e with e
        subst e
        by_cases k2 : v = 0
        · rw [k2]
          exact List.mem_cons_self
        · rw [if_neg k2] at h
          cases hs : tokReader.read (some ts) kSplitValContext with
          | mk w m =>
            rw [hs] at h
            cases m with
            | none => exact absurd h decodeLoop_none
            | some ts2 =>
              have e := tok_some hs
              injection e with e
              subst e
              have := leaf_mem fuel ts2 _ _ _ _ _ (by omega) h
              simp [this]

/-! ## The entropy-coded reader -/

theorem feed_values {c : Stream.Code} {mult : Nat} : ∀ (ctxs vs : List Nat) (st st' : Stream.St), Stream.readValues c mult ctxs st = .ok (vs, st') →
    Feed (contextReader c mult) (.ok st) (List.zip ctxs vs) (.ok st')
  | [], vs, st, st', h => by
    cases h
    exact rfl
  | x :: ctxs, vs, st, st', h => by
    rw [Stream.readValues] at h
    cases hm : c.map[x]? with
    | none => rw [hm] at h; cases h
    | some k =>
      rw [hm] at h
      replace h : ((Stream.readValue c mult k st).bind fun r => (Stream.readValues c mult ctxs r.2).bind fun q => .ok (r.1 :: q.1, q.2)) = .ok (vs, st') := h
      cases hr : Stream.readValue c mult k st with
      | ub => rw [hr] at h; cases h
      | deep => rw [hr] at h; cases h
      | bad => rw [hr] at h; cases h
      | ok r =>
        rw [hr] at h
        replace h : ((Stream.readValues c mult ctxs r.2).bind fun q => Stream.Out.ok (r.1 :: q.1, q.2)) = .ok (vs, st') := h
        cases hq : Stream.readValues c mult ctxs r.2 with
        | ub => rw [hq] at h; cases h
        | deep => rw [hq] at h; cases h
        | bad => rw [hq] at h; cases h
        | ok q =>
          rw [hq] at h
          cases h
          refine ⟨rfl, .ok r.2, ?_, feed_values ctxs q.1 r.2 q.2 hq⟩
          unfold contextReader
          dsimp only
          rw [hm]
          show (match Stream.readValue c mult k st with
            | .ok (v, st) => (v, Stream.Out.ok st)
            | .ub => (0, .ub)
            | .deep => (0, .deep)
            | .bad => (0, .bad)) = _
          rw [hr]

/-! ## Degenerate histograms -/

theorem only_lookup {table : List Alias.Entry} {s : Int} (h : onlySymbol table = s) (hs : 0 ≤ s) {la v : Nat} {y o f : Nat}
    (hl : Alias.lookup table la v = some (y, o, f)) : (y : Int) = s := by
  unfold Alias.lookup at hl
  dsimp only at hl
  cases table with
  | nil => simp at hl
  | cons e es =>
    rw [onlySymbol] at h
    split at h
    · rename_i hc
      obtain ⟨x, h1, h2⟩ := Option.map_eq_some_iff.mp hl
      have hx : x.cutoff = 0 ∧ x.right = e.right := by
        rcases List.mem_cons.mp (List.mem_of_getElem? h1) with h | h
        · rw [h]; exact ⟨hc.1, rfl⟩
        · exact hc.2 x h
      rw [hx.1] at h2
      simp only [ge_iff_le, Nat.zero_le, if_true] at h2
      injection h2 with h2 h3
      rw [← h2, hx.2, h]
    · omega

theorem only_fits {la : Nat} {f : Nat → Nat} {info : List Ans.Info} {table : List Alias.Entry} (h : Stream.AnsFits la f info table) (h0 : 0 < f 0) :
    ¬ onlySymbol table > 0 := by
  intro hs
  obtain ⟨-, i, -, hx⟩ := h 0 h0
  obtain ⟨b, n, x', -, -, -, -, -, hr⟩ := hx (2 ^ 16) (by omega)
  have := hr []
  unfold Ans.readSymbol at this
  obtain ⟨⟨y, o, q⟩, e1, e2⟩ := Option.bind_eq_some_iff.mp this
  have hy := only_lookup rfl (by omega) e1
  have : y = 0 := by
    dsimp only at e2
    split at e2
    · obtain ⟨r, -, e3⟩ := Option.bind_eq_some_iff.mp e2
      injection e3 with e3
      injection e3
    · injection e2 with e2
      injection e2
  omega

/-- A histogram in which the symbol 0 has a weight is not taken for one of an endless tree. -/
theorem degenerate_fits {s : Stream.Stats} {i : Stream.Infos} {t : Stream.Tables} (hf : Stream.Fits s i t) {h : Nat}
    (h0 : (∃ cs, s = .huff cs) ∨ 0 < Stream.weight s h 0) : ¬ degenerate t h > 0 := by
  cases t with
  | huff ts =>
    show ¬ (-1 : Int) > 0
    decide
  | ans la ts =>
    cases s with
    | huff cs => cases i <;> exact hf.elim
    | ans la' hs =>
      cases i with
      | huff is => exact hf.elim
      | ans is =>
        have h1 : 0 < Stream.weight (.ans la' hs) h 0 := by
          rcases h0 with ⟨cs, e⟩ | h
          · cases e
          · exact h
        obtain ⟨e, l1, l2, hk⟩ := hf
        have hh : h < hs.length := by
          rcases Nat.lt_or_ge h hs.length with g | g
          · exact g
          · rw [Stream.weight, List.getElem?_eq_none g] at h1
            cases h1
        rw [Stream.weight, List.getElem?_eq_getElem hh] at h1
        have := hk h hs[h] is[h] ts[h] (List.getElem?_eq_getElem hh) (List.getElem?_eq_getElem _) (List.getElem?_eq_getElem _)
        show ¬ onlySymbol (ts.getD h []) > 0
        rw [List.getD_eq_getElem?_getD, List.getElem?_eq_getElem (by omega : h < ts.length)]
        exact only_fits this h1

/-- Without copies every value has its token. -/
theorem stands_mem {m : Lz77.Meaning} {dctx : Nat} {h : List Nat} {ts : List Ans.Token} {vs : List (Nat × Nat)} (hs : Stream.Stands m false dctx h ts vs)
    {c v : Nat} (hm : (c, v) ∈ vs) : (⟨false, c, v⟩ : Ans.Token) ∈ ts := by
  induction hs with
  | done => cases hm
  | literal _ ih =>
    rcases List.mem_cons.mp hm with h | h
    · cases h
      exact List.mem_cons_self
    · exact List.mem_cons_of_mem _ (ih h)
  | copy h => cases h

/-! ## Any bits -/

/-- What every read keeps holds in the end. -/
theorem decodeLoop_keeps {ρ : Type} {R : Reader ρ} {P : ρ → Prop} (hP : ∀ r c, c < 6 → P r → P (R.read r c).2) {limit : Nat} :
    ∀ (fuel : Nat) (r : ρ) (l d : Nat) (tree out : List Node) (r' : ρ), P r → decodeLoop R limit fuel r l d tree = some (some (out, r')) → P r'
  | 0, _, _, _, _, _, _, _, h => by cases h
  | fuel + 1, r, l, d, tree, out, r', hr, h => by
    rw [decodeLoop] at h
    split at h
    · injection h with h
      injection h with h
      injection h with h1 h2
      rw [← h2]
      exact hr
    split at h
    · cases h
    split at h
    · cases h
    dsimp only at h
    have h1 := hP r kPropertyContext (by decide) hr
    split at h
    · cases h
    split at h
    · split at h
      · cases h
      · rename_i n r2 hl
        refine decodeLoop_keeps hP fuel r2 _ _ _ _ _ ?_ h
        have h2 := hP _ kPredictorContext (by decide) h1
        have h3 := hP _ kOffsetContext (by decide) h2
        have h4 := hP _ kMultiplierLogContext (by decide) h3
        have h5 := hP _ kMultiplierBitsContext (by decide) h4
        unfold readLeaf at hl
        dsimp only at hl
        (repeat' split at hl) <;> first | cases hl; exact h5 | cases hl
    · exact decodeLoop_keeps hP fuel _ _ _ _ _ _ (hP _ kSplitValContext (by decide) h1) h

theorem decodeTree_keeps {ρ : Type} {R : Reader ρ} {P : ρ → Prop} (hP : ∀ r c, c < 6 → P r → P (R.read r c).2) {limit : Nat} {r r' : ρ} {out : List Node}
    (hr : P r) (h : decodeTree R r limit = some (some (out, r'))) : P r' := by
  unfold decodeTree at h
  split at h
  · cases h
  · cases h
  · rename_i t r2 hd
    split at h
    · cases h
    · cases h
    · injection h with h
      injection h with h
      injection h with h1 h2
      rw [← h2]
      exact decodeLoop_keeps hP _ _ _ _ _ _ _ hr hd

theorem context_keeps {c : Stream.Code} (hc : Stream.CodeOk 6 c) (mult : Nat) (r : Stream.Out Stream.St) (x : Nat) (hx : x < 6)
    (hr : r.Safe fun st => Stream.LzInv st.lz) : ((contextReader c mult).read r x).2.Safe fun st => Stream.LzInv st.lz := by
  have hl : x < c.map.length := by
    rw [hc.map]
    split <;> omega
  unfold contextReader
  dsimp only
  rw [List.getElem?_eq_getElem hl]
  dsimp only
  unfold FastCode.entropyReader
  dsimp only
  cases r with
  | ub => exact hr
  | deep => exact hr
  | bad => trivial
  | ok st =>
    have := Stream.value_safe hc mult (List.getElem_mem hl) st hr
    dsimp only
    cases hv : Stream.readValue c mult c.map[x] st with
    | ub => rw [hv] at this; exact this
    | deep => rw [hv] at this; exact this
    | bad => trivial
    | ok q => rw [hv] at this; exact this

/-- Reading a tree from any bits. -/
theorem readTree_safe {env : Stream.Env} (he : Stream.EnvOk env) (limit : Nat) (s : List Bool) :
    (readTree env limit s).Safe fun q => ∃ c st r', decodeTree (contextReader c 0) (.ok st) (min limit kMaxTreeSize) = some (some (q.1, r')) := by
  unfold readTree
  refine Stream.safe_bind (Stream.histograms_safe he 6 s) (fun a ha => ?_)
  obtain ⟨c, s1⟩ := a
  have hc : Stream.CodeOk 6 c := ha
  have hl : kPropertyContext < c.map.length := by
    rw [hc.map]
    split <;> decide
  refine Stream.safe_bind (P := fun _ => True) (Stream.safe_req ⟨_, List.getElem?_eq_getElem hl, trivial⟩) (fun h _ => ?_)
  split
  · trivial
  have hst : (Stream.start c.tables s1).Safe fun st => Stream.LzInv st.lz := by
    unfold Stream.start
    split
    · exact Stream.safe_bind Stream.safe_any (fun _ _ => ⟨Lz77.start_rel, (by decide : (0:Nat) < 2 ^ 32)⟩)
    · exact ⟨Lz77.start_rel, (by decide : (0:Nat) < 2 ^ 32)⟩
  refine Stream.safe_bind hst (fun st hinv => ?_)
  have h0 : DInv (min limit kMaxTreeSize) 0 1 [] := ⟨by simp, by simp [splitsBefore], by simp, by simp⟩
  cases hd : decodeTree (contextReader c 0) (.ok st) (min limit kMaxTreeSize) with
  | none =>
    exfalso
    obtain ⟨o, ho, hB⟩ := decodeLoop_inv (contextReader c 0) (min limit kMaxTreeSize) (min limit kMaxTreeSize + 2) (.ok st) 0 1 [] h0 (by simp)
    unfold decodeTree at hd
    rw [ho] at hd
    cases o with
    | none => cases hd
    | some q =>
      obtain ⟨tree, r'⟩ := q
      obtain ⟨hb, hlen⟩ := hB tree r' rfl
      have hne : 0 < tree.length := by have := hb.len; omega
      obtain ⟨t, ht⟩ := forward_represents (bfs_forward hb) _ 0 rfl hne
      obtain ⟨b, hv, -⟩ := validateTree_spec ht (bfs_size hb ht)
      dsimp only at hd
      rw [hv] at hd
      cases b <;> cases hd
  | some q =>
    cases q with
    | none => trivial
    | some q =>
      obtain ⟨t, r⟩ := q
      have hr := decodeTree_keeps (P := fun r : Stream.Out Stream.St => r.Safe fun st : Stream.St => Stream.LzInv st.lz)
        (fun r x hx hr => context_keeps hc 0 r x hx hr) (r := .ok st) hinv hd
      cases r with
      | ub => exact hr
      | deep => exact hr
      | bad => trivial
      | ok st' =>
        show (if Stream.finalOk st' then Stream.Out.ok (t, st'.bits) else .bad).Safe _
        split
        · exact ⟨c, st, _, hd⟩
        · trivial

end Jxl.TreeStream
