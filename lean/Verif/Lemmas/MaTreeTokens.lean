import Verif.Lemmas.MaTreeValidate
import Verif.Lemmas.PackSigned
/-!
# Lemmas about writing a decision tree
-/
namespace Jxl.MaTree

/-- The token list as a symbol reader; reading with another context than the one the token was
written with is an error. -/
def tokReader : Reader (Option (List (Nat × Nat))) :=
  { read := fun s c => match s with
      | some ((c', v) :: rest) => if c = c' then (v, some rest) else (0, none)
      | _ => (0, none)
    ok := fun s => s.isSome }

theorem tok_read (c v : Nat) (rest : List (Nat × Nat)) : tokReader.read (some ((c, v) :: rest)) c = (v, some rest) := by
  simp [tokReader]

/-- What can be written for a node. -/
def Writable (n : Node) : Prop :=
  (n.property = -1 → n.predictor < kNumModularPredictors ∧ 0 < n.multiplier ∧ n.multiplier < 2 ^ 31 ∧ minInt ≤ n.offset ∧ n.offset ≤ maxInt) ∧
  (n.property ≠ -1 → 0 ≤ n.property ∧ n.property ≤ 255 ∧ minInt ≤ n.splitval ∧ n.splitval ≤ maxInt)

theorem unpack_pack {v : Int} (h1 : minInt ≤ v) (h2 : v ≤ maxInt) : unpack (packSigned (BitVec.ofInt 32 v)).toNat = v := by
  unfold unpack minInt maxInt at *
  have e : BitVec.ofNat 64 (packSigned (BitVec.ofInt 32 v)).toNat = (packSigned (BitVec.ofInt 32 v)).setWidth 64 := by
    apply BitVec.eq_of_toNat_eq
    rw [BitVec.toNat_ofNat, BitVec.toNat_setWidth]
  have hb : unpackSigned ((packSigned (BitVec.ofInt 32 v)).setWidth 64) = BitVec.ofInt 32 v := by
    generalize BitVec.ofInt 32 v = w
    have hv := w.isLt
    have hw : ((packSigned w).setWidth 64).toNat = (packSigned w).toNat := by
      rw [BitVec.toNat_setWidth]; have := (packSigned w).isLt; omega
    apply BitVec.eq_of_toNat_eq
    by_cases h : w.toNat < 2 ^ 31
    · have e := packSigned_nonneg w h
      rw [unpackSigned_even _ (by rw [hw, e]; omega) (by rw [hw, e]; omega), hw, e]; omega
    · have e := packSigned_neg w (by omega)
      rw [unpackSigned_odd _ (by rw [hw, e]; omega) (by rw [hw, e]; omega), hw, e]; omega
  rw [e, hb, BitVec.toInt_ofInt, Int.bmod_def]
  split <;> omega

theorem lowBit_spec {m : Nat} (h0 : 0 < m) (h : m < 2 ^ 31) : lowBit m < 31 ∧ m % 2 ^ lowBit m = 0 ∧ 0 < m / 2 ^ lowBit m := by
  unfold lowBit
  have hex : ∃ i, i < 31 ∧ m.testBit i = true := by
    obtain ⟨i, hi⟩ := Nat.exists_testBit_of_ne_zero (x := m) (by omega)
    refine ⟨i, ?_, hi⟩
    have := Nat.ge_two_pow_of_testBit hi
    by_cases h31 : i < 31
    · exact h31
    · have := Nat.pow_le_pow_right (n := 2) (by omega) (show 31 ≤ i by omega)
      omega
  cases hf : (List.range 32).find? (fun i => m.testBit i) with
  | none =>
    rw [List.find?_eq_none] at hf
    obtain ⟨i, hi, ht⟩ := hex
    exact absurd ht (hf i (by simp; omega))
  | some i =>
    simp only [Option.getD_some]
    rw [List.find?_range_eq_some] at hf
    obtain ⟨ht, hm, hmin⟩ := hf
    have hge := Nat.ge_two_pow_of_testBit ht
    refine ⟨?_, ?_, ?_⟩
    · by_cases h31 : i < 31
      · exact h31
      · have := Nat.pow_le_pow_right (n := 2) (by omega) (show 31 ≤ i by omega)
        omega
    · apply Nat.eq_of_testBit_eq
      intro j
      rw [Nat.testBit_mod_two_pow, Nat.zero_testBit]
      by_cases hj : j < i
      · have := hmin j hj
        simp at this
        simp [this]
      · simp [hj]
    · exact Nat.div_pos hge (Nat.two_pow_pos _)

/-- Reading back the tokens of a leaf. -/
theorem readLeaf_tokens {n : Node} (hw : Writable n) (hp : n.property = -1) (leafId : Nat) (rest : List (Nat × Nat)) :
    readLeaf tokReader (some ((kPredictorContext, n.predictor) :: (kOffsetContext, (packSigned (BitVec.ofInt 32 n.offset)).toNat) ::
      (kMultiplierLogContext, lowBit n.multiplier) :: (kMultiplierBitsContext, n.multiplier >>> lowBit n.multiplier - 1) :: rest)) leafId =
    some ({ property := -1, splitval := 0, lchild := leafId, rchild := 0, predictor := n.predictor, offset := n.offset, multiplier := n.multiplier }, some rest) := by
  obtain ⟨h1, h2, h3, h4, h5⟩ := hw.1 hp
  obtain ⟨l1, l2, l3⟩ := lowBit_spec h2 h3
  unfold readLeaf
  simp only [tok_read]
  rw [if_neg (by omega), if_neg (by omega)]
  have e : n.multiplier >>> lowBit n.multiplier = n.multiplier / 2 ^ lowBit n.multiplier := Nat.shiftRight_eq_div_pow _ _
  rw [e]
  have hp2 : (2 : Nat) ^ 31 = 2 ^ (31 - lowBit n.multiplier) * 2 ^ lowBit n.multiplier := by rw [← Nat.pow_add]; congr 1; omega
  have hlt : n.multiplier / 2 ^ lowBit n.multiplier < 2 ^ (31 - lowBit n.multiplier) := by
    rw [Nat.div_lt_iff_lt_mul (Nat.two_pow_pos _), ← hp2]; exact h3
  rw [if_neg (by omega)]
  have hm : (n.multiplier / 2 ^ lowBit n.multiplier - 1 + 1) * 2 ^ lowBit n.multiplier = n.multiplier := by
    rw [Nat.sub_add_cancel l3]
    exact Nat.div_mul_cancel (Nat.dvd_of_mod_eq_zero l2)
  rw [hm, unpack_pack h4 h5]

/-- The tree with the contexts of the leaves forgotten. -/
def Dtree.shape : Dtree → Dtree
  | .leaf i => .leaf { i with ctx := 0 }
  | .split p v l r => .split p v l.shape r.shape

theorem tokenize_out {tree : List Node} : ∀ (fuel : Nat) (q : List Nat) (leafId : Nat) (out : List Node) (toks : List (Nat × Nat)) (out' : List Node) (toks' : List (Nat × Nat)),
    tokenizeLoop tree fuel q leafId out toks = some (some (out', toks')) →
      out <+: out' ∧ ∀ (j c : Nat) (u : Dtree), q[j]? = some c → Represents tree c u → ∃ u', Represents out' (out.length + j) u' ∧ u'.shape = u.shape := by
  intro fuel
  induction fuel with
  | zero => intro q leafId out toks out' toks' h; simp [tokenizeLoop] at h
  | succ fuel ih =>
    intro q leafId out toks out' toks' h
    cases q with
    | nil =>
      simp only [tokenizeLoop, Option.some.injEq, Prod.mk.injEq] at h
      obtain ⟨rfl, rfl⟩ := h
      exact ⟨List.prefix_refl _, by simp⟩
    | cons cur q =>
      rw [tokenizeLoop] at h
      cases hc : tree[cur]? with
      | none => rw [hc] at h; cases h
      | some n =>
        rw [hc] at h
        simp only at h
        split at h
        · cases h
        split at h
        · rename_i hm hp
          split at h
          · cases h
          obtain ⟨h1, h2⟩ := ih _ _ _ _ _ _ h
          obtain ⟨suf, hsuf⟩ := h1
          refine ⟨⟨_, by rw [← hsuf, List.append_assoc]⟩, ?_⟩
          intro j c u hj hu
          cases j with
          | zero =>
            simp at hj; subst hj
            cases hu with
            | leaf g1 g2 =>
              rw [hc] at g1; cases g1
              refine ⟨_, .leaf (n := { property := -1, splitval := 0, lchild := leafId, rchild := 0, predictor := n.predictor, offset := n.offset, multiplier := n.multiplier }) ?_ rfl, rfl⟩
              rw [← hsuf]; simp
            | split g1 g2 _ _ => rw [hc] at g1; cases g1; omega
          | succ j =>
            obtain ⟨u', k1, k2⟩ := h2 j c u (by simpa using hj) hu
            refine ⟨u', ?_, k2⟩
            simp only [List.length_append, List.length_cons, List.length_nil] at k1
            rwa [show out.length + (j + 1) = out.length + 1 + j from by omega]
        · rename_i hm hp
          obtain ⟨h1, h2⟩ := ih _ _ _ _ _ _ h
          obtain ⟨suf, hsuf⟩ := h1
          refine ⟨⟨_, by rw [← hsuf, List.append_assoc]⟩, ?_⟩
          intro j c u hj hu
          cases j with
          | zero =>
            simp at hj; subst hj
            cases hu with
            | leaf g1 g2 => rw [hc] at g1; cases g1; omega
            | @split _ _ l r g1 g2 gl gr =>
              rw [hc] at g1; cases g1
              obtain ⟨l', l1, l2⟩ := h2 q.length n.lchild l (by simp) gl
              obtain ⟨r', r1, r2⟩ := h2 (q.length + 1) n.rchild r (by simp) gr
              simp only [List.length_append, List.length_cons, List.length_nil] at l1 r1
              refine ⟨.split n.property.toNat n.splitval l' r', ?_, by simp [Dtree.shape, l2, r2]⟩
              refine Represents.split (n := { property := n.property, splitval := n.splitval, lchild := out.length + q.length + 1, rchild := out.length + q.length + 2, predictor := 0, offset := 0, multiplier := 1 }) ?_ g2 ?_ ?_
              · rw [← hsuf]; simp
              · rwa [show out.length + q.length + 1 = out.length + (0 + 1) + q.length from by omega]
              · rwa [show out.length + q.length + 2 = out.length + (0 + 1) + (q.length + 1) from by omega]
          | succ j =>
            have hjl : j < q.length := by
              have : q[j]? = some c := by simpa using hj
              exact (List.getElem?_eq_some_iff.mp this).1
            obtain ⟨u', k1, k2⟩ := h2 j c u (by rw [List.getElem?_append_left hjl]; simpa using hj) hu
            refine ⟨u', ?_, k2⟩
            simp only [List.length_append, List.length_cons, List.length_nil] at k1
            rwa [show out.length + (j + 1) = out.length + 1 + j from by omega]

/-- The tokens decode to the nodes written alongside. -/
theorem tokenize_decode {tree : List Node} (hW : ∀ (i : Nat) (n : Node), tree[i]? = some n → Writable n) (limit : Nat) :
    ∀ (fuel : Nat) (q : List Nat) (leafId : Nat) (out : List Node) (toks : List (Nat × Nat)) (out' : List Node) (toks' : List (Nat × Nat)),
    tokenizeLoop tree fuel q leafId out toks = some (some (out', toks')) → out'.length ≤ limit + 1 →
      ∃ suf, toks' = toks ++ suf ∧ ∀ (extra : List (Nat × Nat)) (fuel' : Nat), out'.length + 1 ≤ fuel' + out.length →
        decodeLoop tokReader limit fuel' (some (suf ++ extra)) leafId q.length out = some (some (out', some extra)) := by
  intro fuel
  induction fuel with
  | zero => intro q leafId out toks out' toks' h; simp [tokenizeLoop] at h
  | succ fuel ih =>
    intro q leafId out toks out' toks' h hlim
    have hpre := (tokenize_out _ _ _ _ _ _ _ h).1.length_le
    cases q with
    | nil =>
      simp only [tokenizeLoop, Option.some.injEq, Prod.mk.injEq] at h
      obtain ⟨rfl, rfl⟩ := h
      refine ⟨[], by simp, ?_⟩
      intro extra fuel' hf
      cases fuel' with
      | zero => omega
      | succ fuel' => simp [decodeLoop]
    | cons cur q =>
      rw [tokenizeLoop] at h
      cases hc : tree[cur]? with
      | none => rw [hc] at h; cases h
      | some n =>
        rw [hc] at h
        simp only at h
        have hw := hW _ _ hc
        split at h
        · cases h
        split at h
        · rename_i hm hp
          split at h
          · cases h
          have hpre2 := (tokenize_out _ _ _ _ _ _ _ h).1.length_le
          simp at hpre2
          obtain ⟨suf, h1, h2⟩ := ih _ _ _ _ _ _ h hlim
          refine ⟨nodeTokens n ++ suf, by rw [h1, List.append_assoc], ?_⟩
          intro extra fuel' hf
          cases fuel' with
          | zero => omega
          | succ fuel' =>
            rw [decodeLoop, if_neg (by simp), if_neg (by simp [tokReader]), if_neg (by omega)]
            simp only [nodeTokens, if_pos hp, List.cons_append, List.nil_append, tok_read]
            rw [if_neg (by omega), if_pos trivial, readLeaf_tokens hw hp]
            simp only [List.length_cons, Nat.add_sub_cancel]
            exact h2 extra fuel' (by simp; omega)
        · rename_i hm hp
          have hpre2 := (tokenize_out _ _ _ _ _ _ _ h).1.length_le
          simp at hpre2
          obtain ⟨g1, g2, g3, g4⟩ := hw.2 hp
          obtain ⟨suf, h1, h2⟩ := ih _ _ _ _ _ _ h hlim
          refine ⟨nodeTokens n ++ suf, by rw [h1, List.append_assoc], ?_⟩
          intro extra fuel' hf
          cases fuel' with
          | zero => omega
          | succ fuel' =>
            rw [decodeLoop, if_neg (by simp), if_neg (by simp [tokReader]), if_neg (by omega)]
            simp only [nodeTokens, if_neg hp, List.cons_append, List.nil_append, tok_read]
            rw [if_neg (by omega), if_neg (by omega), unpack_pack g3 g4]
            simp only [List.length_cons, Nat.add_sub_cancel]
            have e : (((n.property + 1).toNat : Nat) : Int) - 1 = n.property := by omega
            rw [e]
            have := h2 extra fuel' (by simp; omega)
            simpa using this

/-- The loop ends and is defined on anything that represents a tree. -/
theorem tokenize_total {tree : List Node} (hW : ∀ (i : Nat) (n : Node), tree[i]? = some n → Writable n) :
    ∀ (fuel : Nat) (q : List Nat) (us : List Dtree) (leafId : Nat) (out : List Node) (toks : List (Nat × Nat)),
    us.length = q.length → (∀ (j c : Nat) (u : Dtree), q[j]? = some c → us[j]? = some u → Represents tree c u) → (us.map Dtree.size).sum < fuel →
      ∃ out' toks', tokenizeLoop tree fuel q leafId out toks = some (some (out', toks')) ∧ out'.length = out.length + (us.map Dtree.size).sum := by
  intro fuel
  induction fuel with
  | zero => intro q us leafId out toks _ _ h; omega
  | succ fuel ih =>
    intro q us leafId out toks hl hrep hs
    match q, us, hl with
    | [], [], _ => exact ⟨out, toks, rfl, by simp⟩
    | cur :: q, u :: us, hl =>
      have hu := hrep 0 cur u rfl rfl
      have hrest : ∀ (j c : Nat) (u : Dtree), q[j]? = some c → us[j]? = some u → Represents tree c u := fun j c u h1 h2 => hrep (j + 1) c u (by simpa using h1) (by simpa using h2)
      simp at hl
      simp only [List.map_cons, List.sum_cons] at hs ⊢
      rw [tokenizeLoop]
      cases hu with
      | @leaf _ n g1 g2 =>
        have hw := (hW _ _ g1).1 g2
        rw [g1]
        simp only
        rw [if_neg (by omega), if_pos g2, if_neg (by omega)]
        simp only [Dtree.size] at hs ⊢
        obtain ⟨o, t, e1, e2⟩ := ih q us (leafId + 1) (out ++ [{ property := -1, splitval := 0, lchild := leafId, rchild := 0, predictor := n.predictor, offset := n.offset, multiplier := n.multiplier }]) (toks ++ nodeTokens n) hl hrest (by omega)
        refine ⟨o, t, e1, ?_⟩
        rw [e2]; simp; omega
      | @split _ n l r g1 g2 gl gr =>
        rw [g1]
        simp only
        rw [if_neg (by omega), if_neg (by omega)]
        simp only [Dtree.size] at hs ⊢
        have hnew : ∀ (j c : Nat) (u : Dtree), (q ++ [n.lchild, n.rchild])[j]? = some c → (us ++ [l, r])[j]? = some u → Represents tree c u := by
          intro j c u h1 h2
          by_cases hj : j < q.length
          · rw [List.getElem?_append_left hj] at h1
            rw [List.getElem?_append_left (by omega)] at h2
            exact hrest j c u h1 h2
          · rw [List.getElem?_append_right (by omega)] at h1
            rw [List.getElem?_append_right (by omega), hl] at h2
            rcases hd : j - q.length with _ | _ | x
            · rw [hd] at h1 h2; simp at h1 h2; subst h1; subst h2; exact gl
            · rw [hd] at h1 h2; simp at h1 h2; subst h1; subst h2; exact gr
            · rw [hd] at h1; simp at h1
        obtain ⟨o, t, e1, e2⟩ := ih (q ++ [n.lchild, n.rchild]) (us ++ [l, r]) leafId (out ++ [{ property := n.property, splitval := n.splitval, lchild := out.length + q.length + 1, rchild := out.length + q.length + 2, predictor := 0, offset := 0, multiplier := 1 }]) (toks ++ nodeTokens n) (by simp; omega) hnew (by simp; omega)
        refine ⟨o, t, e1, ?_⟩
        rw [e2]; simp; omega

theorem shape_live {t u : Dtree} (h : t.shape = u.shape) : ∀ C, t.Live C ↔ u.Live C := by
  induction t generalizing u with
  | leaf i =>
    cases u with
    | leaf j => intro C; exact Iff.rfl
    | split => simp [Dtree.shape] at h
  | split p v l r ihl ihr =>
    cases u with
    | leaf j => simp [Dtree.shape] at h
    | split p' v' l' r' =>
      simp only [Dtree.shape, Dtree.split.injEq] at h
      obtain ⟨rfl, rfl, h1, h2⟩ := h
      intro C
      simp only [Dtree.Live, ihl h1, ihr h2]

theorem shape_height {t u : Dtree} (h : t.shape = u.shape) : t.height = u.height := by
  induction t generalizing u with
  | leaf i =>
    cases u with
    | leaf j => rfl
    | split => simp [Dtree.shape] at h
  | split p v l r ihl ihr =>
    cases u with
    | leaf j => simp [Dtree.shape] at h
    | split p' v' l' r' =>
      simp only [Dtree.shape, Dtree.split.injEq] at h
      obtain ⟨rfl, rfl, h1, h2⟩ := h
      simp only [Dtree.height, ihl h1, ihr h2]

end Jxl.MaTree
