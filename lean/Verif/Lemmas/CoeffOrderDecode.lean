import Verif.Lemmas.CoeffOrder
import Verif.Props.Lehmer
/-! # Decoded coefficient orders -/
namespace Jxl.CoeffOrder

theorem bit_eq (m i : Nat) : bit m i = m.testBit i := by
  unfold bit
  rw [Nat.one_shiftLeft]
  cases h : m.testBit i with
  | true =>
    have h1 : (m &&& 2 ^ i).testBit i = true := by rw [Nat.testBit_and, h, Nat.testBit_two_pow_self]; rfl
    have h2 : m &&& 2 ^ i ≠ 0 := by
      intro h0; rw [h0, Nat.zero_testBit] at h1; cases h1
    exact bne_iff_ne.2 h2
  | false =>
    have h0 : m &&& 2 ^ i = 0 := by
      apply Nat.eq_of_testBit_eq
      intro j
      rw [Nat.testBit_and, Nat.zero_testBit, Nat.testBit_two_pow]
      by_cases hj : i = j
      · subst hj; rw [h]; rfl
      · simp [hj]
    rw [h0]; rfl

theorem bit_or (m i j : Nat) : bit (m ||| (1 <<< i)) j = (bit m j || decide (i = j)) := by
  rw [bit_eq, bit_eq, Nat.one_shiftLeft, Nat.testBit_or, Nat.testBit_two_pow]

theorem acsMask_bit {usedAcs o : Nat} (ho : o < 27) (h : bit usedAcs o = true) :
    bit (acsMask usedAcs) (strategyOrder.getD o 0) = true := by
  have key : ∀ (os : List Nat) (m : Nat), (o ∈ os ∨ bit m (strategyOrder.getD o 0) = true) →
      bit (os.foldl (fun m o => if bit usedAcs o then m ||| (1 <<< strategyOrder.getD o 0) else m) m)
        (strategyOrder.getD o 0) = true := by
    intro os
    induction os with
    | nil => intro m hm; rcases hm with hm | hm; cases hm; exact hm
    | cons a os ih =>
      intro m hm
      rw [List.foldl_cons]
      apply ih
      rcases hm with hm | hm
      · rcases List.mem_cons.1 hm with hm | hm
        · right
          subst hm
          rw [if_pos h, bit_or]; simp
        · exact Or.inl hm
      · right
        split
        · rw [bit_or, hm]; rfl
        · exact hm
  exact key _ _ (Or.inl (List.mem_range.2 ho))

theorem compose_eq (t : List Nat) : ∀ p : List Nat, (∀ x ∈ p, x < t.length) →
    compose t p = some (p.map fun x => t.getD x 0) := by
  intro p
  induction p with
  | nil => intro _; rfl
  | cons x p ih =>
    intro h
    rw [compose, List.getElem?_eq_getElem (h x (by simp)), Option.bind_some, ih (fun y hy => h y (by simp [hy]))]
    simp only [Option.map_some, List.map_cons, List.getD_eq_getElem?_getD]
    rw [List.getElem?_eq_getElem (h x (by simp))]; rfl

theorem map_getD_self (t : List Nat) : ((List.range t.length).map fun x => t.getD x 0) = t := by
  apply List.ext_getElem?
  intro i
  rw [List.getElem?_map]
  by_cases h : i < t.length
  · rw [List.getElem?_range h, List.getElem?_eq_getElem h]
    simp only [Option.map_some, List.getD_eq_getElem?_getD]
    rw [List.getElem?_eq_getElem h]; rfl
  · rw [List.getElem?_eq_none (by simp; omega), List.getElem?_eq_none (by omega)]; rfl

theorem getD_append_lt {t r : List Nat} {x : Nat} (h : x < t.length) : (t ++ r).getD x 0 = t.getD x 0 := by
  rw [List.getD_eq_getElem?_getD, List.getD_eq_getElem?_getD, List.getElem?_append_left h]

/-- A permutation applied to an order. -/
theorem compose_perm {t r p : List Nat} {n : Nat} (ht : t.Perm (List.range n)) (hp : p.Perm (List.range n)) :
    ∃ vs, compose (t ++ r) p = some vs ∧ vs.Perm (List.range n) ∧ vs.length = n ∧
      ∀ k x : Nat, p[k]? = some x → vs[k]? = t[x]? := by
  have hl : t.length = n := by rw [ht.length_eq, List.length_range]
  have hp2 := Lehmer.perm_facts hp
  refine ⟨p.map fun x => t.getD x 0, ?_, ?_, by simp [hp2.2.2], ?_⟩
  · rw [compose_eq]
    · congr 1
      apply List.map_congr_left
      intro x hx
      exact getD_append_lt (by rw [hl]; exact hp2.2.1 x hx)
    · intro x hx
      have := hp2.2.1 x hx
      simp only [List.length_append]; omega
  · refine (hp.map _).trans ?_
    rw [← hl, map_getD_self, hl]
    exact ht
  · intro k x hk
    rw [List.getElem?_map, hk]
    have hx : x < t.length := by rw [hl]; exact hp2.2.1 x (List.mem_of_getElem? hk)
    simp only [Option.map_some, List.getD_eq_getElem?_getD]
    rw [List.getElem?_eq_getElem hx]; rfl

/-- Skipped entries are fixed. -/
theorem decodes_fixed {n : Nat} : ∀ (m a : Nat) (us cs out : List Nat), (∀ x, x ∈ us ↔ x < a) →
    Lehmer.Decodes n us (List.replicate m 0 ++ cs) out → ∀ k, k < m → out[k]? = some (a + k) := by
  intro m
  induction m with
  | zero => intro a us cs out _ _ k hk; omega
  | succ m ih =>
    intro a us cs out hu h k hk
    rw [List.replicate_succ, List.cons_append, Lehmer.Decodes] at h
    obtain ⟨s, rest, rfl, h1, h2, h3, h4⟩ := h
    have hs : s = a := by
      apply Lehmer.unused_inj us s a h1 (by rw [hu]; omega)
      rw [h3, Lehmer.cnt_range a a (Nat.le_refl _) us (fun x hx => (hu x).2 hx), Nat.sub_self]
    subst hs
    cases k with
    | zero => simp
    | succ k =>
      rw [List.getElem?_cons_succ, ih (s + 1) (s :: us) cs rest (by
        intro x; rw [List.mem_cons, hu]; omega) h4 k (by omega)]
      congr 1; omega

theorem readPermutation_fixed {n skip : Nat} {ts p rest : List Nat} (h2 : n ≤ 2 ^ 30) (hs : skip ≤ n)
    (h : Lehmer.readPermutation skip n ts = some (p, rest)) : ∀ k, k < skip → p[k]? = some k := by
  cases ts with
  | nil => cases h
  | cons v ts =>
    simp only [Lehmer.readPermutation] at h
    split at h
    · cases h
    · rename_i he
      obtain ⟨⟨cs, r'⟩, h3, h4⟩ := Option.bind_eq_some_iff.mp h
      obtain ⟨q, h5, h6⟩ := Option.map_eq_some_iff.mp h4
      simp only [Prod.mk.injEq] at h6
      rw [← h6.1]
      have hl := Lehmer.readCodes_length h3
      dsimp only at h5
      rw [show min skip n = skip by omega] at h5
      have hlen : (List.replicate skip 0 ++ cs ++ List.replicate (n - skip - cs.length) 0).length = n := by
        simp; omega
      obtain ⟨g0, gc⟩ := (Lehmer.decodeLehmer_iff _ (by omega)).mp ⟨q, h5⟩
      obtain ⟨out, e1, e2⟩ := Lehmer.decodeLehmer_spec _ (List.length_pos_iff.mpr g0) (by omega) gc
      rw [h5] at e1; cases e1
      rw [List.append_assoc] at e2
      intro k hk
      have := decodes_fixed skip 0 [] _ q (by simp) e2 k hk
      rw [this, Nat.zero_add]

theorem copyTo_spec {out vs : List Nat} {pos : Nat} (h : pos + vs.length ≤ out.length) :
    ∃ out', copyTo out vs pos = some out' ∧ out'.length = out.length ∧ Slice out' pos vs ∧
      ∀ i, i < pos ∨ pos + vs.length ≤ i → out'[i]? = out[i]? := by
  unfold copyTo
  rw [if_pos h]
  refine ⟨_, rfl, by simp; omega, ?_, ?_⟩
  · intro j hj
    rw [List.getElem?_append_left (by simp; omega), List.getElem?_append_right (by simp; omega)]
    congr 1; simp; omega
  · intro i hi
    rcases hi with hi | hi
    · rw [List.getElem?_append_left (by simp; omega), List.getElem?_append_left (by simp; omega),
        List.getElem?_take_of_lt hi]
    · rw [List.getElem?_append_right (by simp; omega), List.getElem?_drop]
      congr 1; simp; omega

theorem tables : ∀ o, o < 27 → 0 < cyOf o ∧ cxOf o = cyOf o * 2 ^ Nat.log2 (cxOf o / cyOf o) ∧
    cxOf o * cyOf o ≤ 1024 ∧ ∀ c, c < 3 → offsetOf (ordOf o) c + 64 * (cxOf o * cyOf o) ≤ 6156 * 64 := by
  have h : ∀ o ∈ List.range 27, 0 < cyOf o ∧ cxOf o = cyOf o * 2 ^ Nat.log2 (cxOf o / cyOf o) ∧
    cxOf o * cyOf o ≤ 1024 ∧ ∀ c, c < 3 → offsetOf (ordOf o) c + 64 * (cxOf o * cyOf o) ≤ 6156 * 64 := by
    decide +kernel
  intro o ho
  exact h o (List.mem_range.2 ho)

theorem disjoint : ∀ o, o < 27 → ∀ o', o' < 27 → ∀ c, c < 3 → ∀ c', c' < 3 → (ordOf o ≠ ordOf o' ∨ c ≠ c') →
    offsetOf (ordOf o) c + 64 * (cxOf o * cyOf o) ≤ offsetOf (ordOf o') c' ∨
      offsetOf (ordOf o') c' + 64 * (cxOf o' * cyOf o') ≤ offsetOf (ordOf o) c := by
  have h : ∀ o ∈ List.range 27, ∀ o' ∈ List.range 27, ∀ c, c < 3 → ∀ c', c' < 3 → (ordOf o ≠ ordOf o' ∨ c ≠ c') →
    offsetOf (ordOf o) c + 64 * (cxOf o * cyOf o) ≤ offsetOf (ordOf o') c' ∨
      offsetOf (ordOf o') c' + 64 * (cxOf o' * cyOf o') ≤ offsetOf (ordOf o) c := by
    decide +kernel
  intro o ho o' ho'
  exact h o (List.mem_range.2 ho) o' (List.mem_range.2 ho')

theorem same_bucket : ∀ o, o < 27 → ∀ o', o' < 27 → ordOf o = ordOf o' → cxOf o = cxOf o' ∧ cyOf o = cyOf o' := by
  have h : ∀ o ∈ List.range 27, ∀ o' ∈ List.range 27, ordOf o = ordOf o' → cxOf o = cxOf o' ∧ cyOf o = cyOf o' := by
    decide +kernel
  intro o ho o' ho'
  exact h o (List.mem_range.2 ho) o' (List.mem_range.2 ho')

theorem llf_eq (o : Nat) : coveredX.getD o 0 * coveredY.getD o 0 = cxOf o * cyOf o := by
  unfold cxOf cyOf
  rcases Nat.le_total (coveredY.getD o 0) (coveredX.getD o 0) with h | h
  · rw [Nat.max_eq_right h, Nat.min_eq_left h]
  · rw [Nat.max_eq_left h, Nat.min_eq_right h, Nat.mul_comm]

/-- The natural order of strategy `o`. -/
def naturalOf (o : Nat) : List Nat := target (cxOf o) (cyOf o) (2 ^ Nat.log2 (cxOf o / cyOf o))

theorem naturalOf_isNatural {o : Nat} (ho : o < 27) :
    IsNatural (cxOf o) (cyOf o) (2 ^ Nat.log2 (cxOf o / cyOf o)) (naturalOf o) :=
  target_natural (tables o ho).1 (tables o ho).2.1

theorem fillNatural_eq {o : Nat} (ho : o < 27) (natural : List Nat) :
    ∃ r, fillNatural true o natural = some (naturalOf o ++ r) := by
  have h := tables o ho
  unfold fillNatural
  simp only [if_true]
  rw [natural_order (k := Nat.log2 (cxOf o / cyOf o)) h.1 h.2.1]
  · exact ⟨_, rfl⟩
  · have := llf_eq o
    unfold cxOf cyOf at this
    rw [List.length_append, List.length_replicate, ← this]
    omega

/-- A good order, natural unless it was sent. -/
def FineOrder (custom : Bool) (o : Nat) (vs : List Nat) : Prop := GoodOrder o vs ∧ (custom = false → vs = naturalOf o)

/-- All three channels. -/
def Good (usedOrders o : Nat) (order : List Nat) : Prop :=
  ∀ c, c < 3 → ∃ vs, Slice order (offsetOf (ordOf o) c) vs ∧ FineOrder (bit usedOrders (ordOf o)) o vs

/-- What three channels leave in the array. -/
theorem channels_spec {used custom : Bool} {o : Nat} (ho : o < 27) {natural : List Nat}
    (hn : (used || custom) = true → ∃ r, natural = naturalOf o ++ r) :
    ∀ (cs : List Nat) (order ts : List Nat), (∀ c ∈ cs, c < 3) → order.length = 6156 * 64 →
    ∃ r, channels used custom (ordOf o) (cxOf o * cyOf o) natural cs order ts = some r ∧
      ∀ q, r = some q → q.1.length = 6156 * 64 ∧
        (∀ i, (∀ c ∈ cs, i < offsetOf (ordOf o) c ∨ offsetOf (ordOf o) c + 64 * (cxOf o * cyOf o) ≤ i) →
          q.1[i]? = order[i]?) ∧
        (used = true → cs.Nodup → ∀ c ∈ cs, ∃ vs, Slice q.1 (offsetOf (ordOf o) c) vs ∧ FineOrder custom o vs) := by
  have ht := tables o ho
  have hnat := naturalOf_isNatural ho
  have hnl : (naturalOf o).length = 64 * (cxOf o * cyOf o) := by rw [hnat.perm.length_eq, List.length_range]
  intro cs
  induction cs with
  | nil =>
    intro order ts _ hl
    exact ⟨_, rfl, fun q hq => by cases hq; exact ⟨hl, fun i _ => rfl, fun _ _ c hc => by cases hc⟩⟩
  | cons c cs ih =>
    intro order ts hc hl
    have hc3 : c < 3 := hc c (by simp)
    have hoff := ht.2.2.2 c hc3
    -- storing a good order and carrying on
    have hstore : ∀ (vs : List Nat) (ts' : List Nat), used = true → FineOrder custom o vs →
        ∃ r, ((copyTo order vs (offsetOf (ordOf o) c)).bind fun order =>
            channels used custom (ordOf o) (cxOf o * cyOf o) natural cs order ts') = some r ∧
          ∀ q, r = some q → q.1.length = 6156 * 64 ∧
            (∀ i, (∀ c' ∈ c :: cs, i < offsetOf (ordOf o) c' ∨ offsetOf (ordOf o) c' + 64 * (cxOf o * cyOf o) ≤ i) →
              q.1[i]? = order[i]?) ∧
            (used = true → (c :: cs).Nodup → ∀ c' ∈ c :: cs, ∃ vs, Slice q.1 (offsetOf (ordOf o) c') vs ∧ FineOrder custom o vs) := by
      intro vs ts' hu hg
      have hvl : vs.length = 64 * (cxOf o * cyOf o) := by rw [hg.1.1.length_eq, List.length_range]
      obtain ⟨out', e, hl', hs, hkeep⟩ := copyTo_spec (out := order) (vs := vs) (pos := offsetOf (ordOf o) c) (by omega)
      rw [e, Option.bind_some]
      obtain ⟨r, e2, h2⟩ := ih out' ts' (fun c hc' => hc c (by simp [hc'])) (by omega)
      refine ⟨r, e2, fun q hq => ?_⟩
      obtain ⟨q1, q2, q3⟩ := h2 q hq
      refine ⟨q1, ?_, ?_⟩
      · intro i hi
        rw [q2 i (fun c' hc' => hi c' (by simp [hc']))]
        exact hkeep i (by have := hi c (by simp); omega)
      · intro _ hnd c' hc'
        rcases List.mem_cons.1 hc' with rfl | hc'
        · refine ⟨vs, ?_, hg⟩
          intro j hj
          rw [q2, hs j hj]
          intro c'' hc''
          have hne : c'' ≠ c' := by
            intro he; subst he
            exact (List.nodup_cons.1 hnd).1 hc''
          have := disjoint o ho o ho c'' (hc c'' (by simp [hc''])) c' hc3 (Or.inr hne)
          omega
        · exact q3 hu (List.nodup_cons.1 hnd).2 c' hc'
    have hskip : ∀ ts' : List Nat, used = false →
        ∃ r, channels used custom (ordOf o) (cxOf o * cyOf o) natural cs order ts' = some r ∧
          ∀ q, r = some q → q.1.length = 6156 * 64 ∧
            (∀ i, (∀ c' ∈ c :: cs, i < offsetOf (ordOf o) c' ∨ offsetOf (ordOf o) c' + 64 * (cxOf o * cyOf o) ≤ i) →
              q.1[i]? = order[i]?) ∧
            (used = true → (c :: cs).Nodup → ∀ c' ∈ c :: cs, ∃ vs, Slice q.1 (offsetOf (ordOf o) c') vs ∧ FineOrder custom o vs) := by
      intro ts' hu
      obtain ⟨r, e2, h2⟩ := ih order ts' (fun c hc' => hc c (by simp [hc'])) hl
      refine ⟨r, e2, fun q hq => ?_⟩
      obtain ⟨q1, q2, q3⟩ := h2 q hq
      exact ⟨q1, fun i hi => q2 i (fun c' hc' => hi c' (by simp [hc'])), fun h => by rw [hu] at h; cases h⟩
    rw [channels]
    cases custom with
    | false =>
      rw [if_neg Bool.false_ne_true]
      cases hu : used with
      | false => rw [hu] at hskip; rw [if_neg Bool.false_ne_true]; exact hskip ts rfl
      | true =>
        obtain ⟨r, hr⟩ := hn (by rw [hu]; rfl)
        rw [if_pos rfl, hr, List.take_left' hnl, ← hr]
        rw [hu] at hstore
        exact hstore _ ts rfl ⟨⟨hnat.perm, hnat.low⟩, fun _ => rfl⟩
    | true =>
      rw [if_pos rfl]
      obtain ⟨r, hr⟩ := hn (by simp)
      cases hu : used with
      | false =>
        rw [if_neg Bool.false_ne_true]
        rw [hu] at hskip
        cases skipPermutation (cxOf o * cyOf o) (64 * (cxOf o * cyOf o)) ts with
        | none => exact ⟨_, rfl, fun q hq => by cases hq⟩
        | some ts' => exact hskip ts' rfl
      | true =>
        rw [if_pos rfl]
        rw [hu] at hstore
        cases hp : Lehmer.readPermutation (cxOf o * cyOf o) (64 * (cxOf o * cyOf o)) ts with
        | none => exact ⟨_, rfl, fun q hq => by cases hq⟩
        | some pr =>
          obtain ⟨p, ts'⟩ := pr
          have hperm := Props.C08_tokens_permutation _ _ _ _ _ (by omega) hp
          have hfix := readPermutation_fixed (by omega) (by omega) hp
          obtain ⟨vs, e1, e2, e3, e4⟩ := compose_perm (r := r) hnat.perm hperm
          subst hr
          dsimp only
          rw [e1, Option.bind_some]
          refine hstore vs ts' rfl ⟨⟨e2, ?_⟩, fun h => by cases h⟩
          intro k hk
          rw [e4 k k (hfix k hk)]
          exact hnat.low k hk

theorem ordersLoop_spec (usedOrders mask : Nat) : ∀ (os : List Nat) (computed : Nat) (natural order ts : List Nat),
    (∀ o ∈ os, o < 27) → order.length = 6156 * 64 →
    (∀ o, o < 27 → bit computed (ordOf o) = true → bit mask (ordOf o) = true → Good usedOrders o order) →
    ∃ r, ordersLoop usedOrders mask os computed natural order ts = some r ∧
      ∀ q, r = some q → q.1.length = 6156 * 64 ∧
        ∀ o, o < 27 → (bit computed (ordOf o) = true ∨ ∃ o' ∈ os, ordOf o' = ordOf o) → bit mask (ordOf o) = true →
          Good usedOrders o q.1 := by
  intro os
  induction os with
  | nil =>
    intro computed natural order ts _ hl hg
    refine ⟨_, rfl, fun q hq => ?_⟩
    cases hq
    refine ⟨hl, fun o ho hc hm => ?_⟩
    rcases hc with hc | ⟨o', h, _⟩
    · exact hg o ho hc hm
    · cases h
  | cons o os ih =>
    intro computed natural order ts hos hl hg
    have ho : o < 27 := hos o (by simp)
    have hos' : ∀ o ∈ os, o < 27 := fun x hx => hos x (by simp [hx])
    rw [ordersLoop]
    change ∃ r, (if bit computed (ordOf o) = true then _ else _) = _ ∧ _
    by_cases hcmp : bit computed (ordOf o) = true
    · rw [if_pos hcmp]
      obtain ⟨r, e, h⟩ := ih computed natural order ts hos' hl hg
      refine ⟨r, e, fun q hq => ⟨(h q hq).1, fun o1 ho1 hc hm => (h q hq).2 o1 ho1 ?_ hm⟩⟩
      rcases hc with hc | ⟨o', hm', he⟩
      · exact Or.inl hc
      · rcases List.mem_cons.1 hm' with rfl | hm'
        · left; rw [← he]; exact hcmp
        · exact Or.inr ⟨o', hm', he⟩
    · rw [if_neg hcmp]
      have hfill : ∃ nat', fillNatural (bit mask (ordOf o) || bit usedOrders (ordOf o)) o natural = some nat' ∧
          ((bit mask (ordOf o) || bit usedOrders (ordOf o)) = true → ∃ r, nat' = naturalOf o ++ r) := by
        cases hb : (bit mask (ordOf o) || bit usedOrders (ordOf o)) with
        | false => exact ⟨natural, rfl, fun h => by cases h⟩
        | true =>
          obtain ⟨r, e⟩ := fillNatural_eq ho natural
          exact ⟨_, e, fun _ => ⟨r, rfl⟩⟩
      obtain ⟨nat', e1, hn⟩ := hfill
      obtain ⟨r, e2, h2⟩ := channels_spec ho hn [0, 1, 2] order ts (by decide) hl
      change ∃ r, (Option.bind (fillNatural (bit mask (ordOf o) || bit usedOrders (ordOf o)) o natural) _) = some r ∧ _
      rw [e1, Option.bind_some, llf_eq]
      change ∃ r', (Option.bind (channels (bit mask (ordOf o)) (bit usedOrders (ordOf o)) (ordOf o) (cxOf o * cyOf o) nat'
        [0, 1, 2] order ts) _) = some r' ∧ _
      rw [e2, Option.bind_some]
      cases r with
      | none => exact ⟨_, rfl, fun q hq => by cases hq⟩
      | some q =>
        obtain ⟨q1, q2, q3⟩ := h2 q rfl
        have hg' : ∀ o1, o1 < 27 → bit (computed ||| (1 <<< ordOf o)) (ordOf o1) = true → bit mask (ordOf o1) = true →
            Good usedOrders o1 q.1 := by
          intro o1 ho1 hc hm
          rw [bit_or] at hc
          by_cases he : ordOf o = ordOf o1
          · have hsame := same_bucket o ho o1 ho1 he
            intro c hc3
            obtain ⟨vs, h1, h2⟩ := q3 (by rw [he]; exact hm) (by decide) c (by
              have : c = 0 ∨ c = 1 ∨ c = 2 := by omega
              rcases this with rfl | rfl | rfl <;> decide)
            unfold FineOrder GoodOrder naturalOf at h2
            rw [he] at h1 h2
            rw [hsame.1, hsame.2] at h2
            exact ⟨vs, h1, h2⟩
          · have hc' : bit computed (ordOf o1) = true := by simpa [he] using hc
            intro c hc3
            obtain ⟨vs, h1, h2⟩ := hg o1 ho1 hc' hm c hc3
            refine ⟨vs, ?_, h2⟩
            intro j hj
            rw [q2, h1 j hj]
            intro c' hc'
            have hc'3 : c' < 3 := by
              simp only [List.mem_cons, List.not_mem_nil, or_false] at hc'; omega
            have hd := disjoint o ho o1 ho1 c' hc'3 c hc3 (Or.inl he)
            have hvl : vs.length = 64 * (cxOf o1 * cyOf o1) := by rw [h2.1.1.length_eq, List.length_range]
            omega
        obtain ⟨r', e3, h3⟩ := ih (computed ||| (1 <<< ordOf o)) nat' q.1 q.2 hos' q1 hg'
        refine ⟨r', e3, fun q' hq' => ⟨(h3 q' hq').1, fun o1 ho1 hc hm => (h3 q' hq').2 o1 ho1 ?_ hm⟩⟩
        rcases hc with hc | ⟨o', hm', he⟩
        · left; rw [bit_or, hc]; rfl
        · rcases List.mem_cons.1 hm' with rfl | hm'
          · left; rw [bit_or, he]; simp
          · exact Or.inr ⟨o', hm', he⟩

end Jxl.CoeffOrder
