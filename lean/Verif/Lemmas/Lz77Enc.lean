import Verif.Model.Lz77Enc
import Verif.Lemmas.Lz77Spec
/-! # The LZ77 encoders: what they write stands for the original values -/
namespace Jxl.Lz77

theorem expand_append (m : Meaning) (h : List Nat) (a b : List Op) : expand m h (a ++ b) = expand m (expand m h a) b := List.foldl_append ..

theorem expand_lits (m : Meaning) (l : List Nat) : ∀ h, expand m h (l.map .lit) = h ++ l := by
  induction l with
  | nil => intro h; simp [expand]
  | cons x l ih => intro h; rw [List.map_cons, expand_cons, ih]; simp [expandOp]

/-- An entry of a stream whose copies are at most `n` long, with 32-bit numbers. -/
def Fits (minLen n : Nat) : Op → Prop
  | .lit v => v < 2 ^ 32
  | .copy l d => l + minLen ≤ n ∧ d < 2 ^ 32

/-! ## Copies of true matches -/

theorem take_succ_getD (data : List Nat) (pos : Nat) (h : pos < data.length) : data.take (pos + 1) = data.take pos ++ [data.getD pos 0] := by
  rw [List.take_add_one, getD_get? data pos 0 h]; rfl

theorem copyFrom_match (data : List Nat) (d n : Nat) (hd : 1 ≤ d) : ∀ pos, d ≤ pos → pos + n ≤ data.length →
    (∀ i, i < n → data.getD (pos - d + i) 0 = data.getD (pos + i) 0) → copyFrom n d (data.take pos) = data.take (pos + n) := by
  induction n with
  | zero => intro pos _ _ _; rfl
  | succ n ih =>
    intro pos h1 h2 h3
    rw [copyFrom_succ]
    have hl : (data.take pos).length = pos := by rw [List.length_take]; omega
    have : back (data.take pos) d = data.getD pos 0 := by
      unfold back
      rw [if_neg (by omega), hl, ← Nat.add_zero pos, ← h3 0 (by omega)]
      simp only [Nat.add_zero, List.getD_eq_getElem?_getD]
      rw [List.getElem?_take_of_lt (by omega)]
    rw [this, ← take_succ_getD data pos (by omega), ih (pos + 1) (by omega) (by omega) ?_]
    · rw [show pos + 1 + n = pos + (n + 1) by omega]
    · intro i hi
      have := h3 (i + 1) (by omega)
      rw [show pos + 1 - d + i = pos - d + (i + 1) by omega, show pos + 1 + i = pos + (i + 1) by omega]
      exact this

/-! ## Run lengths -/

theorem runFrom_take (v : Nat) (l : List Nat) : l.take (runFrom v l) = List.replicate (runFrom v l) v ∧ runFrom v l ≤ l.length := by
  induction l with
  | nil => exact ⟨rfl, Nat.le_refl _⟩
  | cons x l ih =>
    unfold runFrom
    split
    · next h =>
      rw [List.take_succ_cons, List.replicate_succ, ih.1, h]
      exact ⟨rfl, by rw [List.length_cons]; omega⟩
    · exact ⟨rfl, by omega⟩

theorem copyFrom_one (n v : Nat) : ∀ h : List Nat, h.getLast? = some v → copyFrom n 1 h = h ++ List.replicate n v := by
  induction n with
  | zero => intro h _; simp [copyFrom]
  | succ n ih =>
    intro h hv
    rw [copyFrom_succ]
    have : back h 1 = v := by
      unfold back
      rw [if_neg (by omega), List.getD_eq_getElem?_getD, ← List.getLast?_eq_getElem?, hv]; rfl
    rw [this, ih _ (by simp), List.append_assoc, List.replicate_succ, List.singleton_append]

theorem codeDistance_rle (mult : Nat) : codeDistance mult (if mult = 0 then 0 else 1) = 1 := by
  unfold codeDistance
  by_cases h : mult = 0
  · simp [h]
  · rw [if_neg h, if_neg h]
    have : specialTable[1]? = some (1, 0) := rfl
    rw [this]
    simp only
    omega

theorem rleGo_expand (minLen mult : Nat) (worth : Nat → Nat → Bool) (N : Nat) (fuel : Nat) :
    ∀ (i : Nat) (h rest : List Nat), rest.length ≤ fuel → h.length + rest.length ≤ N → (∀ v ∈ rest, v < 2 ^ 32) →
      expand (meaning minLen mult) h (rleGo minLen mult worth fuel i h.getLast? rest) = h ++ rest ∧
      ∀ o ∈ rleGo minLen mult worth fuel i h.getLast? rest, Fits minLen N o := by
  induction fuel with
  | zero =>
    intro i h rest hf _ _
    have : rest = [] := List.length_eq_zero_iff.1 (by omega)
    subst this
    simp [rleGo, expand]
  | succ fuel ih =>
    intro i h rest hf hlN hv
    cases rest with
    | nil => simp [rleGo, expand]
    | cons x rest =>
      unfold rleGo
      simp only
      generalize hn : runLen h.getLast? (x :: rest) = n
      by_cases h0 : n = 0
      · rw [if_pos h0]
        have e : (some x : Option Nat) = (h ++ [x]).getLast? := by simp
        rw [e]
        simp only [List.length_cons] at hf hlN
        obtain ⟨a, b⟩ := ih (i + 1) (h ++ [x]) rest (by omega) (by simp; omega) (fun v hm => hv v (List.mem_cons_of_mem _ hm))
        rw [expand_cons]
        refine ⟨?_, ?_⟩
        · simp only [expandOp]; rw [a]; simp
        · intro o ho
          rcases List.mem_cons.1 ho with ho | ho
          · subst ho; exact hv x (List.mem_cons_self ..)
          · exact b o ho
      · rw [if_neg h0]
        -- a run of the previous value
        obtain ⟨v, hlast, hrun⟩ : ∃ v, h.getLast? = some v ∧ n = runFrom v (x :: rest) := by
          cases e : h.getLast? with
          | none => rw [e] at hn; exact absurd hn.symm h0
          | some v => rw [e] at hn; exact ⟨v, rfl, hn.symm⟩
        obtain ⟨r1, r2⟩ := runFrom_take v (x :: rest)
        rw [← hrun] at r1 r2
        have hlast' : h.getLast? = (h ++ List.replicate n v).getLast? := by
          obtain ⟨k, hk⟩ : ∃ k, n = k + 1 := ⟨n - 1, by omega⟩
          rw [hk, List.replicate_succ', ← List.append_assoc, List.getLast?_append, hlast]; rfl
        have hsplit : List.replicate n v ++ (x :: rest).drop n = x :: rest := by rw [← r1, List.take_append_drop]
        have hdl : ((x :: rest).drop n).length + n = (x :: rest).length := by rw [List.length_drop]; omega
        obtain ⟨a, b⟩ := ih (i + n) (h ++ List.replicate n v) ((x :: rest).drop n) (by omega) (by rw [List.length_append, List.length_replicate]; omega)
          (fun w hm => hv w (List.mem_of_mem_drop hm))
        rw [← hlast'] at a b
        by_cases hw : (decide (n < minLen) || !worth i n) = true
        · rw [if_pos hw]
          refine ⟨?_, ?_⟩
          · rw [expand_append, expand_lits, r1, a, List.append_assoc, hsplit]
          · intro o ho
            rcases List.mem_append.1 ho with ho | ho
            · rw [List.mem_map] at ho
              obtain ⟨w, hw1, hw2⟩ := ho
              subst hw2
              exact hv w (List.mem_of_mem_take hw1)
            · exact b o ho
        · rw [if_neg hw]
          simp only [Bool.or_eq_true, decide_eq_true_eq, not_or] at hw
          have hm : minLen ≤ n := by omega
          refine ⟨?_, ?_⟩
          · rw [expand_cons]
            simp only [expandOp, meaning]
            rw [codeDistance_rle]
            have hne : 1 ≤ h.length := by
              cases h with
              | nil => simp at hlast
              | cons _ _ => simp
            rw [show usable 1 h.length = 1 by unfold usable; rw [reach_eq]; omega, Nat.sub_add_cancel hm, copyFrom_one n v h hlast]
            exact a.trans (by rw [List.append_assoc, hsplit])
          · intro o ho
            rcases List.mem_cons.1 ho with ho | ho
            · subst ho
              refine ⟨by simp only [List.length_cons] at hlN r2; omega, ?_⟩
              split <;> decide
            · exact b o ho

/-! ## The special distance table -/

theorem specialTable_bound : ∀ e ∈ specialTable, e.1 ≤ 8 ∧ 0 ≤ e.2 ∧ e.2 ≤ 7 := by decide +kernel

theorem specialDistance_lt (i mult : Nat) (hm : 1 ≤ mult) : specialDistance i mult < mult * 8 + 8 := by
  unfold specialDistance
  have hb : (specialTable.getD i (0, 0)).1 ≤ 8 ∧ 0 ≤ (specialTable.getD i (0, 0)).2 ∧ (specialTable.getD i (0, 0)).2 ≤ 7 := by
    rw [List.getD_eq_getElem?_getD]
    by_cases hi : i < specialTable.length
    · rw [List.getElem?_eq_getElem hi]
      exact specialTable_bound _ (List.getElem_mem hi)
    · rw [List.getElem?_eq_none (by omega)]
      simp
  generalize specialTable.getD i (0, 0) = e at hb
  obtain ⟨a, b⟩ := e
  simp only at hb ⊢
  have : (mult : Int) * b ≤ mult * 7 := Int.mul_le_mul_of_nonneg_left hb.2.2 (by omega)
  split <;> omega

/-- Every entry of the table is a special distance's index. -/
def TabOk (mult : Nat) (t : List (Option Nat)) : Prop := ∀ d i, t.getD d none = some i → i < numSpecial mult ∧ specialDistance i mult = d

theorem specialFill_ok (mult : Nat) (hm : 1 ≤ mult) (n : Nat) : ∀ (i : Nat) (t : List (Option Nat)), i + n ≤ 120 → t.length = mult * 8 + 8 → TabOk mult t →
    ∃ t', specialFill mult n i t = some t' ∧ TabOk mult t' := by
  induction n with
  | zero => intro i t _ _ h; exact ⟨t, rfl, h⟩
  | succ n ih =>
    intro i t hi hl ht
    unfold specialFill
    rw [if_pos (by rw [hl]; exact specialDistance_lt i mult hm)]
    refine ih (i + 1) _ (by omega) (by rw [List.length_set]; exact hl) ?_
    intro d j hd
    rw [List.getD_eq_getElem?_getD] at hd
    by_cases e : specialDistance i mult = d
    · rw [e, List.getElem?_set_self (by rw [hl, ← e]; exact specialDistance_lt i mult hm)] at hd
      simp only [Option.getD_some, Option.some.injEq] at hd
      subst hd
      refine ⟨?_, e⟩
      unfold numSpecial
      rw [if_neg (by omega)]; omega
    · rw [List.getElem?_set_ne e, ← List.getD_eq_getElem?_getD] at hd
      exact ht d j hd

theorem specialTab_ok (mult : Nat) : ∃ t, specialTab mult = some t ∧ TabOk mult t := by
  unfold specialTab
  by_cases hm : mult = 0
  · rw [if_pos hm]
    exact ⟨[], rfl, fun d i h => by simp at h⟩
  · rw [if_neg hm]
    refine specialFill_ok mult (by omega) 120 0 _ (Nat.le_refl _) (List.length_replicate ..) ?_
    intro d i h
    rw [List.getD_eq_getElem?_getD, List.getElem?_replicate] at h
    split at h <;> simp at h

theorem distSymbol_decodes (mult : Nat) (t : List (Option Nat)) (ht : TabOk mult t) (d : Nat) (hd : 1 ≤ d) :
    codeDistance mult (distSymbol mult t d) = d ∧ distSymbol mult t d < 120 + d := by
  rw [← decodeDistance_eq]
  have h120 : numSpecial mult ≤ 120 := by unfold numSpecial; split <;> omega
  unfold distSymbol decodeDistance
  cases e : t.getD d none with
  | some i =>
    simp only
    obtain ⟨a, b⟩ := ht d i e
    rw [if_pos a]
    exact ⟨b, by omega⟩
  | none =>
    simp only
    rw [if_neg (by omega)]
    omega

/-! ## Buckets -/

/-- The insertion, without its check. -/
def insT (B : Nat) (b : Bucket) (pos : Nat) : Bucket :=
  { data := b.data.set b.idx (some pos), idx := if b.idx + 1 ≥ B then b.idx + 1 - B else b.idx + 1, size := min (b.size + 1) B }

/-- The table when the encoder is at `pos`. -/
def tblAt (data : List Nat) (B : Nat) : Nat → Nat → Bucket
  | 0, _ => Bucket.empty B
  | p + 1, k => if k = bucketOf data p then insT B (tblAt data B p k) p else tblAt data B p k

structure BucketOk (B pos : Nat) (b : Bucket) : Prop where
  len : b.data.length = B
  idx : b.idx < B
  size : b.size ≤ B
  fresh : b.size < B → b.idx = b.size
  entries : ∀ i, i < b.size → ∃ q, q < pos ∧ b.data[i]? = some (some q)

theorem insT_ok {B pos : Nat} {b : Bucket} (h : BucketOk B pos b) : BucketOk B (pos + 1) (insT B b pos) := by
  obtain ⟨h1, h2, h3, h4, h5⟩ := h
  refine ⟨by simp [insT, h1], ?_, ?_, ?_, ?_⟩
  · unfold insT; dsimp only; split <;> omega
  · unfold insT; dsimp only; omega
  · unfold insT; dsimp only; intro hs; rw [if_neg (by omega)]; omega
  · intro i hi
    unfold insT at hi ⊢
    dsimp only at hi ⊢
    by_cases e : b.idx = i
    · subst e
      exact ⟨pos, by omega, List.getElem?_set_self (by omega)⟩
    · rw [List.getElem?_set_ne e]
      obtain ⟨q, hq, hq'⟩ := h5 i (by omega)
      exact ⟨q, by omega, hq'⟩

theorem tblAt_ok (data : List Nat) (B : Nat) (hB : 1 ≤ B) (p k : Nat) : BucketOk B p (tblAt data B p k) := by
  induction p with
  | zero =>
    refine ⟨List.length_replicate .., hB, Nat.zero_le _, fun _ => rfl, ?_⟩
    intro i hi
    exact absurd hi (Nat.not_lt_zero i)
  | succ p ih =>
    unfold tblAt
    split
    · exact insT_ok ih
    · obtain ⟨h1, h2, h3, h4, h5⟩ := ih
      refine ⟨h1, h2, h3, h4, fun i hi => ?_⟩
      obtain ⟨q, hq, hq'⟩ := h5 i hi
      exact ⟨q, by omega, hq'⟩

theorem update_at (data : List Nat) (B : Nat) (hB : 1 ≤ B) (p : Nat) : update data B (tblAt data B p) p = some (tblAt data B (p + 1)) := by
  unfold update Bucket.insert
  rw [if_pos (tblAt_ok data B hB p _).idx]
  simp only [Option.map_some, Option.some.injEq]
  funext k
  show _ = if k = bucketOf data p then insT B (tblAt data B p k) p else tblAt data B p k
  by_cases h : k = bucketOf data p
  · rw [if_pos h, if_pos h, h]; rfl
  · rw [if_neg h, if_neg h]

theorem updates_at (data : List Nat) (B : Nat) (hB : 1 ≤ B) (n : Nat) : ∀ p, updates data B n p (tblAt data B p) = some (tblAt data B (p + n)) := by
  induction n with
  | zero => intro p; rfl
  | succ n ih =>
    intro p
    rw [updates, update_at data B hB, Option.bind_some, ih]
    congr 2; omega

theorem tblAt_empty (data : List Nat) (B p k : Nat) (h : ∀ q, q < p → bucketOf data q ≠ k) : tblAt data B p k = Bucket.empty B := by
  induction p with
  | zero => rfl
  | succ p ih =>
    unfold tblAt
    rw [if_neg (fun e => h p (by omega) e.symm)]
    exact ih fun q hq => h q (by omega)

theorem tblAt_single (data : List Nat) (B p k q0 : Nat) (h0 : q0 < p) (hk : bucketOf data q0 = k) (h : ∀ q, q < p → q ≠ q0 → bucketOf data q ≠ k) :
    tblAt data B p k = insT B (Bucket.empty B) q0 := by
  induction p with
  | zero => omega
  | succ p ih =>
    unfold tblAt
    by_cases e : p = q0
    · subst e
      rw [if_pos hk.symm, tblAt_empty data B p k (fun q hq => h q (by omega) (by omega))]
    · rw [if_neg (fun e' => h p (by omega) e e'.symm)]
      exact ih (by omega) fun q hq hne => h q (by omega) hne

/-! ## Matches -/

theorem matchGo_spec (data : List Nat) (f : Nat) : ∀ a b, matchGo data f a b ≤ f ∧ (∀ i, i < matchGo data f a b → b + i < data.length ∧ data.getD (a + i) 0 = data.getD (b + i) 0) := by
  induction f with
  | zero => intro a b; exact ⟨Nat.le_refl _, fun i hi => absurd hi (Nat.not_lt_zero i)⟩
  | succ f ih =>
    intro a b
    unfold matchGo
    split
    · next h =>
      obtain ⟨h1, h2⟩ := ih (a + 1) (b + 1)
      refine ⟨by omega, ?_⟩
      intro i hi
      cases i with
      | zero => exact h
      | succ i =>
        have := h2 i (by omega)
        rw [show a + (i + 1) = a + 1 + i by omega, show b + (i + 1) = b + 1 + i by omega]
        exact this
    · exact ⟨by omega, fun i hi => absurd hi (Nat.not_lt_zero i)⟩

theorem matchGo_eq (data : List Nat) (n : Nat) : ∀ (f a b : Nat), n < f → (∀ i, i < n → b + i < data.length ∧ data.getD (a + i) 0 = data.getD (b + i) 0) →
    data.getD (a + n) 0 ≠ data.getD (b + n) 0 → matchGo data f a b = n := by
  induction n with
  | zero =>
    intro f a b hf _ hne
    cases f with
    | zero => omega
    | succ f =>
      unfold matchGo
      rw [if_neg (fun h => hne h.2)]
  | succ n ih =>
    intro f a b hf h hne
    cases f with
    | zero => omega
    | succ f =>
      unfold matchGo
      rw [if_pos (by have := h 0 (by omega); simpa using this), ih f (a + 1) (b + 1) (by omega) ?_ ?_]
      · intro i hi
        have := h (i + 1) (by omega)
        rw [show a + 1 + i = a + (i + 1) by omega, show b + 1 + i = b + (i + 1) by omega]
        exact this
      · rw [show a + 1 + n = a + (n + 1) by omega, show b + 1 + n = b + (n + 1) by omega]
        exact hne

/-- A match that the scan may return: nothing, or a true match with the symbol of its distance. -/
def Match (data : List Nat) (mult : Nat) (tab : List (Option Nat)) (minLen pos : Nat) (r : Nat × Nat) : Prop :=
  r = (0, 0) ∨ ∃ cand, cand < pos ∧ minLen ≤ r.1 ∧ pos + r.1 ≤ data.length ∧ (∀ i, i < r.1 → data.getD (cand + i) 0 = data.getD (pos + i) 0) ∧
    r.2 = distSymbol mult tab (pos - cand)

theorem scan_match (data : List Nat) (mult : Nat) (tab : List (Option Nat)) (minLen B pos : Nat) (hpos : pos < data.length) (b : Bucket) (hb : BucketOk B pos b) (n : Nat) :
    ∀ (i : Nat) (best : Nat × Nat), i + n ≤ b.size → Match data mult tab minLen pos best →
      ∃ r, scan data mult tab minLen pos b n i best = some r ∧ Match data mult tab minLen pos r := by
  induction n with
  | zero => intro i best _ h; exact ⟨best, rfl, h⟩
  | succ n ih =>
    intro i best hi h
    obtain ⟨q, hq, he⟩ := hb.entries i (by omega)
    unfold scan
    rw [he]
    simp only [matchLength, hq, if_true, Option.bind_some]
    split
    · exact ih (i + 1) best (by omega) h
    · next hnot =>
      split
      · exact ih (i + 1) best (by omega) h
      · refine ih (i + 1) _ (by omega) (Or.inr ⟨q, hq, ?_, ?_, ?_, rfl⟩)
        · dsimp only; omega
        · dsimp only
          have := (matchGo_spec data (data.length - pos) q pos).1
          omega
        · intro j hj
          exact ((matchGo_spec data (data.length - pos) q pos).2 j hj).2

theorem findMatch_at (data : List Nat) (mult : Nat) (tab : List (Option Nat)) (minLen B pos : Nat) (hB : 1 ≤ B) (hpos : pos < data.length) :
    ∃ r, findMatch data mult tab minLen B (tblAt data B pos) pos = some (r, tblAt data B (pos + 1)) ∧ Match data mult tab minLen pos r := by
  obtain ⟨r, h1, h2⟩ := scan_match data mult tab minLen B pos hpos _ (tblAt_ok data B hB pos (bucketOf data pos))
    (tblAt data B pos (bucketOf data pos)).size 0 (0, 0) (by omega) (Or.inl rfl)
  refine ⟨r, ?_, h2⟩
  unfold findMatch
  rw [h1, Option.bind_some, update_at data B hB]
  rfl

theorem hashGo_expand (data : List Nat) (mult minLen B : Nat) (hB : 1 ≤ B) (hmin : 1 ≤ minLen) (tab : List (Option Nat)) (ht : TabOk mult tab)
    (worth : Nat → Nat → Nat → Bool) (hlen : data.length ≤ reach) (hv : ∀ v ∈ data, v < 2 ^ 32) (fuel : Nat) : ∀ pos, pos ≤ data.length → data.length ≤ pos + fuel →
      ∃ ops, hashGo data mult minLen B tab worth fuel pos (tblAt data B pos) = some ops ∧
        expand (meaning minLen mult) (data.take pos) ops = data ∧ ∀ o ∈ ops, Fits minLen data.length o := by
  have hval : ∀ i, i < data.length → data.getD i 0 < 2 ^ 32 := by
    intro i hi
    exact hv _ (List.mem_of_getElem? (getD_get? data i 0 hi))
  induction fuel with
  | zero =>
    intro pos h1 h2
    refine ⟨[], rfl, ?_, fun o ho => by simp at ho⟩
    show data.take pos = data
    rw [List.take_of_length_le (by omega)]
  | succ fuel ih =>
    intro pos h1 h2
    have hlit : pos < data.length → ∀ ops, expand (meaning minLen mult) (data.take (pos + 1)) ops = data →
        expand (meaning minLen mult) (data.take pos) (.lit (data.getD pos 0) :: ops) = data := by
      intro hp ops ho
      rw [expand_cons]
      simp only [expandOp]
      rw [← take_succ_getD data pos hp, ho]
    have hlitF : pos < data.length → ∀ ops, (∀ o ∈ ops, Fits minLen data.length o) → ∀ o ∈ Op.lit (data.getD pos 0) :: ops, Fits minLen data.length o := by
      intro hp ops ho o hm
      rcases List.mem_cons.1 hm with hm | hm
      · subst hm; exact hval pos hp
      · exact ho o hm
    unfold hashGo
    by_cases hp : pos ≥ data.length
    · rw [if_pos hp]
      refine ⟨[], rfl, ?_, fun o ho => by simp at ho⟩
      show data.take pos = data
      rw [List.take_of_length_le hp]
    · rw [if_neg hp]
      by_cases hp3 : pos + 3 ≥ data.length
      · rw [if_pos hp3]
        -- the table is no longer used
        have tail : ∀ (f p : Nat) (tbl : Nat → Bucket), p ≤ data.length → p + 3 ≥ data.length → data.length ≤ p + f →
            ∃ ops, hashGo data mult minLen B tab worth f p tbl = some ops ∧ expand (meaning minLen mult) (data.take p) ops = data ∧ ∀ o ∈ ops, Fits minLen data.length o := by
          intro f
          induction f with
          | zero =>
            intro p tbl a _ b
            refine ⟨[], rfl, ?_, fun o ho => by simp at ho⟩
            show data.take p = data
            rw [List.take_of_length_le (by omega)]
          | succ f ihf =>
            intro p tbl a b c
            unfold hashGo
            by_cases hpp : p ≥ data.length
            · rw [if_pos hpp]
              refine ⟨[], rfl, ?_, fun o ho => by simp at ho⟩
              show data.take p = data
              rw [List.take_of_length_le hpp]
            · rw [if_neg hpp, if_pos b]
              obtain ⟨ops, o1, o2, o3⟩ := ihf (p + 1) tbl (by omega) (by omega) (by omega)
              rw [o1]
              refine ⟨_, rfl, ?_, ?_⟩
              · show expand _ _ (.lit (data.getD p 0) :: ops) = data
                rw [expand_cons]
                simp only [expandOp]
                rw [← take_succ_getD data p (by omega), o2]
              · intro o ho
                rcases List.mem_cons.1 ho with ho | ho
                · subst ho; exact hval p (by omega)
                · exact o3 o ho
        obtain ⟨ops, o1, o2, o3⟩ := tail fuel (pos + 1) (tblAt data B pos) (by omega) (by omega) (by omega)
        rw [o1]
        exact ⟨_, rfl, hlit (by omega) ops o2, hlitF (by omega) ops o3⟩
      · rw [if_neg hp3]
        obtain ⟨r, f1, f2⟩ := findMatch_at data mult tab minLen B pos hB (by omega)
        rw [f1, Option.bind_some]
        simp only
        by_cases hr : r.1 < minLen
        · rw [if_pos hr]
          obtain ⟨ops, o1, o2, o3⟩ := ih (pos + 1) (by omega) (by omega)
          rw [o1]
          exact ⟨_, rfl, hlit (by omega) ops o2, hlitF (by omega) ops o3⟩
        · rw [if_neg hr, updates_at data B hB, Option.bind_some]
          rcases f2 with f2 | ⟨cand, c1, c2, c3, c4, c5⟩
          · rw [f2] at hr
            dsimp only at hr
            omega
          · rw [show pos + 1 + (r.1 - 1) = pos + r.1 by omega]
            obtain ⟨ops, o1, o2, o3⟩ := ih (pos + r.1) c3 (by omega)
            rw [o1]
            split
            · refine ⟨_, rfl, ?_, ?_⟩
              · show expand _ _ (.copy (r.1 - minLen) r.2 :: ops) = data
                rw [expand_cons]
                simp only [expandOp, meaning]
                have hl : (data.take pos).length = pos := by rw [List.length_take]; omega
                rw [c5, (distSymbol_decodes mult tab ht (pos - cand) (by omega)).1, hl]
                rw [show usable (pos - cand) pos = pos - cand by unfold usable; omega, Nat.sub_add_cancel c2]
                rw [copyFrom_match data (pos - cand) r.1 (by omega) pos (by omega) c3 ?_]
                · exact o2
                · intro i hi
                  rw [show pos - (pos - cand) = cand by omega]
                  exact c4 i hi
              · intro o ho
                rcases List.mem_cons.1 ho with ho | ho
                · subst ho
                  refine ⟨by omega, ?_⟩
                  have := (distSymbol_decodes mult tab ht (pos - cand) (by omega)).2
                  rw [c5]
                  rw [reach_eq] at hlen
                  rw [p32]
                  omega
                · exact o3 o ho
            · refine ⟨_, rfl, ?_, ?_⟩
              · show expand _ _ (((data.drop pos).take r.1).map .lit ++ ops) = data
                rw [expand_append, expand_lits, ← List.take_add, o2]
              · intro o ho
                rcases List.mem_append.1 ho with ho | ho
                · rw [List.mem_map] at ho
                  obtain ⟨w, w1, w2⟩ := ho
                  subst w2
                  exact hv w (List.mem_of_mem_drop (List.mem_of_mem_take w1))
                · exact o3 o ho

end Jxl.Lz77
