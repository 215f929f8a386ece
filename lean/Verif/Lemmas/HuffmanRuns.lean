import Verif.Lemmas.HuffmanTree
/-!
# Run-length codes of code lengths

What the decoder does with the codes `writeTree` produces.
-/
namespace Jxl.Huffman

/-- What the decoder does with a code and its extra bits. -/
def stepTok (n : Nat) (c : Nat × Nat) (st : Ls) : Option Ls := if c.1 < 16 then some (lit c.1 st) else repeatCode n c.1 c.2 st

/-- The same for several codes. -/
def replay (n : Nat) : List (Nat × Nat) → Ls → Option Ls
  | [], st => some st
  | c :: cs, st => (stepTok n c st).bind (replay n cs)

theorem replay_append (n : Nat) (a b : List (Nat × Nat)) : ∀ st, replay n (a ++ b) st = (replay n a st).bind (replay n b) := by
  induction a with
  | nil => intro st; rfl
  | cons c a ih =>
    intro st
    rw [List.cons_append, replay, replay]
    cases stepTok n c st with
    | none => rfl
    | some st' => simp only [Option.bind_some]; exact ih st'

/-- Codes the writer uses. -/
def TokOk (c : Nat × Nat) : Prop := (c.1 < 16 ∧ c.2 = 0) ∨ (c.1 = 16 ∧ c.2 < 4) ∨ (c.1 = 17 ∧ c.2 < 8)

theorem repDigits_length (b : Nat) : ∀ f r, r < f → (repDigits b f r).length ≤ r + 1 ∧ 1 ≤ (repDigits b f r).length := by
  intro f
  induction f with
  | zero => intro r h; omega
  | succ f ih =>
    intro r h
    rw [repDigits]
    split
    · simp
    · rename_i hq
      have hd : r / 2 ^ b ≤ r := Nat.div_le_self _ _
      generalize r / 2 ^ b = q at hd hq ⊢
      have := ih (q - 1) (by omega)
      simp only [List.length_cons]; omega

theorem repDigits_lt (b : Nat) : ∀ f r, ∀ x ∈ repDigits b f r, x < 2 ^ b := by
  intro f
  induction f with
  | zero => intro r x h; simp [repDigits] at h
  | succ f ih =>
    intro r x h
    rw [repDigits, List.mem_cons] at h
    rcases h with h | h
    · rw [h]; exact Nat.mod_lt _ (Nat.two_pow_pos b)
    · split at h
      · exact absurd h List.not_mem_nil
      · exact ih _ x h

/-- The repeat codes of a run add the run. -/
theorem digits_replay {n code b v : Nat} (hcode : code = 16 ∧ b = 2 ∨ code = 17 ∧ b = 3) : ∀ f r st, r < f →
    newLen code st = v → oldRep code st = 0 → st.lens.length + (r + 3) ≤ n →
    ∃ sp, replay n ((repDigits b f r).map fun x => (code, x)).reverse st =
      some { st with rep := r + 3, repLen := v, lens := st.lens ++ List.replicate (r + 3) v, space := sp } := by
  have h16 : ¬ code < 16 := by omega
  have hb : code - 14 = b := by omega
  intro f
  induction f with
  | zero => intro r st h; omega
  | succ f ih =>
    intro r st hr hv hold hn
    rw [repDigits]
    have hdm := Nat.div_add_mod r (2 ^ b)
    by_cases hq : r / 2 ^ b = 0
    · rw [if_pos hq]
      simp only [List.map_cons, List.map_nil, List.reverse_cons, List.reverse_nil, List.nil_append, replay, stepTok, if_neg h16]
      rw [hq, Nat.mul_zero, Nat.zero_add] at hdm
      unfold repeatCode
      dsimp only
      rw [hold, hv, hdm]
      simp only [extend, gt_iff_lt, Nat.lt_irrefl, if_false, Nat.zero_add, Nat.sub_zero]
      rw [if_neg (by omega)]
      exact ⟨_, rfl⟩
    · rw [if_neg hq]
      have hle : r / 2 ^ b ≤ r := Nat.div_le_self _ _
      generalize hqq : r / 2 ^ b = q at hq hle hdm
      obtain ⟨sp, h1⟩ := ih (q - 1) st (by omega) hv hold (by omega)
      simp only [List.map_cons, List.reverse_cons]
      rw [replay_append, h1]
      simp only [Option.bind_some, replay, stepTok, if_neg h16]
      unfold repeatCode
      have hnl : ∀ sp l rp, newLen code { st with rep := rp, repLen := v, lens := l, space := sp } = v := by
        intro sp l rp
        rw [← hv]; rfl
      have hor : ∀ sp l rp, oldRep code { st with rep := rp, repLen := v, lens := l, space := sp } = rp := by
        intro sp l rp
        unfold oldRep
        rw [hnl, if_neg (by simp)]
      dsimp only
      rw [hnl, hor]
      have hq3 : q - 1 + 3 = q + 2 := by omega
      have hext : extend (q - 1 + 3) (code - 14) (r % 2 ^ b) = r + 3 := by
        unfold extend
        rw [hq3, if_pos (by omega), hb, Nat.add_sub_cancel, Nat.mul_comm]; omega
      rw [hext]
      have hlen : (st.lens ++ List.replicate (q - 1 + 3) v).length = st.lens.length + (q - 1 + 3) := by simp
      rw [hlen, if_neg (by omega)]
      refine ⟨?_, ?_⟩
      rotate_left
      · simp only [Option.bind_some]
        rw [List.append_assoc, List.replicate_append_replicate, show q - 1 + 3 + (r + 3 - (q - 1 + 3)) = r + 3 by omega]

theorem lit_replay (n v : Nat) (hv : v < 16) : ∀ k st, 1 ≤ k → ∃ sp, replay n (List.replicate k (v, 0)) st =
    some { st with rep := 0, lens := st.lens ++ List.replicate k v, prev := if v ≠ 0 then v else st.prev, space := sp } := by
  intro k
  induction k with
  | zero => intro st h; omega
  | succ k ih =>
    intro st _
    rw [List.replicate_succ, replay, stepTok, if_pos hv, Option.bind_some]
    by_cases hk : k = 0
    · subst hk
      exact ⟨_, rfl⟩
    · obtain ⟨sp, h⟩ := ih (lit v st) (by omega)
      refine ⟨sp, ?_⟩
      rw [h]
      unfold lit
      dsimp only
      rw [List.append_assoc, List.replicate_succ]
      congr 2
      split <;> rfl

/-- The decoder's state before the lengths `l` are given, `last` being the last length other than zero. -/
structure Ready (n : Nat) (last : Nat) (l : List Nat) (st : Ls) : Prop where
  prev : st.prev = last
  fits : st.lens.length + l.length ≤ n
  fresh : st.rep = 0 ∨ l.head? ≠ some st.repLen

/-- What a run of `k` lengths `v` must do. -/
def RunOk (n last v k : Nat) (st : Ls) (toks : List (Nat × Nat)) : Prop :=
  ∃ st', replay n toks st = some st' ∧ st'.lens = st.lens ++ List.replicate k v ∧ st'.prev = (if v ≠ 0 then v else last) ∧
    (st'.rep = 0 ∨ st'.repLen = v ∧ 3 ≤ k)

/-- One literal of the run is written first. -/
theorem runOk_cons {n last v k : Nat} {st : Ls} {toks : List (Nat × Nat)} (hv : v < 16) (hk : 1 ≤ k) (hp : st.prev = last)
    (h : ∀ st', st'.lens = st.lens ++ [v] → st'.prev = (if v ≠ 0 then v else last) → st'.rep = 0 →
      RunOk n (if v ≠ 0 then v else last) v (k - 1) st' toks) : RunOk n last v k st ((v, 0) :: toks) := by
  obtain ⟨st', h1, h2, h3, h4⟩ := h (lit v st) rfl (by rw [← hp]; rfl) rfl
  refine ⟨st', ?_, ?_, ?_, ?_⟩
  · rw [replay, stepTok, if_pos hv, Option.bind_some, h1]
  · rw [h2]
    show (st.lens ++ [v]) ++ _ = _
    rw [List.append_assoc, show k = k - 1 + 1 by omega, List.replicate_succ, show k - 1 + 1 - 1 = k - 1 by omega]; rfl
  · rw [h3]; split <;> rfl
  · rcases h4 with h4 | ⟨h4, h5⟩
    · exact Or.inl h4
    · exact Or.inr ⟨h4, by omega⟩

theorem writeRun_ok {n last v k code b : Nat} {st : Ls} (hv : v < 16) (hcode : code = 16 ∧ b = 2 ∧ v ≠ 0 ∨ code = 17 ∧ b = 3 ∧ v = 0)
    (hp : st.prev = last) (hl : v ≠ 0 → last = v) (hfit : st.lens.length + k ≤ n) (hf : st.rep = 0 ∨ st.repLen ≠ v)
    (h0 : k = 0 → st.rep = 0) : RunOk n last v k st (writeRun code b v k) := by
  have hpv : ∀ x : Nat, x = last → x = if v ≠ 0 then v else last := by
    intro x hx
    split
    · rename_i h; rw [hx, hl h]
    · exact hx
  unfold writeRun
  split
  · by_cases hk : k = 0
    · subst hk
      exact ⟨st, rfl, by simp, hpv _ hp, Or.inl (h0 rfl)⟩
    · obtain ⟨sp, h⟩ := lit_replay n v hv k st (by omega)
      refine ⟨_, h, rfl, ?_, Or.inl rfl⟩
      dsimp only; rw [hp]
  · have hnl : newLen code st = v := by
      unfold newLen
      rcases hcode with ⟨h1, _, h3⟩ | ⟨h1, _, h3⟩
      · rw [if_pos h1, hp, hl h3]
      · rw [if_neg (by omega), h3]
    have hor : oldRep code st = 0 := by
      unfold oldRep
      rw [hnl]
      rcases hf with h | h
      · rw [h]; split <;> rfl
      · rw [if_pos h]
    obtain ⟨sp, h⟩ := digits_replay (n := n) (code := code) (b := b) (v := v) (by omega) (k - 2) (k - 3) st (by omega) hnl hor (by omega)
    refine ⟨_, h, ?_, hpv _ hp, Or.inr ⟨rfl, by omega⟩⟩
    rw [show k - 3 + 3 = k by omega]

theorem writeZeros_ok {n last k : Nat} {st : Ls} (hp : st.prev = last) (hfit : st.lens.length + k ≤ n) (hk : 1 ≤ k)
    (hf : st.rep = 0 ∨ st.repLen ≠ 0) : RunOk n last 0 k st (writeZeros k) := by
  unfold writeZeros literalFirst
  split
  · refine runOk_cons (by omega) hk hp fun st' h1 h2 h3 => ?_
    simp only [ne_eq, not_true, if_false] at h2 ⊢
    exact writeRun_ok (by omega) (Or.inr ⟨rfl, rfl, rfl⟩) h2 (by simp) (by rw [h1]; simp; omega) (Or.inl h3) (fun _ => h3)
  · exact writeRun_ok (by omega) (Or.inr ⟨rfl, rfl, rfl⟩) hp (by simp) hfit hf (by omega)

theorem writeReps_ok {n last v k : Nat} {st : Ls} (hv : v < 16) (hv0 : v ≠ 0) (hp : st.prev = last) (hfit : st.lens.length + k ≤ n) (hk : 1 ≤ k)
    (hf : st.rep = 0 ∨ st.repLen ≠ v) : RunOk n last v k st (writeReps last v k) := by
  have seven : ∀ last k st, st.prev = last → last = v → st.lens.length + k ≤ n → (st.rep = 0 ∨ st.repLen ≠ v) → (k = 0 → st.rep = 0) →
      RunOk n last v k st (literalFirst (k = 7) v k fun reps => writeRun 16 2 v reps) := by
    intro last k st hp hl hfit hf h0
    unfold literalFirst
    split
    · refine runOk_cons hv (by omega) hp fun st' h1 h2 h3 => ?_
      simp only [if_pos hv0] at h2 ⊢
      exact writeRun_ok hv (Or.inl ⟨rfl, rfl, hv0⟩) h2 (fun _ => rfl) (by rw [h1]; simp; omega) (Or.inl h3) (fun _ => h3)
    · exact writeRun_ok hv (Or.inl ⟨rfl, rfl, hv0⟩) hp (fun _ => hl) hfit hf h0
  unfold writeReps
  rw [literalFirst]
  split
  · refine runOk_cons hv hk hp fun st' h1 h2 h3 => ?_
    simp only [if_pos hv0] at h2 ⊢
    exact seven v (k - 1) st' h2 rfl (by rw [h1]; simp; omega) (Or.inl h3) (fun _ => h3)
  · rename_i h
    exact seven last k st hp (by simpa using h) hfit hf (by omega)

theorem runLen_spec (v : Nat) (l : List Nat) : ∃ t, l = List.replicate (runLen v l) v ++ t ∧ t.head? ≠ some v ∧ runLen v l ≤ l.length := by
  induction l with
  | nil => exact ⟨[], rfl, by simp, by simp [runLen]⟩
  | cons x l ih =>
    rw [runLen]
    by_cases h : x = v
    · obtain ⟨t, h1, h2, h3⟩ := ih
      refine ⟨t, ?_, h2, ?_⟩
      · rw [if_pos h, List.replicate_succ, List.cons_append, ← h1, h]
      · rw [if_pos h, List.length_cons]; omega
    · exact ⟨x :: l, by simp [h], by simpa using h, by simp [h]⟩

theorem writeRun_length (code b v k : Nat) : (writeRun code b v k).length ≤ k := by
  unfold writeRun
  split
  · simp
  · rw [List.length_reverse, List.length_map]
    have := repDigits_length b (k - 2) (k - 3) (by omega)
    omega

theorem literalFirst_length {c : Prop} [Decidable c] {v k : Nat} {f : Nat → List (Nat × Nat)} (h : ∀ k, (f k).length ≤ k) (hk : c → 1 ≤ k) :
    (literalFirst c v k f).length ≤ k := by
  unfold literalFirst
  split
  · rename_i hc
    have := h (k - 1)
    have := hk hc
    simp only [List.length_cons]; omega
  · exact h k

theorem writeZeros_length (k : Nat) : (writeZeros k).length ≤ k :=
  literalFirst_length (writeRun_length _ _ _) (by omega)

theorem writeReps_length (last v k : Nat) (hk : 1 ≤ k) : (writeReps last v k).length ≤ k :=
  literalFirst_length (fun _ => literalFirst_length (writeRun_length _ _ _) (by omega)) (fun _ => hk)

theorem writeRun_tok {code b v k : Nat} (hv : v < 16) (hcode : code = 16 ∧ b = 2 ∨ code = 17 ∧ b = 3) : ∀ c ∈ writeRun code b v k, TokOk c := by
  intro c hc
  unfold writeRun at hc
  split at hc
  · rw [List.eq_of_mem_replicate hc]; exact Or.inl ⟨hv, rfl⟩
  · rw [List.mem_reverse, List.mem_map] at hc
    obtain ⟨x, hx, rfl⟩ := hc
    have := repDigits_lt _ _ _ x hx
    rcases hcode with ⟨h1, h2⟩ | ⟨h1, h2⟩ <;> subst h1 <;> subst h2
    · exact Or.inr (Or.inl ⟨rfl, this⟩)
    · exact Or.inr (Or.inr ⟨rfl, this⟩)

theorem literalFirst_tok {p : Prop} [Decidable p] {v k : Nat} (hv : v < 16) {f : Nat → List (Nat × Nat)} (h : ∀ k, ∀ c ∈ f k, TokOk c) :
    ∀ c ∈ literalFirst p v k f, TokOk c := by
  intro c hc
  unfold literalFirst at hc
  split at hc
  · rcases List.mem_cons.mp hc with rfl | hc
    · exact Or.inl ⟨hv, rfl⟩
    · exact h _ c hc
  · exact h _ c hc

theorem writeZeros_tok (k : Nat) : ∀ c ∈ writeZeros k, TokOk c :=
  literalFirst_tok (by omega) fun _ => writeRun_tok (by omega) (Or.inr ⟨rfl, rfl⟩)

theorem writeReps_tok {last v k : Nat} (hv : v < 16) : ∀ c ∈ writeReps last v k, TokOk c :=
  literalFirst_tok hv fun _ => literalFirst_tok hv fun _ => writeRun_tok hv (Or.inl ⟨rfl, rfl⟩)

theorem writeGo_ok (n : Nat) (rn rz : Bool) : ∀ f last l st, (∀ x ∈ l, x ≤ 15) → l.length ≤ f → Ready n last l st →
    (∃ st', replay n (writeGo rn rz f last l) st = some st' ∧ st'.lens = st.lens ++ l) ∧ (writeGo rn rz f last l).length ≤ l.length ∧
      (∀ c ∈ writeGo rn rz f last l, TokOk c) := by
  intro f
  induction f with
  | zero =>
    intro last l st _ hf _
    have : l = [] := List.eq_nil_of_length_eq_zero (by omega)
    subst this
    exact ⟨⟨st, rfl, by simp⟩, by simp [writeGo], by simp [writeGo]⟩
  | succ f ih =>
    intro last l st h15 hf hr
    cases l with
    | nil => exact ⟨⟨st, rfl, by simp⟩, by simp [writeGo], by simp [writeGo]⟩
    | cons v l =>
      rw [writeGo]
      obtain ⟨t, ht1, ht2, ht3⟩ := runLen_spec v l
      generalize runLen v l = m at ht1 ht3 ⊢
      have hv : v < 16 := by have := h15 v (by simp); omega
      generalize hk : (if (v ≠ 0 ∧ rn = true) ∨ (v = 0 ∧ rz = true) then m + 1 else 1) = k
      have hk1 : 1 ≤ k := by split at hk <;> omega
      have hkl : k ≤ l.length + 1 := by split at hk <;> omega
      have hsplit : v :: l = List.replicate k v ++ l.drop (k - 1) := by
        split at hk
        · rw [← hk, List.replicate_succ, Nat.add_sub_cancel, ht1, List.drop_left' (by simp)]; rfl
        · rw [← hk]; rfl
      have hhead : 2 ≤ k → (l.drop (k - 1)).head? ≠ some v := by
        intro h2
        split at hk
        · rw [← hk, Nat.add_sub_cancel, ht1, List.drop_left' (by simp)]
          exact ht2
        · omega
      have hfr : st.rep = 0 ∨ st.repLen ≠ v := by
        rcases hr.fresh with h | h
        · exact Or.inl h
        · right; intro e; apply h; rw [List.head?_cons, e]
      have hfit := hr.fits
      rw [List.length_cons] at hfit hf
      have hdl : (l.drop (k - 1)).length = l.length - (k - 1) := List.length_drop
      have hmem : ∀ x ∈ l.drop (k - 1), x ≤ 15 := fun x hx => h15 x (by simp [List.mem_of_mem_drop hx])
      have fin : ∀ toks last', last' = (if v ≠ 0 then v else last) → RunOk n last v k st toks → toks.length ≤ k → (∀ c ∈ toks, TokOk c) →
          (∃ st', replay n (toks ++ writeGo rn rz f last' (l.drop (k - 1))) st = some st' ∧ st'.lens = st.lens ++ (v :: l)) ∧
          (toks ++ writeGo rn rz f last' (l.drop (k - 1))).length ≤ (v :: l).length ∧
          (∀ c ∈ toks ++ writeGo rn rz f last' (l.drop (k - 1)), TokOk c) := by
        intro toks last' hl' ⟨st', h1, h2, h3, h4⟩ hlen htok
        obtain ⟨⟨st2, g1, g2⟩, g3, g4⟩ := ih last' (l.drop (k - 1)) st' hmem (by omega) ⟨by rw [h3, hl'], by
            rw [h2, List.length_append, List.length_replicate]; omega, by
            rcases h4 with h | ⟨h, h'⟩
            · exact Or.inl h
            · right; rw [h]; exact hhead (by omega)⟩
        refine ⟨⟨st2, ?_, ?_⟩, ?_, ?_⟩
        · rw [replay_append, h1, Option.bind_some, g1]
        · rw [g2, h2, List.append_assoc, ← hsplit]
        · rw [List.length_append, List.length_cons]; omega
        · intro c hc
          rcases List.mem_append.mp hc with h | h
          · exact htok c h
          · exact g4 c h
      by_cases h0 : v = 0
      · rw [if_pos h0]
        subst h0
        exact fin _ last (by simp) (writeZeros_ok hr.prev (by omega) hk1 hfr) (writeZeros_length k) (writeZeros_tok k)
      · rw [if_neg h0]
        exact fin _ v (by rw [if_pos h0]) (writeReps_ok hv h0 hr.prev (by omega) hk1 hfr) (writeReps_length _ _ _ hk1) (writeReps_tok hv)

theorem dropZeros_spec (l : List Nat) : ∃ k, l = dropZeros l ++ List.replicate k 0 ∧ (dropZeros l = [] ∨ ∃ a x, dropZeros l = a ++ [x] ∧ x ≠ 0) := by
  unfold dropZeros
  have h : ∀ r : List Nat, ∃ k, r = List.replicate k 0 ++ r.dropWhile (· = 0) ∧ (r.dropWhile (· = 0) = [] ∨ ∃ x t, r.dropWhile (· = 0) = x :: t ∧ x ≠ 0) := by
    intro r
    induction r with
    | nil => exact ⟨0, rfl, Or.inl rfl⟩
    | cons x r ih =>
      by_cases hx : x = 0
      · obtain ⟨k, h1, h2⟩ := ih
        refine ⟨k + 1, ?_, ?_⟩
        · rw [List.dropWhile_cons_of_pos (by simpa using hx), List.replicate_succ, List.cons_append, ← h1, hx]
        · rw [List.dropWhile_cons_of_pos (by simpa using hx)]; exact h2
      · refine ⟨0, ?_, Or.inr ⟨x, r, ?_, hx⟩⟩
        · rw [List.dropWhile_cons_of_neg (by simpa using hx)]; rfl
        · rw [List.dropWhile_cons_of_neg (by simpa using hx)]
  obtain ⟨k, h1, h2⟩ := h l.reverse
  refine ⟨k, ?_, ?_⟩
  · have := congrArg List.reverse h1
    rw [List.reverse_reverse, List.reverse_append, List.reverse_replicate] at this
    exact this
  · rcases h2 with h2 | ⟨x, t, h2, h3⟩
    · left; rw [h2]; rfl
    · right; exact ⟨t.reverse, x, by rw [h2, List.reverse_cons], h3⟩

/-- **The codes of the lengths, replayed by the decoder, give the lengths.** -/
theorem writeTree_ok (depth : List Nat) (h15 : ∀ x ∈ depth, x ≤ 15) :
    (∃ st', replay depth.length (writeTree depth) ⟨[], 8, 0, 0, 32768⟩ = some st' ∧ st'.lens = dropZeros depth) ∧
      (writeTree depth).length ≤ (dropZeros depth).length ∧ (∀ c ∈ writeTree depth, TokOk c) := by
  obtain ⟨k, hk, _⟩ := dropZeros_spec depth
  have hl : (dropZeros depth).length ≤ depth.length := by
    conv => rhs; rw [hk]
    simp
  have := writeGo_ok depth.length (if depth.length > 50 then decideRle (dropZeros depth) else (false, false)).1
    (if depth.length > 50 then decideRle (dropZeros depth) else (false, false)).2 (dropZeros depth).length 8 (dropZeros depth) ⟨[], 8, 0, 0, 32768⟩
    (fun x hx => h15 x (by rw [hk]; exact List.mem_append_left _ hx)) (Nat.le_refl _) ⟨rfl, by simpa using hl, Or.inl rfl⟩
  simpa [writeTree] using this

end Jxl.Huffman
