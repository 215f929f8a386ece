import Verif.Lemmas.Lz77
/-! # The LZ77 window decoder refines the expansion with unbounded history -/
namespace Jxl.Lz77

/-- The value `d` places back. -/
def back (h : List Nat) (d : Nat) : Nat := if d = 0 then 0 else h.getD (h.length - d) 0

theorem copyFrom_succ (n d : Nat) (h : List Nat) : copyFrom (n + 1) d h = copyFrom n d (h ++ [back h d]) := rfl

theorem copyFrom_prefix (n d : Nat) : ∀ h : List Nat, h <+: copyFrom n d h := by
  induction n with
  | zero => intro h; exact List.prefix_refl _
  | succ n ih => intro h; rw [copyFrom_succ]; exact (List.prefix_append _ _).trans (ih _)

theorem copyFrom_length (n d : Nat) : ∀ h : List Nat, (copyFrom n d h).length = h.length + n := by
  induction n with
  | zero => intro h; rfl
  | succ n ih => intro h; rw [copyFrom_succ, ih]; simp; omega

theorem expand_cons (m : Meaning) (h : List Nat) (o : Op) (l : List Op) : expand m h (o :: l) = expand m (expandOp m h o) l := rfl

theorem expandOp_prefix (m : Meaning) (h : List Nat) (o : Op) : h <+: expandOp m h o := by
  cases o with
  | lit v => exact List.prefix_append _ _
  | copy l d => exact copyFrom_prefix _ _ _

theorem expand_prefix (m : Meaning) (l : List Op) : ∀ h : List Nat, h <+: expand m h l := by
  induction l with
  | nil => intro h; exact List.prefix_refl _
  | cons o l ih => intro h; rw [expand_cons]; exact (expandOp_prefix m h o).trans (ih _)

/-- The next `k` entries of the stream. -/
def nextOps (ops : Nat → Op) : Nat → Nat → List Op
  | _, 0 => []
  | i, k + 1 => ops i :: nextOps ops (i + 1) k

theorem nextOps_eq (ops : Nat → Op) (k : Nat) : ∀ i, nextOps ops i k = (List.range k).map fun j => ops (i + j) := by
  induction k with
  | zero => intro i; rfl
  | succ k ih =>
    intro i
    rw [nextOps, ih, List.range_succ_eq_map]
    simp only [List.map_cons, Nat.add_zero, List.map_map]
    congr 1
    apply List.map_congr_left
    intro a _
    show ops (i + 1 + a) = ops (i + (a + 1))
    congr 1; omega

theorem firstOps_eq (ops : Nat → Op) (k : Nat) : firstOps ops k = nextOps ops 0 k := by
  rw [nextOps_eq]; simp [firstOps]

/-- The decoder's window holds the end of the history. -/
structure Holds (s : State) (h : List Nat) : Prop where
  num : s.num = h.length
  lt : h.length < 2 ^ 32
  win : ∀ i, i < h.length → h.length ≤ i + W → s.win (i % W) = some (h.getD i 0)
  vals : ∀ i, i < h.length → h.getD i 0 < 2 ^ 32

/-- The decoder is in the middle of a copy of distance `d`. -/
def Pending (s : State) (h : List Nat) (d : Nat) : Prop :=
  s.toCopy > 0 → (d ≤ W ∧ d ≤ h.length ∧ s.copyPos = h.length - d ∧
    (d = 0 → ∀ j, j < s.toCopy → s.win ((h.length + j) % W) = some 0))

theorem holds_push {s : State} {h : List Nat} (H : Holds s h) {v : Nat} (hv : v < 2 ^ 32) (hl : h.length + 1 < 2 ^ 32) (s' : State)
    (hw : ∀ j, s'.win j = if j = s.num % W then some v else s.win j) (hn : s'.num = wadd s.num 1) : Holds s' (h ++ [v]) := by
  refine ⟨?_, by simpa using hl, ?_, ?_⟩
  · rw [hn, H.num, wadd_eq hl]; simp
  · intro i hi hi2
    rw [List.length_append] at hi hi2
    simp only [List.length_cons, List.length_nil] at hi hi2
    rw [hw, getD_app, H.num]
    by_cases e : i = h.length
    · subst e
      rw [if_pos rfl, if_neg (by omega), if_pos rfl]
    · have hlt : i < h.length := by omega
      rw [if_pos hlt]
      have hne : i % W ≠ h.length % W := by
        intro he
        rw [W_eq] at he hi2
        omega
      rw [if_neg hne]
      exact H.win i hlt (by omega)
  · intro i hi
    rw [getD_app]
    by_cases e : i < h.length
    · rw [if_pos e]; exact H.vals i e
    · rw [if_neg e, if_pos (by simp at hi; omega)]; exact hv

theorem copyStep_holds {s : State} {h : List Nat} {d : Nat} (H : Holds s h) (P : Pending s h d) (h0 : s.toCopy > 0) (h1 : s.toCopy < 2 ^ 32)
    (hl : h.length + 1 < 2 ^ 32) :
    ∃ t, copyStep s = some (back h d, t) ∧ Holds t (h ++ [back h d]) ∧ Pending t (h ++ [back h d]) d ∧ t.toCopy = s.toCopy - 1 ∧ t.next = s.next ∧ t.bad = s.bad := by
  obtain ⟨p1, p2, p3, p4⟩ := P h0
  have hread : s.win (s.copyPos % W) = some (back h d) := by
    rw [p3]
    by_cases hd : d = 0
    · have := p4 hd 0 h0
      rw [Nat.add_zero] at this
      rw [hd, Nat.sub_zero, this]; simp [back]
    · rw [H.win (h.length - d) (by omega) (by omega)]
      simp [back, hd]
  have hv : back h d < 2 ^ 32 := by
    by_cases hd : d = 0
    · simp only [back, hd, if_true]; decide
    · have := H.vals (h.length - d) (by omega)
      simpa [back, hd] using this
  have et : wsub s.toCopy 1 = s.toCopy - 1 := wsub_eq h0 h1
  refine ⟨_, copyStep_eq s _ hread, ?_, ?_, et, rfl, rfl⟩
  · refine holds_push H hv hl _ (fun j => ?_) rfl
    dsimp only
    rw [Nat.mod_eq_of_lt hv]
  · intro hk
    dsimp only at hk
    rw [et] at hk
    refine ⟨p1, by simp; omega, ?_, ?_⟩
    · dsimp only
      rw [p3, wadd_eq (by omega)]
      simp; omega
    · intro hd j hj
      dsimp only at hj ⊢
      rw [et] at hj
      by_cases e : (h.length + 1 + j) % W = s.num % W
      · rw [List.length_append, List.length_singleton, if_pos e]
        simp [back, hd]
      · rw [List.length_append, List.length_singleton, if_neg e]
        have := p4 hd (j + 1) (by omega)
        rw [show h.length + 1 + j = h.length + (j + 1) by omega]; exact this

theorem startCopy_holds {s : State} {h : List Nat} (p : Params) (H : Holds s h) (len dist : Nat) (hlen : len + p.minLen < 2 ^ 32) :
    ∃ t, startCopy p s len dist = some t ∧ Holds t h ∧ Pending t h (usable (codeDistance p.mult dist) h.length) ∧
      t.toCopy = len + p.minLen ∧ t.next = s.next ∧ t.bad = s.bad := by
  unfold startCopy
  have hcl := clamp_le (decodeDistance p.mult dist) h.length
  rw [← decodeDistance_eq, ← clamp_eq]
  simp only [wadd_eq hlen, H.num]
  by_cases hd : clampDistance (decodeDistance p.mult dist) h.length = 0
  · have hz : h.length = 0 := clamp_zero (decodeDistance_pos _ _) hd
    simp only [hd, if_true, fill]
    rw [if_pos (Nat.min_le_right _ _)]
    refine ⟨_, rfl, ⟨rfl, H.lt, ?_, H.vals⟩, ?_, rfl, rfl, rfl⟩
    · intro i hi; omega
    · intro hk
      refine ⟨by omega, by omega, ?_, ?_⟩
      · dsimp only; exact wsub_eq (Nat.zero_le _) H.lt
      · intro _ j hj
        dsimp only at hj ⊢
        have := mod_lt (h.length + j)
        have := Nat.mod_le (h.length + j) W
        rw [if_pos (by omega)]
  · simp only [hd, if_false]
    refine ⟨_, rfl, ⟨rfl, H.lt, H.win, H.vals⟩, ?_, rfl, rfl, rfl⟩
    intro hk
    refine ⟨hcl.2, hcl.1, ?_, fun e => absurd e hd⟩
    dsimp only
    exact wsub_eq hcl.1 H.lt

/-- What is still to come: the rest of the copy under way, then the next `k` entries. -/
def future (m : Meaning) (ops : Nat → Op) (s : State) (h : List Nat) (d k : Nat) : List Nat :=
  expand m (copyFrom s.toCopy d h) (nextOps ops s.next k)

theorem future_prefix (m : Meaning) (ops : Nat → Op) (s : State) (h : List Nat) (d k : Nat) : h <+: future m ops s h d k :=
  (copyFrom_prefix _ _ _).trans (expand_prefix _ _ _)

/-- The stream's values are 32-bit and its lengths do not overflow. -/
def Valid (minLen : Nat) (ops : Nat → Op) : Prop :=
  ∀ i, (ops i).Ok ∧ ∀ l d, ops i = .copy l d → l + minLen < 2 ^ 32

theorem readN_holds (p : Params) (hp1 : 1 ≤ p.minLen) (ops : Nat → Op) (hops : Valid p.minLen ops) (n : Nat) :
    ∀ (s : State) (h : List Nat) (d k : Nat), Holds s h → Pending s h d → s.toCopy < 2 ^ 32 → h.length + n < 2 ^ 32 →
      h.length + n ≤ (future (meaning p.minLen p.mult) ops s h d k).length →
      ∃ vs t, readN p ops n s = some (vs, t) ∧ t.bad = s.bad ∧ h ++ vs = (future (meaning p.minLen p.mult) ops s h d k).take (h.length + n) := by
  induction n with
  | zero =>
    intro s h d k H P hc hn hl
    refine ⟨[], s, rfl, rfl, ?_⟩
    rw [List.append_nil, Nat.add_zero]
    exact List.prefix_iff_eq_take.1 (future_prefix _ _ _ _ _ _)
  | succ n ih =>
    intro s h d k H P hc hn hl
    -- one more value, then the rest
    have finish : ∀ (v : Nat) (t : State) (d' k' : Nat), read p ops s = some (v, t) → Holds t (h ++ [v]) → Pending t (h ++ [v]) d' →
        t.toCopy < 2 ^ 32 → t.bad = s.bad →
        future (meaning p.minLen p.mult) ops s h d k = future (meaning p.minLen p.mult) ops t (h ++ [v]) d' k' →
        ∃ vs t, readN p ops (n + 1) s = some (vs, t) ∧ t.bad = s.bad ∧ h ++ vs = (future (meaning p.minLen p.mult) ops s h d k).take (h.length + (n + 1)) := by
      intro v t d' k' hr H' P' hc' hb' hf
      have e1 : (h ++ [v]).length + n = h.length + (n + 1) := by simp; omega
      obtain ⟨vs, u, a, b, c⟩ := ih t (h ++ [v]) d' k' H' P' hc' (by rw [e1]; exact hn) (by rw [e1, ← hf]; exact hl)
      refine ⟨v :: vs, u, ?_, b.trans hb', ?_⟩
      · simp only [readN, hr, Option.bind_some, a, Option.map_some]
      · rw [hf, ← e1, ← c]; simp
    by_cases h0 : s.toCopy > 0
    · obtain ⟨t, a, b, c, e, f, g⟩ := copyStep_holds H P h0 hc (by omega)
      refine finish _ t d k (by unfold read; rw [if_pos h0]; exact a) b c (by omega) g ?_
      unfold future
      rw [f]
      congr 1
      rw [show s.toCopy = t.toCopy + 1 by omega, copyFrom_succ]
    · have h0' : s.toCopy = 0 := by omega
      cases k with
      | zero =>
        exfalso
        unfold future at hl
        rw [h0'] at hl
        simp only [nextOps, copyFrom, expand, List.foldl_nil] at hl
        omega
      | succ k =>
        have hH : Holds { s with next := s.next + 1 } h := ⟨H.num, H.lt, H.win, H.vals⟩
        obtain ⟨hok, hcopy⟩ := hops s.next
        cases ho : ops s.next with
        | lit v =>
          rw [ho] at hok
          have hr : read p ops s = some (v, { s with next := s.next + 1, win := fun j => if j = s.num % W then some (v % 2 ^ 32) else s.win j, num := wadd s.num 1 }) := by
            unfold read; rw [if_neg h0, ho]; simp only [push_eq, Option.map_some]
          refine finish v _ 0 k hr ?_ (fun hk => absurd hk h0) hc rfl ?_
          · refine holds_push hH hok (by omega) _ (fun j => ?_) rfl
            dsimp only
            rw [Nat.mod_eq_of_lt hok]
          · unfold future
            simp only [h0', nextOps, copyFrom, expand_cons, ho, expandOp]
        | copy l dd =>
          obtain ⟨t, a, b, c, e, f, g⟩ := startCopy_holds p hH l dd (hcopy l dd ho)
          have hlt := hcopy l dd ho
          obtain ⟨u, a', b', c', e', f', g'⟩ := copyStep_holds b c (by omega) (by omega) (by omega)
          refine finish _ u _ k ?_ b' c' (by omega) (g'.trans g) ?_
          · unfold read
            rw [if_neg h0, ho]
            simp only [a, Option.bind_some]
            rw [if_neg (by omega)]
            exact a'
          · unfold future
            rw [f', f, h0', nextOps, expand_cons, ho]
            simp only [copyFrom, expandOp, meaning]
            congr 1
            rw [show l + p.minLen = u.toCopy + 1 by omega, copyFrom_succ]

theorem start_holds : Holds start [] := by
  refine ⟨rfl, by decide, ?_, ?_⟩ <;> intro i hi <;> simp at hi

/-! ## Checkpoints -/

/-- A read leaves window entries other than the next one alone, unless nothing was decoded before. -/
theorem read_frame (p : Params) (ops : Nat → Op) (s : State) (v : Nat) (t : State) (h : read p ops s = some (v, t)) (hn : 0 < s.num) (hl : s.num + 1 < 2 ^ 32) :
    (t.num = s.num ∨ t.num = s.num + 1) ∧ ∀ i, i ≠ s.num % W → t.win i = s.win i := by
  have hcopy : ∀ (a : State) (w : Nat) (b : State), a.num = s.num → copyStep a = some (w, b) → b.num = s.num + 1 ∧ ∀ i, i ≠ s.num % W → b.win i = a.win i := by
    intro a w b ha hb
    have := copyStep_win a w b hb
    rw [copyStep_eq a w this] at hb
    injection hb with hb
    injection hb with _ hb
    subst hb
    refine ⟨by dsimp only; rw [ha, wadd_eq hl], ?_⟩
    intro i hi
    dsimp only
    rw [ha, if_neg hi]
  unfold read at h
  by_cases h0 : s.toCopy > 0
  · rw [if_pos h0] at h
    have := hcopy s v t rfl h
    exact ⟨Or.inr this.1, this.2⟩
  · rw [if_neg h0] at h
    cases ho : ops s.next with
    | lit x =>
      rw [ho] at h
      simp only [push_eq, Option.map_some, Option.some.injEq, Prod.mk.injEq] at h
      obtain ⟨_, h⟩ := h
      subst h
      refine ⟨Or.inr (wadd_eq hl), ?_⟩
      intro i hi
      dsimp only
      rw [if_neg hi]
    | copy l d =>
      rw [ho] at h
      simp only [Option.bind_eq_some_iff] at h
      obtain ⟨u, hu, h⟩ := h
      have hu' : u.num = s.num ∧ ∀ i, u.win i = s.win i := by
        unfold startCopy at hu
        simp only at hu
        have hne : clampDistance (decodeDistance p.mult d) s.num ≠ 0 := fun e => by
          have := clamp_zero (decodeDistance_pos _ _) e
          omega
        rw [if_neg hne] at hu
        injection hu with hu
        subst hu
        exact ⟨rfl, fun _ => rfl⟩
      by_cases hm : u.toCopy < p.minLen
      · rw [if_pos hm] at h
        injection h with h
        injection h with _ h
        subst h
        exact ⟨Or.inl hu'.1, fun i _ => hu'.2 i⟩
      · rw [if_neg hm] at h
        have := hcopy u v t hu'.1 h
        refine ⟨Or.inr this.1, fun i hi => ?_⟩
        rw [this.2 i hi, hu'.2]

theorem readN_frame (p : Params) (ops : Nat → Op) (n : Nat) : ∀ (s : State) (vs : List Nat) (t : State), readN p ops n s = some (vs, t) → 0 < s.num →
    s.num + n < 2 ^ 32 → (s.num ≤ t.num ∧ t.num ≤ s.num + n) ∧ ∀ i, (∀ j, j < n → i ≠ (s.num + j) % W) → t.win i = s.win i := by
  induction n with
  | zero =>
    intro s vs t h hn hl
    simp only [readN, Option.some.injEq, Prod.mk.injEq] at h
    rw [h.2]
    exact ⟨⟨Nat.le_refl _, Nat.le_refl _⟩, fun _ _ => rfl⟩
  | succ n ih =>
    intro s vs t h hn hl
    simp only [readN, Option.bind_eq_some_iff, Option.map_eq_some_iff, Prod.exists] at h
    obtain ⟨v, u, hu, vs', t', ht, he⟩ := h
    injection he with _ he
    subst he
    obtain ⟨a, b⟩ := read_frame p ops s v u hu hn (by omega)
    obtain ⟨c, d⟩ := ih u vs' t' ht (by omega) (by omega)
    refine ⟨by omega, ?_⟩
    intro i hi
    rw [d i ?_, b i ?_]
    · exact hi 0 (by omega)
    · intro j hj
      rcases a with a | a
      · rw [a]; exact hi j (by omega)
      · rw [a, show s.num + 1 + j = s.num + (j + 1) by omega]; exact hi (j + 1) (by omega)

/-- After `n` reads at most `n` values are in the window, and a copy is under way only if there are some. -/
theorem reach_num (p : Params) (ops : Nat → Op) (n : Nat) : ∀ (s : State) (vs : List Nat) (t : State), readN p ops n s = some (vs, t) →
    (s.num = 0 → s.toCopy = 0) → s.num + n < 2 ^ 32 → t.num ≤ s.num + n ∧ (t.num = 0 → t.toCopy = 0) := by
  induction n with
  | zero =>
    intro s vs t h h0 _
    simp only [readN, Option.some.injEq, Prod.mk.injEq] at h
    rw [← h.2]; exact ⟨Nat.le_refl _, h0⟩
  | succ n ih =>
    intro s vs t h h0 hl
    simp only [readN, Option.bind_eq_some_iff, Option.map_eq_some_iff, Prod.exists] at h
    obtain ⟨v, u, hu, vs', t', ht, he⟩ := h
    injection he with _ he
    subst he
    have hcopy : ∀ (a : State) (w : Nat) (b : State), a.num = s.num → copyStep a = some (w, b) → b.num = s.num + 1 := by
      intro a w b ha hb
      have := copyStep_win a w b hb
      rw [copyStep_eq a w this] at hb
      injection hb with hb
      injection hb with _ hb
      subst hb
      dsimp only; rw [ha, wadd_eq (by omega)]
    have key : u.num ≤ s.num + 1 ∧ (u.num = 0 → u.toCopy = 0) := by
      unfold read at hu
      by_cases hc : s.toCopy > 0
      · rw [if_pos hc] at hu
        have := hcopy s v u rfl hu
        exact ⟨by omega, by omega⟩
      · rw [if_neg hc] at hu
        cases ho : ops s.next with
        | lit x =>
          rw [ho] at hu
          simp only [push_eq, Option.map_some, Option.some.injEq, Prod.mk.injEq] at hu
          obtain ⟨_, hu⟩ := hu
          subst hu
          dsimp only
          rw [wadd_eq (by omega)]
          exact ⟨by omega, by omega⟩
        | copy l d =>
          rw [ho] at hu
          simp only [Option.bind_eq_some_iff] at hu
          obtain ⟨w, hw, hu⟩ := hu
          have hw' : w.num = s.num := by
            unfold startCopy at hw
            simp only at hw
            split at hw
            · rw [Option.map_eq_some_iff] at hw
              obtain ⟨_, _, hw⟩ := hw
              rw [← hw]
            · injection hw with hw
              rw [← hw]
          by_cases hm : w.toCopy < p.minLen
          · rw [if_pos hm] at hu
            injection hu with hu
            injection hu with _ hu
            subst hu
            exact ⟨by dsimp only; omega, fun _ => rfl⟩
          · rw [if_neg hm] at hu
            have := hcopy w v u hw' hu
            exact ⟨by omega, by omega⟩
    obtain ⟨a, b⟩ := ih u vs' t' ht key.2 (by omega)
    exact ⟨by omega, b⟩

/-- Places of the window within the checkpoint interval. -/
theorem in_interval (N i : Nat) (hi : i < W) : (∃ j, j < 512 ∧ i = (N + j) % W) ↔ (i + W - N % W) % W < 512 := by
  rw [W_eq] at *
  constructor
  · rintro ⟨j, h1, h2⟩; omega
  · intro h
    exact ⟨(i + 1048576 - N % 1048576) % 1048576, h, by omega⟩

theorem wrap512 (N : Nat) : (N + 512) % W = if N % W + 512 < W then N % W + 512 else N % W + 512 - W := by
  rw [W_eq]; split <;> omega

theorem memcpy_eq {dst src : Nat → Option Nat} {szD to szS from_ n : Nat} (h1 : to + n ≤ szD) (h2 : from_ + n ≤ szS) :
    ∃ w, memcpy dst szD to src szS from_ n = some w ∧ ∀ j, w j = if to ≤ j ∧ j < to + n then src (from_ + (j - to)) else dst j :=
  ⟨_, if_pos ⟨h1, h2⟩, fun _ => rfl⟩

theorem save_eq (s : State) : ∃ c, save s = some c ∧ c.num = s.num ∧ c.toCopy = s.toCopy ∧ c.copyPos = s.copyPos ∧ c.next = s.next ∧ c.bad = s.bad ∧
    ∀ j, j < 512 → c.saved j = s.win ((s.num + j) % W) := by
  have ha : s.num % W < W := mod_lt _
  have hb := wrap512 s.num
  unfold save
  simp only [mask, interval]
  generalize hB : (s.num + 512) % W = b at hb
  generalize hA : s.num % W = a at ha hb
  by_cases hw : a + 512 < W
  · rw [if_pos hw] at hb
    rw [if_pos (by omega)]
    obtain ⟨w, e1, e2⟩ := memcpy_eq (dst := fun _ => none) (szD := 512) (to := 0) (src := s.win) (szS := W) (from_ := a) (n := b - a) (by omega) (by omega)
    rw [e1]
    refine ⟨_, rfl, rfl, rfl, rfl, rfl, rfl, ?_⟩
    intro j hj
    dsimp only
    rw [e2, if_pos (by omega)]
    have : a + (j - 0) = (s.num + j) % W := by rw [W_eq] at *; omega
    rw [this]
  · rw [if_neg hw] at hb
    have hW := W_eq
    rw [if_neg (by omega)]
    obtain ⟨w, e1, e2⟩ := memcpy_eq (dst := fun _ => none) (szD := 512) (to := 0) (src := s.win) (szS := W) (from_ := a) (n := W - a) (by omega) (by omega)
    obtain ⟨w', e3, e4⟩ := memcpy_eq (dst := w) (szD := 512) (to := W - a) (src := s.win) (szS := W) (from_ := 0) (n := b) (by omega) (by omega)
    rw [e1, Option.bind_some, e3]
    refine ⟨_, rfl, rfl, rfl, rfl, rfl, rfl, ?_⟩
    intro j hj
    dsimp only
    rw [e4]
    by_cases h2 : j < W - a
    · rw [if_neg (by omega), e2, if_pos (by omega)]
      have : a + (j - 0) = (s.num + j) % W := by rw [W_eq] at *; omega
      rw [this]
    · rw [if_pos (by omega)]
      have : 0 + (j - (W - a)) = (s.num + j) % W := by rw [W_eq] at *; omega
      rw [this]

theorem restore_eq (c : Checkpoint) (u : State) : ∃ t, restore c u = some t ∧ t.num = c.num ∧ t.toCopy = c.toCopy ∧ t.copyPos = c.copyPos ∧
    t.next = c.next ∧ t.bad = c.bad ∧
    ∀ i, i < W → t.win i = if (i + W - c.num % W) % W < 512 then c.saved ((i + W - c.num % W) % W) else u.win i := by
  have ha : c.num % W < W := mod_lt _
  have hb := wrap512 c.num
  unfold restore
  simp only [mask, interval]
  generalize hB : (c.num + 512) % W = b at hb
  generalize hA : c.num % W = a at ha hb
  by_cases hw : a + 512 < W
  · rw [if_pos hw] at hb
    rw [if_pos (by omega)]
    obtain ⟨w, e1, e2⟩ := memcpy_eq (dst := u.win) (szD := W) (to := a) (src := c.saved) (szS := 512) (from_ := 0) (n := b - a) (by omega) (by omega)
    rw [e1]
    refine ⟨_, rfl, rfl, rfl, rfl, rfl, rfl, ?_⟩
    intro i hi
    dsimp only
    rw [e2]
    have hlt : (a ≤ i ∧ i < a + (b - a)) ↔ (i + W - a) % W < 512 := by rw [W_eq] at *; omega
    by_cases hin : (i + W - a) % W < 512
    · rw [if_pos hin, if_pos (hlt.2 hin)]
      have := hlt.2 hin
      have : 0 + (i - a) = (i + W - a) % W := by rw [W_eq] at *; omega
      rw [this]
    · rw [if_neg hin, if_neg (fun h => hin (hlt.1 h))]
  · rw [if_neg hw] at hb
    have hW := W_eq
    rw [if_neg (by omega)]
    obtain ⟨w, e1, e2⟩ := memcpy_eq (dst := u.win) (szD := W) (to := a) (src := c.saved) (szS := 512) (from_ := 0) (n := W - a) (by omega) (by omega)
    obtain ⟨w', e3, e4⟩ := memcpy_eq (dst := w) (szD := W) (to := 0) (src := c.saved) (szS := 512) (from_ := W - a) (n := b) (by omega) (by omega)
    rw [e1, Option.bind_some, e3]
    refine ⟨_, rfl, rfl, rfl, rfl, rfl, rfl, ?_⟩
    intro i hi
    dsimp only
    rw [e4, e2]
    have hlt : (i < b ∨ a ≤ i) ↔ (i + W - a) % W < 512 := by rw [W_eq] at *; omega
    by_cases h1 : i < b
    · rw [if_pos (by omega), if_pos (hlt.1 (Or.inl h1))]
      have : W - a + (i - 0) = (i + W - a) % W := by rw [W_eq] at *; omega
      rw [this]
    · rw [if_neg (by omega)]
      by_cases h2 : a ≤ i
      · rw [if_pos (by omega), if_pos (hlt.1 (Or.inr h2))]
        have : 0 + (i - a) = (i + W - a) % W := by rw [W_eq] at *; omega
        rw [this]
      · rw [if_neg (by omega), if_neg (fun h => by have := hlt.2 h; omega)]

/-- Saving and then restoring over any window puts back the checkpoint's interval and leaves the rest alone. -/
theorem save_restore (s u : State) : ∃ c t, save s = some c ∧ restore c u = some t ∧ t.num = s.num ∧ t.toCopy = s.toCopy ∧ t.copyPos = s.copyPos ∧
    t.next = s.next ∧ t.bad = s.bad ∧ ∀ i, i < W → t.win i = if (i + W - s.num % W) % W < 512 then s.win i else u.win i := by
  obtain ⟨c, c1, c2, c3, c4, c5, c6, c7⟩ := save_eq s
  obtain ⟨t, t1, t2, t3, t4, t5, t6, t7⟩ := restore_eq c u
  refine ⟨c, t, c1, t1, t2.trans c2, t3.trans c3, t4.trans c4, t5.trans c5, t6.trans c6, ?_⟩
  intro i hi
  rw [t7 i hi, c2]
  by_cases hin : (i + W - s.num % W) % W < 512
  · rw [if_pos hin, if_pos hin, c7 _ hin]
    congr 1
    rw [W_eq] at *; omega
  · rw [if_neg hin, if_neg hin]

/-- A decoder that is set back to a checkpoint taken at most 512 reads earlier goes on as it would have done. -/
theorem restore_rel (p : Params) (ops : Nat → Op) (s : State) (hs : Rel s s) (h0 : s.num = 0 → s.toCopy = 0) (r : Nat) (hr : r ≤ 512) (hl : s.num + r < 2 ^ 32)
    (vs : List Nat) (u : State) (hu : readN p ops r s = some (vs, u)) : ∃ c t, save s = some c ∧ restore c u = some t ∧ Rel s t := by
  obtain ⟨c, t, a1, a2, a3, a4, a5, a6, a7, a8⟩ := save_restore s u
  refine ⟨c, t, a1, a2, a3.symm, a4.symm, a5.symm, a6.symm, a7.symm, ?_⟩
  by_cases hn : s.num = 0
  · right
    refine ⟨by rw [hn, W_eq]; omega, fun i hi => by omega, fun h => ?_⟩
    have := h0 hn
    omega
  · obtain ⟨_, hf⟩ := readN_frame p ops r s vs u hu (by omega) hl
    have hsame : ∀ i, i < W → t.win i = s.win i := by
      intro i hi
      rw [a8 i hi]
      by_cases hin : (i + W - s.num % W) % W < 512
      · rw [if_pos hin]
      · rw [if_neg hin]
        apply hf
        intro j hj he
        exact hin ((in_interval s.num i hi).1 ⟨j, by omega, he⟩)
    rcases hs.win with h | ⟨h1, h2, h3⟩
    · left
      intro i hi
      exact ⟨(hsame i hi).symm, (h i hi).2⟩
    · right
      refine ⟨h1, fun i hi => ⟨(hsame i (by omega)).symm, (h2 i hi).2⟩, fun h => ?_⟩
      rcases h3 h with h | ⟨h, h'⟩
      · left; exact h
      · right
        exact ⟨h, fun i hi1 hi2 => ⟨(hsame i hi1).symm, (h' i hi1 hi2).2⟩⟩

end Jxl.Lz77
