import Verif.Model.SkipFrames
namespace Jxl.SkipFrames
open Jxl.FrameRefs

theorem saves_cons_succ (f : FrameRef) (fs : List FrameRef) (s k : Nat) : Saves (f :: fs) s (k + 1) ↔ Saves fs s k := by
  unfold Saves; rw [List.getElem?_cons_succ]

theorem saves_cons_zero (f : FrameRef) (fs : List FrameRef) (s : Nat) : Saves (f :: fs) s 0 ↔ f.savedAs.testBit s = true := by
  unfold Saves; simp

theorem storageLoop_spec (s : Nat) (fs : List FrameRef) : ∀ (id i n : Nat), n < fs.length →
    ∃ r, (storageLoop s id i fs)[n]? = some r ∧
      ((∃ k, k ≤ n ∧ r = i + k ∧ Saves fs s k ∧ ∀ m, k < m → m ≤ n → ¬ Saves fs s m) ∨ (r = id ∧ ∀ m, m ≤ n → ¬ Saves fs s m)) := by
  induction fs with
  | nil => intro _ _ n h; simp at h
  | cons f fs ih =>
    intro id i n hn
    by_cases hb : f.savedAs.testBit s = true
    · rw [storageLoop, if_pos hb]
      cases n with
      | zero =>
        refine ⟨i, rfl, .inl ⟨0, by omega, rfl, (saves_cons_zero _ _ _).2 hb, ?_⟩⟩
        intro m h1 h2; omega
      | succ n =>
        obtain ⟨r, h1, h2⟩ := ih i (i + 1) n (by simpa using hn)
        refine ⟨r, by rw [List.getElem?_cons_succ, h1], .inl ?_⟩
        rcases h2 with ⟨k, k1, k2, k3, k4⟩ | ⟨k2, k4⟩
        · refine ⟨k + 1, by omega, by omega, (saves_cons_succ _ _ _ _).2 k3, ?_⟩
          intro m m1 m2
          obtain ⟨m, rfl⟩ : ∃ q, m = q + 1 := ⟨m - 1, by omega⟩
          rw [saves_cons_succ]; exact k4 m (by omega) (by omega)
        · refine ⟨0, by omega, by omega, (saves_cons_zero _ _ _).2 hb, ?_⟩
          intro m m1 m2
          obtain ⟨m, rfl⟩ : ∃ q, m = q + 1 := ⟨m - 1, by omega⟩
          rw [saves_cons_succ]; exact k4 m (by omega)
    · rw [storageLoop, if_neg hb]
      cases n with
      | zero =>
        refine ⟨id, rfl, .inr ⟨rfl, ?_⟩⟩
        intro m h1
        obtain rfl : m = 0 := by omega
        rw [saves_cons_zero]; exact hb
      | succ n =>
        obtain ⟨r, h1, h2⟩ := ih id (i + 1) n (by simpa using hn)
        refine ⟨r, by rw [List.getElem?_cons_succ, h1], ?_⟩
        rcases h2 with ⟨k, k1, k2, k3, k4⟩ | ⟨k2, k4⟩
        · refine .inl ⟨k + 1, by omega, by omega, (saves_cons_succ _ _ _ _).2 k3, ?_⟩
          intro m m1 m2
          obtain ⟨m, rfl⟩ : ∃ q, m = q + 1 := ⟨m - 1, by omega⟩
          rw [saves_cons_succ]; exact k4 m (by omega) (by omega)
        · refine .inr ⟨k2, ?_⟩
          intro m m2
          cases m with
          | zero => rw [saves_cons_zero]; exact hb
          | succ m => rw [saves_cons_succ]; exact k4 m (by omega)

theorem storage_spec (refs : List FrameRef) (s row : Nat) (h : row < refs.length) :
    ∃ r, (storage refs s)[row]? = some r ∧ (Holds refs s (row + 1) r ∨ (r = refs.length ∧ ∀ j, ¬ Holds refs s (row + 1) j)) := by
  obtain ⟨r, h1, h2⟩ := storageLoop_spec s refs refs.length 0 row h
  refine ⟨r, h1, ?_⟩
  rcases h2 with ⟨k, k1, k2, k3, k4⟩ | ⟨k2, k4⟩
  · left
    obtain rfl : r = k := by omega
    exact ⟨by omega, k3, fun m m1 m2 => k4 m m1 (by omega)⟩
  · right
    exact ⟨k2, fun j hj => k4 j (by have := hj.1; omega) hj.2.1⟩

theorem holds_unique {refs : List FrameRef} {s n j k : Nat} (h1 : Holds refs s n j) (h2 : Holds refs s n k) : j = k := by
  rcases Nat.lt_trichotomy j k with h | h | h
  · exact absurd h2.2.1 (h1.2.2 k h h2.1)
  · exact h
  · exact absurd h1.2.1 (h2.2.2 j h h1.1)

/-- Well-formed search state for target `t`. -/
structure Inv (t : Nat) (st : Dfs) : Prop where
  len : st.seen.length = t + 1
  self : st.seen[t]? = some true
  res : ∀ j, j ∈ st.result ↔ st.seen[j]? = some true ∧ j ≠ t
  nodup : st.result.Nodup
  stk : ∀ j ∈ st.stack, st.seen[j]? = some true

def measure (st : Dfs) : Nat := st.seen.count false + st.stack.length

/-- One state is reached from the other by visiting frames. -/
structure Ext (t : Nat) (a b : Dfs) : Prop where
  inv : Inv t b
  mono : ∀ j : Nat, a.seen[j]? = some true → b.seen[j]? = some true
  meas : measure b = measure a
  new : ∀ j : Nat, b.seen[j]? = some true → a.seen[j]? = some true ∨ j ∈ b.stack
  sub : ∀ j ∈ a.stack, j ∈ b.stack

theorem Ext.refl {t : Nat} {a : Dfs} (h : Inv t a) : Ext t a a := ⟨h, fun _ h => h, rfl, fun _ h => .inl h, fun _ h => h⟩

theorem Ext.trans {t : Nat} {a b c : Dfs} (h : Ext t a b) (g : Ext t b c) : Ext t a c :=
  ⟨g.inv, fun j hj => g.mono j (h.mono j hj), g.meas.trans h.meas,
    fun j hj => by
      rcases g.new j hj with e | e
      · rcases h.new j e with e | e
        · exact .inl e
        · exact .inr (g.sub j e)
      · exact .inr e,
    fun j hj => g.sub j (h.sub j hj)⟩

theorem visit_spec (t invalid r : Nat) (st : Dfs) (h : Inv t st) (hr : r = invalid ∨ r ≤ t) :
    ∃ st', visit invalid st r = some st' ∧ Ext t st st' ∧ (r ≠ invalid → st'.seen[r]? = some true) := by
  unfold visit
  by_cases hi : r = invalid
  · exact ⟨st, by rw [if_pos hi], Ext.refl h, fun g => absurd hi g⟩
  · rw [if_neg hi]
    have hr : r ≤ t := by omega
    have hlt : r < st.seen.length := by rw [h.len]; omega
    rw [List.getElem?_eq_getElem hlt]
    cases hs : st.seen[r] with
    | true =>
      refine ⟨st, rfl, Ext.refl h, fun _ => by rw [List.getElem?_eq_getElem hlt, hs]⟩
    | false =>
      have hs' : st.seen[r]? = some false := by rw [List.getElem?_eq_getElem hlt, hs]
      have hrt : r ≠ t := by intro e; rw [e, h.self] at hs'; cases hs'
      have hset : ∀ j : Nat, (st.seen.set r true)[j]? = some true ↔ j = r ∨ st.seen[j]? = some true := by
        intro j
        by_cases e : r = j
        · subst e; rw [List.getElem?_set_self hlt]; simp
        · rw [List.getElem?_set_ne e]
          constructor
          · exact .inr
          · rintro (e' | e')
            · exact absurd e'.symm e
            · exact e'
      refine ⟨_, rfl, ⟨⟨by simp [h.len], (hset t).2 (.inr h.self), ?_, ?_, ?_⟩, ?_, ?_, ?_, ?_⟩, fun _ => (hset r).2 (.inl rfl)⟩
      · intro j
        simp only [List.mem_append, List.mem_singleton, hset, h.res]
        constructor
        · rintro (⟨a, b⟩ | a)
          · exact ⟨.inr a, b⟩
          · exact ⟨.inl a, by omega⟩
        · rintro ⟨a | a, b⟩
          · exact .inr a
          · exact .inl ⟨a, b⟩
      · rw [List.nodup_append]
        refine ⟨h.nodup, by simp, ?_⟩
        intro a ha b hb e
        rw [List.mem_singleton] at hb
        have := (h.res a).1 ha
        rw [e, hb, hs'] at this
        cases this.1
      · intro j hj
        rcases List.mem_cons.1 hj with rfl | hj
        · exact (hset _).2 (.inl rfl)
        · exact (hset j).2 (.inr (h.stk j hj))
      · intro j hj; exact (hset j).2 (.inr hj)
      · have hc : st.seen.count false ≥ 1 := List.count_pos_iff.2 (hs ▸ List.getElem_mem hlt)
        simp only [measure, List.length_cons]
        rw [List.count_set hlt, hs]
        simp; omega
      · intro j hj
        rcases (hset j).1 hj with e | e
        · exact .inr (by rw [e]; exact List.mem_cons_self)
        · exact .inl e
      · intro j hj; exact List.mem_cons_of_mem _ hj

theorem visitSlot_spec (refs : List FrameRef) (t mask row s : Nat) (st : Dfs) (h : Inv t st) (hrow : row ≤ t) (ht : t < refs.length) :
    ∃ st', visitSlot refs mask row st s = some st' ∧ Ext t st st' ∧
      (mask.testBit s = true → ∀ j, Holds refs s (row + 1) j → st'.seen[j]? = some true) := by
  unfold visitSlot
  by_cases hm : mask.testBit s = true
  · rw [if_pos hm]
    obtain ⟨r, h1, h2⟩ := storage_spec refs s row (by omega)
    rw [h1, Option.bind_some]
    obtain ⟨st', g1, g2, g3⟩ := visit_spec t refs.length r st h (by
      rcases h2 with h2 | h2
      · right; have := h2.1; omega
      · left; exact h2.1)
    refine ⟨st', g1, g2, ?_⟩
    intro _ j hj
    rcases h2 with h2 | h2
    · rw [← holds_unique h2 hj]
      exact g3 (by have := h2.1; omega)
    · exact absurd hj (h2.2 j)
  · rw [if_neg hm]
    exact ⟨st, rfl, Ext.refl h, fun e => absurd e hm⟩

theorem visitSlots_list (refs : List FrameRef) (t mask row : Nat) (hrow : row ≤ t) (ht : t < refs.length) (ss : List Nat) :
    ∀ st, Inv t st → ∃ st', ss.foldlM (visitSlot refs mask row) st = some st' ∧ Ext t st st' ∧
      ∀ s ∈ ss, mask.testBit s = true → ∀ j, Holds refs s (row + 1) j → st'.seen[j]? = some true := by
  induction ss with
  | nil => intro st h; exact ⟨st, rfl, Ext.refl h, by simp⟩
  | cons s ss ih =>
    intro st h
    obtain ⟨st1, a1, a2, a3⟩ := visitSlot_spec refs t mask row s st h hrow ht
    obtain ⟨st2, b1, b2, b3⟩ := ih st1 a2.inv
    refine ⟨st2, ?_, a2.trans b2, ?_⟩
    · rw [List.foldlM_cons, a1]
      simp only [Option.bind_eq_bind, Option.bind_some]
      exact b1
    · intro s' hs' hm j hj
      rcases List.mem_cons.1 hs' with rfl | hs'
      · exact b2.mono j (a3 hm j hj)
      · exact b3 s' hs' hm j hj

theorem visitSlots_spec (refs : List FrameRef) (t mask row : Nat) (hrow : row ≤ t) (ht : t < refs.length) (st : Dfs) (h : Inv t st) :
    ∃ st', visitSlots refs mask row st = some st' ∧ Ext t st st' ∧
      ∀ s < 8, mask.testBit s = true → ∀ j, Holds refs s (row + 1) j → st'.seen[j]? = some true := by
  obtain ⟨st', a, b, c⟩ := visitSlots_list refs t mask row hrow ht (List.range 8) st h
  exact ⟨st', a, b, fun s hs => c s (List.mem_range.2 hs)⟩

/-- Everything that a seen frame reads is seen, unless it is still on the stack. -/
def Closed (refs : List FrameRef) (st : Dfs) : Prop :=
  ∀ i : Nat, st.seen[i]? = some true → i ∈ st.stack ∨ ∀ j, Reads refs i j → st.seen[j]? = some true

theorem expand_spec (refs : List FrameRef) (t i : Nat) (ht : t < refs.length) (st : Dfs) (h : Inv t st) (hi : i ≤ t) :
    ∃ st', expand refs i st = some st' ∧ Ext t st st' ∧ ∀ j, Reads refs i j → st'.seen[j]? = some true := by
  unfold expand
  by_cases h0 : i = 0
  · refine ⟨st, by rw [if_pos h0], Ext.refl h, ?_⟩
    rintro j ⟨f, s, _, _, _, hh⟩
    have := hh.1; omega
  · rw [if_neg h0, List.getElem?_eq_getElem (by omega), Option.bind_some]
    obtain ⟨st', a, b, c⟩ := visitSlots_spec refs t refs[i].reference (i - 1) (by omega) ht st h
    refine ⟨st', a, b, ?_⟩
    rintro j ⟨f, s, hf, hs, hb, hh⟩
    rw [List.getElem?_eq_getElem (by omega)] at hf
    cases hf
    apply c s hs hb j
    rw [show i - 1 + 1 = i by omega]; exact hh

theorem seen_le {t : Nat} {st : Dfs} (h : Inv t st) {j : Nat} (hj : st.seen[j]? = some true) : j ≤ t := by
  have : j < st.seen.length := by
    rcases Nat.lt_or_ge j st.seen.length with g | g
    · exact g
    · rw [List.getElem?_eq_none g] at hj; cases hj
  rw [h.len] at this; omega

theorem loop_spec (refs : List FrameRef) (t : Nat) (ht : t < refs.length) : ∀ (fuel : Nat) (st : Dfs), Inv t st → Closed refs st → measure st < fuel →
    ∃ st', loop refs fuel st = some st' ∧ Inv t st' ∧ (∀ j : Nat, st.seen[j]? = some true → st'.seen[j]? = some true) ∧
      ∀ i j, st'.seen[i]? = some true → Reads refs i j → st'.seen[j]? = some true := by
  intro fuel
  induction fuel with
  | zero => intro st _ _ h; omega
  | succ fuel ih =>
    intro st h hc hm
    rw [loop]
    cases hs : st.stack with
    | nil =>
      refine ⟨st, rfl, h, fun _ h => h, ?_⟩
      intro i j hi hr
      rcases hc i hi with e | e
      · rw [hs] at e; cases e
      · exact e j hr
    | cons i rest =>
      have hi := seen_le h (h.stk i (by rw [hs]; exact List.mem_cons_self))
      have h' : Inv t { st with stack := rest } := ⟨h.len, h.self, h.res, h.nodup, fun j hj => h.stk j (by rw [hs]; exact List.mem_cons_of_mem _ hj)⟩
      obtain ⟨st1, a1, a2, a3⟩ := expand_spec refs t i ht _ h' hi
      have hc1 : Closed refs st1 := by
        intro k hk
        rcases a2.new k hk with e | e
        · rcases hc k e with g | g
          · rw [hs] at g
            rcases List.mem_cons.1 g with rfl | g
            · exact .inr a3
            · exact .inl (a2.sub k g)
          · exact .inr fun j hj => a2.mono j (g j hj)
        · exact .inl e
      have hm1 : measure st1 < fuel := by
        have := a2.meas
        simp only [measure, hs, List.length_cons] at this hm ⊢
        omega
      obtain ⟨st2, b1, b2, b3, b4⟩ := ih st1 a2.inv hc1 hm1
      refine ⟨st2, ?_, b2, fun j hj => b3 j (a2.mono j hj), b4⟩
      dsimp only
      rw [a1, Option.bind_some, b1]

/-- The dependencies are computed without leaving any array; they are distinct, lie before the target, are closed under reading, and
contain everything in a slot when the target is done. -/
theorem dependencies_spec (t : Nat) (refs : List FrameRef) (ht : t < refs.length) :
    ∃ r, dependencies t refs = some r ∧ r.Nodup ∧ (∀ j ∈ r, j < t) ∧
      (∀ s < 8, ∀ j, Holds refs s (t + 1) j → j ∈ r ∨ j = t) ∧ (∀ i j, i ∈ r ∨ i = t → Reads refs i j → j ∈ r) := by
  unfold dependencies
  rw [if_pos ht]
  have hlt : t < (List.replicate (t + 1) false).length := by simp
  have h0 : Inv t { seen := (List.replicate (t + 1) false).set t true, stack := [t], result := [] } := by
    have key : ∀ j : Nat, ((List.replicate (t + 1) false).set t true)[j]? = some true ↔ j = t := by
      intro j
      by_cases e : t = j
      · subst e; rw [List.getElem?_set_self hlt]; simp
      · rw [List.getElem?_set_ne e, List.getElem?_replicate]
        split
        · simp; omega
        · simp; omega
    refine ⟨by simp, (key t).2 rfl, ?_, by simp, ?_⟩
    · intro j; simp only [key]; simp
    · intro j hj; rw [List.mem_singleton] at hj; exact (key j).2 hj
  obtain ⟨st1, a1, a2, a3⟩ := visitSlots_spec refs t 255 t (Nat.le_refl _) ht _ h0
  have hc1 : Closed refs st1 := by
    intro k hk
    rcases a2.new k hk with e | e
    · left
      have : k = t := by
        rcases Decidable.em (k = t) with h | h
        · exact h
        · exact absurd ((h0.res k).2 ⟨e, h⟩) (by simp)
      rw [this]; exact a2.sub t (by simp)
    · exact .inl e
  have hm : measure st1 < t + 2 := by
    rw [a2.meas]
    simp only [measure]
    rw [List.count_set hlt]
    simp
  obtain ⟨st2, b1, b2, b3, b4⟩ := loop_spec refs t ht (t + 2) st1 a2.inv hc1 hm
  have hres : ∀ j : Nat, st2.seen[j]? = some true → j ∈ st2.result ∨ j = t := by
    intro j hj
    rcases Decidable.em (j = t) with h | h
    · exact .inr h
    · exact .inl ((b2.res j).2 ⟨hj, h⟩)
  refine ⟨st2.result, ?_, b2.nodup, ?_, ?_, ?_⟩
  · simp only [Option.bind_eq_bind]
    rw [a1]
    simp only [Option.bind_some]
    rw [b1]
    rfl
  · intro j hj
    have := (b2.res j).1 hj
    have h2 := seen_le b2 this.1
    omega
  · intro s hs j hj
    apply hres
    apply b3
    apply a3 s hs _ j hj
    have : s = 0 ∨ s = 1 ∨ s = 2 ∨ s = 3 ∨ s = 4 ∨ s = 5 ∨ s = 6 ∨ s = 7 := by omega
    rcases this with rfl | rfl | rfl | rfl | rfl | rfl | rfl | rfl <;> rfl
  · intro i j hi hr
    have hi' : st2.seen[i]? = some true := by
      rcases hi with hi | rfl
      · exact ((b2.res i).1 hi).1
      · exact b2.self
    have hj := b4 i j hi' hr
    rcases hres j hj with h | h
    · exact h
    · obtain ⟨f, s, _, _, _, hh⟩ := hr
      have := hh.1
      have := seen_le b2 hi'
      omega

/-- The recorded references describe the file up to frame `t`: the stored slots are right and no read slot is missing. -/
def Describes (refs fs : List FrameRef) (t : Nat) : Prop :=
  ∀ i ≤ t, ∃ r f, refs[i]? = some r ∧ fs[i]? = some f ∧ r.savedAs = f.savedAs ∧ ∀ s < 8, f.reference.testBit s = true → r.reference.testBit s = true

theorem Describes.saves {refs fs : List FrameRef} {t : Nat} (h : Describes refs fs t) {s i : Nat} (hi : i ≤ t) : Saves refs s i ↔ Saves fs s i := by
  obtain ⟨r, f, h1, h2, h3, _⟩ := h i hi
  unfold Saves
  rw [h1, h2]
  simp [h3]

theorem Describes.holds {refs fs : List FrameRef} {t : Nat} (h : Describes refs fs t) {s n j : Nat} (hn : n ≤ t + 1) (hj : Holds fs s n j) :
    Holds refs s n j := by
  refine ⟨hj.1, (h.saves (by have := hj.1; omega)).2 hj.2.1, ?_⟩
  intro k k1 k2 hs
  exact hj.2.2 k k1 k2 ((h.saves (by omega)).1 hs)

theorem needs_covered (refs fs : List FrameRef) (t : Nat) (hd : Describes refs fs t) (r : List Nat)
    (hslots : ∀ s < 8, ∀ j, Holds refs s (t + 1) j → j ∈ r ∨ j = t) (hclosed : ∀ i j, i ∈ r ∨ i = t → Reads refs i j → j ∈ r)
    (i j : Nat) (hi : t ≤ i) (h : Needs fs i j) : t ≤ j ∨ j ∈ r := by
  have one : ∀ i j, (t ≤ i ∨ i ∈ r) → Reads fs i j → t ≤ j ∨ j ∈ r := by
    intro i j hi hr
    rcases Nat.lt_or_ge j t with hj | hj
    · right
      obtain ⟨f, s, hf, hs, hb, hh⟩ := hr
      rcases Nat.lt_or_ge t i with h | h
      · -- a later frame: the slot still holds `j` after the target
        have : Holds refs s (t + 1) j := hd.holds (Nat.le_refl _) ⟨by omega, hh.2.1, fun k k1 k2 => hh.2.2 k k1 (by omega)⟩
        rcases hslots s hs j this with g | g
        · exact g
        · omega
      · obtain ⟨r', f', h1, h2, _, h4⟩ := hd i h
        rw [hf] at h2
        cases h2
        apply hclosed i j _ ⟨r', s, h1, hs, h4 s hs hb, hd.holds (by omega) hh⟩
        rcases hi with hi | hi
        · right; omega
        · exact .inl hi
    · exact .inl hj
  induction h with
  | direct hr => exact one _ _ (.inl hi) hr
  | step hn hr ih => exact one _ _ ih hr

theorem mark_spec (deps : List Nat) : ∀ (req : List Bool), (∀ j ∈ deps, j < req.length) →
    ∃ req', mark req deps = some req' ∧ req'.length = req.length ∧ ∀ j : Nat, req'[j]? = some true ↔ j ∈ deps ∨ req[j]? = some true := by
  induction deps with
  | nil => intro req _; exact ⟨req, rfl, rfl, by simp⟩
  | cons a deps ih =>
    intro req h
    have ha := h a List.mem_cons_self
    rw [mark, if_pos ha]
    obtain ⟨req', g1, g2, g3⟩ := ih (req.set a true) (fun j hj => by rw [List.length_set]; exact h j (List.mem_cons_of_mem _ hj))
    refine ⟨req', g1, by rw [g2, List.length_set], ?_⟩
    intro j
    rw [g3, List.mem_cons]
    by_cases e : a = j
    · subst e; rw [List.getElem?_set_self ha]; simp
    · rw [List.getElem?_set_ne e]
      constructor
      · rintro (h | h)
        · exact .inl (.inr h)
        · exact .inr h
      · rintro ((h | h) | h)
        · exact absurd h.symm e
        · exact .inl h
        · exact .inr h

end Jxl.SkipFrames
