import Verif.Lemmas.JxlpFile
namespace Jxl.Container

/-- The piece with index `i` of a codestream in `n` pieces. -/
def nth (n : Nat) (pay : Nat → List UInt8) (i : Nat) : Piece := ⟨i, pay i, decide (i + 1 = n)⟩

/-- The assembly when the pieces `l` have arrived and the first `k` are appended. -/
def st (v n : Nat) (pay : Nat → List UInt8) (l : List Nat) (k : Nat) : Asm :=
  { version := v, next := k, early := (l.filter (fun i => decide (k ≤ i))).map (nth n pay)
    last := decide (0 < n ∧ n ≤ k), out := (List.range k).flatMap pay }

theorem filter_congr_not (l : List Nat) (k : Nat) (h : k ∉ l) :
    l.filter (fun i => decide (k ≤ i)) = l.filter (fun i => decide (k + 1 ≤ i)) := by
  apply List.filter_congr
  intro i hi
  have : i ≠ k := fun e => h (e ▸ hi)
  simp only [decide_eq_decide]
  omega

theorem eraseP_nth (n : Nat) (pay : Nat → List UInt8) (k : Nat) : ∀ (l : List Nat), l.Nodup →
    k ∈ l → ((l.filter (fun i => decide (k ≤ i))).map (nth n pay)).eraseP (fun p => p.idx == k) =
      (l.filter (fun i => decide (k + 1 ≤ i))).map (nth n pay) := by
  intro l
  induction l with
  | nil => intro _ h; cases h
  | cons x t ih =>
    intro hn hk
    rw [List.nodup_cons] at hn
    by_cases hx : x = k
    · subst hx
      rw [List.filter_cons_of_pos (by simp), List.filter_cons_of_neg (by simp), List.map_cons,
        List.eraseP_cons_of_pos (by simp [nth]), filter_congr_not t x hn.1]
    · have hkt : k ∈ t := by
        rcases List.mem_cons.1 hk with h | h
        · exact absurd h.symm hx
        · exact h
      by_cases hle : k ≤ x
      · rw [List.filter_cons_of_pos (by simpa using hle),
          List.filter_cons_of_pos (by simp only [decide_eq_true_eq]; omega), List.map_cons,
          List.map_cons, List.eraseP_cons_of_neg (by simpa [nth] using hx), ih hn.2 hkt]
      · rw [List.filter_cons_of_neg (by simpa using hle),
          List.filter_cons_of_neg (by simp only [decide_eq_true_eq]; omega), ih hn.2 hkt]

theorem find_nth (n : Nat) (pay : Nat → List UInt8) (k : Nat) (l : List Nat) :
    ((l.filter (fun i => decide (k ≤ i))).map (nth n pay)).find? (fun p => p.idx == k) =
      if k ∈ l then some (nth n pay k) else none := by
  induction l with
  | nil => rfl
  | cons x t ih =>
    by_cases hx : x = k
    · subst hx
      rw [List.filter_cons_of_pos (by simp), List.map_cons,
        List.find?_cons_of_pos (by simp [nth]), if_pos (by simp)]
    · have hm : (k ∈ x :: t) ↔ k ∈ t := by
        rw [List.mem_cons]
        exact ⟨fun h => h.resolve_left (fun e => hx e.symm), .inr⟩
      have : (((x :: t).filter (fun i => decide (k ≤ i))).map (nth n pay)).find?
          (fun p => p.idx == k) = ((t.filter (fun i => decide (k ≤ i))).map (nth n pay)).find?
          (fun p => p.idx == k) := by
        by_cases hle : k ≤ x
        · rw [List.filter_cons_of_pos (by simpa using hle), List.map_cons,
            List.find?_cons_of_neg (by simpa [nth] using hx)]
        · rw [List.filter_cons_of_neg (by simpa using hle)]
      rw [this, ih]
      by_cases h : k ∈ t
      · rw [if_pos h, if_pos (hm.2 h)]
      · rw [if_neg h, if_neg (mt hm.1 h)]

theorem settle_st (v n : Nat) (pay : Nat → List UInt8) (l : List Nat) (hn : l.Nodup) :
    ∀ (m k : Nat), (l.filter (fun i => decide (k ≤ i))).length = m →
    ∃ k', k ≤ k' ∧ settle (st v n pay l k) = st v n pay l k' ∧ k' ∉ l ∧
      ∀ i, k ≤ i → i < k' → i ∈ l := by
  intro m
  induction m with
  | zero =>
    intro k hm
    have hk : k ∉ l := by
      intro h
      have : k ∈ l.filter (fun i => decide (k ≤ i)) := by simp [h]
      rw [List.length_eq_zero_iff] at hm
      rw [hm] at this
      cases this
    refine ⟨k, Nat.le_refl _, settle_none ?_, hk, fun i h1 h2 => by omega⟩
    exact (find_nth n pay k l).trans (if_neg hk)
  | succ m ih =>
    intro k hm
    by_cases hk : k ∈ l
    · have he := eraseP_nth n pay k l hn hk
      have hlen : (l.filter (fun i => decide (k + 1 ≤ i))).length = m := by
        have h1 := congrArg List.length he
        rw [List.length_map] at h1
        rw [← h1]
        have hf : ((l.filter (fun i => decide (k ≤ i))).map (nth n pay)).find?
          (fun p => p.idx == k) = some (nth n pay k) := (find_nth n pay k l).trans (if_pos hk)
        rw [List.length_eraseP_of_mem (List.mem_of_find?_eq_some hf) (by simp [nth]),
          List.length_map, hm]
        rfl
      obtain ⟨k', q1, q2, q3, q4⟩ := ih (k + 1) hlen
      refine ⟨k', by omega, ?_, q3, ?_⟩
      · rw [settle_some (a := st v n pay l k) (p := nth n pay k)
          ((find_nth n pay k l).trans (if_pos hk)), ← q2]
        congr 1
        simp only [st, he, nth, Asm.mk.injEq, true_and]
        constructor
        · rw [← Bool.decide_or, decide_eq_decide]; omega
        · rw [List.range_succ, List.flatMap_append]; simp
      · intro i h1 h2
        by_cases h : i = k
        · rw [h]; exact hk
        · exact q4 i (by omega) h2
    · refine ⟨k, Nat.le_refl _, settle_none ?_, hk, fun i h1 h2 => by omega⟩
      exact (find_nth n pay k l).trans (if_neg hk)

/-- Distinct pieces in any order. -/
theorem assemble_st (v n : Nat) (pay : Nat → List UInt8) (hv : v ≠ 0) : ∀ (t l : List Nat) (k : Nat),
    (l ++ t).Nodup → (∀ i ∈ l ++ t, i < n) → k ∉ l → (∀ i, i < k → i ∈ l) →
    ∃ k', assemble (st v n pay l k) (t.map (nth n pay)) = (st v n pay (l ++ t) k', false) ∧
      k' ∉ l ++ t ∧ ∀ i, i < k' → i ∈ l ++ t := by
  intro t
  induction t with
  | nil =>
    intro l k _ _ hk ha
    rw [List.append_nil]
    exact ⟨k, rfl, hk, ha⟩
  | cons x t ih =>
    intro l k hn hlt hk ha
    have hx : x ∉ l := by
      intro h
      have := (List.nodup_append.1 hn).2.2 x h x (by simp)
      exact this rfl
    have hxn : x < n := hlt x (by simp)
    have hkx : k ≤ x := by
      rcases Nat.lt_or_ge x k with h | h
      · exact absurd (ha x h) hx
      · exact h
    have hl1 : l ++ x :: t = (l ++ [x]) ++ t := by simp
    have hn1 : (l ++ [x]).Nodup := by
      rw [hl1] at hn
      exact (List.nodup_append.1 hn).1
    rw [List.map_cons, assemble]
    rw [if_neg (by
      simp only [st, nth, decide_eq_true_eq]
      rintro (h | h) <;> omega)]
    by_cases he : x = k
    · subst he
      rw [if_pos (show (nth n pay x).idx = (st v n pay l x).next from rfl)]
      have hst : ({ st v n pay l x with
          next := (st v n pay l x).next + 1
          last := (st v n pay l x).last || (nth n pay x).isLast
          out := (st v n pay l x).out ++ (nth n pay x).payload } : Asm) =
          st v n pay (l ++ [x]) (x + 1) := by
        simp only [st, nth, Asm.mk.injEq, true_and]
        refine ⟨?_, ?_, ?_⟩
        · rw [List.filter_append, filter_congr_not l x hx]
          simp
        · rw [← Bool.decide_or, decide_eq_decide]; omega
        · rw [List.range_succ, List.flatMap_append]; simp
      obtain ⟨k', q1, q2, q3, q4⟩ := settle_st v n pay (l ++ [x]) hn1 _ (x + 1) rfl
      rw [hst, q2, hl1]
      refine ih (l ++ [x]) k' (hl1 ▸ hn) (hl1 ▸ hlt) q3 ?_
      intro i hi
      by_cases h1 : i < x
      · exact List.mem_append_left _ (ha i h1)
      · by_cases h2 : i = x
        · rw [h2]; simp
        · exact q4 i (by omega) hi
    · rw [if_neg (show ¬ (nth n pay x).idx = (st v n pay l k).next from he),
        if_neg (show ¬ (st v n pay l k).version = 0 from hv)]
      rw [if_neg (by
        simp only [st, nth, List.any_map, List.any_eq_true, Function.comp, not_exists, not_and,
          beq_iff_eq]
        intro y hy hyx
        rw [List.mem_filter] at hy
        exact hx (hyx ▸ hy.1))]
      have hst : ({ st v n pay l k with early := (st v n pay l k).early ++ [nth n pay x] } : Asm) =
          st v n pay (l ++ [x]) k := by
        simp only [st, Asm.mk.injEq, true_and, and_true]
        rw [List.filter_append, List.map_append, List.filter_cons_of_pos (by simpa using hkx)]
        rfl
      rw [hst, hl1]
      refine ih (l ++ [x]) k (hl1 ▸ hn) (hl1 ▸ hlt) ?_ ?_
      · rw [List.mem_append, List.mem_singleton]
        rintro (h | h)
        · exact hk h
        · exact he h.symm
      · intro i hi; exact List.mem_append_left _ (ha i hi)

/-! Duplicates. -/

/-- Index `i` has been seen. -/
def Seen (a : Asm) (i : Nat) : Prop := i < a.next ∨ ∃ p ∈ a.early, p.idx = i

theorem settle_seen : ∀ (m : Nat) (a : Asm), a.early.length = m →
    (∀ i, Seen a i → Seen (settle a) i) ∧
      (settle a).early.find? (fun p => p.idx == (settle a).next) = none := by
  intro m
  induction m with
  | zero =>
    intro a hm
    rw [List.length_eq_zero_iff] at hm
    have hf : a.early.find? (fun p => p.idx == a.next) = none := by rw [hm]; rfl
    rw [settle_none hf]
    exact ⟨fun i h => h, hf⟩
  | succ m ih =>
    intro a hm
    cases hf : a.early.find? (fun p => p.idx == a.next) with
    | none => rw [settle_none hf]; exact ⟨fun i h => h, hf⟩
    | some p =>
      have hmem := List.mem_of_find?_eq_some hf
      have hp := List.find?_some hf
      rw [settle_some hf]
      obtain ⟨q1, q2⟩ := ih { a with
        next := a.next + 1, early := a.early.eraseP (fun p => p.idx == a.next)
        last := a.last || p.isLast, out := a.out ++ p.payload } (by
        show (a.early.eraseP (fun p => p.idx == a.next)).length = m
        rw [List.length_eraseP_of_mem hmem hp, hm]; rfl)
      refine ⟨fun i h => q1 i ?_, q2⟩
      rcases h with h | ⟨q, h1, h2⟩
      · exact .inl (by show i < a.next + 1; omega)
      · by_cases he : i = a.next
        · exact .inl (by show i < a.next + 1; omega)
        · refine .inr ⟨q, ?_, h2⟩
          show q ∈ a.early.eraseP _
          rw [List.mem_eraseP_of_neg (by simp only [beq_iff_eq]; omega)]
          exact h1

theorem assemble_dup : ∀ (ps : List Piece) (a : Asm) (l : List Nat),
    a.early.find? (fun p => p.idx == a.next) = none → (∀ i ∈ l, Seen a i) →
    (¬ (l ++ ps.map (·.idx)).Nodup) → l.Nodup → (assemble a ps).2 = true := by
  intro ps
  induction ps with
  | nil => intro a l _ _ h1 h2; simp at h1; exact absurd h2 h1
  | cons p t ih =>
    intro a l hs hseen hnd hl
    rw [assemble]
    by_cases h1 : a.last = true ∨ p.idx < a.next
    · rw [if_pos h1]
    rw [if_neg h1]
    have hd : l ++ (p :: t).map (·.idx) = (l ++ [p.idx]) ++ t.map (·.idx) := by simp
    have hl' : p.idx ∉ l → (l ++ [p.idx]).Nodup := by
      intro h
      rw [List.nodup_append]
      refine ⟨hl, by simp, ?_⟩
      intro x hx y hy e
      rw [List.mem_singleton] at hy
      exact h (by rw [← hy, ← e]; exact hx)
    by_cases h2 : p.idx = a.next
    · rw [if_pos h2]
      have hnot : p.idx ∉ l := by
        intro h
        rcases hseen _ h with h | ⟨q, q1, q2⟩
        · omega
        · have := List.find?_eq_none.1 hs q q1
          simp only [beq_iff_eq] at this
          omega
      obtain ⟨q1, q2⟩ := settle_seen _ { a with
        next := a.next + 1, last := a.last || p.isLast, out := a.out ++ p.payload } rfl
      refine ih _ (l ++ [p.idx]) q2 ?_ (hd ▸ hnd) (hl' hnot)
      intro i hi
      apply q1
      rw [List.mem_append, List.mem_singleton] at hi
      rcases hi with hi | hi
      · rcases hseen _ hi with h | h
        · exact .inl (by show i < a.next + 1; omega)
        · exact .inr h
      · exact .inl (by show i < a.next + 1; omega)
    rw [if_neg h2]
    by_cases h3 : a.version = 0
    · rw [if_pos h3]
    rw [if_neg h3]
    by_cases h4 : (a.early.any fun q => q.idx == p.idx) = true
    · rw [if_pos h4]
    rw [if_neg h4]
    have hnot : p.idx ∉ l := by
      intro h
      rcases hseen _ h with h | ⟨q, q1, q2⟩
      · exact h1 (.inr h)
      · exact h4 (List.any_eq_true.2 ⟨q, q1, by simp [q2]⟩)
    refine ih _ (l ++ [p.idx]) ?_ ?_ (hd ▸ hnd) (hl' hnot)
    · show (a.early ++ [p]).find? _ = none
      rw [List.find?_append, hs]
      simp [h2]
    · intro i hi
      rw [List.mem_append, List.mem_singleton] at hi
      rcases hi with hi | hi
      · rcases hseen _ hi with h | ⟨q, q1, q2⟩
        · exact .inl h
        · exact .inr ⟨q, List.mem_append_left _ q1, q2⟩
      · exact .inr ⟨p, by simp, hi.symm⟩

/-! Version 0. -/

theorem assemble_v0 : ∀ (ps : List Piece) (a : Asm), a.version = 0 → a.early = [] →
    ((assemble a ps).2 = false ↔
      (a.last = true → ps = []) ∧
      ∀ j p, ps[j]? = some p → p.idx = a.next + j ∧ (p.isLast = true → j + 1 = ps.length)) ∧
    ((assemble a ps).2 = false → (assemble a ps).1.out = a.out ++ ps.flatMap (·.payload)) := by
  intro ps
  induction ps with
  | nil => intro a _ _; simp [assemble]
  | cons p t ih =>
    intro a hv he
    rw [assemble]
    by_cases h1 : a.last = true ∨ p.idx < a.next
    · rw [if_pos h1]
      refine ⟨⟨(by intro h; cases h), ?_⟩, (by intro h; cases h)⟩
      rintro ⟨h2, h3⟩
      rcases h1 with h1 | h1
      · cases h2 h1
      · have := (h3 0 p rfl).1; omega
    rw [if_neg h1]
    have h1' : a.last = false := by
      cases h : a.last with
      | false => rfl
      | true => exact absurd (.inl h) h1
    by_cases h2 : p.idx = a.next
    · rw [if_pos h2]
      have hset : settle { a with
          next := a.next + 1, last := a.last || p.isLast, out := a.out ++ p.payload } =
          { a with next := a.next + 1, last := a.last || p.isLast, out := a.out ++ p.payload } :=
        settle_none (by simp [he])
      rw [hset]
      obtain ⟨i1, i2⟩ := ih { a with
        next := a.next + 1, last := a.last || p.isLast, out := a.out ++ p.payload } hv he
      refine ⟨?_, ?_⟩
      · rw [i1]
        constructor
        · rintro ⟨k1, k2⟩
          refine ⟨(by rw [h1']; intro h; cases h), ?_⟩
          intro j q hq
          cases j with
          | zero =>
            cases hq
            refine ⟨h2, ?_⟩
            intro hl
            have := k1 (by show (a.last || p.isLast) = true; rw [hl]; simp)
            rw [this]; rfl
          | succ j =>
            have hq : t[j]? = some q := hq
            obtain ⟨m1, m2⟩ := k2 j q hq
            refine ⟨?_, ?_⟩
            · show q.idx = a.next + (j + 1)
              have : q.idx = a.next + 1 + j := m1
              omega
            · intro hl
              have := m2 hl
              rw [List.length_cons]; omega
        · rintro ⟨_, k2⟩
          refine ⟨?_, ?_⟩
          · intro hl
            have hl : (a.last || p.isLast) = true := hl
            rw [h1', Bool.false_or] at hl
            have := (k2 0 p rfl).2 hl
            rw [List.length_cons] at this
            exact List.length_eq_zero_iff.1 (by omega)
          · intro j q hq
            obtain ⟨m1, m2⟩ := k2 (j + 1) q hq
            refine ⟨?_, ?_⟩
            · show q.idx = a.next + 1 + j
              omega
            · intro hl
              have := m2 hl
              rw [List.length_cons] at this; omega
      · intro h
        rw [i2 h]
        simp
    · rw [if_neg h2, if_pos hv]
      refine ⟨⟨(by intro h; cases h), ?_⟩, (by intro h; cases h)⟩
      rintro ⟨_, h3⟩
      exact absurd (h3 0 p rfl).1 h2

end Jxl.Container
