import Verif.Lemmas.DecInputTick
/-! The box loop does not run forever. -/
namespace Jxl.DecInput
open Container

/-- What the decoder does next by itself. -/
def auto (b : Bool) (s : Dec) : Op := if s.stage = .codestream then .get else .tick b

/-- Let the decoder run, at most `n` steps, until the parser gets a span or the caller an answer. -/
def drive (b : Bool) : Nat → Dec → Option Res
  | 0, s => some (.ok s)
  | n + 1, s => match step (auto b s) s with
    | some (.ok s') => drive b n s'
    | r => r

def rank (s : Dec) : Nat :=
  match s.stage with
  | .start => 9
  | .header => if s.container then 2 else 6
  | .ftyp => 5
  | .skip => 3
  | .partialCs => 6
  | .codestream => 4
  | .buffering => 3

def phi (s : Dec) : Nat := (s.inp.length - s.headerSize) + s.ooo.length + rank s

theorem enter_some {s s1 : Dec} (h : enter s = some s1) :
    s1 = { s with inp := s.inp.drop s.headerSize, filePos := s.filePos + s.headerSize, headerSize := 0 } ∧
      s.headerSize ≤ s.inp.length := by
  unfold enter advIn at h
  by_cases hl : s.headerSize ≤ s.inp.length
  · rw [if_pos hl] at h; cases h; exact ⟨rfl, hl⟩
  · rw [if_neg hl] at h; cases h

theorem advIn_some {n : Nat} {s s1 : Dec} (h : advIn n s = some s1) :
    s1 = { s with inp := s.inp.drop n, filePos := s.filePos + n } ∧ n ≤ s.inp.length := by
  unfold advIn at h
  by_cases hl : n ≤ s.inp.length
  · rw [if_pos hl] at h; cases h; exact ⟨rfl, hl⟩
  · rw [if_neg hl] at h; cases h

/-- Consequences of a parser step after which the loop goes on. -/
def Less (s s' : Dec) : Prop :=
  s'.headerSize = s.headerSize ∧ s'.inp.length ≤ s.inp.length ∧ s'.container = s.container ∧
    s.unbounded = false ∧
    ((s'.ooo.length < s.ooo.length ∧ s'.stage = s.stage) ∨
      (s'.ooo = s.ooo ∧ s'.stage = .header))

theorem afterNeed_less {s s' : Dec} (h : afterNeed s = .ok s') : Less s s' := by
  unfold afterNeed at h
  by_cases he : s.filePos = s.cend ∧ s.unbounded = false
  · rw [if_pos he] at h
    cases hf : find s.nextIdx s.ooo with
    | none =>
      rw [hf] at h; cases h
      exact ⟨rfl, Nat.le_refl _, rfl, he.2, .inr ⟨rfl, rfl⟩⟩
    | some e =>
      rw [hf] at h; cases h
      have := erase_sum _ _ _ hf
      exact ⟨rfl, Nat.le_refl _, rfl, he.2, .inl ⟨by simp only [inject]; omega, rfl⟩⟩
  · rw [if_neg he] at h; cases h

theorem request_less {s s' : Dec} (h : request s = some (.ok s')) : Less s s' := by
  unfold request at h
  rw [Option.map_eq_some_iff] at h
  obtain ⟨r, hr, hm⟩ := h
  cases r with
  | none => cases hm
  | some s1 =>
    have hl := afterNeed_less hm
    have : s1.headerSize = s.headerSize ∧ s1.inp.length ≤ s.inp.length ∧ s1.container = s.container ∧
        s1.unbounded = s.unbounded ∧ s1.ooo = s.ooo ∧ s1.stage = s.stage := by
      unfold requestMore at hr
      by_cases hc : s.copy = []
      · rw [if_pos hc] at hr
        cases ha : avail s with
        | none => rw [ha] at hr; cases hr
        | some a =>
          rw [ha] at hr
          simp only [Option.bind_some] at hr
          by_cases hcan : canAdd s a = true
          · rw [if_pos hcan, Option.map_eq_some_iff] at hr
            obtain ⟨s2, h2, h3⟩ := hr
            cases h3
            obtain ⟨rfl, _⟩ := advIn_some h2
            refine ⟨rfl, ?_, rfl, rfl, rfl, rfl⟩
            dsimp only; rw [List.length_drop]; omega
          · rw [if_neg hcan] at hr; cases hr
      · rw [if_neg hc, Option.map_eq_some_iff] at hr
        obtain ⟨s2, h2, h3⟩ := hr
        cases h3
        obtain ⟨rfl, _⟩ := advIn_some h2
        refine ⟨rfl, ?_, rfl, rfl, rfl, rfl⟩
        dsimp only; rw [List.length_drop]; omega
    obtain ⟨k1, k2, k3, k4, k5, k6⟩ := this
    obtain ⟨l1, l2, l3, l4, l5⟩ := hl
    refine ⟨by omega, by omega, by rw [l3, k3], by rw [← k4, l4], ?_⟩
    rw [← k5, ← k6]; exact l5

theorem getTail_less {s s' : Dec} (h : getTail s = some (.ok s')) : Less s s' := by
  unfold getTail at h
  by_cases h1 : s.copy.length < s.pos
  · rw [if_pos h1] at h; cases h
  rw [if_neg h1] at h
  by_cases h2 : s.copy.length < s.unconsumed
  · rw [if_pos h2] at h; cases h
  rw [if_neg h2] at h
  cases ha : avail s with
  | none => rw [ha] at h; cases h
  | some a =>
    rw [ha] at h
    simp only [Option.bind_some] at h
    by_cases hc : s.copy = []
    · rw [if_pos hc] at h
      by_cases hz : a = 0
      · rw [if_pos hz] at h; exact request_less h
      · rw [if_neg hz] at h; cases h
    · rw [if_neg hc] at h
      by_cases hcan : canAdd s a = true
      · rw [if_pos hcan] at h
        by_cases hu : a < s.unconsumed
        · rw [if_pos hu] at h; cases h
        · rw [if_neg hu] at h; cases h
      · rw [if_neg hcan] at h; cases h

theorem getInput_less {s s' : Dec} (h : getInput s = some (.ok s')) : Less s s' := by
  unfold getInput at h
  by_cases hcp : s.copy = [] ∧ 0 < s.pos
  · rw [if_pos hcp] at h
    cases ha : avail s with
    | none => rw [ha] at h; cases h
    | some a =>
      rw [ha] at h
      simp only [Option.bind_some] at h
      rw [Option.bind_eq_some_iff] at h
      obtain ⟨s1, h1, h2⟩ := h
      obtain ⟨rfl, _⟩ := advIn_some h1
      have hl : Less { s with
          pos := s.pos - min s.pos a
          inp := s.inp.drop (min s.pos a)
          filePos := s.filePos + min s.pos a } s' := by
        by_cases hp : 0 < s.pos - min s.pos a
        · rw [if_pos (by exact hp)] at h2; exact request_less h2
        · rw [if_neg (by exact hp)] at h2; exact getTail_less h2
      obtain ⟨l1, l2, l3, l4, l5⟩ := hl
      refine ⟨l1, ?_, l3, l4, l5⟩
      dsimp only at l2
      rw [List.length_drop] at l2
      omega
  · rw [if_neg hcp] at h; exact getTail_less h

theorem get_phi {F S s D s'} (hB : Box F S s D) (hst : s.stage = .codestream)
    (h : step .get s = some (.ok s')) : phi s' < phi s := by
  have h : (enter s).bind getInput = some (.ok s') := h
  rw [Option.bind_eq_some_iff] at h
  obtain ⟨s1, h1, h2⟩ := h
  obtain ⟨rfl, hle⟩ := enter_some h1
  obtain ⟨l1, l2, l3, l4, l5⟩ := getInput_less h2
  dsimp only at l1 l2 l3 l4 l5
  rw [List.length_drop] at l2
  have hct : s.container = true := by
    by_cases h : s.container = true
    · exact h
    · have := hB.cont (by simpa using h)
      rw [hst, l4] at this
      rcases this with h | h | h
      · cases h
      · cases h
      · exact absurd h.2 (by decide)
  unfold phi rank
  rw [hst]
  dsimp only
  rcases l5 with ⟨k1, k2⟩ | ⟨k1, k2⟩
  · rw [k2, hst]; dsimp only; omega
  · rw [k2, k1]; dsimp only; rw [l3, if_pos hct]; omega

theorem tick_phi {F S s D s' b} (hB : Box F S s D) (hst : s.stage ≠ .codestream)
    (h : tick b s = some (.ok s')) : phi s' < phi s := by
  have hct : s.stage ≠ .start → s.stage ≠ .header → s.container = true := by
    intro h1 h2
    by_cases h : s.container = true
    · exact h
    · have := hB.cont (by simpa using h)
      rcases this with h | h | h
      · exact absurd h h1
      · exact absurd h h2
      · exact absurd h.1 hst
  unfold tick at h
  cases e : s.stage with
  | codestream => exact absurd e hst
  | start =>
    rw [e] at h
    simp only [Option.some.injEq] at h
    unfold tickStart at h
    cases hc : Signature.check s.inp <;> rw [hc] at h <;> cases h
    · unfold phi rank; rw [e]; dsimp only; split <;> omega
    · unfold phi rank; rw [e]; dsimp only; split <;> omega
  | header =>
    rw [e] at h
    simp only [Option.some.injEq] at h
    have h0 := (hB.hs0 (.inr e)).1
    unfold tickHeader at h
    by_cases hcf : s.container = false
    · rw [if_pos hcf] at h; cases h
      unfold phi rank; rw [e]; dsimp only; rw [if_neg (by rw [hcf]; decide)]; omega
    · rw [if_neg hcf] at h
      have hcf : s.container = true := by simpa using hcf
      by_cases hi : s.inp = []
      · rw [if_pos hi] at h; cases h
      rw [if_neg hi, parseHdr_eq] at h
      cases hb : boxHeader s.inp with
      | none => rw [hb] at h; cases h
      | some x =>
        obtain ⟨ty, hh, sz⟩ := x
        have hbl := boxHeader_len _ _ _ _ hb
        rw [hb] at h
        dsimp only at h
        by_cases h1 : 0 < sz ∧ sz < hh ∨ 2 ^ 64 ≤ s.filePos + sz
        · rw [if_pos h1] at h; cases h
        rw [if_neg h1] at h
        dsimp only at h
        by_cases h2 : ty = tBrob ∧ s.inp.length < hh + 4
        · rw [if_pos h2] at h; cases h
        rw [if_neg h2] at h
        unfold boxFound at h
        by_cases h3 : s.boxCount + 1 = 2 ∧ ty ≠ tFtyp
        · rw [if_pos h3] at h; cases h
        rw [if_neg h3] at h
        by_cases h4 : ty = tFtyp ∧ s.boxCount + 1 ≠ 2
        · rw [if_pos h4] at h; cases h
        rw [if_neg h4] at h
        have hgoal : ∀ st l, s' = { opened sz hh s with stage := st, last := l } → phi s' < phi s := by
          intro st l hs
          subst hs
          unfold phi rank
          rw [e]
          have hc' : (opened sz hh s).container = true := hcf
          cases st <;> dsimp only <;> simp only [hcf, hc', if_true] <;> simp only [opened] <;> omega
        have h : dispatch ty (opened sz hh s) = .ok s' := h
        unfold dispatch at h
        by_cases t1 : ty = tFtyp
        · rw [if_pos t1] at h; cases h; exact hgoal .ftyp s.last rfl
        rw [if_neg t1] at h
        by_cases t2 : ty = tJxlc
        · rw [if_pos t2] at h
          by_cases hl : s.last = true
          · rw [if_pos (by exact hl)] at h; cases h
          · rw [if_neg (by exact hl)] at h; cases h; exact hgoal .codestream true rfl
        rw [if_neg t2] at h
        by_cases t3 : ty = tJxlp
        · rw [if_pos t3] at h; cases h; exact hgoal .partialCs s.last rfl
        · rw [if_neg t3] at h; cases h; exact hgoal .skip s.last rfl
  | ftyp =>
    rw [e] at h
    simp only [Option.bind_eq_some_iff] at h
    obtain ⟨s1, h1, h2⟩ := h
    obtain ⟨rfl, hle⟩ := enter_some h1
    unfold tickFtyp at h2
    by_cases c1 : s.csize < 12
    · rw [if_pos (by exact c1)] at h2; cases h2
    rw [if_neg (by exact c1)] at h2
    split at h2
    · cases h2
    split at h2
    · cases h2
    split at h2
    · cases h2
    rw [Option.map_eq_some_iff] at h2
    obtain ⟨s2, h3, h4⟩ := h2
    cases h4
    obtain ⟨rfl, hl⟩ := advIn_some h3
    unfold phi rank
    rw [e]
    dsimp only at hl ⊢
    rw [List.length_drop] at hl
    rw [List.length_drop, List.length_drop]
    omega
  | skip =>
    rw [e] at h
    simp only [Option.bind_eq_some_iff] at h
    obtain ⟨s1, h1, h2⟩ := h
    obtain ⟨rfl, hle⟩ := enter_some h1
    unfold tickSkip at h2
    split at h2
    · split at h2
      · rw [Option.map_eq_some_iff] at h2
        obtain ⟨s2, h3, h4⟩ := h2
        cases h4
      · cases h2
    split at h2
    · split at h2
      · rw [Option.map_eq_some_iff] at h2
        obtain ⟨s2, h3, h4⟩ := h2
        cases h4
      · rw [Option.map_eq_some_iff] at h2
        obtain ⟨s2, h3, h4⟩ := h2
        cases h4
        obtain ⟨rfl, hl⟩ := advIn_some h3
        unfold phi rank
        rw [e]
        dsimp only at hl ⊢
        rw [if_pos (hct (by rw [e]; decide) (by rw [e]; decide))]
        rw [List.length_drop, List.length_drop]
        omega
    · cases h2
  | partialCs =>
    rw [e] at h
    simp only [Option.bind_eq_some_iff] at h
    obtain ⟨s1, h1, h2⟩ := h
    obtain ⟨rfl, hle⟩ := enter_some h1
    unfold tickPartial at h2
    split at h2
    · cases h2
    split at h2
    · cases h2
    split at h2
    · cases h2
    dsimp only at h2
    split at h2
    · cases h2
    rw [Option.map_eq_some_iff] at h2
    obtain ⟨s2, h3, h4⟩ := h2
    obtain ⟨rfl, hl⟩ := advIn_some h3
    dsimp only at hl
    rw [List.length_drop] at hl
    unfold partialFound at h4
    split at h4
    · cases h4
      unfold phi rank
      rw [e]
      dsimp only
      rw [List.length_drop, List.length_drop]
      omega
    · split at h4
      · split at h4
        · cases h4
        split at h4
        · cases h4
        cases h4
        unfold phi rank
        rw [e]
        dsimp only
        rw [List.length_drop, List.length_drop, List.length_append, List.length_singleton]
        omega
      · cases h4
  | buffering =>
    rw [e] at h
    simp only [Option.bind_eq_some_iff] at h
    obtain ⟨s1, h1, h2⟩ := h
    obtain ⟨rfl, hle⟩ := enter_some h1
    unfold tickBuffering at h2
    rw [Option.bind_eq_some_iff] at h2
    obtain ⟨a, _, h2⟩ := h2
    split at h2
    · rw [Option.map_eq_some_iff] at h2
      obtain ⟨s2, h3, h4⟩ := h2
      obtain ⟨rfl, hl⟩ := advIn_some h3
      split at h4
      · cases h4
        have hlen : ∀ i l o, (addTo i l o).length = o.length := by
          intro i l o
          induction o with
          | nil => rfl
          | cons x t ih =>
            rw [addTo]
            split
            · rfl
            · simp [ih]
        unfold phi rank
        rw [e]
        dsimp only
        rw [if_pos (hct (by rw [e]; decide) (by rw [e]; decide)), hlen]
        rw [List.length_drop, List.length_drop]
        omega
      · cases h4
    · cases h2

/-- The decoder comes to an end by itself, and the last step starts from a reachable state. -/
theorem drive_end (b : Bool) : ∀ (n : Nat) (s : Dec) (c : Client), Reach s c → phi s < n →
    ∃ s1 c1 r, Reach s1 c1 ∧ c1.supplied = c.supplied ∧ c1.used = c.used ∧
      Legal c1 s1 (auto b s1) ∧ step (auto b s1) s1 = some r ∧ drive b n s = some r ∧
      (∀ s', r ≠ .ok s') := by
  intro n
  induction n with
  | zero => intro s c _ h; omega
  | succ n ih =>
    intro s c hr hphi
    obtain ⟨D, hB, hW⟩ := reach_inv hr c.supplied (List.prefix_refl _)
    have hleg : Legal c s (auto b s) := by
      unfold auto
      by_cases h : s.stage = .codestream
      · rw [if_pos h]; exact h
      · rw [if_neg h]; trivial
    obtain ⟨r, hs, _⟩ := step_inv (auto b s) hB hW (by
      intro xs hx
      unfold auto at hx
      split at hx <;> cases hx) hleg
    rw [drive, hs]
    have hok : ∀ s', r = .ok s' → ∃ s1 c1 r, Reach s1 c1 ∧ c1.supplied = c.supplied ∧ c1.used = c.used ∧
        Legal c1 s1 (auto b s1) ∧ step (auto b s1) s1 = some r ∧ drive b n s' = some r ∧
        (∀ s', r ≠ .ok s') := by
      intro s' hrs
      subst hrs
      have hlt : phi s' < phi s := by
        unfold auto at hs
        by_cases h : s.stage = .codestream
        · rw [if_pos h] at hs; exact get_phi hB h hs
        · rw [if_neg h] at hs; exact tick_phi hB h hs
      have hr' := Reach.step _ _ hr hleg hs rfl
      obtain ⟨s1, c1, r, q1, q2, q3, q4⟩ := ih s' _ hr' (by omega)
      refine ⟨s1, c1, r, q1, ?_, ?_, q4⟩
      · rw [q2]
        unfold auto
        split <;> rfl
      · rw [q3]
        unfold auto
        split <;> rfl
    cases r with
    | ok s' => exact hok s' rfl
    | _ =>
      refine ⟨s, c, _, hr, rfl, rfl, hleg, hs, rfl, ?_⟩
      intro s' h; cases h

end Jxl.DecInput
