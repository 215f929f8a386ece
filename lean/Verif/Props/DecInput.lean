import Verif.Lemmas.DecInputRun
/-!
# C28: what the decoder sees does not depend on how the input is cut into pieces

Sessions are arbitrary interleavings of new input, iterations of the box loop and uses by the
codestream parser (`Reach`, Spec/DecClient).  The reference is `codestreamOf`/`malformed`
(Spec/Container), which read a whole file at once.
-/
namespace Jxl.Props
open DecInput Container

/-! Running a concrete session. -/

instance decInputLegalDecidable (c : Client) (s : Dec) (o : Op) : Decidable (Legal c s o) := by
  unfold Legal; cases o <;> infer_instance

/-- A session given by its operations; `none` if one is not legal or ends the session. -/
def decInputRun : List Op → Dec → Client → Option (Dec × Client)
  | [], s, c => some (s, c)
  | o :: t, s, c =>
    if Legal c s o then
      match DecInput.step o s with
      | some r => match r.state with
        | some s' => decInputRun t s' (c.next o r)
        | none => none
      | none => none
    else none

theorem decInputRun_reach : ∀ (ops : List Op) (s : Dec) (c : Client) (s' : Dec) (c' : Client),
    Reach s c → decInputRun ops s c = some (s', c') → Reach s' c' := by
  intro ops
  induction ops with
  | nil => intro s c s' c' h hr; cases hr; exact h
  | cons o t ih =>
    intro s c s' c' h hr
    rw [decInputRun] at hr
    by_cases hl : Legal c s o
    · rw [if_pos hl] at hr
      cases hs : DecInput.step o s with
      | none => rw [hs] at hr; cases hr
      | some r =>
        rw [hs] at hr
        cases hst : r.state with
        | none => simp only [hst] at hr; cases hr
        | some s1 =>
          simp only [hst] at hr
          exact ih _ _ _ _ (Reach.step o r h hl hs hst) hr
    · rw [if_neg hl] at hr; cases hr

theorem decInput_post {s c o r F} (h : Reach s c) (hl : Legal c s o)
    (hs : DecInput.step o s = some r) (hF : c.supplied <+: F) (hm : ∀ xs, o ≠ .more xs) :
    Post F c s o r := by
  obtain ⟨D, hB, hW⟩ := reach_inv h F hF
  obtain ⟨r', h1, h2⟩ := step_inv o hB hW (fun xs hx => absurd hx (hm xs)) hl
  rw [hs] at h1
  cases h1
  exact h2

theorem decInput_notMore {s o r} (hs : DecInput.step o s = some r) (hr : ∀ s', r ≠ .ok s') :
    ∀ xs, o ≠ .more xs := by
  intro xs h
  subst h
  cases hs
  exact hr _ rfl

/-! The theorems. -/

/-- No operation of any session reads outside the bytes given or computes a wrapped length. -/
theorem C28_safe (s : Dec) (c : Client) (o : Op) (h : Reach s c) (hl : Legal c s o) :
    DecInput.step o s ≠ none := by
  have hpre : c.supplied <+: (match o with | .more xs => c.supplied ++ xs | _ => c.supplied) := by
    cases o <;> first | exact List.prefix_refl _ | exact List.prefix_append _ _
  obtain ⟨D, hB, hW⟩ := reach_inv h _ hpre
  obtain ⟨r, h1, _⟩ := step_inv o hB hW (by intro xs hx; subst hx; exact List.prefix_refl _) hl
  rw [h1]
  intro h; cases h

/-- Every span handed to the parser continues the codestream of the file exactly where the parser
stands, whatever the rest of the file will be. -/
theorem C28_spans (s s' : Dec) (c : Client) (o : Op) (l F : List UInt8) (h : Reach s c)
    (hl : Legal c s o) (hs : DecInput.step o s = some (.span l s')) (hF : c.supplied <+: F) :
    l <+: (codestreamOf F).drop c.used :=
  (decInput_post h hl hs hF (decInput_notMore hs (by intro s' h; cases h))).2

/-- When the decoder asks for more input, it holds precisely the codestream bytes of the input so
far that the parser has not consumed, and the input so far breaks no rule. -/
theorem C28_need (s s' : Dec) (c : Client) (o : Op) (h : Reach s c) (hl : Legal c s o)
    (hs : DecInput.step o s = some (.need s')) :
    s'.copy.drop s'.pos = (codestreamOf c.supplied).drop c.used ∧ s'.unconsumed = 0 ∧
      malformed c.supplied = false :=
  (decInput_post h hl hs (List.prefix_refl _)
    (decInput_notMore hs (by intro s' h; cases h))).2 rfl

/-- The same when the box loop ends in a box that extends to the end of the file. -/
theorem C28_done (s : Dec) (c : Client) (o : Op) (h : Reach s c) (hl : Legal c s o)
    (hs : DecInput.step o s = some .done) :
    s.copy.drop s.pos = (codestreamOf c.supplied).drop c.used ∧ malformed c.supplied = false := by
  have := decInput_post h hl hs (List.prefix_refl _) (decInput_notMore hs (by intro s' h; cases h))
  exact ⟨(this rfl).1, (this rfl).2.2⟩

/-- The decoder refuses only files that break a rule, and then every continuation breaks it. -/
theorem C28_refused (s : Dec) (c : Client) (o : Op) (F : List UInt8) (h : Reach s c)
    (hl : Legal c s o) (hs : DecInput.step o s = some .refused) (hF : c.supplied <+: F) :
    malformed F = true :=
  decInput_post h hl hs hF (decInput_notMore hs (by intro s' h; cases h))

/-- Other errors: the internal one needs a skip beyond the last span in a version 1 file, the
limit at least 2^20 bytes of input. -/
theorem C28_errors (s : Dec) (c : Client) (o : Op) (h : Reach s c) (hl : Legal c s o) :
    (DecInput.step o s = some .internal → c.over = true ∧ (reading c.supplied).1.version ≠ 0) ∧
    (DecInput.step o s = some .limit → 2 ^ 20 ≤ c.supplied.length) :=
  ⟨fun hs => decInput_post h hl hs (List.prefix_refl _)
      (decInput_notMore hs (by intro s' h; cases h)),
   fun hs => decInput_post h hl hs (List.prefix_refl _)
      (decInput_notMore hs (by intro s' h; cases h))⟩

/-- Left to itself the decoder stops within a number of steps linear in what it holds, with a span
for the parser or an answer for the caller, and this outcome agrees with the whole file. -/
theorem C28_progress (b : Bool) (s : Dec) (c : Client) (h : Reach s c) :
    ∃ r, drive b (s.inp.length + s.ooo.length + 10) s = some r ∧
      match r with
      | .ok _ => False
      | .span l _ => ∀ F, c.supplied <+: F → l <+: (codestreamOf F).drop c.used
      | .need s' => s'.copy.drop s'.pos = (codestreamOf c.supplied).drop c.used ∧
          malformed c.supplied = false
      | .done => malformed c.supplied = false
      | .refused => ∀ F, c.supplied <+: F → malformed F = true
      | .internal => (reading c.supplied).1.version ≠ 0
      | .limit => 2 ^ 20 ≤ c.supplied.length := by
  have hphi : phi s < s.inp.length + s.ooo.length + 10 := by
    have : rank s ≤ 9 := by
      unfold rank
      cases s.stage <;> dsimp only <;> (try split) <;> omega
    unfold phi
    omega
  obtain ⟨s1, c1, r, q1, q2, q3, q4, q5, q6, q7⟩ := drive_end b _ s c h hphi
  refine ⟨r, q6, ?_⟩
  rw [← q2, ← q3]
  cases r with
  | ok s' => exact q7 s' rfl
  | span l s' => exact fun F hF => C28_spans _ _ _ _ _ F q1 q4 q5 hF
  | need s' => exact ⟨(C28_need _ _ _ _ q1 q4 q5).1, (C28_need _ _ _ _ q1 q4 q5).2.2⟩
  | done => exact (C28_done _ _ _ q1 q4 q5).2
  | refused => exact fun F hF => C28_refused _ _ _ F q1 q4 q5 hF
  | internal => exact ((C28_errors _ _ _ q1 q4).1 q5).2
  | limit => exact (C28_errors _ _ _ q1 q4).2 q5

/-- Two sessions that were given the same bytes in different pieces, whose parsers stand at the
same place, hold the same bytes when they ask for more; and a file refused in one way of cutting
it is not waited for in another. -/
theorem C28_chunking (s1 s1' s2 : Dec) (c1 c2 : Client) (o1 o2 : Op) (r : Res)
    (h1 : Reach s1 c1) (h2 : Reach s2 c2) (l1 : Legal c1 s1 o1) (l2 : Legal c2 s2 o2)
    (hsame : c1.supplied = c2.supplied) (hpos : c1.used = c2.used)
    (e1 : DecInput.step o1 s1 = some (.need s1')) (e2 : DecInput.step o2 s2 = some r) :
    r ≠ .refused ∧
    (∀ s2', r = .need s2' → s1'.copy.drop s1'.pos = s2'.copy.drop s2'.pos) := by
  have hn := C28_need _ _ _ _ h1 l1 e1
  constructor
  · intro hr
    subst hr
    have := C28_refused _ _ _ c2.supplied h2 l2 e2 (List.prefix_refl _)
    rw [← hsame, hn.2.2] at this
    cases this
  · intro s2' hr
    subst hr
    have := C28_need _ _ _ _ h2 l2 e2
    rw [hn.1, this.1, hsame, hpos]

/-! Concrete files and sessions. -/

def decInputSig : List UInt8 := [0, 0, 0, 0xc, 0x4a, 0x58, 0x4c, 0x20, 0xd, 0xa, 0x87, 0xa]
def decInputFtyp (v : UInt8) : List UInt8 :=
  [0, 0, 0, 0x14, 0x66, 0x74, 0x79, 0x70, 0x6a, 0x78, 0x6c, 0x20, 0, 0, 0, v, 0x6a, 0x78, 0x6c, 0x20]
def decInputPiece (i fl : UInt8) (l : List UInt8) : List UInt8 :=
  [0, 0, 0, UInt8.ofNat (12 + l.length), 0x6a, 0x78, 0x6c, 0x70, fl, 0, 0, i] ++ l

/-- Version 1, second piece first. -/
def decInputSwapped : List UInt8 :=
  decInputSig ++ decInputFtyp 1 ++ decInputPiece 1 128 [7] ++ decInputPiece 0 0 [0xff, 0x0a]

/-- Iterations of the box loop up to the first codestream byte of `decInputSwapped`. -/
def decInputTicks (n : Nat) : List Op := List.replicate n (.tick false)

example : codestreamOf decInputSwapped = [0xff, 0x0a, 7] ∧ malformed decInputSwapped = false := by
  decide +kernel

/-- Sessions exist: the file in two pieces cut inside a box header; the parser takes both bytes
and is then given the piece that came first in the file. -/
example : ((decInputRun ([.more (decInputSwapped.take 37)] ++ decInputTicks 6 ++
      [.more (decInputSwapped.drop 37)] ++ decInputTicks 6 ++ [.get, .advance 2, .get]) {} {}).bind
      fun p => (DecInput.step .get p.1).map fun r => match r with
        | .span l _ => (l, p.2.used)
        | _ => ([], 0)) = some ([7], 2) := by decide +kernel

/-- A bare codestream byte by byte. -/
example : ((decInputRun [.more [0xff], .tick false, .more [0x0a], .tick false, .tick false, .get,
      .advance 1, .get, .request, .more [5], .get, .advance 2] {} {}).map
      fun p => (p.2.used, p.1.pos, p.1.copy, p.1.inp)) = some (3, 0, [], []) := by decide +kernel

/-! Where the property fails. -/

/-- A well-formed version 1 file can end in an internal error: the parser skips beyond the last
span, and the piece injected next is shorter than what is left to skip. -/
theorem C28_internal_witness :
    ∃ s c, Reach s c ∧ Legal c s .get ∧ DecInput.step .get s = some .internal ∧
      malformed c.supplied = false := by
  have h : ∃ p, decInputRun ([.more decInputSwapped] ++ decInputTicks 11 ++
      [.get, .advance 5, .get]) {} {} = some p ∧ Legal p.2 p.1 .get ∧
      DecInput.step .get p.1 = some .internal ∧ malformed p.2.supplied = false := by
    refine ⟨((decInputRun ([.more decInputSwapped] ++ decInputTicks 11 ++
      [.get, .advance 5, .get]) {} {}).getD ({}, {})), ?_⟩
    decide +kernel
  obtain ⟨p, h1, h2⟩ := h
  exact ⟨p.1, p.2, decInputRun_reach _ _ _ _ _ Reach.init h1, h2⟩

/-- Version 0, two pieces in order. -/
def decInputPlain : List UInt8 :=
  decInputSig ++ decInputFtyp 0 ++ decInputPiece 0 0 [0xff, 0x0a] ++
    decInputPiece 1 128 [1, 2, 3, 4, 5, 6, 7, 8]

/-- Skipping codestream bytes while a box event is pending takes them from the box header, which
is still in the window; a well-formed file is then refused. -/
theorem C28_skip_in_box_event_witness :
    ∃ s c n s', Reach s c ∧ c.over = false ∧ s.stage = .partialCs ∧ s.headerSize = 8 ∧
      malformed c.supplied = false ∧ n ≤ ((codestreamOf c.supplied).drop c.used).length ∧
      DecInput.step (.advance n) s = some (.ok s') ∧
      DecInput.step (.tick false) s' = some .refused := by
  have h : ∃ p s', decInputRun ([.more decInputPlain] ++ decInputTicks 8 ++
      [.get, .advance 2, .get, .tick false]) {} {} = some p ∧
      p.2.over = false ∧ p.1.stage = .partialCs ∧ p.1.headerSize = 8 ∧
      malformed p.2.supplied = false ∧ 6 ≤ ((codestreamOf p.2.supplied).drop p.2.used).length ∧
      DecInput.step (.advance 6) p.1 = some (.ok s') ∧
      DecInput.step (.tick false) s' = some .refused := by
    refine ⟨((decInputRun ([.more decInputPlain] ++ decInputTicks 8 ++
      [.get, .advance 2, .get, .tick false]) {} {}).getD ({}, {})), ?_⟩
    refine ⟨(((DecInput.advance 6 ((decInputRun ([.more decInputPlain] ++ decInputTicks 8 ++
      [.get, .advance 2, .get, .tick false]) {} {}).getD ({}, {})).1)).getD {}), ?_⟩
    decide +kernel
  obtain ⟨p, s', h1, h2⟩ := h
  exact ⟨p.1, p.2, 6, s', decInputRun_reach _ _ _ _ _ Reach.init h1, h2⟩

end Jxl.Props
