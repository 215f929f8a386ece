import Verif.Lemmas.Container
import Verif.Spec.DecClient
/-! The invariant relating the decoder's input window to the whole-file reading. -/
namespace Jxl.DecInput
open Container

def piece (e : Nat × List UInt8 × Bool) : Piece := ⟨e.1, e.2.1, e.2.2⟩
def asm (s : Dec) (D : List UInt8) : Asm := ⟨s.version, s.nextIdx, s.ooo.map piece, s.last, D⟩
def base (s : Dec) : Nat := s.filePos + s.headerSize
def len (s : Dec) : Option Nat := if s.unbounded then none else some (s.cend - base s)
def kont (F : List UInt8) (f : Nat) (s : Dec) : Asm → Out :=
  fun a => walk f s.cend s.boxCount a (F.drop s.cend)

/-- What the rest of the file contributes, by stage; `D` has been delivered. -/
def SpecAt (F : List UInt8) (s : Dec) (D : List UInt8) : Prop :=
  match s.stage with
  | .start => s = { inp := s.inp } ∧ D = []
  | .header =>
    if s.container then ∀ f, F.length < f →
      reading F = walk f s.filePos s.boxCount (asm s D) (F.drop s.filePos)
    else reading F = codeBody none (F.drop s.filePos) (asm s D) (fun a => (a, false))
  | .ftyp => ∀ f, F.length < f →
      reading F = ftypBody (len s) (F.drop (base s)) (asm s D) (kont F f s)
  | .skip => ∀ f, F.length < f →
      reading F = if s.unbounded then (asm s D, false) else kont F f s (asm s D)
  | .partialCs => ∀ f, F.length < f →
      reading F = partialBody (len s) (F.drop (base s)) (asm s D) (kont F f s)
  | .codestream => ∀ f, F.length < f →
      reading F = codeBody (len s) (F.drop (base s)) (asm s D) (kont F f s)
  | .buffering => ∃ O part b, s.ooo = O ++ [(s.bufIdx, part, b)] ∧ find s.bufIdx O = none ∧
      ∀ f, F.length < f → reading F =
        earlyBody (len s) (F.drop (base s)) (fun l => ⟨s.bufIdx, part ++ l, b⟩)
          { asm s D with early := O.map piece } (kont F f s)

structure Box (F S : List UInt8) (s : Dec) (D : List UInt8) : Prop where
  pre : S <+: F
  posLe : s.filePos ≤ S.length
  inpEq : S.drop s.filePos = s.inp
  hs : s.headerSize ≤ s.inp.length
  hs0 : s.stage = .start ∨ s.stage = .header →
    s.headerSize = 0 ∧ s.unbounded = false ∧ s.cend = s.filePos
  bnd : s.unbounded = false → s.filePos + s.headerSize ≤ s.cend
  csz : s.stage = .ftyp ∨ s.stage = .partialCs → s.csize = (len s).getD 0
  ver : s.ooo ≠ [] → 1 ≤ s.version
  vbc : (1 ≤ s.version → 2 ≤ s.boxCount) ∧ (s.stage = .ftyp → s.boxCount = 2 ∧ s.version = 0)
  tot : s.oooTotal = (s.ooo.map (fun e => e.2.1.length)).sum
  sig : s.stage ≠ .start → if s.container then boxed F = true ∧ bare F = false else bare F = true
  cont : s.container = false →
    s.stage = .start ∨ s.stage = .header ∨ (s.stage = .codestream ∧ s.unbounded = true)
  spec : SpecAt F s D

/-- Codestream bytes the parser can see. -/
def vis (s : Dec) : Nat :=
  if s.copy = [] then (if s.stage = .codestream ∧ s.headerSize = 0 then (avail s).getD 0 else 0)
  else s.copy.length - s.pos

structure Win (c : Client) (s : Dec) (D : List UInt8) : Prop where
  rel : ∃ pre X, D = pre ++ X ∧ s.copy = X ++ s.inp.take s.unconsumed ∧
    c.used = pre.length + s.pos
  unc : s.unconsumed ≤ s.inp.length
  uncBox : s.unconsumed ≠ 0 → s.stage = .codestream ∧ s.headerSize = 0 ∧
    (s.unbounded = false → s.filePos + s.unconsumed ≤ s.cend)
  posOk : (c.over = false ∨ s.version = 0) → s.copy ≠ [] → s.pos ≤ s.copy.length
  noOver : c.over = false → s.copy = [] → s.pos = 0
  remOk : c.over = false → c.rem ≤ vis s
  freshOk : c.fresh = true → s.stage = .codestream ∧ s.headerSize = 0 ∧
    (s.copy ≠ [] → avail s = some s.unconsumed)
  bud : (s.copy.length - s.unconsumed) + s.oooTotal + s.ooo.length ≤ s.filePos

/-! ### Generic transport -/

theorem Box.setWin {F S s D} (h : Box F S s D) (hst : s.stage ≠ .start)
    (cp : List UInt8) (u p : Nat) :
    Box F S { s with copy := cp, unconsumed := u, pos := p } D := by
  refine ⟨h.pre, h.posLe, h.inpEq, h.hs, h.hs0, h.bnd, h.csz, h.ver, h.vbc, h.tot, h.sig, h.cont, ?_⟩
  have hs := h.spec
  unfold SpecAt at hs ⊢
  cases e : s.stage <;> simp only [e] at hs hst ⊢
  · exact absurd rfl hst
  all_goals exact hs

theorem Win.mono {c s s' D} (h : Win c s D) (hst : s.stage ≠ .codestream ∨ s.headerSize ≠ 0)
    (hc : s'.copy = s.copy) (hp : s'.pos = s.pos) (hu : s'.unconsumed = s.unconsumed)
    (hv : s'.version = 0 → s.version = 0)
    (hb : s'.oooTotal + s'.ooo.length + s.filePos ≤ s.oooTotal + s.ooo.length + s'.filePos) :
    Win c s' D ∧ c.fresh = false := by
  have u0 : s.unconsumed = 0 := by
    by_cases hz : s.unconsumed = 0
    · exact hz
    · have := h.uncBox hz
      rcases hst with h1 | h1
      · exact absurd this.1 h1
      · exact absurd this.2.1 h1
  have fr : c.fresh = false := by
    by_cases hz : c.fresh = true
    · have := h.freshOk hz
      rcases hst with h1 | h1
      · exact absurd this.1 h1
      · exact absurd this.2.1 h1
    · simpa using hz
  refine ⟨⟨?_, by omega, by omega, ?_, ?_, ?_, ?_, ?_⟩, fr⟩
  · obtain ⟨pre, X, h1, h2, h3⟩ := h.rel
    refine ⟨pre, X, h1, ?_, ?_⟩
    · rw [hc, h2, hu, u0]; simp
    · rw [hp]; exact h3
  · intro ho hn
    rw [hp, hc]
    rw [hc] at hn
    exact h.posOk (ho.imp_right hv) hn
  · intro ho hn
    rw [hp]; rw [hc] at hn; exact h.noOver ho hn
  · intro ho
    have := h.remOk ho
    unfold vis at this ⊢
    rw [hc, hp]
    by_cases hcc : s.copy = []
    · rw [if_pos hcc] at this
      rw [if_neg (by grind)] at this
      omega
    · rw [if_neg hcc] at this ⊢; exact this
  · intro hf; rw [fr] at hf; cases hf
  · have := h.bud
    rw [hc, hu]; omega

/-- The rest of the file behind the window. -/
theorem Box.file {F S s D} (h : Box F S s D) : ∃ tl, F = S ++ tl ∧ F.length = s.filePos + s.inp.length + tl.length ∧
    ∀ m, m ≤ s.inp.length → F.drop (s.filePos + m) = s.inp.drop m ++ tl := by
  obtain ⟨tl, ht⟩ := h.pre
  have hp := h.posLe
  have hi := h.inpEq
  have hl : s.inp.length = S.length - s.filePos := by rw [← hi, List.length_drop]
  refine ⟨tl, ht.symm, ?_, ?_⟩
  · rw [← ht, List.length_append]; omega
  · intro m hm
    rw [← ht, List.drop_append_of_le_length (by omega), ← hi, List.drop_drop]

theorem asm_out (s D) : (asm s D).out = D := rfl

/-- The box loop consumes the pending header. -/
theorem enter_inv {F c s D} (hB : Box F c.supplied s D) (hW : Win c s D)
    (hst : s.stage ≠ .start ∧ s.stage ≠ .header) :
    ∃ s1, enter s = some s1 ∧ Box F c.supplied s1 D ∧ Win c s1 D ∧ s1.headerSize = 0 ∧
      s1.stage = s.stage ∧ s1.copy = s.copy ∧ s1.pos = s.pos := by
  by_cases h0 : s.headerSize = 0
  · refine ⟨s, ?_, hB, hW, h0, rfl, rfl, rfl⟩
    unfold enter advIn
    rw [if_pos hB.hs, h0]
    cases s
    simp_all
  · refine ⟨{ s with inp := s.inp.drop s.headerSize, filePos := s.filePos + s.headerSize, headerSize := 0 },
      ?_, ?_, ?_, rfl, rfl, rfl, rfl⟩
    · unfold enter advIn; rw [if_pos hB.hs]; rfl
    · have hp := hB.posLe
      have hi := hB.inpEq
      have hl : s.inp.length = c.supplied.length - s.filePos := by rw [← hi, List.length_drop]
      have hh := hB.hs
      refine ⟨hB.pre, ?_, ?_, ?_, fun h => (h.elim hst.1 hst.2).elim, ?_, ?_, hB.ver, hB.vbc, hB.tot, hB.sig, hB.cont, ?_⟩
      · dsimp only; omega
      · dsimp only; rw [← hi, List.drop_drop]
      · dsimp only; omega
      · dsimp only; exact hB.bnd
      · exact hB.csz
      · have hs := hB.spec
        unfold SpecAt at hs ⊢
        cases e : s.stage <;> simp only [e] at hs hst ⊢
        · simp at hst
        · simp at hst
        all_goals exact hs
    · exact (Win.mono hW (s' := { s with
        inp := s.inp.drop s.headerSize, filePos := s.filePos + s.headerSize, headerSize := 0 })
        (.inr h0) rfl rfl rfl (fun h => h) (by simp only []; omega)).1

/-- Codestream bytes are consumed. -/
theorem consume {F S s D} (hB : Box F S s D) (hst : s.stage = .codestream) (h0 : s.headerSize = 0)
    (m : Nat) (hm : m ≤ s.inp.length) (hb : s.unbounded = false → s.filePos + m ≤ s.cend) :
    Box F S { s with inp := s.inp.drop m, filePos := s.filePos + m } (D ++ s.inp.take m) := by
  have hp := hB.posLe
  have hi := hB.inpEq
  have hl : s.inp.length = S.length - s.filePos := by rw [← hi, List.length_drop]
  refine ⟨hB.pre, ?_, ?_, ?_, (by dsimp only; rw [hst]; intro h; rcases h with h | h <;> cases h), ?_, ?_, hB.ver, hB.vbc, hB.tot, hB.sig, hB.cont, ?_⟩
  · dsimp only; omega
  · dsimp only; rw [← hi, List.drop_drop]
  · dsimp only; omega
  · intro hu; have := hb hu; dsimp only; omega
  · dsimp only; rw [hst]; intro h; rcases h with h | h <;> cases h
  · obtain ⟨tl, hF, _, hd⟩ := hB.file
    have hs := hB.spec
    unfold SpecAt at hs ⊢
    simp only [hst] at hs ⊢
    intro f hf
    have e := hs f hf
    have hd0 := hd 0 (by omega)
    simp only [List.drop_zero, Nat.add_zero] at hd0
    have hdm := hd m hm
    unfold base at e ⊢
    unfold len base at e ⊢
    simp only [h0, Nat.add_zero] at e ⊢
    have ht : (s.inp ++ tl).take m = s.inp.take m := List.take_append_of_le_length hm
    have hdd : (s.inp ++ tl).drop m = s.inp.drop m ++ tl := List.drop_append_of_le_length hm
    by_cases hu : s.unbounded = true
    · simp only [hu, if_true] at e ⊢
      rw [hd0] at e
      rw [hdm, e, codeBody_none m, ht, hdd]
      rfl
    · simp only [hu] at e ⊢
      have hbb := hb (by simpa using hu)
      rw [hd0] at e
      rw [hdm, e]
      simp only [Bool.false_eq_true, if_false]
      rw [codeBody_some m (by omega) (by rw [List.length_append]; omega), ht, hdd]
      have : s.cend - s.filePos - m = s.cend - (s.filePos + m) := by omega
      rw [this]
      rfl

theorem kont_ext (F f s) : Ext (kont F f s) := walk_out _ _ _ _

/-- Delivered bytes are codestream bytes. -/
theorem Box.delivered {F S s D} (hB : Box F S s D) (hst : s.stage = .codestream) :
    D <+: codestreamOf F := by
  have hs := hB.spec
  unfold SpecAt at hs
  simp only [hst] at hs
  have := hs _ (Nat.lt_succ_self _)
  unfold codestreamOf
  rw [this]
  exact codeBody_out (kont_ext F _ s) _ (List.prefix_refl _)

theorem avail_some {F S s D} (hB : Box F S s D) (h0 : s.headerSize = 0) : ∃ a, avail s = some a ∧
    a ≤ s.inp.length ∧ (s.unbounded = false → s.filePos + a ≤ s.cend) ∧
    (s.unbounded = true → a = s.inp.length) ∧
    (s.unbounded = false → a = min s.inp.length (s.cend - s.filePos)) := by
  have := hB.bnd
  unfold avail
  by_cases hu : s.unbounded = true
  · rw [if_pos hu]
    refine ⟨_, rfl, Nat.le_refl _, by simp [hu], by simp, by simp [hu]⟩
  · have hu' : s.unbounded = false := by simpa using hu
    have := this hu'
    rw [if_neg hu, if_pos (by omega)]
    refine ⟨_, rfl, by omega, fun _ => by omega, fun h => absurd h hu, fun _ => rfl⟩


/-! ### The parser consumes -/

theorem vis_drop {s : Dec} {m a : Nat} (ha : avail s = some a) (hm : m ≤ a)
    (hst : s.stage = .codestream) (h0 : s.headerSize = 0)
    (cp : List UInt8) (u p : Nat) (e7 : cp = []) :
    vis { s with inp := s.inp.drop m, filePos := s.filePos + m, copy := cp, unconsumed := u, pos := p }
      = a - m := by
  unfold vis
  rw [if_pos e7, if_pos ⟨hst, h0⟩]
  unfold avail at ha ⊢
  dsimp only
  rw [List.length_drop]
  by_cases hu : s.unbounded = true
  · rw [if_pos hu] at ha ⊢
    cases ha; rfl
  · rw [if_neg hu] at ha ⊢
    by_cases hl : s.filePos ≤ s.cend
    · rw [if_pos hl] at ha
      cases ha
      rw [if_pos (by omega)]
      simp only [Option.getD_some]
      omega
    · rw [if_neg hl] at ha; cases ha

theorem Win.ofEmpty {c s D} (hc : s.copy = []) (hu : s.unconsumed = 0)
    (hus : c.used = D.length + s.pos) (hno : c.over = false → s.pos = 0)
    (hrem : c.over = false → c.rem ≤ vis s)
    (hf : c.fresh = true → s.stage = .codestream ∧ s.headerSize = 0)
    (hb : s.oooTotal + s.ooo.length ≤ s.filePos) : Win c s D := by
  refine ⟨⟨D, [], by simp, by simp [hc, hu], hus⟩, by omega, by omega, ?_, fun h _ => hno h, hrem,
    ?_, ?_⟩
  · intro _ h; exact absurd hc h
  · intro h; exact ⟨(hf h).1, (hf h).2, fun h => absurd hc h⟩
  · rw [hc]; simp; omega

theorem Box.notStart {F S s D} (hB : Box F S s D) (h : s.copy ≠ []) : s.stage ≠ .start := by
  intro e
  have := hB.spec
  unfold SpecAt at this
  simp only [e] at this
  rw [this.1] at h
  exact h rfl

theorem advance_inv {F c s D} (hB : Box F c.supplied s D) (hW : Win c s D)
    (n : Nat) (hl : Legal c s (.advance n)) :
    ∃ s' D', advance n s = some s' ∧ Box F c.supplied s' D' ∧
      Win (c.next (.advance n) (.ok s')) s' D' := by
  obtain ⟨ho, hl⟩ := hl
  have hbud := hW.bud
  by_cases hc : s.copy = []
  · have hp0 := hW.noOver ho hc
    have hr := hW.remOk ho
    obtain ⟨pre, X, r1, r2, r3⟩ := hW.rel
    rw [hc] at r2
    have hX : X = [] := by
      have := r2.symm; simp at this; exact this.1
    have hu0 : s.unconsumed = 0 := by
      have h2 := r2.symm
      rw [List.append_eq_nil_iff] at h2
      have := congrArg List.length h2.2
      rw [List.length_take] at this
      have hun := hW.unc
      rw [List.length_nil] at this
      omega
    have hused : c.used = D.length := by rw [r3, r1, hX, hp0]; simp
    rw [hc] at hbud
    simp only [List.length_nil, Nat.zero_sub, Nat.zero_add] at hbud
    by_cases hcs : s.stage = .codestream ∧ s.headerSize = 0
    · obtain ⟨a, ha, h1, h2, h3, h4⟩ := avail_some hB hcs.2
      unfold advance
      rw [ha]
      simp only [Option.bind_some]
      rw [if_pos hc]
      have hv : vis s = a := by
        unfold vis; rw [if_pos hc, if_pos hcs, ha]; rfl
      by_cases hn : n ≤ a
      · rw [if_pos hn]
        unfold advIn
        rw [if_pos (by omega)]
        refine ⟨_, _, rfl, consume hB hcs.1 hcs.2 n (by omega) (fun h => by have := h2 h; omega), ?_⟩
        refine Win.ofEmpty hc hu0 ?_ ?_ ?_ ?_ ?_
        · simp only [Client.next]
          rw [hused, List.length_append, List.length_take, hp0]
          omega
        · intro _; exact hp0
        · simp only [Client.next]
          intro h
          refine Nat.le_trans ?_ (Nat.le_of_eq (vis_drop ha hn hcs.1 hcs.2 _ _ _ hc).symm)
          omega
        · intro _; exact hcs
        · dsimp only; omega
      · rw [if_neg hn]
        unfold advIn
        dsimp only
        rw [if_pos (by omega)]
        have hb := (consume hB hcs.1 hcs.2 a (by omega) h2).setWin (by rw [hcs.1]; decide)
          s.copy s.unconsumed (n - a)
        refine ⟨_, _, rfl, hb, ?_⟩
        refine Win.ofEmpty hc hu0 ?_ ?_ ?_ ?_ ?_
        · simp only [Client.next]
          rw [hused, List.length_append, List.length_take]
          omega
        · simp only [Client.next]
          intro h
          have := of_decide_eq_false h
          omega
        · simp only [Client.next]
          intro h
          have := of_decide_eq_false h
          omega
        · intro _; exact hcs
        · dsimp only; omega
    · have hv : vis s = 0 := by
        unfold vis; rw [if_pos hc, if_neg hcs]
      have hi : s.stage ≠ .start ∧ (s.stage = .header ∨ s.inp = []) := by
        rcases hl with h | h | h | h
        · exact absurd h hcs
        · exact ⟨by rw [h]; decide, .inl h⟩
        · exact absurd hc h
        · exact ⟨h.1, .inr h.2⟩
      have ha : avail s = some 0 := by
        unfold avail
        rcases hi.2 with hh | hi
        · obtain ⟨_, k2, k3⟩ := hB.hs0 (.inr hh)
          rw [if_neg (by rw [k2]; decide), if_pos (by omega), k3]
          simp
        · rw [hi]
          by_cases hu : s.unbounded = true
          · rw [if_pos hu]; rfl
          · have := hB.bnd (by simpa using hu)
            rw [if_neg hu, if_pos (by omega)]
            simp
      unfold advance
      rw [ha]
      simp only [Option.bind_some]
      rw [if_pos hc]
      have hsame : (if n ≤ 0 then advIn n s else advIn 0 { s with pos := n - 0 }) = some { s with pos := n } := by
        by_cases hn : n ≤ 0
        · have : n = 0 := by omega
          subst this
          rw [if_pos hn]
          unfold advIn
          rw [if_pos (by omega)]
          clear hB hW hl hr hcs hv ha hi hbud r1 r2 r3 hused hu0
          cases s
          simp only at hp0
          subst hp0
          rfl
        · rw [if_neg hn]
          unfold advIn
          rw [if_pos (by omega)]
          rfl
      rw [hsame]
      have hb := hB.setWin hi.1 s.copy s.unconsumed n
      refine ⟨_, _, rfl, hb, ?_⟩
      have hfr : c.fresh = true → s.stage = .codestream ∧ s.headerSize = 0 := fun h =>
        ⟨(hW.freshOk h).1, (hW.freshOk h).2.1⟩
      refine Win.ofEmpty hc hu0 ?_ ?_ ?_ ?_ ?_
      · simp only [Client.next]
        rw [hused]
      · simp only [Client.next]
        intro h
        have := of_decide_eq_false h
        omega
      · simp only [Client.next]
        intro h
        have := of_decide_eq_false h
        omega
      · exact hfr
      · dsimp only; omega
  · obtain ⟨pre, X, r1, r2, r3⟩ := hW.rel
    have hns := hB.notStart hc
    have hr := hW.remOk ho
    have hpo := hW.posOk (.inl ho) hc
    have hv : vis s = s.copy.length - s.pos := by unfold vis; rw [if_neg hc]
    have hcl : s.copy.length = X.length + s.unconsumed := by
      rw [r2, List.length_append, List.length_take]
      have := hW.unc
      omega
    have hav : ∃ a, avail s = some a ∧ (s.unconsumed ≠ 0 → s.unconsumed ≤ a) := by
      unfold avail
      by_cases hu : s.unbounded = true
      · rw [if_pos hu]; exact ⟨_, rfl, fun _ => hW.unc⟩
      · have := hB.bnd (by simpa using hu)
        rw [if_neg hu, if_pos (by omega)]
        refine ⟨_, rfl, fun h => ?_⟩
        have := (hW.uncBox h).2.2 (by simpa using hu)
        have := hW.unc
        omega
    obtain ⟨a, ha, hua⟩ := hav
    unfold advance
    rw [ha]
    simp only [Option.bind_some]
    rw [if_neg hc]
    by_cases hcl2 : s.copy.length ≤ s.pos + n + s.unconsumed
    · rw [if_pos hcl2]
      have hunc := hW.unc
      generalize hadv : min s.unconsumed (s.unconsumed + (s.pos + n) - s.copy.length) = adv
      have hadvle : adv ≤ s.unconsumed := by omega
      unfold advIn
      dsimp only
      rw [if_pos (by omega)]
      have hlenD : (D ++ s.inp.take adv).length = pre.length + X.length + adv := by
        rw [r1, List.length_append, List.length_append, List.length_take]
        omega
      have hbox : Box F c.supplied { s with
          inp := s.inp.drop adv, filePos := s.filePos + adv } (D ++ s.inp.take adv) := by
        by_cases h0 : s.unconsumed = 0
        · have : adv = 0 := by omega
          subst this
          have : ({ s with inp := s.inp.drop 0, filePos := s.filePos + 0 } : Dec) = s := by
            cases s; simp
          rw [this]
          simpa using hB
        · obtain ⟨k1, k2, k3⟩ := hW.uncBox h0
          exact consume hB k1 k2 adv (by omega) (fun h => by have := k3 h; omega)
      refine ⟨_, _, rfl, hbox.setWin hns [] 0 ((s.pos + n) - min (s.pos + n) s.copy.length), ?_⟩
      refine Win.ofEmpty rfl rfl ?_ ?_ ?_ ?_ ?_
      · simp only [Client.next]
        rw [hlenD]
        omega
      · simp only [Client.next]
        intro h
        have := of_decide_eq_false h
        omega
      · simp only [Client.next]
        intro h
        have := of_decide_eq_false h
        by_cases h0 : s.unconsumed = 0
        · omega
        · obtain ⟨k1, k2, k3⟩ := hW.uncBox h0
          have := hua h0
          refine Nat.le_trans ?_ (Nat.le_of_eq
            (vis_drop ha (m := adv) (by omega) k1 k2 _ _ _ rfl).symm)
          omega
      · intro h
        exact ⟨(hW.freshOk h).1, (hW.freshOk h).2.1⟩
      · dsimp only; omega
    · rw [if_neg hcl2]
      refine ⟨_, D, rfl, hB.setWin hns s.copy s.unconsumed (s.pos + n), ?_⟩
      refine ⟨⟨pre, X, r1, r2, ?_⟩, hW.unc, hW.uncBox, ?_, ?_, ?_, ?_, hbud⟩
      · simp only [Client.next]; omega
      · intro _ _; dsimp only; omega
      · intro _ h; exact absurd h hc
      · simp only [Client.next]
        intro h
        have := of_decide_eq_false h
        unfold vis
        dsimp only
        rw [if_neg hc]
        omega
      · intro h
        exact hW.freshOk h

end Jxl.DecInput
