import Verif.Lemmas.DecInputGet
import Verif.Props.Signature
/-! The box loop keeps the invariant. -/
namespace Jxl.DecInput
open Container

def SigOk (F : List UInt8) : Signature.Sig → Prop
  | .notEnough => bare F = false ∧ boxed F = false ∧ undecided F = true
  | .invalid => bare F = false ∧ boxed F = false ∧ undecided F = false
  | .codestream => bare F = true
  | .container => bare F = false ∧ boxed F = true

theorem check_cons (x : UInt8) (t : List UInt8) : Signature.check (x :: t) =
    if x = 0xff then (if t.length < 1 then .notEnough else if t.take 1 = [0x0a] then .codestream else .invalid)
    else if x = 0 then
      (if t.length < 11 then .notEnough
       else if (x :: t).take 12 = Signature.box then .container else .invalid)
    else .invalid := by
  unfold Signature.check Signature.read
  rw [if_neg (by simp)]
  simp only [List.drop_zero]
  by_cases h1 : x = 0xff
  · subst h1
    simp only [List.getElem?_cons_zero, if_true]
    cases t with
    | nil => rfl
    | cons y u =>
      rw [if_neg (show ¬ (0xff :: y :: u).length < 2 by simp),
        if_neg (show ¬ (y :: u).length < 1 by simp)]
      by_cases h2 : y = 0x0a
      · subst h2; simp
      · simp [h2]
  · rw [if_neg (by simpa using h1), if_neg h1]
    by_cases h2 : x = 0
    · rw [if_pos (by simpa using h2), if_pos h2]
      have hb : Signature.box.length = 12 := rfl
      rw [hb]
      by_cases h3 : t.length < 11
      · rw [if_pos h3, if_pos (by rw [List.length_cons]; omega)]
      · rw [if_neg h3, if_neg (by rw [List.length_cons]; omega)]
        by_cases h4 : (x :: t).take 12 = Signature.box
        · rw [if_pos h4, if_pos h4]
        · rw [if_neg h4, if_neg h4]
    · rw [if_neg (by simpa using h2), if_neg h2]

theorem sig_cases (F : List UInt8) : SigOk F (Signature.check F) := by
  cases F with
  | nil => refine ⟨?_, ?_, ?_⟩ <;> decide
  | cons x t =>
    rw [check_cons]
    have hbx : Signature.box = [0, 0, 0, 0xc, 0x4a, 0x58, 0x4c, 0x20, 0xd, 0xa, 0x87, 0xa] := rfl
    by_cases h1 : x = 0xff
    · subst h1
      rw [if_pos rfl]
      cases t with
      | nil => refine ⟨?_, ?_, ?_⟩ <;> decide
      | cons y u =>
        rw [if_neg (by simp)]
        by_cases h2 : y = 0x0a
        · subst h2; simp [SigOk, bare]
        · simp [SigOk, h2, bare, boxed, undecided]
    · rw [if_neg h1]
      have hbare : bare (x :: t) = false := by
        cases t <;> simp [bare, h1]
      by_cases h2 : x = 0
      · rw [if_pos h2]
        by_cases h3 : t.length < 11
        · rw [if_pos h3]
          refine ⟨hbare, ?_, ?_⟩
          · unfold boxed
            rw [beq_eq_false_iff_ne]
            intro h
            have := congrArg List.length h
            rw [List.length_take] at this
            simp only [List.length_cons, List.length_nil] at this
            omega
          · simp [undecided, h2]; omega
        · rw [if_neg h3]
          have hund : undecided (x :: t) = false := by
            simp [undecided, h2]
            omega
          by_cases h4 : (x :: t).take 12 = Signature.box
          · rw [if_pos h4]
            refine ⟨hbare, ?_⟩
            unfold boxed
            rw [h4, hbx]; decide
          · rw [if_neg h4]
            refine ⟨hbare, ?_, hund⟩
            unfold boxed
            rw [beq_eq_false_iff_ne, ← hbx]
            exact h4
      · rw [if_neg h2]
        refine ⟨hbare, ?_, ?_⟩
        · cases t <;> simp [boxed, h2]
        · simp [undecided, h1, h2]

theorem Win.unc0 {c s D} (h : Win c s D) (hst : s.stage ≠ .codestream) : s.unconsumed = 0 := by
  by_cases hz : s.unconsumed = 0
  · exact hz
  · exact absurd (h.uncBox hz).1 hst

theorem tickStart_inv {F c s D} (hB : Box F c.supplied s D) (hW : Win c s D) (hst : s.stage = .start)
    (b : Bool) : Post F c s (.tick b) (tickStart s) := by
  have hsp := hB.spec
  unfold SpecAt at hsp
  simp only [hst] at hsp
  obtain ⟨hs, hD⟩ := hsp
  obtain ⟨tl, hF, hlen, hd⟩ := hB.file
  have hfp : s.filePos = 0 := by rw [hs]
  have hsup : c.supplied = s.inp := by
    have := hB.inpEq
    rw [hfp] at this
    simpa using this
  have hsig := sig_cases F
  have hFi : F = s.inp ++ tl := by rw [hF, hsup]
  unfold tickStart
  cases hck : Signature.check s.inp with
  | notEnough =>
    refine ⟨⟨D, hB, hW⟩, hW.quiet (hW.unc0 (by rw [hst]; decide)) ?_⟩
    intro hFs
    rw [hFs, hsup, hck] at hsig
    obtain ⟨h1, h2, h3⟩ := hsig
    unfold codestreamOf malformed reading
    rw [hFs, hsup, h1, h2, h3, hD]
    simp
  | invalid =>
    have := Props.C33_stable s.inp tl (by rw [hck]; decide)
    rw [← hFi, hck] at this
    rw [this] at hsig
    obtain ⟨h1, h2, h3⟩ := hsig
    show malformed F = true
    unfold malformed
    rw [h1, h2, h3]
    simp
  | container =>
    have := Props.C33_stable s.inp tl (by rw [hck]; decide)
    rw [← hFi, hck] at this
    rw [this] at hsig
    obtain ⟨h1, h2⟩ := hsig
    refine ⟨D, ?_, ?_⟩
    · refine ⟨hB.pre, hB.posLe, hB.inpEq, hB.hs, fun _ => hB.hs0 (.inl hst), hB.bnd, ?_, hB.ver,
        ⟨hB.vbc.1, by intro h; cases h⟩, hB.tot, ?_, ?_, ?_⟩
      · intro h; rcases h with h | h <;> cases h
      · intro _; simp [h1, h2]
      · intro h; cases h
      · unfold SpecAt
        simp only [if_true]
        intro f hf
        unfold reading
        rw [h1, h2]
        simp only [Bool.false_eq_true, if_false, if_true]
        have : asm { s with container := true, stage := .header } D = {} := by
          rw [hs, hD]; rfl
        rw [this, hfp, List.drop_zero]
        have hbc : s.boxCount = 0 := by rw [hs]
        rw [hbc]
        exact walk_fuel _ _ _ _ _ _ (by omega) hf
    · exact (Win.mono hW (s' := { s with container := true, stage := .header })
        (.inl (by rw [hst]; decide)) rfl rfl rfl (fun h => h) (Nat.le_refl _)).1
  | codestream =>
    have := Props.C33_stable s.inp tl (by rw [hck]; decide)
    rw [← hFi, hck] at this
    rw [this] at hsig
    have h1 : bare F = true := hsig
    have hcon : s.container = false := by rw [hs]
    refine ⟨D, ?_, ?_⟩
    · refine ⟨hB.pre, hB.posLe, hB.inpEq, hB.hs, fun _ => hB.hs0 (.inl hst), hB.bnd, ?_, hB.ver,
        ⟨hB.vbc.1, by intro h; cases h⟩, hB.tot, ?_, ?_, ?_⟩
      · intro h; rcases h with h | h <;> cases h
      · intro _; dsimp only; rw [hcon]; simp [h1]
      · intro _; exact .inr (.inl rfl)
      · unfold SpecAt
        dsimp only
        rw [if_neg (by rw [hcon]; decide)]
        unfold reading
        rw [h1]
        simp only [if_true]
        have : asm { s with last := true, stage := .header } D = { last := true } := by
          rw [hs, hD]; rfl
        rw [this, hfp]
        simp [codeBody]
    · exact (Win.mono hW (s' := { s with last := true, stage := .header })
        (.inl (by rw [hst]; decide)) rfl rfl rfl (fun h => h) (Nat.le_refl _)).1

/-! ### Box headers -/

theorem boxBody_none (ty r a k k') : boxBody ty none r a k = boxBody ty none r a k' := by
  unfold boxBody ftypBody partialBody codeBody earlyBody
  simp

theorem tFtyp_eq : tFtyp = chars "ftyp" := by decide
theorem tJxlc_eq : tJxlc = chars "jxlc" := by decide
theorem tJxlp_eq : tJxlp = chars "jxlp" := by decide
theorem tBrob_eq : tBrob = chars "brob" := by decide
theorem tBrand_eq : tBrand = chars "jxl " := by decide

/-- The state after a box header. -/
def opened (size hsize : Nat) (s : Dec) : Dec :=
  { s with
    boxCount := s.boxCount + 1
    unbounded := decide (size = 0)
    cend := if size = 0 then 0 else s.filePos + size
    csize := if size = 0 then 0 else size - hsize
    headerSize := hsize }

theorem opened_box {F S s D} (hB : Box F S s D) (hst : s.stage = .header) (hct : s.container = true)
    (size hsize : Nat) (hh : hsize ≤ s.inp.length) (h8 : 8 ≤ hsize)
    (hsz : ¬ (0 < size ∧ size < hsize)) (st : Stage) (l : Bool) (h1 : st ≠ .start ∧ st ≠ .header)
    (hft : st = .ftyp → s.boxCount = 1)
    (hsp : SpecAt F { opened size hsize s with stage := st, last := l } D) :
    Box F S { opened size hsize s with stage := st, last := l } D := by
  refine ⟨hB.pre, hB.posLe, hB.inpEq, hh, ?_, ?_, ?_, hB.ver, ⟨?_, ?_⟩, hB.tot, ?_, ?_, hsp⟩
  · intro h; rcases h with h | h
    · exact absurd h h1.1
    · exact absurd h h1.2
  · intro hu
    simp only [opened, decide_eq_false_iff_not] at hu ⊢
    rw [if_neg hu]; omega
  · intro _
    simp only [opened, len, base]
    by_cases hu : size = 0
    · simp [hu]
    · simp only [hu, decide_false, Bool.false_eq_true, if_false, Option.getD_some]; omega
  · intro h
    have := hB.vbc.1 h
    simp only [opened]; omega
  · intro h
    have := hft h
    refine ⟨by simp only [opened]; omega, ?_⟩
    have hv := hB.vbc.1
    simp only [opened]
    by_cases hz : s.version = 0
    · exact hz
    · have := hv (by omega); omega
  · intro _; exact hB.sig (by rw [hst]; decide)
  · intro h
    simp only [opened] at h
    rw [hct] at h; cases h

theorem tickHeader_inv {F c s D} (hB : Box F c.supplied s D) (hW : Win c s D) (hst : s.stage = .header)
    (b : Bool) : Post F c s (.tick b) (tickHeader s) := by
  have hsp := hB.spec
  unfold SpecAt at hsp
  simp only [hst] at hsp
  obtain ⟨tl, hF, hlen, hd⟩ := hB.file
  have h0 := (hB.hs0 (.inr hst)).1
  have hnc : s.stage ≠ .codestream := by rw [hst]; decide
  have hns : s.stage ≠ .start := by rw [hst]; decide
  have hd0 := hd 0 (by omega)
  simp only [Nat.add_zero, List.drop_zero] at hd0
  unfold tickHeader
  by_cases hct : s.container = true
  · rw [if_neg (by rw [hct]; decide)]
    rw [if_pos hct] at hsp
    have hneed : boxHeader s.inp = none →
        Post F c s (.tick b) (.need s) := by
      intro hn
      refine ⟨⟨D, hB, hW⟩, hW.quiet (hW.unc0 hnc) ?_⟩
      intro hFs
      have htl : tl = [] := by
        rw [hFs] at hF; simpa using hF
      have hz := hsp _ (Nat.lt_succ_self _)
      rw [walk, hd0, htl, List.append_nil, hn] at hz
      refine ⟨?_, ?_⟩
      · unfold codestreamOf; rw [hz]; rfl
      · rw [hB.malformed_iff hns, hz]
    by_cases hi : s.inp = []
    · rw [if_pos hi]
      exact hneed (by rw [hi]; rfl)
    · rw [if_neg hi, parseHdr_eq]
      cases hbh : boxHeader s.inp with
      | none => exact hneed hbh
      | some x =>
        obtain ⟨ty, h, sz⟩ := x
        have hbF := boxHeader_append s.inp tl _ hbh
        have hbl := boxHeader_len _ _ _ _ hbh
        dsimp only
        by_cases hbad : 0 < sz ∧ sz < h ∨ 2 ^ 64 ≤ s.filePos + sz
        · rw [if_pos hbad]
          show malformed F = true
          have hz := hsp _ (Nat.lt_succ_self _)
          rw [walk, hd0, hbF] at hz
          dsimp only at hz
          rw [if_pos hbad] at hz
          rw [hB.malformed_iff hns, hz]
        · rw [if_neg hbad]
          dsimp only
          by_cases hbr : ty = tBrob ∧ s.inp.length < h + 4
          · rw [if_pos hbr]
            refine ⟨⟨D, hB, hW⟩, hW.quiet (hW.unc0 hnc) ?_⟩
            intro hFs
            have htl : tl = [] := by
              rw [hFs] at hF; simpa using hF
            have hz := hsp _ (Nat.lt_succ_self _)
            rw [walk, hd0, hbF] at hz
            dsimp only at hz
            rw [if_neg hbad, if_pos (by rw [htl, List.append_nil, ← tBrob_eq]; exact hbr)] at hz
            refine ⟨?_, ?_⟩
            · unfold codestreamOf; rw [hz]; rfl
            · rw [hB.malformed_iff hns, hz]
          · rw [if_neg hbr]
            have hbrF : ¬ (ty = chars "brob" ∧ (s.inp ++ tl).length < h + 4) := by
              intro hx
              rw [← tBrob_eq, List.length_append] at hx
              exact hbr ⟨hx.1, by omega⟩
            unfold boxFound
            by_cases hord : (s.boxCount = 1 ∧ ty ≠ chars "ftyp") ∨ (s.boxCount ≠ 1 ∧ ty = chars "ftyp")
            · have hmal : malformed F = true := by
                have hz := hsp _ (Nat.lt_succ_self _)
                rw [walk, hd0, hbF] at hz
                dsimp only at hz
                rw [if_neg hbad, if_neg hbrF, if_pos hord] at hz
                rw [hB.malformed_iff hns, hz]
              rw [← tFtyp_eq] at hord
              by_cases hA : s.boxCount + 1 = 2 ∧ ty ≠ tFtyp
              · rw [if_pos hA]; exact hmal
              · rw [if_neg hA]
                rw [if_pos (by
                  rcases hord with hx | hx
                  · exact absurd ⟨by omega, hx.2⟩ hA
                  · exact ⟨hx.2, by omega⟩)]
                exact hmal
            · rw [if_neg (by
                intro hx; rw [tFtyp_eq] at hx; exact hord (.inl ⟨by omega, hx.2⟩)),
                if_neg (by
                intro hx; rw [tFtyp_eq] at hx; exact hord (.inr ⟨by omega, hx.1⟩))]
              show Post F c s (.tick b) (dispatch ty (opened sz h s))
              have hread : ∀ f, F.length < f → reading F =
                  boxBody ty (len (opened sz h s)) (F.drop (base (opened sz h s))) (asm s D)
                    (kont F f (opened sz h s)) := by
                intro f hf
                have hz := hsp (f + 1) (by omega)
                rw [walk, hd0, hbF] at hz
                dsimp only at hz
                rw [if_neg hbad, if_neg hbrF, if_neg hord] at hz
                have hbase : F.drop (base (opened sz h s)) = (s.inp ++ tl).drop h := by
                  show F.drop (s.filePos + h) = _
                  rw [hd h hbl.2, List.drop_append_of_le_length hbl.2]
                rw [hbase]
                by_cases hs0 : sz = 0
                · have hl : len (opened sz h s) = none := by simp [len, opened, hs0]
                  rw [hl, hz, if_pos hs0]
                  exact boxBody_none _ _ _ _ _
                · have hl : len (opened sz h s) = some (sz - h) := by
                    simp only [len, opened, base, hs0, decide_false, Bool.false_eq_true, if_false]
                    congr 1
                    omega
                  rw [hl, hz, if_neg hs0]
                  congr 1
                  funext a'
                  rw [if_neg hs0]
                  simp only [kont, opened, if_neg hs0]
                  congr 1
                  rw [← hd0, List.drop_drop]
              have hszk : ¬ (0 < sz ∧ sz < h) := fun hx => hbad (.inl hx)
              have hwin : ∀ st l, Win c { opened sz h s with stage := st, last := l } D := fun st l =>
                (Win.mono hW (s' := { opened sz h s with stage := st, last := l })
                  (.inl hnc) rfl rfl rfl (fun h => h) (Nat.le_refl _)).1
              unfold boxBody at hread
              unfold dispatch
              by_cases t1 : ty = tFtyp
              · rw [if_pos t1]
                rw [tFtyp_eq] at t1
                refine ⟨D, ?_, hwin .ftyp s.last⟩
                refine opened_box hB hst hct sz h hbl.2 hbl.1 hszk .ftyp s.last (by decide) ?_ ?_
                · intro _
                  by_cases hx : s.boxCount = 1
                  · exact hx
                  · exact absurd (.inr ⟨hx, t1⟩) hord
                · intro f hf
                  rw [hread f hf, if_pos t1]; rfl
              · rw [if_neg t1]
                rw [tFtyp_eq] at t1
                by_cases t2 : ty = tJxlc
                · rw [if_pos t2]
                  rw [tJxlc_eq] at t2
                  by_cases hl : s.last = true
                  · rw [if_pos (by exact hl)]
                    have hz := hread _ (Nat.lt_succ_self _)
                    rw [if_neg t1, if_pos t2, if_pos (by exact hl)] at hz
                    show malformed F = true
                    rw [hB.malformed_iff hns, hz]
                  · rw [if_neg (by exact hl)]
                    refine ⟨D, ?_, hwin .codestream true⟩
                    refine opened_box hB hst hct sz h hbl.2 hbl.1 hszk .codestream true (by decide)
                      (by intro h; cases h) ?_
                    intro f hf
                    rw [hread f hf, if_neg t1, if_pos t2, if_neg (by exact hl)]; rfl
                · rw [if_neg t2]
                  rw [tJxlc_eq] at t2
                  by_cases t3 : ty = tJxlp
                  · rw [if_pos t3]
                    rw [tJxlp_eq] at t3
                    refine ⟨D, ?_, hwin .partialCs s.last⟩
                    refine opened_box hB hst hct sz h hbl.2 hbl.1 hszk .partialCs s.last (by decide)
                      (by intro h; cases h) ?_
                    intro f hf
                    rw [hread f hf, if_neg t1, if_neg t2, if_pos t3]; rfl
                  · rw [if_neg t3]
                    rw [tJxlp_eq] at t3
                    refine ⟨D, ?_, hwin .skip s.last⟩
                    refine opened_box hB hst hct sz h hbl.2 hbl.1 hszk .skip s.last (by decide)
                      (by intro h; cases h) ?_
                    intro f hf
                    rw [hread f hf, if_neg t1, if_neg t2, if_neg t3]
                    by_cases hs0 : sz = 0
                    · simp [len, opened, hs0]; rfl
                    · simp [len, opened, hs0]; rfl
  · have hcf : s.container = false := by simpa using hct
    rw [if_pos hcf]
    rw [if_neg hct] at hsp
    refine ⟨D, ?_, ?_⟩
    · refine ⟨hB.pre, hB.posLe, hB.inpEq, hB.hs, (by intro h; rcases h with h | h <;> cases h), ?_, ?_, hB.ver,
        ⟨hB.vbc.1, by intro h; cases h⟩, hB.tot, fun _ => hB.sig hns, fun _ => .inr (.inr ⟨rfl, rfl⟩), ?_⟩
      · intro h; cases h
      · intro h; rcases h with h | h <;> cases h
      · unfold SpecAt
        dsimp only
        intro f hf
        rw [hsp]
        have : base { s with stage := .codestream, unbounded := true } = s.filePos := by
          simp [base, h0]
        rw [this]
        simp only [len, if_true]
        rfl
    · exact (Win.mono hW (s' := { s with stage := .codestream, unbounded := true })
        (.inl hnc) rfl rfl rfl (fun h => h) (Nat.le_refl _)).1

/-! ### Inside boxes -/

theorem take_pre (l t : List UInt8) (n : Nat) (h : n ≤ l.length) : (l ++ t).take n = l.take n :=
  List.take_append_of_le_length h

theorem Win.monoT {c s s' D} (h : Win c s D) (hst : s.stage ≠ .codestream)
    (hc : s'.copy = s.copy) (hp : s'.pos = s.pos) (hu : s'.unconsumed = s.unconsumed)
    (hv : s'.version = 0 → s.version = 0)
    (hb : s'.oooTotal + s'.ooo.length + s.filePos ≤ s.oooTotal + s.ooo.length + s'.filePos) :
    Win c s' D := (Win.mono h (.inl hst) hc hp hu hv hb).1

theorem tickFtyp_inv {F c s D} (hB : Box F c.supplied s D) (hW : Win c s D) (hst : s.stage = .ftyp)
    (h0 : s.headerSize = 0) (b : Bool) (s0 : Dec) :
    ∃ r, tickFtyp s = some r ∧ Post F c s0 (.tick b) r := by
  have hsp := hB.spec
  unfold SpecAt at hsp
  simp only [hst] at hsp
  obtain ⟨tl, hF, hlen, hd⟩ := hB.file
  have hnc : s.stage ≠ .codestream := by rw [hst]; decide
  have hns : s.stage ≠ .start := by rw [hst]; decide
  have hd0 := hd 0 (by omega)
  simp only [Nat.add_zero, List.drop_zero] at hd0
  have hbase : F.drop (base s) = s.inp ++ tl := by
    unfold base; rw [h0, Nat.add_zero, hd0]
  have hcs := hB.csz (.inl hst)
  unfold tickFtyp
  by_cases h1 : s.csize < 12
  · rw [if_pos h1]
    refine ⟨_, rfl, ?_⟩
    show malformed F = true
    have hz := hsp _ (Nat.lt_succ_self _)
    unfold ftypBody at hz
    rw [if_pos (by omega)] at hz
    rw [hB.malformed_iff hns, hz]
  rw [if_neg h1]
  by_cases h2 : s.inp.length < 8
  · rw [if_pos h2]
    refine ⟨_, rfl, ⟨D, hB, hW⟩, hW.quiet (hW.unc0 hnc) ?_⟩
    intro hFs
    have htl : tl = [] := by
      rw [hFs] at hF; simpa using hF
    have hz := hsp _ (Nat.lt_succ_self _)
    unfold ftypBody at hz
    rw [if_neg (by omega), hbase, htl, List.append_nil, if_pos h2] at hz
    refine ⟨?_, ?_⟩
    · unfold codestreamOf; rw [hz]; rfl
    · rw [hB.malformed_iff hns, hz]
  rw [if_neg h2]
  have e4 : (s.inp ++ tl).take 4 = s.inp.take 4 := take_pre _ _ _ (by omega)
  have e44 : ((s.inp ++ tl).drop 4).take 4 = (s.inp.drop 4).take 4 := by
    rw [List.drop_append_of_le_length (by omega), take_pre _ _ _ (by rw [List.length_drop]; omega)]
  have hread : ∀ f, F.length < f → reading F =
      if s.inp.take 4 ≠ chars "jxl " then (asm s D, true)
      else if 1 < be ((s.inp.drop 4).take 4) then (asm s D, true)
      else kont F f s { asm s D with version := be ((s.inp.drop 4).take 4) } := by
    intro f hf
    have hz := hsp f hf
    unfold ftypBody at hz
    rw [if_neg (by omega), hbase, if_neg (by rw [List.length_append]; omega), e4, e44] at hz
    exact hz
  by_cases h3 : s.inp.take 4 ≠ tBrand
  · rw [if_pos h3]
    refine ⟨_, rfl, ?_⟩
    show malformed F = true
    have hz := hread _ (Nat.lt_succ_self _)
    rw [if_pos (by rw [← tBrand_eq]; exact h3)] at hz
    rw [hB.malformed_iff hns, hz]
  rw [if_neg h3]
  rw [loadBE_eq]
  have h3' : ¬ (s.inp.take 4 ≠ chars "jxl ") := by rw [← tBrand_eq]; exact h3
  by_cases h4 : 1 < be ((s.inp.drop 4).take 4)
  · rw [if_pos h4]
    refine ⟨_, rfl, ?_⟩
    show malformed F = true
    have hz := hread _ (Nat.lt_succ_self _)
    rw [if_neg h3', if_pos h4] at hz
    rw [hB.malformed_iff hns, hz]
  rw [if_neg h4]
  unfold advIn
  dsimp only
  rw [if_pos (by omega)]
  have hub : s.unbounded = false := by
    by_cases h : s.unbounded = true
    · have : len s = none := by unfold len; rw [if_pos h]
      rw [this] at hcs
      simp at hcs
      omega
    · simpa using h
  have hl : len s = some (s.cend - s.filePos) := by
    unfold len base; rw [hub, h0]; simp
  rw [hl] at hcs
  simp only [Option.getD_some] at hcs
  have hvb := hB.vbc.2 hst
  have hp := hB.posLe
  have hsl := hB.supplied_len
  refine ⟨_, rfl, D, ?_, ?_⟩
  · refine ⟨hB.pre, ?_, ?_, ?_, ?_, ?_, ?_, ?_, ⟨?_, ?_⟩, hB.tot, fun _ => hB.sig hns, ?_, ?_⟩
    · dsimp only; show s.filePos + 8 ≤ c.supplied.length; omega
    · dsimp only
      show List.drop (s.filePos + 8) c.supplied = _
      rw [← hB.inpEq, List.drop_drop]
    · dsimp only; omega
    · intro h; rcases h with h | h <;> cases h
    · intro _; dsimp only; omega
    · intro h; rcases h with h | h <;> cases h
    · intro h
      have := hB.ver h
      omega
    · intro _; dsimp only; omega
    · intro h; cases h
    · intro h
      have := hB.cont h
      rw [hst] at this
      rcases this with h | h | h
      · cases h
      · cases h
      · cases h.1
    · unfold SpecAt
      dsimp only
      intro f hf
      rw [hread f hf, if_neg h3', if_neg h4, hub]
      rfl
  · refine Win.monoT hW hnc rfl rfl rfl ?_ ?_
    · intro _; exact hvb.2
    · dsimp only; omega

theorem tickSkip_inv {F c s D} (hB : Box F c.supplied s D) (hW : Win c s D) (hst : s.stage = .skip)
    (h0 : s.headerSize = 0) (b : Bool) (s0 : Dec) (e1 : s0.copy = s.copy) (e2 : s0.pos = s.pos)
    (e3 : s0.unconsumed = 0) :
    ∃ r, tickSkip b s = some r ∧ Post F c s0 (.tick b) r := by
  have hsp := hB.spec
  unfold SpecAt at hsp
  simp only [hst] at hsp
  obtain ⟨tl, hF, hlen, hd⟩ := hB.file
  have hnc : s.stage ≠ .codestream := by rw [hst]; decide
  have hns : s.stage ≠ .start := by rw [hst]; decide
  have hsl := hB.supplied_len
  have hct : s.container = true := by
    by_cases h : s.container = true
    · exact h
    · have := hB.cont (by simpa using h)
      rw [hst] at this
      rcases this with h | h | h
      · cases h
      · cases h
      · cases h.1
  have hq : ∀ s', Win c s' D → s'.unconsumed = 0 → (F = c.supplied → reading F = (asm s D, false)) →
      Quiet F c s' := by
    intro s' hw hu hr
    refine hw.quiet hu ?_
    intro hFs
    have hz := hr hFs
    refine ⟨?_, ?_⟩
    · unfold codestreamOf; rw [hz]; rfl
    · rw [hB.malformed_iff hns, hz]
  have hadv : Box F c.supplied { s with inp := s.inp.drop s.inp.length, filePos := s.filePos + s.inp.length } D ∧
      Win c { s with inp := s.inp.drop s.inp.length, filePos := s.filePos + s.inp.length } D ∨
      (s.unbounded = false ∧ s.cend < s.filePos + s.inp.length) := by
    by_cases hx : s.unbounded = false ∧ s.cend < s.filePos + s.inp.length
    · exact .inr hx
    refine .inl ⟨?_, ?_⟩
    · refine ⟨hB.pre, ?_, ?_, ?_, (by dsimp only; rw [hst]; intro h; rcases h with h | h <;> cases h), ?_, ?_, hB.ver, hB.vbc, hB.tot, hB.sig, hB.cont, ?_⟩
      · dsimp only; omega
      · dsimp only; rw [← hB.inpEq, List.drop_drop]
      · dsimp only; omega
      · intro hu
        have : ¬ s.cend < s.filePos + s.inp.length := fun h => hx ⟨hu, h⟩
        dsimp only; omega
      · dsimp only; rw [hst]; intro h; rcases h with h | h <;> cases h
      · unfold SpecAt
        simp only [hst]
        exact hsp
    · exact (Win.mono hW (s' := { s with inp := s.inp.drop s.inp.length, filePos := s.filePos + s.inp.length })
        (.inl hnc) rfl rfl rfl (fun h => h) (by dsimp only; omega)).1
  unfold tickSkip
  by_cases hub : s.unbounded = true
  · rw [if_pos hub]
    have hr : reading F = (asm s D, false) := by
      rw [hsp _ (Nat.lt_succ_self _), if_pos hub]
    cases b with
    | true =>
      rw [if_pos rfl]
      unfold advIn
      rw [if_pos (Nat.le_refl _)]
      rcases hadv with hadv | hx
      · exact ⟨_, rfl, ⟨D, hadv.1, hadv.2⟩, hq _ hadv.2 (hW.unc0 hnc) (fun _ => hr)⟩
      · rw [hub] at hx; exact absurd hx.1 (by decide)
    | false =>
      rw [if_neg (by decide)]
      refine ⟨_, rfl, ?_⟩
      have := hq s hW (hW.unc0 hnc) (fun _ => hr)
      intro hFs
      obtain ⟨q1, q2, q3⟩ := this hFs
      exact ⟨by rw [e1, e2]; exact q1, e3, q3⟩
  · have hub' : s.unbounded = false := by simpa using hub
    have hbnd := hB.bnd hub'
    rw [if_neg hub, if_pos (by omega)]
    by_cases hl : s.inp.length < s.cend - s.filePos
    · rw [if_pos hl]
      unfold advIn
      rw [if_pos (Nat.le_refl _)]
      rcases hadv with hadv | hx
      · refine ⟨_, rfl, ⟨D, hadv.1, hadv.2⟩, hq _ hadv.2 (hW.unc0 hnc) (fun hFs => ?_)⟩
        rw [hsp _ (Nat.lt_succ_self _), if_neg hub]
        unfold kont
        have : F.drop s.cend = [] := by
          rw [List.drop_eq_nil_iff, hFs]; omega
        rw [this, walk]
        rfl
      · exact absurd hx.2 (by omega)
    · rw [if_neg hl]
      unfold advIn
      dsimp only
      rw [if_pos (by omega)]
      refine ⟨_, rfl, D, ?_, ?_⟩
      · refine ⟨hB.pre, ?_, ?_, ?_, fun _ => ⟨h0, hub', by dsimp only; omega⟩, ?_, ?_, hB.ver, ⟨hB.vbc.1, by intro h; cases h⟩,
          hB.tot, fun _ => hB.sig hns, ?_, ?_⟩
        · dsimp only; show _ ≤ c.supplied.length; omega
        · dsimp only
          show List.drop _ c.supplied = _
          rw [← hB.inpEq, List.drop_drop]
        · dsimp only; omega
        · intro _; dsimp only; omega
        · intro h; rcases h with h | h <;> cases h
        · intro _; exact .inr (.inl rfl)
        · unfold SpecAt
          dsimp only
          rw [if_pos hct]
          intro f hf
          rw [hsp f hf, if_neg hub]
          have : s.filePos + (s.cend - s.filePos) = s.cend := by omega
          rw [this]
          rfl
      · exact Win.monoT hW hnc rfl rfl rfl (fun h => h) (by dsimp only; omega)

theorem any_map (i : Nat) (l : List (Nat × List UInt8 × Bool)) :
    (l.map piece).any (fun p => p.idx == i) = (find i l).isSome := by
  induction l with
  | nil => rfl
  | cons e t ih =>
    rw [List.map_cons, List.any_cons, find, ih]
    by_cases h : e.1 = i
    · rw [if_pos h]; simp [piece, h]
    · rw [if_neg h]; simp [piece, h]

theorem addTo_last (i : Nat) (l p : List UInt8) (b : Bool) : ∀ O, find i O = none →
    addTo i l (O ++ [(i, p, b)]) = O ++ [(i, p ++ l, b)]
  | [], _ => by simp [addTo]
  | e :: t, h => by
    rw [find] at h
    by_cases he : e.1 = i
    · rw [if_pos he] at h; cases h
    · rw [if_neg he] at h
      rw [List.cons_append, addTo, if_neg he, addTo_last i l p b t h]
      rfl

theorem tickPartial_inv {F c s D} (hB : Box F c.supplied s D) (hW : Win c s D)
    (hst : s.stage = .partialCs) (h0 : s.headerSize = 0) (b : Bool) (s0 : Dec) :
    ∃ r, tickPartial s = some r ∧ Post F c s0 (.tick b) r := by
  have hsp := hB.spec
  unfold SpecAt at hsp
  simp only [hst] at hsp
  obtain ⟨tl, hF, hlen, hd⟩ := hB.file
  have hnc : s.stage ≠ .codestream := by rw [hst]; decide
  have hns : s.stage ≠ .start := by rw [hst]; decide
  have hd0 := hd 0 (by omega)
  simp only [Nat.add_zero, List.drop_zero] at hd0
  have hbase : F.drop (base s) = s.inp ++ tl := by
    unfold base; rw [h0, Nat.add_zero, hd0]
  have hcs := hB.csz (.inr hst)
  have hsl := hB.supplied_len
  have hbud := hW.bud
  have hct : s.container = true := by
    by_cases h : s.container = true
    · exact h
    · have := hB.cont (by simpa using h)
      rw [hst] at this
      rcases this with h | h | h
      · cases h
      · cases h
      · cases h.1
  have hmal : ∀ a, reading F = (a, true) → malformed F = true := by
    intro a h; rw [hB.malformed_iff hns, h]
  unfold tickPartial
  by_cases h1 : s.last = true
  · rw [if_pos h1]
    refine ⟨_, rfl, ?_⟩
    have hz := hsp _ (Nat.lt_succ_self _)
    unfold partialBody at hz
    rw [if_pos (by exact h1)] at hz
    exact hmal _ hz
  rw [if_neg h1]
  by_cases h2 : s.inp.length < 4
  · rw [if_pos h2]
    refine ⟨_, rfl, ⟨D, hB, hW⟩, hW.quiet (hW.unc0 hnc) ?_⟩
    intro hFs
    have htl : tl = [] := by
      rw [hFs] at hF; simpa using hF
    have hz := hsp _ (Nat.lt_succ_self _)
    unfold partialBody at hz
    rw [if_neg (by exact h1), hbase, htl, List.append_nil, if_pos h2] at hz
    refine ⟨?_, ?_⟩
    · unfold codestreamOf; rw [hz]; rfl
    · rw [hB.malformed_iff hns, hz]
  rw [if_neg h2]
  have e4 : (s.inp ++ tl).take 4 = s.inp.take 4 := take_pre _ _ _ (by omega)
  have hlen4 : tooShort (len s)
      = decide (s.unbounded = false ∧ s.csize < 4) := by
    unfold len at hcs ⊢
    unfold tooShort
    by_cases hu : s.unbounded = true
    · rw [if_pos hu] at hcs ⊢; simp [hu]
    · rw [if_neg hu] at hcs ⊢
      have hu : s.unbounded = false := by simpa using hu
      simp only [Option.getD_some] at hcs
      simp [hu, hcs]
  by_cases h3 : s.unbounded = false ∧ s.csize < 4
  · rw [if_pos h3]
    refine ⟨_, rfl, ?_⟩
    have hz := hsp _ (Nat.lt_succ_self _)
    unfold partialBody at hz
    rw [if_neg (by exact h1), hbase, if_neg (by rw [List.length_append]; omega), hlen4,
      if_pos (by simpa using h3)] at hz
    exact hmal _ hz
  rw [if_neg h3]
  dsimp only
  rw [loadBE_eq]
  have hread : ∀ f, F.length < f → reading F =
      if be (s.inp.take 4) % 2 ^ 31 < s.nextIdx then (asm s D, true)
      else if be (s.inp.take 4) % 2 ^ 31 = s.nextIdx then
        codeBody ((len s).map (· - 4)) (s.inp.drop 4 ++ tl)
          { asm s D with
            next := s.nextIdx + 1
            last := s.last || decide (2 ^ 31 ≤ be (s.inp.take 4)) } (kont F f s)
      else if s.version = 0 then (asm s D, true)
      else if (find (be (s.inp.take 4) % 2 ^ 31) s.ooo).isSome then (asm s D, true)
      else earlyBody ((len s).map (· - 4)) (s.inp.drop 4 ++ tl)
        (fun l => ⟨be (s.inp.take 4) % 2 ^ 31, l, decide (2 ^ 31 ≤ be (s.inp.take 4))⟩) (asm s D)
        (kont F f s) := by
    intro f hf
    have hz := hsp f hf
    unfold partialBody at hz
    rw [if_neg (by exact h1), hbase, if_neg (by rw [List.length_append]; omega), hlen4,
      if_neg (by simpa using h3), e4, List.drop_append_of_le_length (by omega)] at hz
    rw [hz]
    have : (asm s D).early.any (fun p => p.idx == be (s.inp.take 4) % 2 ^ 31)
        = (find (be (s.inp.take 4) % 2 ^ 31) s.ooo).isSome := any_map _ _
    dsimp only
    rw [this]
    rfl
  generalize hidx : be (s.inp.take 4) % 2 ^ 31 = idx at hread ⊢
  generalize hil : decide (2 ^ 31 ≤ be (s.inp.take 4)) = il at hread ⊢
  by_cases h4 : idx < s.nextIdx
  · rw [if_pos h4]
    refine ⟨_, rfl, ?_⟩
    have hz := hread _ (Nat.lt_succ_self _)
    rw [if_pos h4] at hz
    exact hmal _ hz
  rw [if_neg h4]
  unfold advIn
  rw [if_pos (by omega)]
  refine ⟨_, rfl, ?_⟩
  have hd4 := hd 4 (by omega)
  have hbnd : s.unbounded = false → s.filePos + 4 ≤ s.cend := by
    intro hu
    have : ¬ s.csize < 4 := fun h => h3 ⟨hu, h⟩
    have hl : len s = some (s.cend - s.filePos) := by
      unfold len base; rw [hu, h0]; simp
    rw [hl] at hcs
    simp only [Option.getD_some] at hcs
    omega
  have hmap : (len s).map (· - 4) =
      if s.unbounded then none else some (s.cend - (s.filePos + 4)) := by
    unfold len base
    by_cases hu : s.unbounded = true
    · rw [if_pos hu, if_pos hu]; rfl
    · rw [if_neg hu, if_neg hu, h0]
      simp only [Option.map_some, Nat.add_zero]
      congr 1
  unfold partialFound
  by_cases h5 : idx = s.nextIdx
  · rw [if_pos (by exact h5)]
    refine ⟨D, ?_, Win.monoT hW hnc rfl rfl rfl (fun h => h) (by dsimp only; omega)⟩
    refine ⟨hB.pre, ?_, ?_, ?_, ?_, ?_, ?_, hB.ver, ⟨hB.vbc.1, by intro h; cases h⟩,
      hB.tot, fun _ => hB.sig hns, ?_, ?_⟩
    · dsimp only; show _ ≤ c.supplied.length; omega
    · dsimp only
      show List.drop _ c.supplied = _
      rw [← hB.inpEq, List.drop_drop]
    · dsimp only; omega
    · intro h; rcases h with h | h <;> cases h
    · intro hu; have := hbnd hu; dsimp only; omega
    · intro h; rcases h with h | h <;> cases h
    · intro h; dsimp only at h; rw [hct] at h; cases h
    · unfold SpecAt
      dsimp only
      intro f hf
      rw [hread f hf, if_neg h4, if_pos h5, hmap, ← hd4]
      simp only [len, base, h0, Nat.add_zero]
      rfl
  · rw [if_neg (by exact h5)]
    by_cases h6 : 1 ≤ s.version
    · rw [if_pos (by exact h6)]
      by_cases h7 : 2 ^ 20 ≤ s.ooo.length
      · rw [if_pos (by exact h7)]
        show 2 ^ 20 ≤ c.supplied.length
        omega
      · rw [if_neg (by exact h7)]
        by_cases h8 : (find idx s.ooo).isSome = true
        · rw [if_pos (by exact h8)]
          have hz := hread _ (Nat.lt_succ_self _)
          rw [if_neg h4, if_neg h5, if_neg (by omega), if_pos h8] at hz
          exact hmal _ hz
        · rw [if_neg (by exact h8)]
          refine ⟨D, ?_, Win.monoT hW hnc rfl rfl rfl (fun h => h) ?_⟩
          · refine ⟨hB.pre, ?_, ?_, ?_, ?_, ?_, ?_, fun _ => h6, ⟨hB.vbc.1, by intro h; cases h⟩,
              ?_, fun _ => hB.sig hns, ?_, ?_⟩
            · dsimp only; show _ ≤ c.supplied.length; omega
            · dsimp only
              show List.drop _ c.supplied = _
              rw [← hB.inpEq, List.drop_drop]
            · dsimp only; omega
            · intro h; rcases h with h | h <;> cases h
            · intro hu; have := hbnd hu; dsimp only; omega
            · intro h; rcases h with h | h <;> cases h
            · have := hB.tot
              simp [this]
            · intro h; dsimp only at h; rw [hct] at h; cases h
            · unfold SpecAt
              dsimp only
              refine ⟨s.ooo, [], il, rfl, by simpa using h8, ?_⟩
              intro f hf
              rw [hread f hf, if_neg h4, if_neg h5, if_neg (by omega), if_neg h8, hmap, ← hd4]
              simp only [len, base, h0, Nat.add_zero, List.nil_append]
              rfl
          · dsimp only
            rw [List.length_append, List.length_singleton]
            omega
    · rw [if_neg (by exact h6)]
      have hz := hread _ (Nat.lt_succ_self _)
      rw [if_neg h4, if_neg h5, if_pos (by omega)] at hz
      exact hmal _ hz

/-- The state after buffering `a` bytes. -/
def buffered (a : Nat) (st : Stage) (s : Dec) : Dec :=
  { s with
    stage := st
    ooo := addTo s.bufIdx (s.inp.take a) s.ooo
    oooTotal := s.oooTotal + a
    inp := s.inp.drop a
    filePos := s.filePos + a }

theorem tickBuffering_inv {F c s D} (hB : Box F c.supplied s D) (hW : Win c s D)
    (hst : s.stage = .buffering) (h0 : s.headerSize = 0) (b : Bool) (s0 : Dec) :
    ∃ r, tickBuffering s = some r ∧ Post F c s0 (.tick b) r := by
  have hsp := hB.spec
  unfold SpecAt at hsp
  simp only [hst] at hsp
  obtain ⟨O, part, bl, hO, hfO, hsp⟩ := hsp
  obtain ⟨tl, hF, hlen, hd⟩ := hB.file
  have hnc : s.stage ≠ .codestream := by rw [hst]; decide
  have hns : s.stage ≠ .start := by rw [hst]; decide
  have hd0 := hd 0 (by omega)
  simp only [Nat.add_zero, List.drop_zero] at hd0
  have hbase : F.drop (base s) = s.inp ++ tl := by
    unfold base; rw [h0, Nat.add_zero, hd0]
  have hsl := hB.supplied_len
  have hbud := hW.bud
  have hct : s.container = true := by
    by_cases h : s.container = true
    · exact h
    · have := hB.cont (by simpa using h)
      rw [hst] at this
      rcases this with h | h | h
      · cases h
      · cases h
      · cases h.1
  obtain ⟨a, ha, h1, h2, h3, h4⟩ := avail_some hB h0
  have hu0 := hW.unc0 hnc
  unfold tickBuffering
  rw [ha]
  simp only [Option.bind_some]
  by_cases hcan : canAdd s a = true
  · rw [if_pos hcan]
    unfold advIn
    dsimp only
    rw [if_pos (by omega)]
    simp only [Option.map_some]
    refine ⟨_, rfl, ?_⟩
    have hadd : addTo s.bufIdx (s.inp.take a) s.ooo = O ++ [(s.bufIdx, part ++ s.inp.take a, bl)] := by
      rw [hO]; exact addTo_last _ _ _ _ _ hfO
    have htot := hB.tot
    rw [hO] at htot
    simp only [List.map_append, List.sum_append, List.map_cons, List.map_nil, List.sum_cons,
      List.sum_nil] at htot
    have hta : (s.inp.take a).length = a := by rw [List.length_take]; omega
    have hda := hd a h1
    have ht : (s.inp ++ tl).take a = s.inp.take a := take_pre _ _ _ h1
    have hdd : (s.inp ++ tl).drop a = s.inp.drop a ++ tl := List.drop_append_of_le_length h1
    have hwin : ∀ st, Win c (buffered a st s) D := by
      intro st
      refine Win.monoT hW hnc rfl rfl rfl (fun h => h) ?_
      dsimp only [buffered]
      rw [hadd, hO]
      simp only [List.length_append, List.length_cons, List.length_nil]
      omega
    have hboxs : ∀ st, (st = .buffering ∨ st = .header) →
        (st = .header → s.unbounded = false ∧ s.cend = s.filePos + a) →
        SpecAt F (buffered a st s) D →
        Box F c.supplied (buffered a st s) D := by
      intro st hst' hhd hspec
      refine ⟨hB.pre, ?_, ?_, ?_, ?_, ?_, ?_, ?_, ⟨hB.vbc.1, ?_⟩,
        ?_, fun _ => hB.sig hns, ?_, hspec⟩
      · dsimp only [buffered]; omega
      · dsimp only [buffered]; rw [← hB.inpEq, List.drop_drop]
      · dsimp only [buffered]; omega
      · intro h
        rcases hst' with rfl | rfl
        · rcases h with h | h <;> cases h
        · exact ⟨h0, hhd rfl⟩
      · intro hu; have := h2 hu; dsimp only [buffered]; omega
      · intro h
        dsimp only [buffered] at h
        rcases hst' with rfl | rfl <;> rcases h with h | h <;> cases h
      · intro _
        apply hB.ver
        rw [hO]; simp
      · intro h
        dsimp only [buffered] at h
        rcases hst' with rfl | rfl <;> cases h
      · dsimp only [buffered]
        rw [hadd]
        simp only [List.map_append, List.sum_append, List.map_cons, List.map_nil, List.sum_cons,
          List.sum_nil, List.length_append, hta]
        omega
      · intro h; dsimp only [buffered] at h; rw [hct] at h; cases h
    by_cases hdone : s.unbounded = false ∧ s.cend ≤ s.filePos + a
    · rw [if_pos hdone]
      have hce := h2 hdone.1
      refine ⟨D, hboxs .header (.inr rfl) (fun _ => ⟨hdone.1, by omega⟩) ?_, hwin .header⟩
      unfold SpecAt buffered
      dsimp only
      rw [if_pos hct]
      intro f hf
      rw [hsp f hf, hbase]
      have hl : len s = some a := by
        unfold len base; rw [hdone.1, h0]; simp; omega
      rw [hl, earlyBody_some a (Nat.le_refl _) (by rw [List.length_append]; omega), ht, hdd]
      have : s.filePos + a = s.cend := by omega
      rw [this]
      simp only [earlyBody, Nat.sub_self, Nat.zero_le, if_true, List.take_zero, List.append_nil]
      simp only [kont, asm, hadd, List.map_append, List.map_cons, List.map_nil, piece]
    · rw [if_neg hdone]
      have hB' := hboxs .buffering (.inl rfl) (by intro h; cases h) (by
        unfold SpecAt
        dsimp only [buffered]
        refine ⟨O, part ++ s.inp.take a, bl, hadd, hfO, ?_⟩
        intro f hf
        rw [hsp f hf, hbase]
        simp only [len, base, buffered, h0, Nat.add_zero]
        rw [hda]
        by_cases hu : s.unbounded = true
        · rw [if_pos hu, if_pos hu]; rfl
        · rw [if_neg hu, if_neg hu]
          have := h2 (by simpa using hu)
          rw [earlyBody_some a (by omega) (by rw [List.length_append]; omega), ht, hdd]
          have : s.cend - s.filePos - a = s.cend - (s.filePos + a) := by omega
          rw [this]
          simp only [List.append_assoc]
          rfl)
      have hs' := hst
      have hcongr : ({ s with
          ooo := addTo s.bufIdx (s.inp.take a) s.ooo
          oooTotal := s.oooTotal + a
          inp := s.inp.drop a
          filePos := s.filePos + a } : Dec) = buffered a .buffering s := by
        unfold buffered
        rw [← hst]
      rw [hcongr]
      refine ⟨⟨D, hB', hwin .buffering⟩, (hwin .buffering).quiet hu0 ?_⟩
      intro hFs
      have htl : tl = [] := by
        rw [hFs] at hF; simpa using hF
      have hz : reading F = ({ asm s D with early := O.map piece }, false) := by
        rw [hsp _ (Nat.lt_succ_self _), hbase, htl, List.append_nil]
        unfold len base
        by_cases hu : s.unbounded = true
        · rw [if_pos hu]; rfl
        · rw [if_neg hu]
          have hu' : s.unbounded = false := by simpa using hu
          have := h4 hu'
          have : ¬ s.cend ≤ s.filePos + a := fun h => hdone ⟨hu', h⟩
          unfold earlyBody
          dsimp only [buffered]
          rw [if_neg (by omega)]
      refine ⟨?_, ?_⟩
      · unfold codestreamOf; rw [hz]; rfl
      · rw [hB.malformed_iff hns, hz]
  · rw [if_neg hcan]
    refine ⟨_, rfl, ?_⟩
    show 2 ^ 20 ≤ c.supplied.length
    unfold canAdd at hcan
    simp only [decide_eq_true_eq] at hcan
    omega

/-! ### Every operation -/

theorem step_inv {F c s D} (o : Op) (hB : Box F c.supplied s D) (hW : Win c s D)
    (hF : ∀ xs, o = .more xs → c.supplied ++ xs <+: F) (hl : Legal c s o) :
    ∃ r, step o s = some r ∧ Post F c s o r := by
  cases o with
  | more xs =>
    refine ⟨_, rfl, D, ?_, ?_⟩
    · have hp := hB.posLe
      refine ⟨hF xs rfl, ?_, ?_, ?_, hB.hs0, hB.bnd, hB.csz, hB.ver, hB.vbc, hB.tot, hB.sig, hB.cont, ?_⟩
      · show _ ≤ (c.supplied ++ xs).length
        rw [List.length_append]; dsimp only; omega
      · show (c.supplied ++ xs).drop _ = _
        dsimp only
        rw [List.drop_append_of_le_length hp, hB.inpEq]
      · have := hB.hs
        dsimp only; rw [List.length_append]; omega
      · have hs := hB.spec
        unfold SpecAt at hs ⊢
        cases e : s.stage <;> simp only [e] at hs ⊢
        · refine ⟨?_, hs.2⟩
          have h1 := hs.1
          clear hB hW hs hl hF hp
          cases s
          simp only [Dec.mk.injEq] at h1 ⊢
          simp_all
        all_goals exact hs
    · have hun := hW.unc
      obtain ⟨pre, X, r1, r2, r3⟩ := hW.rel
      refine ⟨⟨pre, X, r1, ?_, r3⟩, ?_, hW.uncBox, hW.posOk, hW.noOver, ?_, ?_, hW.bud⟩
      · dsimp only
        rw [take_pre _ _ _ hun]; exact r2
      · dsimp only; rw [List.length_append]; omega
      · intro ho
        refine Nat.le_trans (hW.remOk ho) ?_
        unfold vis
        dsimp only
        by_cases hc : s.copy = []
        · rw [if_pos hc, if_pos hc]
          by_cases hcs : s.stage = .codestream ∧ s.headerSize = 0
          · rw [if_pos hcs, if_pos hcs]
            unfold avail
            dsimp only
            rw [List.length_append]
            by_cases hu : s.unbounded = true
            · rw [if_pos hu, if_pos hu]
              simp
            · have := hB.bnd (by simpa using hu)
              rw [if_neg hu, if_neg hu, if_pos (by omega), if_pos (by omega)]
              simp only [Option.getD_some]
              omega
          · rw [if_neg hcs, if_neg hcs]
            exact Nat.le_refl _
        · rw [if_neg hc, if_neg hc]
          exact Nat.le_refl _
      · intro h; cases h
  | get =>
    have hst : s.stage = .codestream := hl
    obtain ⟨s1, e1, e2, e3, e4, e5, _, _⟩ := enter_inv hB hW (by rw [hst]; decide)
    obtain ⟨r, hr, hp⟩ := getInput_inv e2 e3 (by rw [e5, hst]) e4
    refine ⟨r, ?_, hp s⟩
    show (enter s).bind getInput = _
    rw [e1]; exact hr
  | advance n =>
    obtain ⟨s', D', e1, e2, e3⟩ := advance_inv hB hW n hl
    refine ⟨.ok s', ?_, D', e2, e3⟩
    show (advance n s).map _ = _
    rw [e1]; rfl
  | request =>
    obtain ⟨r, hr, hp⟩ := request_inv hB hW hl
    exact ⟨r, hr, hp.request⟩
  | tick b =>
    show ∃ r, tick b s = some r ∧ _
    unfold tick
    have hent : ∀ st, s.stage = st → st ≠ .start → st ≠ .header → _ := fun st h a b =>
      enter_inv hB hW (by rw [h]; exact ⟨a, b⟩)
    cases e : s.stage with
    | start => exact ⟨_, rfl, tickStart_inv hB hW e b⟩
    | header => exact ⟨_, rfl, tickHeader_inv hB hW e b⟩
    | codestream =>
      obtain ⟨s1, e1, e2, e3, e4, e5, _, _⟩ := hent _ e (by decide) (by decide)
      refine ⟨.ok s1, ?_, D, e2, e3⟩
      rw [e1]; rfl
    | ftyp =>
      obtain ⟨s1, e1, e2, e3, e4, e5, _, _⟩ := hent _ e (by decide) (by decide)
      obtain ⟨r, hr, hp⟩ := tickFtyp_inv e2 e3 (by rw [e5, e]) e4 b s
      exact ⟨r, by rw [e1]; exact hr, hp⟩
    | skip =>
      obtain ⟨s1, e1, e2, e3, e4, e5, e6, e7⟩ := hent _ e (by decide) (by decide)
      obtain ⟨r, hr, hp⟩ := tickSkip_inv e2 e3 (by rw [e5, e]) e4 b s e6.symm e7.symm
        (hW.unc0 (by rw [e]; decide))
      exact ⟨r, by rw [e1]; exact hr, hp⟩
    | partialCs =>
      obtain ⟨s1, e1, e2, e3, e4, e5, _, _⟩ := hent _ e (by decide) (by decide)
      obtain ⟨r, hr, hp⟩ := tickPartial_inv e2 e3 (by rw [e5, e]) e4 b s
      exact ⟨r, by rw [e1]; exact hr, hp⟩
    | buffering =>
      obtain ⟨s1, e1, e2, e3, e4, e5, _, _⟩ := hent _ e (by decide) (by decide)
      obtain ⟨r, hr, hp⟩ := tickBuffering_inv e2 e3 (by rw [e5, e]) e4 b s
      exact ⟨r, by rw [e1]; exact hr, hp⟩

theorem init_inv (F : List UInt8) : Box F [] {} [] ∧ Win {} {} [] := by
  refine ⟨⟨List.nil_prefix, Nat.le_refl _, rfl, Nat.le_refl _, fun _ => ⟨rfl, rfl, rfl⟩, fun _ => Nat.le_refl _, ?_, ?_,
    ⟨?_, ?_⟩, rfl, ?_, fun _ => .inl rfl, ?_⟩, Win.ofEmpty rfl rfl rfl (fun _ => rfl) (fun _ => Nat.zero_le _) ?_ (Nat.le_refl _)⟩
  · intro h; rcases h with h | h <;> cases h
  · intro h; exact absurd rfl h
  · intro h; exact absurd h (by decide)
  · intro h; cases h
  · intro h; exact absurd rfl h
  · exact ⟨rfl, rfl⟩
  · intro h; cases h

/-- The invariant holds in every session, for every completion of the bytes supplied so far. -/
theorem reach_inv {s c} (h : Reach s c) : ∀ F, c.supplied <+: F →
    ∃ D, Box F c.supplied s D ∧ Win c s D := by
  induction h with
  | init => intro F _; exact ⟨[], init_inv F⟩
  | @step s c s' o r hr hl hs hst ih =>
    intro F hF
    have hpre : c.supplied <+: F := by
      refine List.IsPrefix.trans ?_ hF
      cases o <;> simp only [Client.next]
      · exact List.prefix_append _ _
      · exact List.prefix_refl _
      · cases r <;> exact List.prefix_refl _
      · exact List.prefix_refl _
      · exact List.prefix_refl _
    obtain ⟨D, hB, hW⟩ := ih F hpre
    obtain ⟨r', hr', hp⟩ := step_inv o hB hW (by
      intro xs hx; subst hx; exact hF) hl
    rw [hs] at hr'
    cases hr'
    cases r with
    | ok s1 => cases hst; exact hp
    | span l s1 => cases hst; exact hp.1
    | need s1 => cases hst; exact hp.1
    | done => cases hst
    | refused => cases hst
    | internal => cases hst
    | limit => cases hst

end Jxl.DecInput
