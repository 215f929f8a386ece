import Verif.Lemmas.DecInput
/-! The codestream parser obtains spans and asks for more. -/
namespace Jxl.DecInput
open Container

theorem find_map (i : Nat) : ∀ l, (l.map piece).find? (fun p => p.idx == i)
    = (find i l).map (fun e => (⟨i, e.1, e.2⟩ : Piece))
  | [] => rfl
  | e :: t => by
    rw [List.map_cons, List.find?_cons, find]
    by_cases h : e.1 = i
    · have hb : ((piece e).idx == i) = true := by simp [piece, h]
      rw [hb, if_pos h]
      simp [piece, h]
    · have hb : ((piece e).idx == i) = false := by simp [piece, h]
      rw [hb, if_neg h]
      exact find_map i t

theorem erase_map (i : Nat) : ∀ l, (l.map piece).eraseP (fun p => p.idx == i)
    = (erase i l).map piece
  | [] => rfl
  | e :: t => by
    rw [List.map_cons, List.eraseP_cons, erase]
    by_cases h : e.1 = i
    · have hb : ((piece e).idx == i) = true := by simp [piece, h]
      rw [hb, if_pos h]; rfl
    · have hb : ((piece e).idx == i) = false := by simp [piece, h]
      rw [hb, if_neg h, List.map_cons, ← erase_map i t]; rfl

theorem erase_sum (i : Nat) : ∀ l e, find i l = some e →
    (l.map (fun e => e.2.1.length)).sum = e.1.length + ((erase i l).map (fun e => e.2.1.length)).sum
      ∧ l.length = (erase i l).length + 1
  | [], e, h => by cases h
  | x :: t, e, h => by
    rw [find] at h
    rw [erase]
    by_cases hx : x.1 = i
    · rw [if_pos hx] at h ⊢
      cases h
      simp
    · rw [if_neg hx] at h ⊢
      have := erase_sum i t e h
      simp only [List.map_cons, List.sum_cons, List.length_cons]
      omega

theorem Box.malformed_iff {F S s D} (h : Box F S s D) (hs : s.stage ≠ .start) :
    malformed F = (reading F).2 := by
  have := h.sig hs
  unfold malformed
  by_cases hc : s.container = true
  · rw [if_pos hc] at this; simp [this.1]
  · rw [if_neg hc] at this; simp [this]

/-- Nothing that was supplied is lost or pending. -/
def Quiet (F : List UInt8) (c : Client) (s : Dec) : Prop :=
  F = c.supplied → s.copy.drop s.pos = (codestreamOf F).drop c.used ∧ s.unconsumed = 0 ∧
    malformed F = false

theorem Win.quiet {F c s D} (hW : Win c s D) (hu : s.unconsumed = 0)
    (h : F = c.supplied → codestreamOf F = D ∧ malformed F = false) : Quiet F c s := by
  intro hF
  obtain ⟨pre, X, r1, r2, r3⟩ := hW.rel
  obtain ⟨h1, h2⟩ := h hF
  refine ⟨?_, hu, h2⟩
  rw [h1, r1, r3, r2, hu]
  simp [List.drop_append]

/-- The outcome of an operation agrees with the whole-file reading. -/
def Post (F : List UInt8) (c : Client) (s : Dec) (o : Op) (r : Res) : Prop :=
  match r with
  | .ok s' => ∃ D, Box F (c.next o r).supplied s' D ∧ Win (c.next o r) s' D
  | .span l s' => (∃ D, Box F (c.next o r).supplied s' D ∧ Win (c.next o r) s' D) ∧
      l <+: (codestreamOf F).drop c.used
  | .need s' => (∃ D, Box F (c.next o r).supplied s' D ∧ Win (c.next o r) s' D) ∧ Quiet F c s'
  | .done => Quiet F c s
  | .refused => malformed F = true
  | .internal => c.over = true ∧ (reading F).1.version ≠ 0
  | .limit => 2 ^ 20 ≤ c.supplied.length

/-- The client record after a parser operation that gave no span. -/
def unfresh (c : Client) : Client := { c with fresh := false }

theorem unfresh_win {c s D} (h : Win c s D) : Win (unfresh c) s D :=
  ⟨h.rel, h.unc, h.uncBox, h.posOk, h.noOver, h.remOk, (by intro h; cases h), h.bud⟩

/-- Outcome of a parser operation without a span. -/
def PostN (F : List UInt8) (c : Client) (r : Res) : Prop :=
  match r with
  | .ok s' => ∃ D, Box F c.supplied s' D ∧ Win (unfresh c) s' D
  | .need s' => (∃ D, Box F c.supplied s' D ∧ Win (unfresh c) s' D) ∧ Quiet F c s'
  | .limit => 2 ^ 20 ≤ c.supplied.length
  | _ => False

theorem code_zero {F f s D} (he : s.filePos = s.cend) (hu : s.unbounded = false)
    (h0 : s.headerSize = 0) :
    codeBody (len s) (F.drop (base s)) (asm s D) (kont F f s) = kont F f s (settle (asm s D)) := by
  have : len s = some 0 := by
    unfold len base
    rw [hu]
    simp [h0, he]
  rw [this]
  unfold codeBody
  simp [asm]

theorem afterNeed_inv {F c s D} (hB : Box F c.supplied s D) (hW : Win (unfresh c) s D)
    (hst : s.stage = .codestream) (h0 : s.headerSize = 0) (hu : s.unconsumed = 0)
    (hx : (s.filePos = s.cend ∧ s.unbounded = false) ∨ s.inp = []) :
    PostN F c (afterNeed s) := by
  have hspec := hB.spec
  unfold SpecAt at hspec
  simp only [hst] at hspec
  obtain ⟨pre, X, r1, r2, r3⟩ := hW.rel
  rw [hu] at r2
  simp only [List.take_zero, List.append_nil] at r2
  have hbud := hW.bud
  unfold afterNeed
  by_cases he : s.filePos = s.cend ∧ s.unbounded = false
  · rw [if_pos he]
    cases hf : find s.nextIdx s.ooo with
    | none =>
      refine ⟨D, ?_, ?_⟩
      · have hct : s.container = true := by
          by_cases h : s.container = true
          · exact h
          · have := hB.cont (by simpa using h)
            rw [hst] at this
            rcases this with h | h | h
            · cases h
            · cases h
            · rw [he.2] at h; exact absurd h.2 (by decide)
        refine ⟨hB.pre, hB.posLe, hB.inpEq, hB.hs, fun _ => ⟨h0, he.2, he.1.symm⟩, hB.bnd, ?_, hB.ver, ?_, hB.tot, ?_, ?_, ?_⟩
        · intro h; rcases h with h | h <;> cases h
        · exact ⟨hB.vbc.1, by intro h; cases h⟩
        · intro _; exact hB.sig (by rw [hst]; decide)
        · intro h; rw [hct] at h; cases h
        · unfold SpecAt
          dsimp only
          rw [if_pos hct]
          intro f hff
          rw [hspec f hff, code_zero he.1 he.2 h0, settle_none]
          · rw [he.1]; rfl
          · show List.find? _ (s.ooo.map piece) = none
            have := find_map s.nextIdx s.ooo
            rw [hf] at this
            exact this
      · refine ⟨⟨pre, X, r1, by simp [r2, hu], r3⟩, by simp [hu], ?_, hW.posOk, hW.noOver, ?_, ?_, hbud⟩
        · intro h; exact absurd hu h
        · intro ho
          have := hW.remOk ho
          unfold vis at this ⊢
          dsimp only
          by_cases hc : s.copy = []
          · rw [if_pos hc] at this ⊢
            rw [if_pos ⟨hst, h0⟩] at this
            have ha : avail s = some 0 := by
              unfold avail
              rw [he.2]
              simp only [Bool.false_eq_true, if_false]
              rw [if_pos (by omega)]
              simp [he.1]
            rw [ha] at this
            rw [if_neg (by intro h; cases h.1)]
            exact this
          · rw [if_neg hc] at this ⊢; exact this
        · intro h; cases h
    | some e =>
      obtain ⟨hsum, hlen⟩ := erase_sum _ _ _ hf
      have hne : s.ooo ≠ [] := by intro h; rw [h] at hf; cases hf
      have htot := hB.tot
      refine ⟨D ++ e.1, ?_, ?_⟩
      · refine ⟨hB.pre, hB.posLe, hB.inpEq, hB.hs, hB.hs0, hB.bnd, hB.csz, fun _ => hB.ver hne,
          hB.vbc, ?_, hB.sig, hB.cont, ?_⟩
        · simp only [inject]; omega
        · unfold SpecAt
          simp only [inject, hst]
          intro f hff
          have hz := hspec f hff
          rw [code_zero he.1 he.2 h0] at hz
          have hfind : (asm s D).early.find? (fun p => p.idx == (asm s D).next)
              = some ⟨s.nextIdx, e.1, e.2⟩ := by
            have := find_map s.nextIdx s.ooo
            rw [hf] at this
            exact this
          rw [settle_some hfind] at hz
          rw [hz]
          have := code_zero (F := F) (f := f) (s := inject s e) (D := D ++ e.1) he.1 he.2 h0
          refine Eq.trans ?_ this.symm
          show kont F f s _ = kont F f s _
          congr 2
          simp only [asm, inject, erase_map]
      · refine ⟨⟨pre, X ++ e.1, ?_, ?_, ?_⟩, ?_, ?_, ?_, ?_, ?_, ?_, ?_⟩
        · rw [r1, List.append_assoc]
        · simp [inject, r2, hu]
        · exact r3
        · exact hW.unc
        · intro h; exact absurd hu h
        · intro ho hn
          simp only [inject, List.length_append]
          by_cases hc : s.copy = []
          · rcases ho with ho | ho
            · have := hW.noOver ho hc; omega
            · have := hB.ver hne; simp only [inject] at ho; omega
          · have := hW.posOk ho hc; omega
        · intro ho hn
          simp only [inject, List.append_eq_nil_iff] at hn
          exact hW.noOver ho hn.1
        · intro ho
          have hrem := hW.remOk ho
          unfold vis at hrem ⊢
          simp only [inject, List.append_eq_nil_iff, List.length_append]
          have ha : avail s = some 0 := by
            unfold avail
            rw [he.2]
            simp only [Bool.false_eq_true, if_false]
            rw [if_pos (by omega)]
            simp [he.1]
          by_cases hc : s.copy = []
          · rw [if_pos hc, if_pos ⟨hst, h0⟩, ha] at hrem
            simp only [Option.getD_some] at hrem
            omega
          · rw [if_neg hc] at hrem
            rw [if_neg (by intro h; exact hc h.1)]
            omega
        · intro h; cases h
        · simp only [inject, List.length_append, hu] at hbud ⊢
          omega
  · rw [if_neg he]
    have hi : s.inp = [] := by
      rcases hx with h | h
      · exact absurd h he
      · exact h
    refine ⟨⟨D, hB, hW⟩, ?_⟩
    refine (Win.quiet hW hu ?_ : Quiet F (unfresh c) s)
    intro hF
    have hz := hspec _ (Nat.lt_succ_self _)
    have hd : F.drop (base s) = [] := by
      unfold base
      rw [h0, Nat.add_zero, hF]
      exact hB.inpEq.trans hi
    have : reading F = ({ asm s D with out := D }, false) := by
      rw [hz, hd]
      unfold len base
      by_cases hub : s.unbounded = true
      · rw [if_pos hub]
        simp [codeBody, asm]
      · rw [if_neg hub]
        have hb := hB.bnd (by simpa using hub)
        have : ¬ (s.cend - (s.filePos + s.headerSize) ≤ ([] : List UInt8).length) := by
          intro h
          simp at h
          exact he ⟨by omega, by simpa using hub⟩
        unfold codeBody
        simp only [this, if_false]
        simp [asm]
    refine ⟨?_, ?_⟩
    · unfold codestreamOf; rw [this]
    · rw [hB.malformed_iff (by rw [hst]; decide), this]

theorem Box.supplied_len {F S s D} (h : Box F S s D) : s.filePos + s.inp.length = S.length := by
  have := h.posLe
  rw [← h.inpEq, List.length_drop]; omega

theorem Win.empty {c s D} (hW : Win c s D) (hc : s.copy = []) :
    s.unconsumed = 0 ∧ c.used = D.length + s.pos := by
  obtain ⟨pre, X, r1, r2, r3⟩ := hW.rel
  rw [hc] at r2
  have h2 := r2.symm
  rw [List.append_eq_nil_iff] at h2
  have := congrArg List.length h2.2
  rw [List.length_take, List.length_nil] at this
  have hun := hW.unc
  refine ⟨by omega, ?_⟩
  rw [r3, r1, h2.1]; simp

theorem requestEmpty_inv {F c s D} (hB : Box F c.supplied s D) (hW : Win c s D)
    (hst : s.stage = .codestream) (h0 : s.headerSize = 0) (hc : s.copy = [])
    (hpa : s.pos = 0 ∨ avail s = some 0) : ∃ r, request s = some r ∧ PostN F c r := by
  obtain ⟨hu, hused⟩ := hW.empty hc
  obtain ⟨a, ha, h1, h2, h3, h4⟩ := avail_some hB h0
  have hbud := hW.bud
  have hlen := hB.supplied_len
  unfold request requestMore
  rw [if_pos hc, ha]
  simp only [Option.bind_some]
  by_cases hcan : canAdd s a = true
  · rw [if_pos hcan]
    unfold advIn
    dsimp only
    rw [if_pos (by omega)]
    refine ⟨_, rfl, ?_⟩
    have hb := (consume hB hst h0 a h1 h2).setWin (by dsimp only; rw [hst]; decide) (s.inp.take a) s.unconsumed s.pos
    refine afterNeed_inv hb ?_ hst h0 hu ?_
    · have hpz : s.inp.take a ≠ [] → s.pos = 0 := by
        intro hn
        rcases hpa with h | h
        · exact h
        · rw [ha] at h; cases h; simp at hn
      refine ⟨⟨D, s.inp.take a, rfl, by simp [hu], hused⟩, ?_, ?_, ?_, ?_, ?_, ?_, ?_⟩
      · dsimp only; omega
      · intro h; exact absurd hu h
      · intro _ hn; dsimp only; rw [hpz hn]; omega
      · intro ho _; exact hW.noOver ho hc
      · intro ho
        have hr := hW.remOk ho
        have hv : vis s = a := by
          unfold vis; rw [if_pos hc, if_pos ⟨hst, h0⟩, ha]; rfl
        show c.rem ≤ _
        unfold vis
        dsimp only
        by_cases he : s.inp.take a = []
        · have := congrArg List.length he
          rw [List.length_take, List.length_nil] at this
          omega
        · rw [if_neg he, hpz he, List.length_take]
          omega
      · intro h; cases h
      · dsimp only
        rw [List.length_take]
        rw [hc, List.length_nil] at hbud
        omega
    · dsimp only
      by_cases hub : s.unbounded = true
      · right; rw [h3 hub]; simp
      · have hub : s.unbounded = false := by simpa using hub
        have := h4 hub
        have := hB.bnd hub
        by_cases hx : a = s.inp.length
        · right; rw [hx]; simp
        · left; exact ⟨by omega, hub⟩
  · rw [if_neg hcan]
    refine ⟨_, rfl, ?_⟩
    show 2 ^ 20 ≤ c.supplied.length
    unfold canAdd at hcan
    simp only [decide_eq_true_eq] at hcan
    rw [hc, List.length_nil] at hcan hbud
    omega

theorem requestCopy_inv {F c s D} (hB : Box F c.supplied s D) (hW : Win c s D)
    (hfr : c.fresh = true) (hc : s.copy ≠ []) : ∃ r, request s = some r ∧ PostN F c r := by
  obtain ⟨hst, h0, hav⟩ := hW.freshOk hfr
  have hav := hav hc
  obtain ⟨a, ha, h1, h2, h3, h4⟩ := avail_some hB h0
  rw [hav] at ha
  cases ha
  obtain ⟨pre, X, r1, r2, r3⟩ := hW.rel
  have hbud := hW.bud
  unfold request requestMore
  rw [if_neg hc]
  unfold advIn
  dsimp only
  rw [if_pos h1]
  refine ⟨_, rfl, ?_⟩
  have hb := (consume hB hst h0 s.unconsumed h1 h2).setWin (by dsimp only; rw [hst]; decide) s.copy 0 s.pos
  have hcl : s.copy.length = X.length + s.unconsumed := by
    rw [r2, List.length_append, List.length_take]; omega
  refine afterNeed_inv hb ?_ hst h0 rfl ?_
  · refine ⟨⟨pre, s.copy, ?_, by simp, r3⟩, Nat.zero_le _, ?_, hW.posOk, hW.noOver, ?_, ?_, ?_⟩
    · rw [r1, r2, List.append_assoc]
    · intro h; exact absurd rfl h
    · intro ho
      have := hW.remOk ho
      unfold vis at this ⊢
      rw [if_neg hc] at this
      dsimp only
      rw [if_neg hc]
      exact this
    · intro h; cases h
    · dsimp only; omega
  · dsimp only
    by_cases hub : s.unbounded = true
    · right; rw [h3 hub]; simp
    · have hub : s.unbounded = false := by simpa using hub
      have := h4 hub
      have := hB.bnd hub
      by_cases hx : s.unconsumed = s.inp.length
      · right; rw [hx]; simp
      · left; exact ⟨by omega, hub⟩

theorem request_inv {F c s D} (hB : Box F c.supplied s D) (hW : Win c s D)
    (hl : Legal c s .request) : ∃ r, request s = some r ∧ PostN F c r := by
  by_cases hc : s.copy = []
  · have := hW.freshOk hl.2
    exact requestEmpty_inv hB hW this.1 this.2.1 hc (.inl (hW.noOver hl.1 hc))
  · exact requestCopy_inv hB hW hl.2 hc

theorem PostN.get {F c s r} (h : PostN F c r) : Post F c s .get r := by
  cases r <;> first | exact h | exact h.elim

theorem PostN.request {F c s r} (h : PostN F c r) : Post F c s .request r := by
  cases r <;> first | exact h | exact h.elim

theorem Box.version {F S s D} (hB : Box F S s D) (hst : s.stage = .codestream)
    (hv : s.version ≠ 0) : (reading F).1.version = s.version := by
  have hs := hB.spec
  unfold SpecAt at hs
  simp only [hst] at hs
  rw [hs _ (Nat.lt_succ_self _)]
  have hk : VExt (kont F F.length.succ s) := walk_version _ _ _ _ (hB.vbc.1 (by omega))
  rw [codeBody_version hk]
  rfl

theorem prefix_drop {l m : List UInt8} (h : l <+: m) (n : Nat) : l.drop n <+: m.drop n := by
  obtain ⟨t, rfl⟩ := h
  rw [List.drop_append]
  exact List.prefix_append _ _

theorem getTail_inv {F c s D} (hB : Box F c.supplied s D) (hW : Win c s D)
    (hst : s.stage = .codestream) (h0 : s.headerSize = 0) (hp : s.copy = [] → s.pos = 0) :
    ∃ r, getTail s = some r ∧ ∀ s0, Post F c s0 .get r := by
  obtain ⟨a, ha, h1, h2, h3, h4⟩ := avail_some hB h0
  obtain ⟨pre, X, r1, r2, r3⟩ := hW.rel
  have hbud := hW.bud
  have hlen := hB.supplied_len
  have hunc := hW.unc
  have hcl : s.copy.length = X.length + s.unconsumed := by
    rw [r2, List.length_append, List.length_take]; omega
  unfold getTail
  by_cases hi : s.copy.length < s.pos
  · rw [if_pos hi]
    refine ⟨_, rfl, fun s0 => ?_⟩
    have hc : s.copy ≠ [] := by
      intro h; have := hp h; omega
    have : ¬ (c.over = false ∨ s.version = 0) := by
      intro h; have := hW.posOk h hc; omega
    refine ⟨?_, ?_⟩
    · simpa using fun h => this (.inl h)
    · have hv : s.version ≠ 0 := fun h => this (.inr h)
      rw [hB.version hst hv]; exact hv
  rw [if_neg hi, if_neg (by omega), ha]
  simp only [Option.bind_some]
  have hdel := (consume hB hst h0 a h1 h2).delivered hst
  by_cases hc : s.copy = []
  · rw [if_pos hc]
    have hp0 := hp hc
    obtain ⟨hu, hused⟩ := hW.empty hc
    by_cases hz : a = 0
    · rw [if_pos hz]
      obtain ⟨r, h, hpost⟩ := requestEmpty_inv hB hW hst h0 hc (.inl hp0)
      exact ⟨r, h, fun _ => hpost.get⟩
    · rw [if_neg hz]
      refine ⟨_, rfl, fun s0 => ⟨⟨D, hB, ?_⟩, ?_⟩⟩
      · refine Win.ofEmpty hc hu hused (fun _ => hp0) ?_ (fun _ => ⟨hst, h0⟩) ?_
        · intro _
          show (s.inp.take a).length ≤ vis s
          unfold vis
          rw [if_pos hc, if_pos ⟨hst, h0⟩, ha, List.length_take]
          simp only [Option.getD_some]
          omega
        · rw [hc, List.length_nil] at hbud
          omega
      · have := prefix_drop hdel D.length
        rw [List.drop_left] at this
        rw [hused, hp0]
        exact this
  · rw [if_neg hc]
    by_cases hcan : canAdd s a = true
    · rw [if_pos hcan]
      have hua : s.unconsumed ≤ a := by
        by_cases hz : s.unconsumed = 0
        · omega
        · by_cases hub : s.unbounded = true
          · rw [h3 hub]; exact hunc
          · have hub : s.unbounded = false := by simpa using hub
            have := (hW.uncBox hz).2.2 hub
            have := h4 hub
            omega
      rw [if_neg (by omega)]
      have hcopy : s.copy ++ (s.inp.take a).drop s.unconsumed = X ++ s.inp.take a := by
        rw [r2, List.append_assoc]
        congr 1
        have : s.inp.take s.unconsumed = (s.inp.take a).take s.unconsumed := by
          rw [List.take_take]; congr 1; omega
        rw [this, List.take_append_drop]
      refine ⟨_, rfl, fun s0 => ⟨⟨D, ?_, ?_⟩, ?_⟩⟩
      · exact hB.setWin (by rw [hst]; decide) _ _ _
      · have hne : s.copy ++ (s.inp.take a).drop s.unconsumed ≠ [] := by
          intro h; rw [List.append_eq_nil_iff] at h; exact hc h.1
        refine ⟨⟨pre, X, r1, hcopy, r3⟩, h1, fun _ => ⟨hst, h0, h2⟩, ?_, ?_, ?_, ?_, ?_⟩
        · intro _ _
          dsimp only
          rw [List.length_append]
          omega
        · intro _ h; exact absurd h hne
        · intro _
          show (List.drop s.pos _).length ≤ _
          unfold vis
          dsimp only
          rw [if_neg hne, List.length_drop]
          exact Nat.le_refl _
        · intro _
          exact ⟨hst, h0, fun _ => ha⟩
        · dsimp only
          rw [hcopy, List.length_append, List.length_take]
          omega
      · rw [hcopy]
        have := prefix_drop hdel (pre.length + s.pos)
        rw [r1, List.append_assoc, ← List.drop_drop, List.drop_left] at this
        rw [r3]
        exact this
    · rw [if_neg hcan]
      refine ⟨_, rfl, fun s0 => ?_⟩
      show 2 ^ 20 ≤ c.supplied.length
      unfold canAdd at hcan
      simp only [decide_eq_true_eq] at hcan
      omega

theorem getInput_inv {F c s D} (hB : Box F c.supplied s D) (hW : Win c s D)
    (hst : s.stage = .codestream) (h0 : s.headerSize = 0) :
    ∃ r, getInput s = some r ∧ ∀ s0, Post F c s0 .get r := by
  unfold getInput
  by_cases hcp : s.copy = [] ∧ 0 < s.pos
  · rw [if_pos hcp]
    obtain ⟨hc, hp⟩ := hcp
    obtain ⟨hu, hused⟩ := hW.empty hc
    obtain ⟨a, ha, h1, h2, h3, h4⟩ := avail_some hB h0
    have ho : c.over = true := by
      by_cases h : c.over = true
      · exact h
      · have := hW.noOver (by simpa using h) hc; omega
    have hbud := hW.bud
    rw [hc, List.length_nil] at hbud
    rw [ha]
    simp only [Option.bind_some]
    generalize hk : min s.pos a = k
    unfold advIn
    dsimp only
    rw [if_pos (by omega)]
    simp only [Option.bind_some]
    have hb := (consume hB hst h0 k (by omega) (fun h => by have := h2 h; omega)).setWin
      (by dsimp only; rw [hst]; decide) s.copy s.unconsumed (s.pos - k)
    have hv := vis_drop ha (m := k) (by omega) hst h0 s.copy s.unconsumed (s.pos - k) hc
    have hw : Win c { s with inp := s.inp.drop k, filePos := s.filePos + k, pos := s.pos - k }
        (D ++ s.inp.take k) := by
      refine Win.ofEmpty hc hu ?_ ?_ ?_ (fun _ => ⟨hst, h0⟩) ?_
      · dsimp only
        rw [hused, List.length_append, List.length_take]; omega
      · intro h; rw [ho] at h; cases h
      · intro h; rw [ho] at h; cases h
      · dsimp only; omega
    by_cases hpos : 0 < s.pos - k
    · rw [if_pos hpos]
      obtain ⟨a', ha', _⟩ := avail_some hb h0
      have : a' = 0 := by
        unfold vis at hv
        rw [if_pos hc, if_pos ⟨hst, h0⟩, ha'] at hv
        simp only [Option.getD_some] at hv
        omega
      subst this
      obtain ⟨r, h, hpost⟩ := requestEmpty_inv hb hw hst h0 hc (.inr ha')
      exact ⟨r, h, fun _ => hpost.get⟩
    · rw [if_neg hpos]
      exact getTail_inv hb hw hst h0 (fun _ => by dsimp only; omega)
  · rw [if_neg hcp]
    refine getTail_inv hB hW hst h0 (fun h => ?_)
    by_cases hz : s.pos = 0
    · exact hz
    · exact absurd ⟨h, by omega⟩ hcp

end Jxl.DecInput
