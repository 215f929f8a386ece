import Verif.Lemmas.SqueezeChannels
/-! Squeezes that leave the residuals alone: the default parameters. -/
namespace Jxl.Modular.Squeeze

/-- Whatever gets squeezed on the way satisfies `G`. -/
def Squeezed (G : Channel → Prop) : List Params → List Channel → Prop
  | [], _ => True
  | p :: ps, chs => (∀ c ∈ (chs.drop p.beginC).take p.numC, G c) ∧ ∀ chs', fwdOne p chs = some chs' → Squeezed G ps chs'

theorem invAll_fwdAll (K : Kernels) (G : Channel → Prop) (hG : ∀ p : Params, ∀ c a r, G c → c.Wf →
      (if p.horizontal then fwdH else fwdV) c = some (a, r) → invKernel K p a r = some c) :
    ∀ (ps : List Params) (chs out : List Channel) (nb nb' : Nat) (gs gs' : List Geom), fwdAll ps chs = some out →
    metaAll ps (nb, gs) = some (nb', gs') → (∀ c ∈ chs, c.Wf) → Squeezed G ps chs →
    invAll K ps { channel := out, nbMeta := nb' } = some { channel := chs, nbMeta := nb } := by
  intro ps
  induction ps with
  | nil =>
    intro chs out nb nb' gs gs' h hm _ _
    simp only [fwdAll, Option.some.injEq] at h
    simp only [metaAll, Option.some.injEq, Prod.mk.injEq] at hm
    rw [← h, ← hm.1]; rfl
  | cons p ps ih =>
    intro chs out nb nb' gs gs' h hm hw hg
    simp only [fwdAll, Option.bind_eq_bind, Option.bind_eq_some_iff] at h
    obtain ⟨c1, h1, h2⟩ := h
    simp only [metaAll, Option.bind_eq_bind, Option.bind_eq_some_iff] at hm
    obtain ⟨⟨nb1, gs1⟩, m1, m2⟩ := hm
    have hnb : metaNb p nb = some nb1 := by
      unfold metaOne at m1
      split at m1
      · simp only [Option.bind_eq_bind, Option.bind_eq_some_iff] at m1
        obtain ⟨nb2, q1, gs2, q2, q3⟩ := m1
        simp only [Option.some.injEq, Prod.mk.injEq] at q3
        rw [q1, q3.1]
      · exact absurd m1 (by simp)
    have := ih c1 out nb1 nb' gs1 gs' h2 m2 (fwdOne_wf p chs c1 h1 hw) (hg.2 c1 h1)
    simp only [invAll, this, Option.bind_eq_bind, Option.bind_some]
    refine invOne_fwdOne K p chs c1 nb nb1 h1 hnb ?_
    intro c hc a r har
    exact hG p c a r (hg.1 c hc) (hw c (List.mem_of_mem_drop (List.mem_of_mem_take hc))) har

theorem fwdH_small (c a r : Channel) (hs : SmallCh c) (h : fwdH c = some (a, r)) : SmallCh a := by
  obtain ⟨h0, _⟩ := fwdH_spec c a r h
  unfold SmallCh at *
  generalize c.rows = rows at *
  generalize a.rows = ar at *
  generalize r.rows = rr at *
  induction rows generalizing ar rr with
  | nil => simp only [mapRows2, Option.some.injEq, Prod.mk.injEq] at h0; rw [← h0.1]; simp
  | cons x rows ih =>
    simp only [mapRows2, Option.bind_eq_bind, Option.bind_eq_some_iff, Prod.exists] at h0
    obtain ⟨a0, r0, h1, as, rs, h2, h3⟩ := h0
    simp only [Option.some.injEq, Prod.mk.injEq] at h3
    rw [← h3.1]
    have ha := (fwdSeq_closed pxOps Small (fun _ => True)
      (fun A B m hA hB hm => by
        obtain ⟨m', e1, e2⟩ := average_small A B hA hB
        have hm' : average A B = some m := hm
        rw [e1] at hm'; rw [← Option.some.inj hm']; exact e2) x a0 r0 h1 (hs x (by simp)) (fun _ _ _ _ _ _ _ _ _ _ _ _ => trivial)).1
    intro y hy
    rcases List.mem_cons.mp hy with rfl | hy
    · exact ha
    · exact ih (fun z hz => hs z (by simp [hz])) as rs h2 y hy

theorem fwdV_small (c a r : Channel) (hc : c.Wf) (hs : SmallCh c) (h : fwdV c = some (a, r)) : SmallCh a := by
  obtain ⟨h0, _⟩ := fwdV_spec c a r h
  intro x hx
  exact ((fwdSeq_closed rowOps (SmallRow c.w) (fun _ => True)
    (fun A B m hA hB hm => by
      obtain ⟨m', e1, e2, e3⟩ := row_average_small (a := A) (b := B) (by rw [hA.1, hB.1]) hA.2 hB.2
      have hm' : zipM2 average A B = some m := hm
      rw [e1] at hm'; rw [← Option.some.inj hm']; exact ⟨by rw [e2, hA.1], e3⟩) _ _ _ h0
    (fun y hy => ⟨hc.2 y hy, hs y hy⟩)
    (fun _ _ _ _ _ _ _ _ _ _ _ _ => trivial)).1 x hx).2

theorem fwd_defined (p : Params) (c : Channel) (hc : c.Wf) (hs : SmallCh c) :
    ∃ a r, (if p.horizontal then fwdH else fwdV) c = some (a, r) := by
  by_cases hp : p.horizontal = true
  · rw [if_pos hp]
    obtain ⟨a, r, h⟩ := rows_defined c.rows hs
    unfold fwdH
    rw [h]
    exact ⟨_, _, rfl⟩
  · rw [if_neg hp]
    obtain ⟨a, r, h⟩ := fwdSeq_defined rowOps (SmallRow c.w)
      (fun A B hA hB => by
        obtain ⟨m, e1, e2, e3⟩ := row_average_small (a := A) (b := B) (by rw [hA.1, hB.1]) hA.2 hB.2
        exact ⟨m, e1, by rw [e2, hA.1], e3⟩)
      (fun A B m n l hA hB hm hn hl => row_res_small (by rw [hA.1, hB.1]) (by rw [hA.1, hm.1]) (by rw [hA.1, hn.1]) (by rw [hA.1, hl.1])
        hA.2 hB.2 hm.2 hn.2 hl.2) c.rows (fun y hy => ⟨hc.2 y hy, hs y hy⟩)
    unfold fwdV
    rw [h]
    exact ⟨_, _, rfl⟩

theorem fwdChans_defined {α : Type} (f : α → Option (α × α)) : ∀ (mid pre q1 q2 : List α),
    (∀ c ∈ mid, ∃ a r, f c = some (a, r)) →
    ∃ out, fwdChans f mid.length pre.length (pre.length + mid.length + q1.length) (pre ++ (mid ++ (q1 ++ q2))) = some out := by
  intro mid
  induction mid with
  | nil => intro pre q1 q2 _; exact ⟨_, rfl⟩
  | cons ch mid ih =>
    intro pre q1 q2 h
    obtain ⟨a, r, e⟩ := h ch (by simp)
    simp only [List.length_cons, fwdChans, List.cons_append]
    rw [List.getElem?_append_right (Nat.le_refl _), Nat.sub_self]
    simp only [List.getElem?_cons_zero, Option.bind_eq_bind, Option.bind_some, e]
    rw [set_append_cons]
    have hins : (pre ++ a :: (mid ++ (q1 ++ q2))).insertIdx (pre.length + (mid.length + 1) + q1.length) r =
        (pre ++ [a]) ++ (mid ++ ((q1 ++ [r]) ++ q2)) := by
      have : pre ++ a :: (mid ++ (q1 ++ q2)) = (pre ++ a :: (mid ++ q1)) ++ q2 := by simp
      rw [this, show pre.length + (mid.length + 1) + q1.length = (pre ++ a :: (mid ++ q1)).length by simp; omega,
        insertIdx_append]
      simp
    rw [hins]
    obtain ⟨out, ho⟩ := ih (pre ++ [a]) (q1 ++ [r]) q2 (fun c hc => h c (by simp [hc]))
    refine ⟨out, ?_⟩
    rw [← ho]; congr 1 <;> simp <;> omega

/-- The squeeze works on the first `N` channels and puts the residuals behind them. -/
def Front (N : Nat) (p : Params) : Prop := p.numC ≠ 0 ∧ p.beginC + p.numC ≤ N ∧ (p.inPlace = true → p.beginC + p.numC = N)

theorem fwdOne_front (N : Nat) (p : Params) (chs : List Channel) (hp : Front N p) (hN : N ≤ chs.length)
    (hw : ∀ c ∈ chs, c.Wf) (hs : ∀ c ∈ chs.take N, SmallCh c) :
    (∀ c ∈ (chs.drop p.beginC).take p.numC, SmallCh c) ∧
    ∃ out, fwdOne p chs = some out ∧ N ≤ out.length ∧ ∀ c ∈ out.take N, SmallCh c := by
  obtain ⟨hp0, hp1, hp2⟩ := hp
  have hc : checkParams p chs.length = true := by
    simp only [checkParams, decide_eq_true_eq]; omega
  have hmid : ∀ c ∈ (chs.drop p.beginC).take p.numC, SmallCh c := by
    intro c hc
    apply hs c
    obtain ⟨i, hi⟩ := List.mem_iff_getElem?.mp hc
    rw [List.getElem?_take] at hi
    split at hi
    · rw [List.getElem?_drop] at hi
      apply List.mem_iff_getElem?.mpr
      exact ⟨p.beginC + i, by rw [List.getElem?_take, if_pos (by omega)]; exact hi⟩
    · exact absurd hi (by simp)
  refine ⟨hmid, ?_⟩
  have hdef : ∃ out, fwdOne p chs = some out := by
    obtain ⟨pre, mid, q1, q2, e, h1, h2, h3, h4⟩ := cut p chs hc
    unfold fwdOne
    rw [if_pos hc, h3, ← h1, ← h2, e]
    apply fwdChans_defined
    intro c hc
    refine fwd_defined p c (hw c (by rw [e]; simp [hc])) (hmid c ?_)
    rw [e, ← h1, List.drop_left, ← h2, List.take_left]; exact hc
  obtain ⟨out, ho⟩ := hdef
  obtain ⟨pre, mid, q1, q2, ps, e, h1, h2, h0, h3, h4, h5, h6⟩ := fwdOne_spec p chs out ho
  have hps : ps.length = mid.length := by have := congrArg List.length h5; simpa using this.symm
  refine ⟨out, ho, by rw [h6]; rw [e] at hN; simp at hN ⊢; omega, ?_⟩
  have hoff : N ≤ pre.length + mid.length + q1.length := by
    rw [← h3]; unfold fwdOffset
    split
    · rename_i hi; have := hp2 hi; omega
    · exact hN
  intro c hc
  have e2 : out = (pre ++ (ps.map (·.1) ++ q1)) ++ (ps.map (·.2) ++ q2) := by rw [h6]; simp
  rw [e2, List.take_append_of_le_length (by simp; omega)] at hc
  have hsplit : chs.take N = (pre ++ (mid ++ q1)).take N := by
    rw [e, show pre ++ (mid ++ (q1 ++ q2)) = (pre ++ (mid ++ q1)) ++ q2 by simp,
      List.take_append_of_le_length (by simp; omega)]
  rw [hsplit] at hs
  rw [show N = pre.length + (ps.length + (N - pre.length - ps.length)) by omega, List.take_length_add_append] at hc
  rw [show ps.length = (ps.map (·.1)).length by simp, List.take_length_add_append] at hc
  rw [show N = pre.length + (mid.length + (N - pre.length - mid.length)) by omega, List.take_length_add_append,
    List.take_length_add_append] at hs
  simp only [List.mem_append, List.mem_map] at hc hs
  rcases hc with hc | ⟨ar, h7, rfl⟩ | hc
  · exact hs c (Or.inl hc)
  · obtain ⟨c, c1, c2⟩ := mem_map_some h5 h7
    have cs := hs c (Or.inr (Or.inl c1))
    have cw := hw c (by rw [e]; simp [c1])
    split at c2
    · exact fwdH_small c ar.1 ar.2 cs c2
    · exact fwdV_small c ar.1 ar.2 cw cs c2
  · refine hs c (Or.inr (Or.inr ?_))
    rw [List.length_map, hps] at hc; exact hc

theorem fwdAll_front (N : Nat) : ∀ (ps : List Params) (chs : List Channel), (∀ p ∈ ps, Front N p) → N ≤ chs.length →
    (∀ c ∈ chs, c.Wf) → (∀ c ∈ chs.take N, SmallCh c) → Squeezed SmallCh ps chs ∧ ∃ out, fwdAll ps chs = some out := by
  intro ps
  induction ps with
  | nil => intro chs _ _ _ _; exact ⟨trivial, chs, rfl⟩
  | cons p ps ih =>
    intro chs hp hN hw hs
    obtain ⟨h1, c1, h2, h3, h4⟩ := fwdOne_front N p chs (hp p (by simp)) hN hw hs
    obtain ⟨i1, out, i2⟩ := ih c1 (fun q hq => hp q (by simp [hq])) h3 (fwdOne_wf p chs c1 h2 hw) h4
    refine ⟨⟨h1, ?_⟩, out, ?_⟩
    · intro c' hc'
      rw [h2] at hc'; rw [← Option.some.inj hc']; exact i1
    · simp only [fwdAll, h2, Option.bind_eq_bind, Option.bind_some, i2]

theorem defaultLoop_mem (b n : Nat) : ∀ (fuel w h : Nat) (p : Params), p ∈ defaultLoop b n fuel w h →
    p.inPlace = true ∧ p.beginC = b ∧ p.numC = n := by
  intro fuel
  induction fuel with
  | zero => intro w h p hp; exact absurd hp (by simp [defaultLoop])
  | succ fuel ih =>
    intro w h p hp
    unfold defaultLoop at hp
    split at hp
    · simp only [List.mem_append] at hp
      rcases hp with (hp | hp) | hp
      · split at hp
        · simp only [List.mem_singleton] at hp; rw [hp]; exact ⟨rfl, rfl, rfl⟩
        · exact absurd hp (by simp)
      · split at hp
        · simp only [List.mem_singleton] at hp; rw [hp]; exact ⟨rfl, rfl, rfl⟩
        · exact absurd hp (by simp)
      · exact ih _ _ _ hp
    · exact absurd hp (by simp)

theorem defaultParams_front (nb : Nat) (gs : List Geom) (ps : List Params) (h : defaultParams nb gs = some ps) :
    ∀ p ∈ ps, Front gs.length p ∧ nb ≤ p.beginC := by
  simp only [defaultParams, Option.bind_eq_bind, Option.bind_eq_some_iff] at h
  obtain ⟨g, h1, h2⟩ := h
  obtain ⟨hlt, _⟩ := List.getElem?_eq_some_iff.mp h1
  rw [← Option.some.inj h2]
  intro p hp
  simp only [List.mem_append] at hp
  rcases hp with (hp | hp) | hp
  · split at hp
    · rename_i hch
      have hn : gs.length - nb > 2 := by
        unfold hasChroma at hch
        split at hch
        · simp only [decide_eq_true_eq] at hch; exact hch.1
        · exact absurd hch (by simp)
      simp only [List.mem_cons, List.not_mem_nil, or_false] at hp
      rcases hp with rfl | rfl <;> refine ⟨⟨by simp, by dsimp only; omega, by simp⟩, by dsimp only; omega⟩
    · exact absurd hp (by simp)
  · split at hp
    · simp only [List.mem_singleton] at hp
      rw [hp]; exact ⟨⟨by dsimp only; omega, by dsimp only; omega, fun _ => by dsimp only; omega⟩, by dsimp only; omega⟩
    · exact absurd hp (by simp)
  · obtain ⟨q1, q2, q3⟩ := defaultLoop_mem _ _ _ _ _ _ hp
    exact ⟨⟨by rw [q3]; omega, by rw [q2, q3]; omega, fun _ => by rw [q2, q3]; omega⟩, by rw [q2]; omega⟩

theorem defaultLoop_succ (b n fuel w h : Nat) : defaultLoop b n (fuel + 1) w h =
    if w > 8 ∨ h > 8 then
      (if w > 8 then [⟨true, true, b, n⟩] else []) ++ (if h > 8 then [⟨false, true, b, n⟩] else []) ++
        defaultLoop b n fuel (if w > 8 then (w + 1) / 2 else w) (if h > 8 then (h + 1) / 2 else h)
    else [] := rfl

/-- The loop has enough fuel. -/
theorem defaultLoop_fuel (b n : Nat) : ∀ (fuel w h : Nat), w + h ≤ fuel → defaultLoop b n (fuel + 1) w h = defaultLoop b n fuel w h := by
  intro fuel
  induction fuel with
  | zero =>
    intro w h hf
    unfold defaultLoop
    rw [if_neg (by omega)]
  | succ fuel ih =>
    intro w h hf
    rw [defaultLoop_succ b n (fuel + 1) w h, defaultLoop_succ b n fuel w h]
    by_cases hc : w > 8 ∨ h > 8
    · rw [if_pos hc, if_pos hc, ih]
      split <;> split <;> omega
    · rw [if_neg hc, if_neg hc]

theorem metaAll_front (nb : Nat) : ∀ (ps : List Params) (chs out : List Channel), (∀ p ∈ ps, nb ≤ p.beginC) →
    fwdAll ps chs = some out → ∀ nb' gs gs', metaAll ps (nb, gs) = some (nb', gs') → nb' = nb := by
  intro ps
  induction ps with
  | nil => intro chs out _ _ nb' gs gs' h; simp only [metaAll, Option.some.injEq, Prod.mk.injEq] at h; exact h.1.symm
  | cons p ps ih =>
    intro chs out hp h nb' gs gs' hm
    simp only [fwdAll, Option.bind_eq_bind, Option.bind_eq_some_iff] at h
    obtain ⟨c1, h1, h2⟩ := h
    simp only [metaAll, Option.bind_eq_bind, Option.bind_eq_some_iff] at hm
    obtain ⟨⟨nb1, gs1⟩, m1, m2⟩ := hm
    unfold metaOne at m1
    split at m1
    · simp only [Option.bind_eq_bind, Option.bind_eq_some_iff] at m1
      obtain ⟨nb2, q1, gs2, q2, q3⟩ := m1
      simp only [Option.some.injEq, Prod.mk.injEq] at q3
      unfold metaNb at q1
      have := hp p (by simp)
      rw [if_neg (by omega)] at q1
      have e : nb1 = nb := by rw [← q3.1, Option.some.inj q1]
      subst e
      exact ih c1 out (fun q hq => hp q (by simp [hq])) h2 _ _ _ m2
    · exact absurd m1 (by simp)

theorem metaAll_geom (nb : Nat) : ∀ (ps : List Params) (chs out : List Channel), (∀ p ∈ ps, nb ≤ p.beginC) →
    fwdAll ps chs = some out → ShiftsOk nb chs → ∀ nb' gs', metaAll ps (nb, chs.map geom) = some (nb', gs') →
    gs' = out.map geom := by
  intro ps
  induction ps with
  | nil =>
    intro chs out _ h _ nb' gs' hm
    simp only [metaAll, Option.some.injEq, Prod.mk.injEq] at hm
    simp only [fwdAll, Option.some.injEq] at h
    rw [← hm.2, h]
  | cons p ps ih =>
    intro chs out hp h hs nb' gs' hm
    simp only [fwdAll, Option.bind_eq_bind, Option.bind_eq_some_iff] at h
    obtain ⟨c1, h1, h2⟩ := h
    simp only [metaAll, Option.bind_eq_bind, Option.bind_eq_some_iff] at hm
    obtain ⟨⟨nb1, gs1⟩, m1, m2⟩ := hm
    obtain ⟨e1, e2, e3⟩ := metaOne_spec p chs c1 nb nb1 gs1 h1 m1 (hp p (by simp)) hs
    subst e1; subst e2
    exact ih c1 out (fun q hq => hp q (by simp [hq])) h2 e3 _ _ m2

end Jxl.Modular.Squeeze
