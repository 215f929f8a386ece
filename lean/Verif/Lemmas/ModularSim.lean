import Verif.Lemmas.ModularTree
/-!
# Every loop over the pixels of a channel simulates one reference loop

The reference loop evaluates the tree directly, with all properties computed from scratch. `gl` and
`wl` say that the gradient property or the predictor's error property is clamped before the tree is
asked, which is what both sides do when both use a table.
-/
namespace Jxl.Modular
open Jxl.MaTree Jxl.Props

/-- The properties of a pixel. -/
def refProps (sp : Nat → Int) (gl wl : Bool) (p : Pos) (g wpProp : Int) (rf : List Int) (q : Nat) : Int :=
  if gl = true ∧ q = 9 then clampProp ((nbPure p).top + (nbPure p).left - (nbPure p).topleft)
  else if wl = true ∧ q = 15 then clampProp wpProp
  else propAt (propsList sp p.y p.x (nbPure p) g wpProp rf) q

/-- What the tree selects. -/
def refSel (t : Dtree) (sp : Nat → Int) (gl wl : Bool) (p : Pos) (g : Int) (r : Wp.Res) (rf : List Int) : Sel :=
  let i := t.eval (refProps sp gl wl p g r.prop rf)
  { ctx := i.ctx, mult := i.multiplier, guess := i.offset + predictOne i.predictor (nbPure p) r.guess }

/-- The gradient property left for the next pixel. -/
def gradOf (p : Pos) : Int := i32 ((nbPure p).left + (nbPure p).top - (nbPure p).topleft)

/-- The reference loop. -/
def refPath (hd : Wp.Header) (t : Dtree) (sp : Nat → Int) (refs : Nat → Nat → Option (List Int)) (gl wl : Bool) : Path (Int × Wp.State) where
  row := fun s => (0, s.2)
  step := fun p s => (Wp.predict hd s.2 p.x p.y p.w (nbPure p).top (nbPure p).left (nbPure p).topright (nbPure p).topleft (nbPure p).toptop).bind fun r =>
    (refs p.y p.x).map fun rf => (refSel t sp gl wl p s.1 r rf, (gradOf p, r.st))
  upd := fun p px s => (Wp.update s.2 px.toInt p.x p.y p.w).map fun w => (s.1, w)

/-- References can be computed everywhere in the channel. -/
def RefsOk (refs : Nat → Nat → Option (List Int)) (num w h : Nat) : Prop :=
  ∀ y x, y < h → x < w → ∃ l, refs y x = some l ∧ l.length = num

/-- The invariant of the reference loop. -/
def RefInv (w : Nat) (q : Int × Wp.State) : Prop := Wp.Inv w q.2

theorem refProps_static (sp : Nat → Int) (gl wl : Bool) (p : Pos) (g wpProp : Int) (rf : List Int) : ∀ q, q < 2 → refProps sp gl wl p g wpProp rf q = sp q := by
  intro q hq
  unfold refProps
  rw [if_neg (by omega), if_neg (by omega)]
  match q, hq with
  | 0, _ => rfl
  | 1, _ => rfl

theorem propsList_static (sp : Nat → Int) (y x : Nat) (n : Nb) (g wpProp : Int) (rf : List Int) : ∀ q, q < 2 → propAt (propsList sp y x n g wpProp rf) q = sp q := by
  intro q hq
  match q, hq with
  | 0, _ => rfl
  | 1, _ => rfl

theorem propsList_length (sp : Nat → Int) (y x : Nat) (n : Nb) (g wpProp : Int) (rf : List Int) : (propsList sp y x n g wpProp rf).length = 16 + rf.length := by
  unfold propsList
  rw [List.length_append]; rfl

theorem propsList_15 (sp : Nat → Int) (y x : Nat) (n : Nb) (g wpProp : Int) (rf : List Int) : propAt (propsList sp y x n g wpProp rf) 15 = i32 wpProp := by
  simp only [propAt, propsList, List.cons_append, List.getD_cons_succ, List.getD_cons_zero, List.nil_append]

theorem getD_one_differs {α : Type} (A C : List α) (a b d : α) (q : Nat) (hq : q ≠ A.length) : (A ++ a :: C).getD q d = (A ++ b :: C).getD q d := by
  simp only [List.getD_eq_getElem?_getD, List.getElem?_append]
  split
  · rfl
  · obtain ⟨k, hk⟩ : ∃ k, q - A.length = k + 1 := ⟨q - A.length - 1, by omega⟩
    rw [hk, List.getElem?_cons_succ, List.getElem?_cons_succ]

theorem propsList_wp (sp : Nat → Int) (y x : Nat) (n : Nb) (g a b : Int) (rf : List Int) (q : Nat) (hq : q ≠ 15) : propAt (propsList sp y x n g a rf) q = propAt (propsList sp y x n g b rf) q := by
  unfold propAt propsList
  generalize i32 a = a'
  generalize i32 b = b'
  exact getD_one_differs [_, _, _, _, _, _, _, _, _, _, _, _, _, _, _] rf a' b' 0 q hq

theorem refProps_plain (sp : Nat → Int) (p : Pos) (g wpProp : Int) (rf : List Int) : refProps sp false false p g wpProp rf = propAt (propsList sp p.y p.x (nbPure p) g wpProp rf) := by
  funext q
  unfold refProps
  simp

/-- What a step of the reference loop consists of. -/
theorem ref_step {hd : Wp.Header} (hh : hd.Ok) {t : Dtree} {sp : Nat → Int} {refs : Nat → Nat → Option (List Int)} {gl wl : Bool} {num w h : Nat} (hr : RefsOk refs num w h)
    {p : Pos} {q : Int × Wp.State} (hp : Ok p) (hw : p.w = w) (hy : p.y < h) (hI : RefInv w q) :
    ∃ r rf, Wp.predict hd q.2 p.x p.y p.w (nbPure p).top (nbPure p).left (nbPure p).topright (nbPure p).topleft (nbPure p).toptop = some r ∧ refs p.y p.x = some rf ∧ rf.length = num ∧
      (refPath hd t sp refs gl wl).step p q = some (refSel t sp gl wl p q.1 r rf, (gradOf p, r.st)) ∧ Wp.Inv w r.st ∧ Wp.Small r.st ∧ r.guess.natAbs ≤ 68719476736 ∧ -2147483648 ≤ r.prop ∧ r.prop < 2147483648 := by
  unfold RefInv at hI
  subst hw
  obtain ⟨r, e1, i1, s1, b1, -, b2, b3⟩ := Wp.predict_total (y := p.y) hh hI hp.xw (nbTop_bd p) (nbLeft_bd p) (nbTopright_bd p) (nbTopleft_bd p) (nbToptop_bd p)
  obtain ⟨rf, e2, l2⟩ := hr p.y p.x hy hp.xw
  have e1' : Wp.predict hd q.2 p.x p.y p.w (nbPure p).top (nbPure p).left (nbPure p).topright (nbPure p).topleft (nbPure p).toptop = some r := e1
  refine ⟨r, rf, e1', e2, l2, ?_, i1, s1, b1, b2, b3⟩
  unfold refPath
  dsimp only
  rw [e1', Option.bind_some, e2, Option.map_some]

theorem refSel_bd {tree : List Node} {t : Dtree} (hrep : ∀ u, ∃ (c : Nat) (n : Node), tree[c]? = some n ∧ n.property = -1 ∧ t.eval u = n.info) (hlv : LeavesOk tree) (sp : Nat → Int) (gl wl : Bool) (p : Pos) (g : Int)
    (r : Wp.Res) (rf : List Int) (hg : r.guess.natAbs ≤ 68719476736) :
    (refSel t sp gl wl p g r rf).mult < 2147483648 ∧ (refSel t sp gl wl p g r rf).guess.natAbs ≤ 1099511627776 := by
  unfold refSel
  dsimp only
  generalize refProps sp gl wl p g r.prop rf = u
  obtain ⟨c, n, k1, k2, k3⟩ := hrep u
  obtain ⟨m1, m2⟩ := hlv c n k1 k2
  have h1 := predictOne_bd (t.eval u).predictor p hg
  rw [k3] at h1 ⊢
  have e1 : n.info.multiplier = n.multiplier := rfl
  have e2 : n.info.offset = n.offset := rfl
  rw [e1, e2]
  generalize predictOne n.info.predictor (nbPure p) r.guess = z at *
  exact ⟨m1, by omega⟩

theorem ref_total {hd : Wp.Header} (hh : hd.Ok) {tree : List Node} {t : Dtree} (hrep : ∀ u, ∃ (c : Nat) (n : Node), tree[c]? = some n ∧ n.property = -1 ∧ t.eval u = n.info) (hlv : LeavesOk tree)
    {sp : Nat → Int} {refs : Nat → Nat → Option (List Int)} {gl wl : Bool} {num w h : Nat} (hr : RefsOk refs num w h) : Total (refPath hd t sp refs gl wl) (RefInv w) w h where
  row := fun q hq => hq
  step := by
    intro p q hp hw hy hI
    obtain ⟨r, rf, -, -, -, e, i1, s1, b1, -, -⟩ := ref_step (t := t) (sp := sp) (gl := gl) (wl := wl) hh hr hp hw hy hI
    obtain ⟨c1, c2⟩ := refSel_bd hrep hlv sp gl wl p q.1 r rf b1
    refine ⟨_, _, e, c1, c2, ?_⟩
    intro px
    obtain ⟨s', e2, i2, -⟩ := Wp.update_total (y := p.y) i1 s1 (by rw [← hw]; exact hp.xw) (Wp.toInt_bd px)
    subst hw
    refine ⟨(gradOf p, s'), ?_, i2⟩
    unfold refPath
    dsimp only
    rw [e2, Option.map_some]

/-! ### The loops -/

section
variable {hd : Wp.Header} {t : Dtree} {sp : Nat → Int} {refs : Nat → Nat → Option (List Int)} {gl wl : Bool} {num w h : Nat} {f : Nat → Nat}

/-- A loop without state simulates the reference loop if it selects the same. -/
theorem sim_plain (hh : hd.Ok) (hr : RefsOk refs num w h) {F : Pos → Option Sel}
    (hs : ∀ p g r rf, Ok p → p.w = w → p.y < h → ∃ a, F p = some a ∧ a.ctx = f (refSel t sp gl wl p g r rf).ctx ∧ a.mult = (refSel t sp gl wl p g r rf).mult ∧
      BitVec.ofInt 32 a.guess = BitVec.ofInt 32 (refSel t sp gl wl p g r rf).guess ∧ a.guess.natAbs ≤ 1099511627776) :
    Sim (plain F) (refPath hd t sp refs gl wl) (fun _ _ => True) f (RefInv w) w h where
  row := fun _ _ _ => trivial
  step := by
    intro p s q a q' hp hw hy hI _ he
    obtain ⟨r, rf, -, -, -, e, -⟩ := ref_step (t := t) (sp := sp) (gl := gl) (wl := wl) hh hr hp hw hy hI
    rw [e] at he
    simp only [Option.some.injEq, Prod.mk.injEq] at he
    obtain ⟨rfl, rfl⟩ := he
    obtain ⟨a', k1, k2, k3, k4, k5⟩ := hs p q.1 r rf hp hw hy
    refine ⟨a', (), ?_, k2, k3, k4, k5, fun px q'' _ => ⟨(), rfl, trivial⟩⟩
    unfold plain
    dsimp only
    rw [k1]; rfl

theorem nbGradient_bd (p : Pos) : (clampedGradient (nbPure p).top (nbPure p).left (nbPure p).topleft).natAbs ≤ 1099511627776 := by
  have := clampedGradient_bd (c := (nbPure p).topleft) (nbTop_bd p) (nbLeft_bd p)
  exact Nat.le_trans this (by decide)

theorem sim_gradient (hh : hd.Ok) (hr : RefsOk refs num w h) {ctx : Nat}
    (hi : ∀ u : Nat → Int, (∀ p, p < 2 → u p = sp p) → f (t.eval u).ctx = ctx ∧ (t.eval u).predictor = 5 ∧ (t.eval u).offset = 0 ∧ (t.eval u).multiplier = 1) :
    Sim (pathGradient ctx) (refPath hd t sp refs gl wl) (fun _ _ => True) f (RefInv w) w h := by
  refine sim_plain hh hr ?_
  intro p g r rf hp _ _
  obtain ⟨h1, h2, h3, h4⟩ := hi _ (refProps_static sp gl wl p g r.prop rf)
  refine ⟨{ ctx := ctx, mult := 1, guess := clampedGradient (nbPure p).top (nbPure p).left (nbPure p).topleft }, by rw [nbEdge_ok hp]; rfl, h1.symm, h4.symm, ?_, nbGradient_bd p⟩
  unfold refSel
  dsimp only
  rw [h2, h3, Int.zero_add]
  rw [clampedGradient_comm]
  rfl

theorem sim_rle (hh : hd.Ok) (hr : RefsOk refs num w h) {ctx : Nat}
    (hi : ∀ u : Nat → Int, (∀ p, p < 2 → u p = sp p) → f (t.eval u).ctx = ctx ∧ (t.eval u).predictor = 5 ∧ (t.eval u).offset = 0 ∧ (t.eval u).multiplier = 1) :
    Sim (pathRle ctx) (refPath hd t sp refs gl wl) (fun _ _ => True) f (RefInv w) w h := by
  refine sim_plain hh hr ?_
  intro p g r rf hp _ _
  obtain ⟨h1, h2, h3, h4⟩ := hi _ (refProps_static sp gl wl p g r.prop rf)
  have hsel : (refSel t sp gl wl p g r rf).guess = clampedGradient (nbPure p).top (nbPure p).left (nbPure p).topleft := by
    unfold refSel
    dsimp only
    rw [h2, h3, Int.zero_add]
    rw [clampedGradient_comm]
    rfl
  refine ⟨{ ctx := ctx, mult := 1, guess := clampedGradient (nbPure p).top (nbPure p).left (nbPure p).topleft }, ?_, h1.symm, h4.symm, by rw [hsel], nbGradient_bd p⟩
  by_cases hx : p.x = 0
  · rw [if_pos hx]
    have hl : nbLeft p = if 0 < p.y then px p.n1 0 else 0 := by
      unfold nbLeft; rw [if_neg (by omega), hx]
    have ht : nbTop p = nbLeft p := by
      unfold nbTop; rw [hl, hx]; split <;> rfl
    have htl : nbTopleft p = nbLeft p := by
      unfold nbTopleft; rw [if_neg (by omega)]
    have hg : clampedGradient (nbPure p).top (nbPure p).left (nbPure p).topleft = nbLeft p := by
      show clampedGradient (nbTop p) (nbLeft p) (nbTopleft p) = nbLeft p
      rw [ht, htl]
      have hrng : -2147483648 ≤ nbLeft p ∧ nbLeft p < 2147483648 := by
        rw [hl]
        split
        · unfold px
          have h1 := BitVec.le_toInt (p.n1.getD 0 0)
          have h2 := BitVec.toInt_lt (x := p.n1.getD 0 0)
          exact ⟨h1, h2⟩
        · omega
      exact clampedGradient_same hrng.1 hrng.2
    rw [hg]
    have : (if 0 < p.y then at? p.n1 0 else some 0) = some (nbLeft p) := by
      rw [hl]
      split
      · rename_i hy
        exact at_some (by rw [hp.n1 hy]; have := hp.xw; omega)
      · rfl
    rw [this]; rfl
  · have hx' : 0 < p.x := by omega
    rw [if_neg hx, rtopAt_ok hp hx', rtopleftAt_ok hp hx', at_some (by rw [hp.cur]; omega)]
    have hl : nbLeft p = px p.cur (p.x - 1) := by unfold nbLeft; rw [if_pos hx']
    rw [← hl]
    rfl

theorem clampProp_idem (x : Int) : clampProp (clampProp x) = clampProp x := by
  rw [clamp_def, clamp_def]; omega

theorem sim_gradLut (hh : hd.Ok) (hr : RefsOk refs num w h) {lut : Lut} (hl : LutOk t sp 9 5 f lut) :
    Sim (pathGradLut lut) (refPath hd t sp refs true wl) (fun _ _ => True) f (RefInv w) w h := by
  refine sim_plain hh hr ?_
  intro p g r rf hp _ _
  have hu : refProps sp true wl p g r.prop rf 9 = clampProp ((nbPure p).top + (nbPure p).left - (nbPure p).topleft) := by
    unfold refProps; rw [if_pos ⟨rfl, rfl⟩]
  obtain ⟨h1, h2, h3, h4⟩ := hl _ (refProps_static sp true wl p g r.prop rf) (Or.inl (by rw [hu, clamp_def]; omega))
  rw [hu, clampProp_idem] at h1
  refine ⟨{ ctx := f (refSel t sp true wl p g r rf).ctx, mult := 1, guess := clampedGradient (nbPure p).top (nbPure p).left (nbPure p).topleft }, ?_, rfl, h4.symm, ?_, nbGradient_bd p⟩
  · rw [nbEdge_ok hp, Option.bind_some, h1]; rfl
  · unfold refSel
    dsimp only
    rw [h2, h3, Int.zero_add]
    rw [clampedGradient_comm]
    rfl

theorem sim_zero (hh : hd.Ok) (hr : RefsOk refs num w h) {ctx mult : Nat} {offset : Int} (ho : offset.natAbs ≤ 2147483648)
    (hi : ∀ u : Nat → Int, (∀ p, p < 2 → u p = sp p) → f (t.eval u).ctx = ctx ∧ (t.eval u).predictor = 0 ∧ (t.eval u).offset = offset ∧ (t.eval u).multiplier = mult) :
    Sim (pathZero ctx mult offset) (refPath hd t sp refs gl wl) (fun _ _ => True) f (RefInv w) w h := by
  refine sim_plain hh hr ?_
  intro p g r rf hp _ _
  obtain ⟨h1, h2, h3, h4⟩ := hi _ (refProps_static sp gl wl p g r.prop rf)
  refine ⟨_, rfl, h1.symm, h4.symm, ?_, Nat.le_trans ho (by decide)⟩
  unfold refSel
  dsimp only
  rw [h2, h3]
  unfold predictOne
  simp

theorem sim_noTree (hh : hd.Ok) (hr : RefsOk refs num w h) {i : LeafInfo} (h6 : i.predictor ≠ 6) (h0 : i.offset = 0)
    (hi : ∀ u : Nat → Int, (∀ p, p < 2 → u p = sp p) → t.eval u = i) :
    Sim (pathNoTree i) (refPath hd t sp refs gl wl) (fun _ _ => True) id (RefInv w) w h := by
  refine sim_plain hh hr ?_
  intro p g r rf hp _ _
  have e := hi _ (refProps_static sp gl wl p g r.prop rf)
  refine ⟨{ ctx := i.ctx, mult := i.multiplier, guess := predictOne i.predictor (nbPure p) 0 }, by rw [nbEdge_ok hp]; rfl, ?_, ?_, ?_, Nat.le_trans (predictOne_bd _ p (by decide)) (by decide)⟩
  · unfold refSel; dsimp only; rw [e]; rfl
  · unfold refSel; dsimp only; rw [e]
  · unfold refSel; dsimp only; rw [e, h0, Int.zero_add, predictOne_noWp h6 (nbPure p) r.guess 0]

theorem sim_wpLut (hh : hd.Ok) (hr : RefsOk refs num w h) {lut : Lut} (hl : LutOk t sp 15 6 f lut) (hx : wl = true ∨ t.AllSplits (fun p v => p = 15 → v ≠ -8193))
    {nb : Pos → Option Nb} (hnb : ∀ p, Ok p → ∃ n, nb p = some n ∧ Five n (nbPure p)) :
    Sim (pathWpLut hd lut nb) (refPath hd t sp refs gl wl) (fun s q => s = q.2) f (RefInv w) w h where
  row := fun _ _ h => h
  step := by
    intro p s q a q' hp hw hy hI hs he
    obtain ⟨r, rf, e1, -, -, e, -, -, b1, b2, b3⟩ := ref_step (t := t) (sp := sp) (gl := gl) (wl := wl) hh hr hp hw hy hI
    rw [e] at he
    simp only [Option.some.injEq, Prod.mk.injEq] at he
    obtain ⟨rfl, rfl⟩ := he
    subst hs
    obtain ⟨n, hn, f1, f2, f3, f4, f5⟩ := hnb p hp
    have hu : clampProp (refProps sp gl wl p q.1 r.prop rf 15) = clampProp r.prop := by
      unfold refProps
      rw [if_neg (by omega)]
      by_cases hwl : wl = true
      · rw [if_pos ⟨hwl, rfl⟩, clampProp_idem]
      · rw [if_neg (fun hc => hwl hc.1), propsList_15, i32_of_range b2 b3]
    have hcond : -8192 ≤ refProps sp gl wl p q.1 r.prop rf 15 ∨ t.AllSplits (fun p v => p = 15 → v ≠ -8193) := by
      rcases hx with hwl | hx
      · left
        unfold refProps
        rw [if_neg (by omega), if_pos ⟨hwl, rfl⟩, clamp_def]; omega
      · exact Or.inr hx
    obtain ⟨h1, h2, h3, h4⟩ := hl _ (refProps_static sp gl wl p q.1 r.prop rf) hcond
    rw [hu] at h1
    refine ⟨{ ctx := f (refSel t sp gl wl p q.1 r rf).ctx, mult := 1, guess := i32 r.guess }, r.st, ?_, rfl, h4.symm, ?_, Nat.le_trans (i32_bd _) (by decide), ?_⟩
    · unfold pathWpLut
      dsimp only
      rw [hn, Option.bind_some, f1, f2, f3, f4, f5, e1, Option.bind_some, i32_of_range b2 b3, h1]
      rfl
    · unfold refSel
      dsimp only
      rw [h2, h3, Int.zero_add, ofInt_i32]
      rfl
    · intro px q'' hq
      unfold refPath at hq
      dsimp only at hq
      simp only [Option.map_eq_some_iff] at hq
      obtain ⟨s', k1, rfl⟩ := hq
      exact ⟨s', k1, rfl⟩

/-- A list of nodes answers like the tree, up to the translation of contexts. -/
def Answers (nodes : List FlatNode) (walk : Nat) (t : Dtree) (sp : Nat → Int) (f : Nat → Nat) (N : Nat) : Prop :=
  ∀ props : List Int, props.length = N → (∀ p, p < 2 → propAt props p = sp p) →
    ∃ i, lookup nodes props walk 0 = some i ∧ i.ctx = f (t.eval (propAt props)).ctx ∧ i.predictor = (t.eval (propAt props)).predictor ∧ i.offset = (t.eval (propAt props)).offset ∧
      i.multiplier = (t.eval (propAt props)).multiplier

theorem sim_tree (hh : hd.Ok) (hr : RefsOk refs num w h) {tree : List Node} (hrep : ∀ u, ∃ (c : Nat) (n : Node), tree[c]? = some n ∧ n.property = -1 ∧ t.eval u = n.info) (hlv : LeavesOk tree)
    {nodes : List FlatNode} {walk : Nat} (ha : Answers nodes walk t sp f (16 + num)) {nb : Pos → Option Nb} (hnb : ∀ p, Ok p → nb p = some (nbPure p))
    (hno : ∀ u v : Nat → Int, (∀ p, p < 2 → u p = sp p) → (∀ p, p ≠ 15 → v p = u p) → (t.eval u).predictor ≠ 6 ∧ t.eval v = t.eval u) :
    Sim (pathTree { nodes := nodes, walk := walk, sp := sp, refs := refs } nb) (refPath hd t sp refs false false) (fun s q => s = q.1) f (RefInv w) w h where
  row := fun _ _ _ => rfl
  step := by
    intro p s q a q' hp hw hy hI hs he
    obtain ⟨r, rf, -, e2, l2, e, -, -, b1, -, -⟩ := ref_step (t := t) (sp := sp) (gl := false) (wl := false) hh hr hp hw hy hI
    rw [e] at he
    simp only [Option.some.injEq, Prod.mk.injEq] at he
    obtain ⟨rfl, rfl⟩ := he
    subst hs
    have hst := propsList_static sp p.y p.x (nbPure p) q.1 0 rf
    obtain ⟨i, k1, k2, k3, k4, k5⟩ := ha (propsList sp p.y p.x (nbPure p) q.1 0 rf) (by rw [propsList_length, l2]) hst
    obtain ⟨m1, m2⟩ := hno (propAt (propsList sp p.y p.x (nbPure p) q.1 0 rf)) (propAt (propsList sp p.y p.x (nbPure p) q.1 r.prop rf)) hst (fun c hc => propsList_wp _ _ _ _ _ _ _ _ c hc)
    have hev : t.eval (refProps sp false false p q.1 r.prop rf) = t.eval (propAt (propsList sp p.y p.x (nbPure p) q.1 0 rf)) := by rw [refProps_plain, m2]
    have hb := (refSel_bd hrep hlv sp false false p q.1 r rf b1).2
    have hg : i.offset + predictOne i.predictor (nbPure p) 0 = (refSel t sp false false p q.1 r rf).guess := by
      unfold refSel
      dsimp only
      rw [hev, k3, k4, predictOne_noWp m1 (nbPure p) 0 r.guess]
    refine ⟨{ ctx := i.ctx, mult := i.multiplier, guess := i.offset + predictOne i.predictor (nbPure p) 0 }, gradOf p, ?_, ?_, ?_, by rw [hg], by rw [hg]; exact hb, ?_⟩
    · unfold pathTree treeStep
      dsimp only
      rw [hnb p hp, Option.bind_some, e2, Option.bind_some, k1]
      rfl
    · dsimp only
      rw [k2]
      unfold refSel
      dsimp only
      rw [hev]
    · dsimp only
      rw [k5]
      unfold refSel
      dsimp only
      rw [hev]
    · intro px q'' hq
      unfold refPath at hq
      dsimp only at hq
      simp only [Option.map_eq_some_iff] at hq
      obtain ⟨s', -, rfl⟩ := hq
      exact ⟨gradOf p, rfl, rfl⟩

theorem sim_treeWp (hh : hd.Ok) (hr : RefsOk refs num w h) {tree : List Node} (hrep : ∀ u, ∃ (c : Nat) (n : Node), tree[c]? = some n ∧ n.property = -1 ∧ t.eval u = n.info) (hlv : LeavesOk tree)
    {nodes : List FlatNode} {walk : Nat} (ha : Answers nodes walk t sp f (16 + num)) {nb : Pos → Option Nb} (hnb : ∀ p, Ok p → nb p = some (nbPure p)) :
    Sim (pathTreeWp hd { nodes := nodes, walk := walk, sp := sp, refs := refs } nb) (refPath hd t sp refs false false) (fun s q => s = q) f (RefInv w) w h where
  row := fun s q hs => by subst hs; rfl
  step := by
    intro p s q a q' hp hw hy hI hs he
    obtain ⟨r, rf, e1, e2, l2, e, -, -, b1, -, -⟩ := ref_step (t := t) (sp := sp) (gl := false) (wl := false) hh hr hp hw hy hI
    rw [e] at he
    simp only [Option.some.injEq, Prod.mk.injEq] at he
    obtain ⟨rfl, rfl⟩ := he
    subst hs
    obtain ⟨i, k1, k2, k3, k4, k5⟩ := ha (propsList sp p.y p.x (nbPure p) s.1 r.prop rf) (by rw [propsList_length, l2]) (propsList_static sp p.y p.x (nbPure p) s.1 r.prop rf)
    have hb := (refSel_bd hrep hlv sp false false p s.1 r rf b1).2
    have hg : i.offset + predictOne i.predictor (nbPure p) r.guess = (refSel t sp false false p s.1 r rf).guess := by
      unfold refSel
      dsimp only
      rw [refProps_plain, k3, k4]
    refine ⟨{ ctx := i.ctx, mult := i.multiplier, guess := i.offset + predictOne i.predictor (nbPure p) r.guess }, (gradOf p, r.st), ?_, ?_, ?_, by rw [hg], by rw [hg]; exact hb, ?_⟩
    · unfold pathTreeWp treeStep
      dsimp only
      rw [hnb p hp, Option.bind_some, e1, Option.bind_some, e2, Option.bind_some, k1]
      rfl
    · dsimp only
      rw [k2]
      unfold refSel
      dsimp only
      rw [refProps_plain]
    · dsimp only
      rw [k5]
      unfold refSel
      dsimp only
      rw [refProps_plain]
    · intro px q'' hq
      exact ⟨q'', hq, rfl⟩

end

end Jxl.Modular
