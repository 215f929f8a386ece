import Verif.Lemmas.ModularSim
/-!
# Which loop the encoder and the decoder take, and that it simulates the reference loop
-/
namespace Jxl.Modular
open Jxl.MaTree Jxl.Props

/-! ### References -/

theorem row_get {c : Channel} (hc : c.Wf) {y : Nat} (hy : y < c.h) : ∃ l, c.rows[y]? = some l ∧ l.length = c.w := by
  have : y < c.rows.length := by rw [hc.1]; exact hy
  exact ⟨c.rows[y], List.getElem?_eq_getElem this, hc.2 _ (List.getElem_mem this)⟩

theorem refOne_total {c : Channel} (hc : c.Wf) {y x : Nat} (hy : y < c.h) (hx : x < c.w) : ∃ l, refOne c y x = some l ∧ l.length = 4 := by
  obtain ⟨a, ha, la⟩ := row_get hc hy
  obtain ⟨b, hb, lb⟩ := row_get hc (y := if y = 0 then 0 else y - 1) (by split <;> omega)
  unfold refOne
  rw [ha, Option.bind_some, hb, Option.bind_some, at_some (by omega), Option.bind_some]
  have e1 : ∃ v, (if 0 < x then at? a (x - 1) else some 0) = some v := by
    split
    · exact ⟨_, at_some (by omega)⟩
    · exact ⟨_, rfl⟩
  obtain ⟨v1, e1⟩ := e1
  rw [e1, Option.bind_some]
  have e2 : ∃ v, (if 0 < y then at? b x else some v1) = some v := by
    split
    · exact ⟨_, at_some (by omega)⟩
    · exact ⟨_, rfl⟩
  obtain ⟨v2, e2⟩ := e2
  rw [e2, Option.bind_some]
  have e3 : ∃ v, (if 0 < x ∧ 0 < y then at? b (x - 1) else some v1) = some v := by
    split
    · exact ⟨_, at_some (by omega)⟩
    · exact ⟨_, rfl⟩
  obtain ⟨v3, e3⟩ := e3
  rw [e3, Option.map_some]
  exact ⟨_, rfl, rfl⟩

theorem collect_total {w h y x : Nat} (hy : y < h) (hx : x < w) : ∀ l : List Channel, (∀ d ∈ l, d.Wf ∧ d.w = w ∧ d.h = h) → ∃ o, collect y x l = some o ∧ o.length = 4 * l.length := by
  intro l
  induction l with
  | nil => intro _; exact ⟨[], rfl, rfl⟩
  | cons d l ih =>
    intro hl
    obtain ⟨h1, h2, h3⟩ := hl d (List.mem_cons_self ..)
    obtain ⟨a, ea, la⟩ := refOne_total h1 (y := y) (x := x) (by omega) (by omega)
    obtain ⟨b, eb, lb⟩ := ih (fun d hd => hl d (List.mem_cons_of_mem _ hd))
    exact ⟨a ++ b, by simp only [collect, ea, eb, Option.bind_some, Option.map_some], by simp [la, lb]; omega⟩

theorem references_ok {before : List Channel} (hb : ∀ d ∈ before, d.Wf) (c : Channel) {num : Nat} (hn : num % 4 = 0) : RefsOk (references before c num) num c.w c.h := by
  intro y x hy hx
  obtain ⟨o, ho, lo⟩ := collect_total hy hx ((refChannels before c).take (num / 4)) (by
    intro d hd
    have := List.mem_of_mem_take hd
    unfold refChannels at this
    simp only [List.mem_filter, List.mem_reverse, Bool.and_eq_true, beq_iff_eq] at this
    exact ⟨hb d this.1, this.2.1.1.1, this.2.1.1.2⟩)
  have hlt : ((refChannels before c).take (num / 4)).length ≤ num / 4 := by rw [List.length_take]; omega
  unfold references
  rw [if_neg (by omega), ho, Option.map_some]
  refine ⟨_, rfl, ?_⟩
  rw [List.length_append, List.length_replicate]
  omega

/-- Same size and shifts, any contents. -/
def SameShape (c d : Channel) : Prop := d.w = c.w ∧ d.h = c.h ∧ d.hshift = c.hshift ∧ d.vshift = c.vshift

theorem references_shape {before : List Channel} {c d : Channel} (h : SameShape c d) (num : Nat) : references before d num = references before c num := by
  obtain ⟨h1, h2, h3, h4⟩ := h
  funext y x
  unfold references refChannels
  rw [h1, h2, h3, h4]

/-! ### Packages -/

/-- The encoder's result comes from a loop that simulates `Q`. -/
def EncBy {τ : Type} (Q : Path τ) (I : τ → Prop) (q0 : τ) (c : Channel) (ones : Prop) (res : Option (Option (List Tok))) : Prop :=
  ∃ (σ : Type) (P : Path σ) (tok : Sel → Px → Option (Px × Bool)) (Rel : σ → τ → Prop) (s : σ), Sim P Q Rel id I c.w c.h ∧ Rel s q0 ∧
    (∀ p s a s' px v u, P.step p s = some (a, s') → tok a px = some (v, u) → Good a px v) ∧ res = encLoop P tok c s ∧ (ones → ∀ a px, a.mult = 1 → ∃ t, tok a px = some t)

/-- The decoder's result comes from a loop that simulates `Q`. -/
def DecBy {τ ρ : Type} (Q : Path τ) (I : τ → Prop) (q0 : τ) (c d : Channel) (f : Nat → Nat) (R : Reader ρ) (r : ρ) (res : Option (List (List Px) × ρ)) : Prop :=
  ∃ (σ : Type) (P : Path σ) (Rel : σ → τ → Prop) (s : σ), Sim P Q Rel f I c.w c.h ∧ Rel s q0 ∧ res = decLoop P R d s r

theorem round_trip_by {τ ρ : Type} {Q : Path τ} {I : τ → Prop} {q0 : τ} {c d : Channel} {ones : Prop} {f : Nat → Nat} {R : Reader ρ} {r r' : ρ} {e : Option (Option (List Tok))} {o : Option (List (List Px) × ρ)}
    (hT : Total Q I c.w c.h) (hI : I q0) (hc : c.Wf) (hdw : d.w = c.w) (hdh : d.h = c.h) (h1 : EncBy Q I q0 c ones e) (h2 : DecBy Q I q0 c d f R r o) {ts : List Tok} (he : e = some (some ts)) (hd : Delivers R r (view f ts) r') :
    o = some (c.rows, r') := by
  obtain ⟨σ₁, P₁, tok, R₁, s₁, a1, a2, a3, a4, -⟩ := h1
  obtain ⟨σ₂, P₂, R₂, s₂, b1, b2, b3⟩ := h2
  rw [b3]
  rw [a4] at he
  exact loop_round_trip hT a1 b1 a3 R hc hdw hdh hI a2 b2 he hd

theorem total_by {τ : Type} {Q : Path τ} {I : τ → Prop} {q0 : τ} {c : Channel} {ones : Prop} {e : Option (Option (List Tok))} (hT : Total Q I c.w c.h) (hI : I q0) (hc : c.Wf) (h1 : EncBy Q I q0 c ones e) (ho : ones)
    (hone : ∀ p q a q', Q.step p q = some (a, q') → a.mult = 1) : ∃ o, e = some o ∧ ∀ ts, o = some ts → ts.length = c.h * c.w := by
  obtain ⟨σ₁, P₁, tok, R₁, s₁, a1, a2, a3, a4, a5⟩ := h1
  rw [a4]
  exact loop_total hT a1 hone (a5 ho) hc hI a2

theorem plain_step {F : Pos → Option Sel} {p : Pos} {s : Unit} {a : Sel} {s' : Unit} (h : (plain F).step p s = some (a, s')) : F p = some a := by
  unfold plain at h
  simp only [Option.map_eq_some_iff, Prod.mk.injEq] at h
  obtain ⟨b, h1, rfl, -⟩ := h
  exact h1

theorem gradient_mult {ctx : Nat} {p : Pos} {s : Unit} {a : Sel} {s' : Unit} (h : (pathGradient ctx).step p s = some (a, s')) : a.mult = 1 := by
  have := plain_step h
  simp only [Option.map_eq_some_iff] at this
  obtain ⟨n, -, rfl⟩ := this; rfl

theorem gradLut_mult {lut : Lut} {p : Pos} {s : Unit} {a : Sel} {s' : Unit} (h : (pathGradLut lut).step p s = some (a, s')) : a.mult = 1 := by
  have := plain_step h
  simp only [Option.bind_eq_some_iff, Option.map_eq_some_iff] at this
  obtain ⟨n, -, c, -, rfl⟩ := this; rfl

theorem wpLut_mult {hd : Wp.Header} {lut : Lut} {nb : Pos → Option Nb} {p : Pos} {s : Wp.State} {a : Sel} {s' : Wp.State} (h : (pathWpLut hd lut nb).step p s = some (a, s')) : a.mult = 1 := by
  unfold pathWpLut at h
  simp only [Option.bind_eq_some_iff, Option.map_eq_some_iff, Prod.mk.injEq] at h
  obtain ⟨n, -, r, -, c, -, rfl, -⟩ := h; rfl

theorem tokSub_total (a : Sel) (px : Px) : ∃ t, tokSub a px = some t := ⟨_, rfl⟩

/-! ### The choice of loops -/

/-- The ticks the theorems use. -/
def ticks (t : Dtree) : Ticks := { filter := 2 * t.size, walk := t.height + 1, lut := t.size + 1 }

theorem noop_leaves {tree : List Node} (h : allGradientNoop tree = true) {c : Nat} {n : Node} (h1 : tree[c]? = some n) (h2 : n.property = -1) : n.predictor = 5 ∧ n.offset = 0 ∧ n.multiplier = 1 := by
  unfold allGradientNoop at h
  rw [List.all_eq_true] at h
  have := h n (List.mem_of_getElem? h1)
  rw [if_pos h2] at this
  simpa [Bool.and_eq_true, and_assoc] using this

section
variable {tree : List Node} {t : Dtree} {sp : Nat → Int} {cm : List Nat} {F : Filtered} {nodes : List FlatNode} {wlE glE wlD glD : Option Lut}

theorem answersE (hf : Facts tree t sp cm F nodes wlE glE wlD glD) : Answers F.nodes (t.height + 1) t sp id (16 + (F.numProps - 16)) := by
  intro props hl hs
  have := hf.np
  exact ⟨_, hf.look props (by omega) hs, rfl, rfl, rfl, rfl⟩

theorem answersD (hf : Facts tree t sp cm F nodes wlE glE wlD glD) : Answers nodes (t.height + 1) t sp (fun c => cm.getD c 0) (16 + (F.numProps - 16)) := by
  intro props hl hs
  have := hf.np
  exact ⟨_, hf.lookD props (by omega) hs, rfl, rfl, rfl, rfl⟩

/-- A property vector with every error or gradient 0, for contradictions. -/
def someProps (sp : Nat → Int) (q : Nat) : Int := if q < 2 then sp q else 0

theorem someProps_static (sp : Nat → Int) : ∀ p, p < 2 → someProps sp p = sp p := by
  intro p hp; unfold someProps; rw [if_pos hp]

theorem lut_pred {P pred : Nat} {g : Nat → Nat} {lut : Lut} (h : LutOk t sp P pred g lut) (hP : 2 ≤ P) : (t.eval (someProps sp)).predictor = pred ∧ (t.eval (someProps sp)).offset = 0 ∧ (t.eval (someProps sp)).multiplier = 1 :=
  (h _ (someProps_static sp) (Or.inl (by unfold someProps; rw [if_neg (by omega)]; omega))).2

theorem not_both (hf : Facts tree t sp cm F nodes wlE glE wlD glD) (hw : wlE.isSome = true) : glE = none ∧ glD = none := by
  have h : glE = none := by
    cases hg : glE with
    | none => rfl
    | some lg =>
      cases hl : wlE with
      | none => rw [hl] at hw; cases hw
      | some lw =>
        have h1 := (lut_pred (hf.okWlE lw hl) (by omega)).1
        have h2 := (lut_pred (hf.okGlE lg hg) (by omega)).1
        omega
  refine ⟨h, ?_⟩
  have := hf.sameGl
  rw [h] at this
  cases hd : glD with
  | none => rfl
  | some x => rw [hd] at this; cases this

theorem lutIf_flag {b : Bool} {w fuel : Nat} {ns : List FlatNode} {o : Option Lut} (h : lutIf b w ns fuel = some o) (ho : o.isSome = true) : b = true := by
  unfold lutIf at h
  cases b with
  | true => rfl
  | false =>
    simp at h
    subst h; cases ho

variable {hd : Wp.Header} {refs : Nat → Nat → Option (List Int)}

/-- The flag of the reference loop: both sides look errors up in a table. -/
def wlFlag (ci : CodeInfo) (w : Nat) (wlD : Option Lut) : Bool := wlD.isSome && (!ci.lz77 && decide (8 < w))

theorem decGeneral_by {ρ : Type} (hf : Facts tree t sp cm F nodes wlE glE wlD glD) (hh : hd.Ok) (hlv : LeavesOk tree) {c d : Channel} (hr : RefsOk refs (F.numProps - 16) c.w c.h) (hdw : d.w = c.w) (ci : CodeInfo) (R : Reader ρ) (r : ρ) :
    DecBy (refPath hd t sp refs glD.isSome (wlFlag ci c.w wlD)) (RefInv c.w) (0, Wp.init c.w) c d (fun k => cm.getD k 0) R r
      (decGeneral (ticks t) ci hd { nodes := nodes, walk := t.height + 1, sp := sp, refs := refs } F R d r) := by
  unfold decGeneral
  dsimp only [ticks]
  rw [hf.dWl, Option.bind_some, hf.dGl, Option.bind_some]
  cases hg : glD with
  | some lut => exact ⟨Unit, _, _, (), sim_gradLut hh hr (hf.okGlD lut hg), trivial, rfl⟩
  | none =>
    dsimp only [Option.isSome_none]
    rw [hdw]
    by_cases hx : (!ci.lz77 && decide (8 < c.w)) = true
    · rw [if_pos hx]
      cases hw : wlD with
      | some lut =>
        have hfl : wlFlag ci c.w (some lut) = true := by unfold wlFlag; rw [hx]; rfl
        rw [hfl]
        exact ⟨_, _, _, Wp.init c.w, sim_wpLut hh hr (hf.okWlD lut hw) (Or.inl rfl) (fun p hp => nbWpFast_ok hp), rfl, rfl⟩
      | none =>
        have hfl : wlFlag ci c.w none = false := rfl
        rw [hfl]
        dsimp only
        by_cases hu : F.useWp = false
        · rw [if_pos (by rw [hu]; rfl)]
          exact ⟨_, _, _, (0 : Int), sim_tree hh hr hf.leaves hlv (answersD hf) (fun p hp => nbMixed_ok hp _) (hf.noWp hu), rfl, rfl⟩
        · rw [if_neg (by simpa using hu)]
          exact ⟨_, _, _, ((0 : Int), Wp.init c.w), sim_treeWp hh hr hf.leaves hlv (answersD hf) (fun p hp => nbMixed_ok hp _), rfl, rfl⟩
    · rw [if_neg hx]
      have hfl : wlFlag ci c.w wlD = false := by unfold wlFlag; rw [Bool.not_eq_true] at hx; rw [hx, Bool.and_false]
      rw [hfl]
      dsimp only
      by_cases hu : F.useWp = false
      · rw [if_pos (by rw [hu]; rfl)]
        exact ⟨_, _, _, (0 : Int), sim_tree hh hr hf.leaves hlv (answersD hf) (fun p hp => nbMixed_ok hp _) (hf.noWp hu), rfl, rfl⟩
      · rw [if_neg (by simpa using hu)]
        exact ⟨_, _, _, ((0 : Int), Wp.init c.w), sim_treeWp hh hr hf.leaves hlv (answersD hf) (fun p hp => nbMixed_ok hp _), rfl, rfl⟩

theorem one_info (hf : Facts tree t sp cm F nodes wlE glE wlD glD) {i : LeafInfo} (hi : single F.nodes = some i) : ∃ (k : Nat) (n : Node), tree[k]? = some n ∧ n.property = -1 ∧ i = n.info := by
  obtain ⟨k, n, h1, h2, h3⟩ := hf.leaves (someProps sp)
  exact ⟨k, n, h1, h2, by rw [← h3, hf.one i hi _ (someProps_static sp)]⟩

theorem decodeChannel_by {ρ : Type} {before : List Channel} {group : Nat} (hf : Facts tree t (staticProps before.length group) cm F nodes wlE glE wlD glD) (hh : hd.Ok) (hlv : LeavesOk tree) {c d : Channel}
    (hb : ∀ e ∈ before, e.Wf) (hs : SameShape c d) (hw0 : c.w ≠ 0) (hh0 : c.h ≠ 0) (ci : CodeInfo) (R : Reader ρ) (r : ρ) :
    DecBy (refPath hd t (staticProps before.length group) (references before c (F.numProps - 16)) glD.isSome (wlFlag ci c.w wlD)) (RefInv c.w) (0, Wp.init c.w) c d (fun k => cm.getD k 0) R r
      (decodeChannel (ticks t) ci hd tree cm group R before d r) := by
  have hr := references_ok hb c hf.np4
  have hgen := decGeneral_by (hd := hd) hf hh hlv hr hs.1 ci R r
  unfold decodeChannel
  rw [hs.1, hs.2.1, if_neg (by omega)]
  dsimp only
  rw [show (ticks t).filter = 2 * t.size from rfl, hf.hF, Option.bind_some, hf.hC, Option.bind_some, references_shape hs, hf.oneD]
  cases hi : single F.nodes with
  | none => exact hgen
  | some i =>
    obtain ⟨k, n, n1, n2, n3⟩ := one_info hf hi
    have hev := hf.one i hi
    obtain ⟨-, ho⟩ := hlv k n n1 n2
    dsimp only [Option.map_some, LeafInfo.cluster]
    by_cases h0 : i.predictor = 0
    · rw [if_pos h0]
      refine ⟨Unit, _, _, (), sim_zero hh hr (by rw [n3]; exact ho) ?_, trivial, rfl⟩
      intro u hu
      rw [hev u hu]
      exact ⟨rfl, h0, rfl, rfl⟩
    · rw [if_neg h0]
      by_cases h1 : (ci.lz77 && ci.rleOnly && allGradientNoop tree) = true
      · rw [if_pos h1]
        simp only [Bool.and_eq_true] at h1
        refine ⟨Unit, _, _, (), sim_rle hh hr ?_, trivial, rfl⟩
        intro u hu
        rw [hev u hu]
        have := noop_leaves h1.2 n1 n2
        rw [n3]
        exact ⟨rfl, this.1, this.2.1, this.2.2⟩
      · rw [if_neg h1]
        by_cases h2 : i.predictor = 5 ∧ i.offset = 0 ∧ i.multiplier = 1
        · rw [if_pos h2]
          refine ⟨Unit, _, _, (), sim_gradient hh hr ?_, trivial, rfl⟩
          intro u hu
          rw [hev u hu]
          exact ⟨rfl, h2⟩
        · rw [if_neg h2]
          exact hgen

/-- All leaves have multiplier 1. -/
def Ones (tree : List Node) : Prop := ∀ (i : Nat) (n : Node), tree[i]? = some n → n.property = -1 → n.multiplier = 1

theorem encodeChannel_by {before : List Channel} {group : Nat} (hf : Facts tree t (staticProps before.length group) cm F nodes wlE glE wlD glD) (hh : hd.Ok) (hlv : LeavesOk tree) {c : Channel}
    (hb : ∀ e ∈ before, e.Wf) (hw0 : c.w ≠ 0) (hh0 : c.h ≠ 0) (b : Bool) (hB : t.AllSplits (fun p v => p = 15 → v ≠ -8193) ∨ b = true) :
    EncBy (refPath hd t (staticProps before.length group) (references before c (F.numProps - 16)) glD.isSome (wlD.isSome && b)) (RefInv c.w) (0, Wp.init c.w) c (Ones tree)
      (encodeChannel (ticks t) hd tree group false before c) := by
  have hr := references_ok hb c hf.np4
  unfold encodeChannel
  rw [if_neg (by omega)]
  dsimp only [ticks]
  rw [hf.hF, Option.bind_some, hf.eWl, Option.bind_some, hf.eGl, Option.bind_some, if_neg (by decide)]
  cases hwl : wlE with
  | some lut =>
    have hw : wlE.isSome = true := by rw [hwl]; rfl
    have hD : wlD.isSome = true := by rw [← hf.sameWl]; exact hw
    refine ⟨_, _, tokSub, _, Wp.init c.w, sim_wpLut hh hr (hf.okWlE lut hwl) ?_ (fun p hp => ⟨_, nbEdge_ok hp, rfl, rfl, rfl, rfl, rfl⟩), rfl, ?_, rfl, fun _ a px _ => tokSub_total a px⟩
    · rcases hB with h | h
      · exact Or.inr h
      · left; rw [hD, h]; rfl
    · intro p s a s' px v u h1 h2
      exact tokSub_good (wpLut_mult h1) h2
  | none =>
    have hD : wlD.isSome = false := by rw [← hf.sameWl, hwl]; rfl
    rw [hD, Bool.false_and]
    dsimp only
    unfold encNoWpLut
    rw [if_neg (show ¬ (false = true) by decide), if_neg (show ¬ (false = true) by decide)]
    have hgrad : ∀ lut, glE = some lut → EncBy (refPath hd t (staticProps before.length group) (references before c (F.numProps - 16)) glD.isSome false) (RefInv c.w) (0, Wp.init c.w) c (Ones tree)
        (encLoop (pathGradLut lut) tokSub c ()) := by
      intro lut hl
      have hgD : glD.isSome = true := by rw [← hf.sameGl, hl]; rfl
      rw [hgD]
      exact ⟨_, _, tokSub, _, (), sim_gradLut hh hr (hf.okGlE lut hl), trivial, fun p s a s' px v u h1 h2 => tokSub_good (gradLut_mult h1) h2, rfl, fun _ a px _ => tokSub_total a px⟩
    have hgen : glE = none → EncBy (refPath hd t (staticProps before.length group) (references before c (F.numProps - 16)) glD.isSome false) (RefInv c.w) (0, Wp.init c.w) c (Ones tree)
        (if (!F.useWp && !false) = true then encLoop (pathTree { nodes := F.nodes, walk := t.height + 1, sp := staticProps before.length group, refs := references before c (F.numProps - 16) } nbEdge) tokDiv c 0
         else encLoop (pathTreeWp hd { nodes := F.nodes, walk := t.height + 1, sp := staticProps before.length group, refs := references before c (F.numProps - 16) } nbEdge) tokDiv c (0, Wp.init c.w)) := by
      intro hl
      have hgD : glD.isSome = false := by rw [← hf.sameGl, hl]; rfl
      rw [hgD]
      by_cases hu : F.useWp = false
      · rw [if_pos (by rw [hu]; rfl)]
        exact ⟨_, _, tokDiv, _, (0 : Int), sim_tree hh hr hf.leaves hlv (answersE hf) (fun p hp => nbEdge_ok hp) (hf.noWp hu), rfl, fun p s a s' px v u _ h2 => tokDiv_good h2, rfl, fun _ a px hm => tokDiv_total px hm⟩
      · rw [if_neg (by simpa using hu)]
        exact ⟨_, _, tokDiv, _, ((0 : Int), Wp.init c.w), sim_treeWp hh hr hf.leaves hlv (answersE hf) (fun p hp => nbEdge_ok hp), rfl, fun p s a s' px v u _ h2 => tokDiv_good h2, rfl, fun _ a px hm => tokDiv_total px hm⟩
    cases hi : single F.nodes with
    | none =>
      dsimp only
      cases hgl : glE with
      | some lut => exact hgrad lut hgl
      | none => exact hgen hgl
    | some i =>
      obtain ⟨k, n, n1, n2, n3⟩ := one_info hf hi
      have hev := hf.one i hi
      dsimp only
      by_cases h5 : i.predictor = 5 ∧ i.multiplier = 1 ∧ i.offset = 0
      · rw [if_pos h5]
        refine ⟨Unit, _, tokSub, _, (), sim_gradient hh hr ?_, trivial, fun p s a s' px v u h1 h2 => tokSub_good (gradient_mult h1) h2, rfl, fun _ a px _ => tokSub_total a px⟩
        intro u hu
        rw [hev u hu]
        exact ⟨rfl, h5.1, h5.2.2, h5.2.1⟩
      · rw [if_neg h5]
        cases hgl : glE with
        | some lut => exact hgrad lut hgl
        | none =>
          dsimp only
          by_cases h0 : i.predictor = 0 ∧ i.multiplier = 1 ∧ i.offset = 0
          · rw [if_pos h0]
            refine ⟨Unit, _, tokZero, _, (), sim_zero hh hr (by decide) ?_, trivial, ?_, rfl, fun _ a px _ => ⟨_, rfl⟩⟩
            · intro u hu
              rw [hev u hu]
              exact ⟨rfl, h0.1, h0.2.2, h0.2.1⟩
            · intro p s a s' px v u h1 h2
              have := plain_step h1
              simp only [Option.some.injEq] at this
              subst this
              exact tokZero_good rfl rfl h2
          · rw [if_neg h0]
            by_cases h6 : i.predictor ≠ 6 ∧ i.multiplier &&& (i.multiplier - 1) = 0 ∧ i.offset = 0
            · rw [if_pos h6]
              refine ⟨Unit, _, tokShift (Nat.log2 i.multiplier), _, (), sim_noTree hh hr h6.1 h6.2.2 hev, trivial, fun p s a s' px v u _ h2 => tokShift_good h2, rfl, ?_⟩
              intro ho a px hm
              have : i.multiplier = 1 := by rw [n3]; exact ho k n n1 n2
              rw [this]
              exact tokShift_total px hm
            · rw [if_neg h6]
              exact hgen hgl

end

end Jxl.Modular
