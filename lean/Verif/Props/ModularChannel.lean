import Verif.Lemmas.ModularAccept
/-!
# C20: lossless coding of modular channels

The encoder chooses among seven loops, the decoder among seven others, by different criteria. The
theorems say that whatever loop either side takes, the decoder reads the numbers the encoder wrote
with the (clustered) contexts it wrote them with, and restores the samples.
-/
namespace Jxl.Props
open Jxl.MaTree Jxl.Modular

/-- Conditions on a tree and its context map: contexts fit the map and 16 bits, cluster numbers fit 8
bits, offsets and multipliers are 32-bit numbers. -/
structure TreeOk (tree : List Node) (cm : List Nat) : Prop where
  ctx : ∀ (i : Nat) (n : Node), tree[i]? = some n → n.property = -1 → n.lchild < cm.length ∧ n.lchild < 65536
  map : ∀ c ∈ cm, c < 256
  leaves : LeavesOk tree

/-- No split compares the error of the weighted predictor with -8193. -/
def NoBoundary (tree : List Node) : Prop := ∀ (i : Nat) (n : Node), tree[i]? = some n → n.property = 15 → n.splitval ≠ -8193

theorem noBoundary_splits {tree : List Node} (h : NoBoundary tree) {i : Nat} {t : Dtree} (hr : Represents tree i t) : t.AllSplits (fun p v => p = 15 → v ≠ -8193) := by
  induction hr with
  | leaf _ _ => exact trivial
  | split h1 h2 _ _ ihl ihr => exact ⟨fun hp => h _ _ h1 (by omega), ihl, ihr⟩

/-- The tokens as the decoder sees them: with clustered contexts. -/
def clustered (cm : List Nat) (ts : List Tok) : List Tok := ts.map fun t => (cm.getD t.1 0, t.2)

/-- **C20, one channel.** Any well-formed tree, any predictors, offsets and multipliers, any earlier
channels, any entropy decoder `R` that delivers the tokens. If the encoder does not refuse, the
decoder fills a channel `d` of the same shape (with any contents) with the samples of `c` and has
consumed exactly the tokens. `hB` excludes the boundary case of `C20_boundary_witness`. -/
theorem C20_channel_partial {ρ : Type} {tree : List Node} {t : Dtree} (hw : TreeWf tree t) {cm : List Nat} (ho : TreeOk tree cm) {hd : Wp.Header} (hh : hd.Ok) (group : Nat) {before : List Channel} (hb : ∀ e ∈ before, e.Wf)
    {c d : Channel} (hc : c.Wf) (hs : SameShape c d) (ci : CodeInfo) (hB : NoBoundary tree ∨ (ci.lz77 = false ∧ 8 < c.w)) {ts : List Tok}
    (he : encodeChannel (ticks t) hd tree group false before c = some (some ts)) (R : Reader ρ) (r r' : ρ) (hR : Delivers R r (clustered cm ts) r') :
    decodeChannel (ticks t) ci hd tree cm group R before d r = some (c.rows, r') := by
  by_cases h0 : c.w = 0 ∨ c.h = 0
  · unfold encodeChannel at he
    rw [if_pos h0] at he
    cases he
  · obtain ⟨F, nodes, wlE, glE, wlD, glD, hf⟩ := facts hw (staticProps before.length group) cm ho.ctx ho.map
    have h1 := encodeChannel_by (hd := hd) hf hh ho.leaves hb (c := c) (by omega) (by omega) (!ci.lz77 && decide (8 < c.w)) (hB.imp (fun h => noBoundary_splits h hw.rep) (fun h => by rw [h.1]; simpa using h.2))
    have h2 := decodeChannel_by (hd := hd) hf hh ho.leaves hb hs (by omega) (by omega) ci R r
    exact round_trip_by (ref_total hh hf.leaves ho.leaves (references_ok hb c hf.np4)) (q0 := (0, Wp.init c.w)) (Wp.init_inv c.w) hc hs.1 hs.2.1 h1 h2 he hR

/-- **C20, the encoder.** With multipliers 1 the encoder either refuses or writes one token for each
sample; it never overflows, divides by zero or reads outside an array. -/
theorem C20_encodes {tree : List Node} {t : Dtree} (hw : TreeWf tree t) {cm : List Nat} (ho : TreeOk tree cm) (h1 : Ones tree) {hd : Wp.Header} (hh : hd.Ok) (group : Nat) {before : List Channel}
    (hb : ∀ e ∈ before, e.Wf) {c : Channel} (hc : c.Wf) (hw0 : c.w ≠ 0) (hh0 : c.h ≠ 0) :
    ∃ o, encodeChannel (ticks t) hd tree group false before c = some o ∧ ∀ ts, o = some ts → ts.length = c.h * c.w := by
  obtain ⟨F, nodes, wlE, glE, wlD, glD, hf⟩ := facts hw (staticProps before.length group) cm ho.ctx ho.map
  have hby := encodeChannel_by (hd := hd) hf hh ho.leaves hb (c := c) hw0 hh0 true (Or.inr rfl)
  refine total_by (ref_total hh hf.leaves ho.leaves (references_ok hb c hf.np4)) (q0 := (0, Wp.init c.w)) (Wp.init_inv c.w) hc hby h1 ?_
  intro p q a q' h
  unfold refPath at h
  simp only [Option.bind_eq_some_iff, Option.map_eq_some_iff, Prod.mk.injEq] at h
  obtain ⟨r, -, rf, -, rfl, -⟩ := h
  unfold refSel
  dsimp only
  obtain ⟨k, n, n1, n2, n3⟩ := hf.leaves (refProps (staticProps before.length group) glD.isSome (wlD.isSome && true) p q.1 r.prop rf)
  rw [n3]
  exact h1 k n n1 n2

/-- **C20, refusals.** The encoder refuses a non-empty channel only if a sample needs more than 31 bits
or every property vector of this channel selects the weighted predictor. -/
theorem C20_refusal {tree : List Node} {t : Dtree} (hw : TreeWf tree t) {cm : List Nat} (ho : TreeOk tree cm) (hd : Wp.Header) (group : Nat) (before : List Channel) {c : Channel} (hw0 : c.w ≠ 0) (hh0 : c.h ≠ 0)
    (h : encodeChannel (ticks t) hd tree group false before c = some none) :
    (∃ l ∈ c.rows, ∃ v ∈ l, v.toInt < -2 ^ 30 ∨ 2 ^ 30 ≤ v.toInt) ∨
      ∀ u : Nat → Int, u 0 = before.length → u 1 = staticProps before.length group 1 → -8192 ≤ u 15 → (t.eval u).predictor = 6 := by
  obtain ⟨F, nodes, wlE, glE, wlD, glD, hf⟩ := facts hw (staticProps before.length group) cm ho.ctx ho.map
  unfold encodeChannel at h
  rw [if_neg (by omega)] at h
  dsimp only [ticks] at h
  rw [hf.hF, Option.bind_some, hf.eWl, Option.bind_some, hf.eGl, Option.bind_some, if_neg (by decide)] at h
  cases hl : wlE with
  | some lut =>
    right
    intro u h0 h1 h15
    refine (hf.okWlE lut hl u ?_ (Or.inl h15)).2.1
    intro p hp
    match p, hp with
    | 0, _ => exact h0
    | 1, _ => exact h1
  | none =>
    left
    rw [hl] at h
    apply Classical.byContradiction
    intro hn
    refine encNoWpLut_accepts ?_ _ _ _ _ _ h
    intro l hl v hv
    unfold Mid
    apply Classical.byContradiction
    intro hm
    refine hn ⟨l, hl, v, hv, ?_⟩
    have e : (2 : Int) ^ 30 = 1073741824 := by decide
    rw [e]
    omega

/-- A refusal does happen: samples at both ends of the range. -/
example : encodeChannel (ticks (.leaf ⟨0, 5, 0, 1⟩)) Wp.defaultHeader [⟨-1, 0, 0, 0, 5, 0, 1⟩] 0 false [] { w := 2, h := 1, rows := [[0x80000000, 0x7fffffff]] } = some none := by rfl

/-! ### Images -/

/-- Lists of channels of the same shapes. -/
def SameShapes : List Channel → List Channel → Prop
  | [], [] => True
  | c :: cs, d :: ds => SameShape c d ∧ d.Wf ∧ SameShapes cs ds
  | _, _ => False

/-- The channels after decoding: those of the original up to the first that is too large to be coded
here, then the ones the decoder had. -/
def restored (nbMeta maxSize : Nat) : Nat → List Channel → List Channel → List Channel
  | i, c :: cs, d :: ds => if nbMeta ≤ i ∧ (maxSize < c.w ∨ maxSize < c.h) then d :: ds else c :: restored nbMeta maxSize (i + 1) cs ds
  | _, _, _ => []

theorem empty_rows {c d : Channel} (hc : c.Wf) (hd : d.Wf) (hs : SameShape c d) (h0 : c.w = 0 ∨ c.h = 0) : d = c := by
  obtain ⟨h1, h2, h3, h4⟩ := hs
  have hrows : d.rows = c.rows := by
    apply List.ext_getElem?
    intro i
    by_cases hi : i < c.h
    · obtain ⟨a, ha, la⟩ := row_get hc hi
      obtain ⟨b, hb, lb⟩ := row_get hd (y := i) (by omega)
      rw [ha, hb]
      have hz : c.w = 0 := by omega
      rw [List.length_eq_zero_iff.mp (by omega : a.length = 0), List.length_eq_zero_iff.mp (by omega : b.length = 0)]
    · rw [List.getElem?_eq_none_iff.mpr (by rw [hd.1]; omega), List.getElem?_eq_none_iff.mpr (by rw [hc.1]; omega)]
  cases c; cases d
  simp only at *
  subst h1; subst h2; subst h3; subst h4; subst hrows
  rfl

theorem tooLarge_iff (nbMeta maxSize i : Nat) (c : Channel) : tooLarge nbMeta maxSize i c = true ↔ nbMeta ≤ i ∧ (maxSize < c.w ∨ maxSize < c.h) := by
  unfold tooLarge; simp

/-- **C20, images.** All channels of a modular image, each predicted from those before it: the
decoder restores every channel that belongs to the stream. -/
theorem C20_image_partial {ρ : Type} {tree : List Node} {t : Dtree} (hw : TreeWf tree t) {cm : List Nat} (ho : TreeOk tree cm) {hd : Wp.Header} (hh : hd.Ok) (group nbMeta maxSize : Nat) (ci : CodeInfo) (R : Reader ρ) :
    ∀ (cs ds before : List Channel) (r r' : ρ) (ts : List Tok), (∀ e ∈ before, e.Wf) → (∀ c ∈ cs, c.Wf) → SameShapes cs ds →
      (NoBoundary tree ∨ (ci.lz77 = false ∧ ∀ c ∈ cs, c.w = 0 ∨ c.h = 0 ∨ 8 < c.w)) →
      encodeChannels (ticks t) hd tree group false nbMeta maxSize before cs = some (some ts) → Delivers R r (clustered cm ts) r' →
      decodeChannels (ticks t) ci hd tree cm group R nbMeta maxSize before ds r = some (before ++ restored nbMeta maxSize before.length cs ds, r') := by
  intro cs
  induction cs with
  | nil =>
    intro ds before r r' ts _ _ hs _ he hR
    cases ds with
    | cons _ _ => exact hs.elim
    | nil =>
      simp only [encodeChannels, Option.some.injEq] at he
      subst he
      rw [show r = r' from hR]
      simp [decodeChannels, restored]
  | cons c cs ih =>
    intro ds before r r' ts hb hc hs hB he hR
    cases ds with
    | nil => exact hs.elim
    | cons d ds =>
      obtain ⟨s1, s2, s3⟩ := hs
      have hcw := hc c (List.mem_cons_self ..)
      have hB' : NoBoundary tree ∨ (ci.lz77 = false ∧ ∀ c ∈ cs, c.w = 0 ∨ c.h = 0 ∨ 8 < c.w) := hB.imp id (fun h => ⟨h.1, fun e he => h.2 e (List.mem_cons_of_mem _ he)⟩)
      have hb' : ∀ e ∈ before ++ [c], e.Wf := by
        intro e he
        rcases List.mem_append.mp he with h | h
        · exact hb e h
        · simp at h; subst h; exact hcw
      have hlarge : tooLarge nbMeta maxSize before.length d = tooLarge nbMeta maxSize before.length c := by
        unfold tooLarge; rw [s1.1, s1.2.1]
      rw [encodeChannels] at he
      rw [decodeChannels, restored, hlarge]
      by_cases hl : tooLarge nbMeta maxSize before.length c = true
      · rw [if_pos hl] at he ⊢
        rw [if_pos ((tooLarge_iff _ _ _ _).mp hl)]
        simp only [Option.some.injEq] at he
        subst he
        rw [show r = r' from hR]
      · rw [if_neg hl] at he ⊢
        rw [if_neg (mt (tooLarge_iff _ _ _ _).mpr hl), s1.1, s1.2.1]
        by_cases h0 : c.w = 0 ∨ c.h = 0
        · rw [if_pos h0] at he ⊢
          rw [empty_rows hcw s2 s1 h0]
          have := ih ds (before ++ [c]) r r' ts hb' (fun e he => hc e (List.mem_cons_of_mem _ he)) s3 hB' he hR
          rw [this]
          simp [List.length_append]
        · rw [if_neg h0] at he ⊢
          cases hec : encodeChannel (ticks t) hd tree group false before c with
          | none => rw [hec] at he; cases he
          | some o =>
            cases o with
            | none => rw [hec] at he; cases he
            | some t1 =>
              rw [hec] at he
              dsimp only at he
              cases her : encodeChannels (ticks t) hd tree group false nbMeta maxSize (before ++ [c]) cs with
              | none => rw [her] at he; cases he
              | some o2 =>
                cases o2 with
                | none => rw [her] at he; cases he
                | some t2 =>
                  rw [her] at he
                  simp only [Option.map_some, Option.some.injEq] at he
                  subst he
                  rw [clustered, List.map_append] at hR
                  obtain ⟨m, r1, r2⟩ := delivers_append hR
                  have hd1 := C20_channel_partial hw ho hh group hb hcw s1 ci (hB.imp id (fun h => ⟨h.1, (h.2 c (List.mem_cons_self ..)).elim (fun h => absurd (Or.inl h) h0) (fun h => h.elim (fun h => absurd (Or.inr h) h0) id)⟩)) hec R r m r1
                  rw [hd1, Option.bind_some]
                  dsimp only
                  have hdc : ({ w := c.w, h := c.h, hshift := d.hshift, vshift := d.vshift, rows := c.rows } : Channel) = c := by
                    obtain ⟨h1, h2, h3, h4⟩ := s1
                    cases c; cases d
                    simp only at *
                    subst h3; subst h4
                    rfl
                  rw [hdc]
                  have := ih ds (before ++ [c]) m r' t2 hb' (fun e he => hc e (List.mem_cons_of_mem _ he)) s3 hB' her r2
                  rw [this]
                  simp [List.length_append]

/-! ### The boundary case -/

/-- A tree that asks whether the predictor's error exceeds -8193. -/
def errorTree : List Node := [⟨15, -8193, 1, 2, 0, 0, 0⟩, ⟨-1, 0, 0, 0, 6, 0, 1⟩, ⟨-1, 0, 1, 0, 6, 0, 1⟩]
def errorDtree : Dtree := .split 15 (-8193) (.leaf ⟨0, 6, 0, 1⟩) (.leaf ⟨1, 6, 0, 1⟩)
def errorChannel : Channel := { w := 2, h := 1, rows := [[2000, 0]] }

/-- **C20 fails on the boundary.** In a channel of at most 8 columns the encoder uses its table, which
clamps errors to -8192, and writes the second sample with context 0; the decoder walks the tree and
reads it with context 1. An entropy decoder that distinguishes the contexts returns something else. -/
theorem C20_boundary_witness :
    encodeChannel (ticks errorDtree) Wp.defaultHeader errorTree 0 false [] errorChannel = some (some [(0, 4000), (0, 3999)]) ∧
    decodeChannel (ticks errorDtree) ⟨false, false⟩ Wp.defaultHeader errorTree [0, 1] 0 tokReader [] errorChannel (some [(0, 4000), (0, 3999)]) = some ([[2000, 2000]], none) := by
  decide +kernel

example : TreeWf errorTree errorDtree ∧ TreeOk errorTree [0, 1] ∧ errorChannel.Wf ∧ ¬ NoBoundary errorTree := by
  refine ⟨⟨?_, ?_, ?_⟩, ⟨?_, by decide, ?_⟩, by unfold Channel.Wf; decide, ?_⟩
  · intro i n h
    match i, h with
    | 0, h => injection h with h; subst h; right; decide
    | 1, h => injection h with h; subst h; left; decide
    | 2, h => injection h with h; subst h; left; decide
  · exact .split (n := ⟨15, -8193, 1, 2, 0, 0, 0⟩) rfl (by decide) (.leaf (n := ⟨-1, 0, 0, 0, 6, 0, 1⟩) rfl rfl) (.leaf (n := ⟨-1, 0, 1, 0, 6, 0, 1⟩) rfl rfl)
  · refine ⟨⟨fun _ => 0, fun _ => by dsimp only; decide, trivial, by decide⟩, ⟨fun _ => -9000, fun _ => by dsimp only; decide, trivial, by decide⟩⟩
  · intro i n h
    match i, h with
    | 0, h => injection h with h; subst h; decide
    | 1, h => injection h with h; subst h; decide
    | 2, h => injection h with h; subst h; decide
  · intro i n h
    match i, h with
    | 0, h => injection h with h; subst h; decide
    | 1, h => injection h with h; subst h; decide
    | 2, h => injection h with h; subst h; decide
  · intro h
    exact h 0 _ rfl rfl rfl

/-- A tree with a split on the channel, the weighted predictor with an error split for channel 0 and a
reference property for the others; the encoder takes different loops for the channels. -/
def mixedTree : List Node :=
  [⟨0, 0, 1, 2, 0, 0, 0⟩, ⟨17, 5, 3, 4, 0, 0, 0⟩, ⟨15, -3, 5, 6, 0, 0, 0⟩, ⟨-1, 0, 0, 0, 13, -7, 1⟩, ⟨-1, 0, 1, 0, 4, 2, 1⟩, ⟨-1, 0, 2, 0, 6, 0, 1⟩, ⟨-1, 0, 3, 0, 6, 0, 1⟩]
def mixedDtree : Dtree :=
  .split 0 0 (.split 17 5 (.leaf ⟨0, 13, -7, 1⟩) (.leaf ⟨1, 4, 2, 1⟩)) (.split 15 (-3) (.leaf ⟨2, 6, 0, 1⟩) (.leaf ⟨3, 6, 0, 1⟩))
def mixedImage : List Channel := [{ w := 3, h := 2, rows := [[5, 0xffffff00, 7], [0x7fff, 3, 0]] }, { w := 0, h := 2, rows := [[], []] }, { w := 3, h := 2, rows := [[1, 2, 3], [0, 9, 0xffffffff]] }]
def blankImage : List Channel := [{ w := 3, h := 2, rows := [[0, 0, 0], [0, 0, 0]] }, { w := 0, h := 2, rows := [[], []] }, { w := 3, h := 2, rows := [[8, 8, 8], [8, 8, 8]] }]

theorem mixed_wf : TreeWf mixedTree mixedDtree := by
  refine ⟨?_, ?_, ?_⟩
  · intro i n h
    match i, h with
    | 0, h | 1, h | 2, h => injection h with h; subst h; right; decide
    | 3, h | 4, h | 5, h | 6, h => injection h with h; subst h; left; decide
  · exact .split (n := ⟨0, 0, 1, 2, 0, 0, 0⟩) rfl (by decide)
      (.split (n := ⟨17, 5, 3, 4, 0, 0, 0⟩) rfl (by decide) (.leaf (n := ⟨-1, 0, 0, 0, 13, -7, 1⟩) rfl rfl) (.leaf (n := ⟨-1, 0, 1, 0, 4, 2, 1⟩) rfl rfl))
      (.split (n := ⟨15, -3, 5, 6, 0, 0, 0⟩) rfl (by decide) (.leaf (n := ⟨-1, 0, 2, 0, 6, 0, 1⟩) rfl rfl) (.leaf (n := ⟨-1, 0, 3, 0, 6, 0, 1⟩) rfl rfl))
  · exact ⟨⟨⟨fun _ => 6, fun _ => by dsimp only; decide, ⟨trivial, by decide⟩, by decide⟩, ⟨fun _ => 5, fun _ => by dsimp only; decide, ⟨trivial, by decide⟩, by decide⟩⟩,
      ⟨fun _ => 0, fun _ => by dsimp only; decide, ⟨trivial, by decide⟩, by decide⟩, ⟨fun _ => -5, fun _ => by dsimp only; decide, ⟨trivial, by decide⟩, by decide⟩⟩

/-- The hypotheses of the image theorem hold for it, and the tokens really restore it. -/
example : TreeWf mixedTree mixedDtree ∧ TreeOk mixedTree [2, 0, 1, 2] ∧ Ones mixedTree ∧ NoBoundary mixedTree ∧ Wp.defaultHeader.Ok ∧ (∀ c ∈ mixedImage, c.Wf) ∧ SameShapes mixedImage blankImage := by
  refine ⟨mixed_wf, ⟨?_, by decide, ?_⟩, ?_, ?_, by unfold Wp.Header.Ok; decide, ?_, ?_⟩
  · intro i n h
    match i, h with
    | 0, h | 1, h | 2, h | 3, h | 4, h | 5, h | 6, h => injection h with h; subst h; decide
  · intro i n h
    match i, h with
    | 0, h | 1, h | 2, h | 3, h | 4, h | 5, h | 6, h => injection h with h; subst h; decide
  · intro i n h
    match i, h with
    | 0, h | 1, h | 2, h | 3, h | 4, h | 5, h | 6, h => injection h with h; subst h; decide
  · intro i n h
    match i, h with
    | 0, h | 1, h | 2, h | 3, h | 4, h | 5, h | 6, h => injection h with h; subst h; decide
  · unfold Channel.Wf; decide
  · unfold mixedImage blankImage SameShapes SameShape Channel.Wf; simp [SameShapes, SameShape, Channel.Wf]

example : ∃ ts, encodeChannels (ticks mixedDtree) Wp.defaultHeader mixedTree 0 false 0 100 [] mixedImage = some (some ts) ∧ ts.length = 12 ∧
    decodeChannels (ticks mixedDtree) ⟨false, false⟩ Wp.defaultHeader mixedTree [2, 0, 1, 2] 0 tokReader 0 100 [] blankImage (some (clustered [2, 0, 1, 2] ts)) = some (mixedImage, some []) := by
  refine ⟨_, by rfl, by rfl, by rfl⟩

/-! ### The distance multiplier -/

/-- Encoder and decoder compute the same LZ77 distance multiplier if no channel of the stream has
columns but no rows. -/
theorem C20_width_partial (nbMeta maxSize : Nat) : ∀ (cs : List Channel) (i acc : Nat), (∀ c ∈ cs, c.h = 0 → c.w = 0) → encWidth nbMeta maxSize i cs acc = decWidth nbMeta maxSize i cs acc := by
  intro cs
  induction cs with
  | nil => intro i acc _; rfl
  | cons c cs ih =>
    intro i acc h
    have hr := fun j a => ih j a (fun e he => h e (List.mem_cons_of_mem _ he))
    rw [encWidth, decWidth]
    by_cases hl : tooLarge nbMeta maxSize i c = true
    · rw [if_pos hl, if_pos hl]
    · rw [if_neg hl, if_neg hl]
      by_cases h0 : c.w = 0 ∨ c.h = 0
      · have hz : c.w = 0 := h0.elim id (h c (List.mem_cons_self ..))
        rw [if_pos h0, if_neg (by omega), hr]
      · rw [if_neg h0, hr]

/-- Otherwise they can differ. -/
theorem C20_width_witness : encWidth 0 100 0 [{ w := 9, h := 0, rows := [] }, { w := 4, h := 1, rows := [[0, 0, 0, 0]] }] 0 = 9 ∧
    decWidth 0 100 0 [{ w := 9, h := 0, rows := [] }, { w := 4, h := 1, rows := [[0, 0, 0, 0]] }] 0 = 4 := by decide

end Jxl.Props
