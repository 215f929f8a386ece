import Verif.Lemmas.GroupBorderCount
import Verif.Props.FrameDim
/-!
# C25: every pixel is finalised exactly once, for every order of group completion
-/
namespace Jxl.Props
open FrameDim Border

/-- Padding for which the areas next to two opposite borders of a group do not overlap (the group side is at least 128). -/
structure Admissible (gs padx pady : Nat) : Prop where
  x : 2 * padx ≤ 128 * 2 ^ gs
  y : 2 * pady ≤ 128 * 2 ^ gs

theorem border_geo (xpx ypx gs mh mv up padx pady : Nat) (m : Bool) (hv : ValidDims xpx ypx gs mh mv up) (ha : Admissible gs padx pady) :
    Geo (set xpx ypx gs mh mv m up) padx pady := by
  have hgd : (set xpx ypx gs mh mv m up).groupDim = 128 * 2 ^ gs := groupDim_eq xpx ypx gs mh mv up m
  have hpos := groupDim_pos gs
  have axis : ∀ size pad n, n = divCeil size (128 * 2 ^ gs) → 0 < size → 2 * pad ≤ 128 * 2 ^ gs →
      AxisOk size (128 * 2 ^ gs) pad n := by
    rintro size pad n rfl h0 hp
    have h1 := divCeil_le size (128 * 2 ^ gs) hpos
    have h2 := divCeil_lt size (128 * 2 ^ gs) hpos
    exact ⟨⟨16 * 2 ^ gs, by rw [← Nat.mul_assoc]⟩, hpos, hp, divCeil_pos _ _ hpos h0, by rw [Nat.sub_mul]; omega, h1⟩
  refine ⟨?_, ?_, (blocks_spec _ mh).1, (blocks_spec _ mv).1, rfl⟩
  · rw [hgd]
    refine axis _ _ _ ?_ (divCeil_pos _ _ hv.u hv.x) ha.x
    rw [← hgd]; rfl
  · rw [hgd]
    refine axis _ _ _ ?_ (divCeil_pos _ _ hv.u hv.y) ha.y
    rw [← hgd]; rfl

/-- **C25, safety.**  From every state that can arise, every interleaving of the calls of any set of groups not yet done goes through without
touching memory outside the corner words and without failing an assertion; each group hands out at most three rectangles, non-empty and inside
the frame. -/
theorem C25_safe (xpx ypx gs mh mv up padx pady : Nat) (md : Bool) (hv : ValidDims xpx ypx gs mh mv up) (ha : Admissible gs padx pady) :
    let d := set xpx ypx gs mh mv md up
    ∀ (m : Mem) (D : Nat → Prop) (sched : List Nat), Reached d.xsizeGroups d.ysizeGroups m D → Complete d.numGroups sched →
      (∀ g ∈ sched, ¬D g) →
      ∃ s, exec d.xsizeGroups sched ⟨m, fun _ => []⟩ = some s ∧ ∀ g ∈ sched, ∃ rs, finish d padx pady g (s.got g) = some rs ∧ rs.length ≤ 3 ∧
        ∀ r ∈ rs, 0 < r.xs ∧ 0 < r.ys ∧ r.x0 + r.xs ≤ d.xsize ∧ r.y0 + r.ys ≤ d.ysize := by
  intro d m D sched hr hc hd
  have G := border_geo xpx ypx gs mh mv up padx pady md hv ha
  obtain ⟨s, e, hi⟩ := run_spec hr hc hd
  refine ⟨s, e, fun g hg => ?_⟩
  obtain ⟨rs, e1, e2, e3, _⟩ := finish_spec G hi hc hg
  exact ⟨rs, e1, e2, e3⟩

/-- **C25, rounds.**  In such a run a pixel of the frame is handed out exactly once if all groups it depends on are complete at the end of the
run and at least one of them ran, and not at all otherwise: too early, or nothing new. -/
theorem C25_rounds (xpx ypx gs mh mv up padx pady : Nat) (md : Bool) (hv : ValidDims xpx ypx gs mh mv up) (ha : Admissible gs padx pady) :
    let d := set xpx ypx gs mh mv md up
    ∀ (m : Mem) (D : Nat → Prop) (sched : List Nat) (s : St), Reached d.xsizeGroups d.ysizeGroups m D → Complete d.numGroups sched →
      (∀ g ∈ sched, ¬D g) → exec d.xsizeGroups sched ⟨m, fun _ => []⟩ = some s → ∀ px py, px < d.xsize → py < d.ysize →
      (((∀ g, Reads d padx pady px py g → D g ∨ g ∈ sched) ∧ (∃ g, Reads d padx pady px py g ∧ g ∈ sched)) →
        (handed d padx pady sched s).countP (fun r => decide (Has r px py)) = 1) ∧
      (¬((∀ g, Reads d padx pady px py g → D g ∨ g ∈ sched) ∧ (∃ g, Reads d padx pady px py g ∧ g ∈ sched)) →
        (handed d padx pady sched s).countP (fun r => decide (Has r px py)) = 0) := by
  intro d m D sched s hr hc hd e px py hx hy
  have G := border_geo xpx ypx gs mh mv up padx pady md hv ha
  obtain ⟨s', e', hi⟩ := run_spec hr hc hd
  rw [e] at e'
  cases e'
  have h := count_spec G hi hc hd hx hy
  exact ⟨h.1, h.2.1⟩

/-- **C25.**  For every frame and every interleaving in which all groups complete, every pixel of the frame lies in exactly one of the
rectangles handed to the renderer. -/
theorem C25_exactly_once (xpx ypx gs mh mv up padx pady : Nat) (md : Bool) (hv : ValidDims xpx ypx gs mh mv up) (ha : Admissible gs padx pady) :
    let d := set xpx ypx gs mh mv md up
    ∀ sched : List Nat, (∀ g, g < d.numGroups → sched.count g = 4) → (∀ g ∈ sched, g < d.numGroups) →
      ∃ m s, init d.xsizeGroups d.ysizeGroups = some m ∧ exec d.xsizeGroups sched ⟨m, fun _ => []⟩ = some s ∧
        ∀ px py, px < d.xsize → py < d.ysize → (handed d padx pady sched s).countP (fun r => decide (Has r px py)) = 1 := by
  intro d sched h4 hlt
  have G := border_geo xpx ypx gs mh mv up padx pady md hv ha
  obtain ⟨m, e0, _⟩ := init_spec d.xsizeGroups d.ysizeGroups
  have hc : Complete d.numGroups sched := fun g hg => ⟨hlt g hg, h4 g (hlt g hg)⟩
  obtain ⟨s, e, hi⟩ := run_spec (Reached.init m e0) hc (fun _ _ h => h)
  refine ⟨m, s, e0, e, fun px py hx hy => ?_⟩
  have hin : ∀ g, g < d.numGroups → g ∈ sched := fun g hg => List.count_pos_iff.1 (by rw [h4 g hg]; omega)
  refine (count_spec G hi hc (fun _ _ h => h) hx hy).1 ⟨fun g hg => Or.inr (hin g hg.1), ?_⟩
  -- the pixel's own group
  have hqx : px / d.groupDim < d.xsizeGroups := by
    refine Nat.div_lt_of_lt_mul ?_
    have := G.ax.hi
    rw [Nat.mul_comm]; exact Nat.lt_of_lt_of_le hx this
  have hqy : py / d.groupDim < d.ysizeGroups := by
    refine Nat.div_lt_of_lt_mul ?_
    have := G.ay.hi
    rw [Nat.mul_comm]; exact Nat.lt_of_lt_of_le hy this
  obtain ⟨g1, g2, g3⟩ := group_mk hqx hqy
  have hr : Reads d padx pady px py (py / d.groupDim * d.xsizeGroups + px / d.groupDim) := by
    have tx := (in_tile G.ax.pos).2 (rfl : px / d.groupDim = _)
    have ty := (in_tile G.ax.pos).2 (rfl : py / d.groupDim = _)
    refine ⟨g1, px, py, ⟨by omega, by omega⟩, ⟨by omega, by omega⟩, ?_⟩
    show _ % d.xsizeGroups * d.groupDim ≤ px ∧ px < _ % d.xsizeGroups * d.groupDim + clampedSize (_ % d.xsizeGroups * d.groupDim) d.groupDim d.xsize ∧
      _ / d.xsizeGroups * d.groupDim ≤ py ∧ py < _ / d.xsizeGroups * d.groupDim + clampedSize (_ / d.xsizeGroups * d.groupDim) d.groupDim d.ysize
    rw [g2, g3]
    exact ⟨tx.1, (clamp_end tx.1 hx).2 tx.2, ty.1, (clamp_end ty.1 hy).2 ty.2⟩
  exact ⟨_, hr, hin _ g1⟩

/-- **C25, readiness.**  A rectangle is handed out only when every group its pixels depend on is ready: when the call of group `g` returns
(any point of the interleaving after its four updates), every group with a pixel within the padding of a pixel of its rectangles was complete
before the run, or has announced its completion (its call has begun, so its pixels are written). -/
theorem C25_ready (xpx ypx gs mh mv up padx pady : Nat) (md : Bool) (hv : ValidDims xpx ypx gs mh mv up) (ha : Admissible gs padx pady) :
    let d := set xpx ypx gs mh mv md up
    ∀ (m : Mem) (D : Nat → Prop) (sched : List Nat) (s : St), Reached d.xsizeGroups d.ysizeGroups m D → Complete d.numGroups sched →
      (∀ g ∈ sched, ¬D g) → exec d.xsizeGroups sched ⟨m, fun _ => []⟩ = some s →
      ∀ (g : Nat) (rs : List Rect) (r : Rect), g ∈ sched → finish d padx pady g (s.got g) = some rs → r ∈ rs →
      ∀ px py g', Has r px py → Reads d padx pady px py g' →
      ∀ pre : List Nat, pre <+: sched → pre.count g = 4 → D g' ∨ g' ∈ pre := by
  intro d m D sched s hr hc hd e g rs r hg hf hrs px py g' hhas hread pre hpre hcnt
  have G := border_geo xpx ypx gs mh mv up padx pady md hv ha
  obtain ⟨s', e', hi⟩ := run_spec hr hc hd
  rw [e] at e'
  cases e'
  obtain ⟨rs', e1, _, e3, _⟩ := finish_spec G hi hc hg
  have e1 : finish d padx pady g (s.got g) = some rs' := e1
  rw [hf] at e1
  cases e1
  have hin := e3 r hrs
  obtain ⟨a1, a2, a3, a4⟩ := hhas
  have hx : px < d.xsize := Nat.lt_of_lt_of_le a2 hin.2.2.1
  have hy : py < d.ysize := Nat.lt_of_lt_of_le a4 hin.2.2.2
  have hcount : cntOf d padx pady sched s px py g ≠ 0 := by
    unfold cntOf
    rw [if_pos hg, hf]
    have : 0 < rs.countP (fun r => decide (Has r px py)) := List.countP_pos_iff.2 ⟨r, hrs, decide_eq_true ⟨a1, a2, a3, a4⟩⟩
    exact Nat.ne_of_gt this
  rcases (count_spec G hi hc hd hx hy).2.2 g g' hcount hread with h | h
  · exact Or.inl h
  · right
    obtain ⟨rest, rfl⟩ := hpre
    have h3 : 3 < pre.count g := by omega
    have hlt := (time_lt pre g 3).2 h3
    rw [time_append pre rest g 3 h3] at h
    refine Decidable.byContradiction fun hn => ?_
    have h0 : ¬0 < pre.count g' := by rw [List.count_eq_zero_of_not_mem hn]; omega
    rw [time_append_ge pre rest g' 0 h0] at h
    omega

/-- Non-vacuity: a frame of 3 × 2 groups and an interleaving in which two groups overlap in time. -/
def borderSched : List Nat := [0, 1, 0, 1, 1, 0, 4, 4, 0, 1, 4, 4, 3, 3, 5, 3, 5, 5, 2, 2, 5, 3, 2, 2]

def borderRun : Option (List (List Rect)) :=
  (init 3 2).bind fun m => (exec 3 borderSched ⟨m, fun _ => []⟩).map fun s =>
    (List.range 6).map fun g => (finish (set 300 200 0 0 0 false 1) 16 5 g (s.got g)).getD []

example : ValidDims 300 200 0 0 0 1 ∧ Admissible 0 16 5 := by
  refine ⟨⟨by decide, by decide, by decide, by decide, by decide⟩, ⟨by decide, by decide⟩⟩

example : (set 300 200 0 0 0 false 1).numGroups = 6 ∧ (∀ g, g < 6 → borderSched.count g = 4) ∧ (∀ g ∈ borderSched, g < 6) := by decide

example : borderRun = some [[⟨0, 0, 144, 123⟩], [⟨144, 0, 96, 133⟩], [⟨240, 0, 60, 133⟩], [⟨0, 123, 144, 77⟩], [⟨144, 133, 96, 67⟩],
    [⟨240, 133, 60, 67⟩]] := by decide +kernel

/-- A group that has not completed keeps its surroundings back. -/
example : ∃ (m : Mem) (s : St), init 3 2 = some m ∧ exec 3 [4, 4, 4, 4] ⟨m, fun _ => []⟩ = some s ∧
    finish (set 300 200 0 0 0 false 1) 16 5 4 (s.got 4) = some [⟨144, 133, 96, 67⟩] := by
  refine ⟨_, _, rfl, rfl, ?_⟩
  decide +kernel

end Jxl.Props
