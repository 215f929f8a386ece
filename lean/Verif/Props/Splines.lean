import Verif.Lemmas.Splines
/-!
# Properties: splines
-/
namespace Jxl.Props
open Jxl.Splines

/-- **C73 (round trip).** Curves within 2^23 of the origin, that do not stand still, and with at most one control point for two pixels, are turned into differences without overflow
and written, with all sound choices of the entropy coder.  From these bits, with any memory contents, the decoder reads up to exactly the last bit splines whose control points
are those of the curves, in the same order, with the same coefficients and the same quantisation.

Partial: the first curve must not start left of or above the picture, see `C73_negative_start_refused`; the estimate of the area, by which the decoder may refuse splines, is not modelled. -/
theorem C73_round_trip_partial {pixels size : Nat} {cs : List Curve} {adjust : Int} (h : CurvesOk pixels size cs adjust) (h0 : ∀ c, cs.head? = some c → ∀ p, c.pts.head? = some p → 0 ≤ p.1 ∧ 0 ≤ p.2)
    {mem : Nat → List Alias.Entry} (hm : ∀ la, (mem la).length = 2 ^ la) {layers : List Stream.Layer} {p : Stream.Plan} (hs : Stream.Sound layers p)
    (hn : p.map.length = if p.lz.isSome then 6 + 1 else 6) :
    ∃ qs toks, createAll cs = .ok qs ∧ tokens ⟨starts cs, adjust, qs⟩ = some toks ∧ ∀ ts, Stream.Tokenised p 0 0 ts toks → ∃ bits, Patches.writeDict mem layers p ts = some bits ∧
      ∀ env, Stream.EnvOk env → ∀ rest, ∃ s, readSet env pixels (bits ++ rest) = .ok (s, rest) ∧ allPoints size s.starts s.splines = .ok (cs.map (·.pts)) ∧
        s.splines.map (fun q => (q.color, q.sigma)) = cs.map (fun c => (c.color, c.sigma)) ∧ s.adjust = adjust := by
  obtain ⟨qs, a1, a2, a3, a4, a5, a6, a7⟩ := createAll_back h.size cs h.each
  have hne : qs ≠ [] := by
    intro e
    rw [e] at a4
    have := congrArg List.length a4
    rw [List.length_map, List.length_map] at this
    exact h.some (List.length_eq_zero_iff.mp this.symm)
  have hok : (⟨starts cs, adjust, qs⟩ : Set).Ok pixels :=
    ⟨hne, a5, a6, fun q hq => (a2 q hq).1, fun q hq => (a2 q hq).2, by dsimp only; rw [a3]; exact h.count, h.adjust⟩
  obtain ⟨toks, ht⟩ : ∃ t, tokens ⟨starts cs, adjust, qs⟩ = some t := ⟨_, if_neg hne⟩
  refine ⟨qs, toks, a1, ht, fun ts hts => ?_⟩
  obtain ⟨bits, b1, b2⟩ := bits_fed hm hs hn hts
  refine ⟨bits, b1, fun env henv rest => ⟨⟨starts cs, adjust, qs⟩, ?_, a7, a4, rfl⟩⟩
  refine (b2 env henv pixels rest).1 _ (fun ρ R r r' hf => decode_back hok ?_ ht hf)
  intro q hq
  cases hcs : cs with
  | nil => exact absurd hcs h.some
  | cons c l =>
    obtain ⟨p0, hp0⟩ : ∃ p0, c.pts.head? = some p0 := by
      cases hc : c.pts with
      | nil => exact absurd hc (h.each c (by rw [hcs]; exact List.mem_cons_self ..)).some
      | cons x _ => exact ⟨x, rfl⟩
    rw [hcs] at hq
    have e : starts (c :: l) = p0 :: starts l := by
      unfold starts
      rw [List.filterMap_cons, hp0]
    dsimp only at hq
    rw [e] at hq
    injection hq with hq
    subst hq
    exact h0 c (by rw [hcs]; rfl) p0 hp0

/-- **C73 (any bits).** Reading splines from any bits, with any memory contents, is defined.  What is accepted has a starting point for every spline, at most one point for two pixels and at most
2^20 in all, and all numbers are in range: positions within 2^23, changes of steps within 2^30, coefficients that can be negated. -/
theorem C73_any_bits {env : Stream.Env} (he : Stream.EnvOk env) (pixels : Nat) (s : List Bool) :
    readSet env pixels s ≠ .ub ∧ readSet env pixels s ≠ .deep ∧ ∀ q rest, readSet env pixels s = .ok (q, rest) → q.Ok pixels := by
  have h := readSet_safe he pixels s
  refine ⟨fun e => ?_, fun e => ?_, fun q rest e => ?_⟩
  · rw [e] at h; exact h
  · rw [e] at h; exact h
  · rw [e] at h; exact h

/-- **C73 (control points).** If the control points of accepted splines are accepted, they start at the starting points and their second differences are the numbers read; all are within 2^23,
no two successive ones are equal, and the way along them is at most 2^42 long. -/
theorem C73_points {pixels size : Nat} {s : Set} (h : s.Ok pixels) {ls : List (List (Int × Int))} (hl : allPoints size s.starts s.splines = .ok ls) :
    ls = List.zipWith (fun p q => p :: track p (0, 0) q.steps) s.starts s.splines ∧
      ∀ l ∈ ls, (∀ p ∈ l, Near (2 ^ 23) p) ∧ len l ≤ 2 ^ 42 ∧ ∀ pre a b post, l = pre ++ a :: b :: post → a ≠ b :=
  allPoints_ok _ _ _ h.starts h.steps hl

/-- **C73 (no overflow).** The computation of control points is defined for all pictures if the changes of steps are less than 2^30 - 2^23.

Partial: larger ones are accepted and can overflow, see `C73_points_overflow`. -/
theorem C73_points_defined_partial (size : Nat) (s : Set) (h : ∀ q ∈ s.splines, ∀ p ∈ q.steps, Near (2 ^ 30 - 2 ^ 23) p) :
    allPoints size s.starts s.splines ≠ .ub ∧ allPoints size s.starts s.splines ≠ .deep := by
  have hs := allPoints_safe (size := size) s.starts s.splines h
  refine ⟨fun e => ?_, fun e => ?_⟩
  · rw [e] at hs; exact hs
  · rw [e] at hs; exact hs

/-- **C73 (finding).** The first starting point is written as an unsigned number.  So splines the first of which starts left of or above the picture are written without complaint and the
decoder refuses the frame; the other splines may start there. -/
theorem C73_negative_start_refused {s : Set} {p : Int × Int} (hp : s.starts.head? = some p) (hnear : Near (2 ^ 23) p) (h0 : p.1 < 0 ∨ p.2 < 0) (hne : s.splines ≠ [])
    {mem : Nat → List Alias.Entry} (hm : ∀ la, (mem la).length = 2 ^ la) {layers : List Stream.Layer} {pl : Stream.Plan} (hs : Stream.Sound layers pl)
    (hn : pl.map.length = if pl.lz.isSome then 6 + 1 else 6) :
    ∃ toks, tokens s = some toks ∧ ∀ ts, Stream.Tokenised pl 0 0 ts toks → ∃ bits, Patches.writeDict mem layers pl ts = some bits ∧
      ∀ env, Stream.EnvOk env → ∀ pixels rest, readSet env pixels (bits ++ rest) = .bad := by
  obtain ⟨toks, ht⟩ : ∃ t, tokens s = some t := ⟨_, if_neg hne⟩
  refine ⟨toks, ht, fun ts hts => ?_⟩
  obtain ⟨bits, b1, b2⟩ := bits_fed hm hs hn hts
  exact ⟨bits, b1, fun env henv pixels rest => (b2 env henv pixels rest).2 (fun ρ R r r' hf => decode_refused hp hnear h0 ht hf)⟩

/-! Two curves, the second of which starts left of the picture. -/

def twoCurves : List Curve :=
  [⟨[(1, 2), (5, 2), (4, 7)], [7 :: List.replicate 31 0, List.replicate 32 (-1), List.replicate 32 0], 3 :: List.replicate 31 0⟩,
   ⟨[(-3, 4), (9, -1)], [List.replicate 32 0, 5 :: List.replicate 31 2, List.replicate 32 0], 1 :: List.replicate 31 0⟩]

def twoSplines : List Spline :=
  [⟨[(4, 0), (-5, 5)], [7 :: List.replicate 31 0, List.replicate 32 (-1), List.replicate 32 0], 3 :: List.replicate 31 0⟩,
   ⟨[(12, -5)], [List.replicate 32 0, 5 :: List.replicate 31 2, List.replicate 32 0], 1 :: List.replicate 31 0⟩]

def splinePlan : Stream.Plan := ⟨none, List.replicate 6 0, [⟨4, 1, 1⟩], .ans 7 [⟨0, 0, 128, 128, 0, 1, List.replicate 128 32⟩], false, true⟩

theorem splinePlan_sound : Stream.Sound [] splinePlan := by
  have h : Stream.PlanOk splinePlan :=
    ⟨by simp [splinePlan], by decide, rfl, ⟨by decide, by decide, fun h hh => by
      simp at hh
      subst hh
      exact ⟨.flat rfl (by decide) (by decide) (fun s => rfl), by decide⟩⟩, by decide, by decide, by decide, by decide⟩
  rw [Stream.Sound.eq_def]
  exact ⟨h, fun hc => absurd hc (by decide)⟩

theorem twoCurves_ok : CurvesOk 64 64 twoCurves (-2) := by
  refine ⟨by decide, fun c hc => ?_, by decide, by decide, by decide⟩
  simp only [twoCurves, List.mem_cons, List.not_mem_nil, or_false] at hc
  rcases hc with rfl | rfl
  · refine ⟨by decide, ?_, ?_, by decide, ⟨rfl, ?_⟩, ?_⟩
    · unfold Near; decide
    · unfold Moves Moves Near; exact ⟨by decide, by decide, by decide, by decide, trivial⟩
    · unfold DctOk; decide
    · unfold DctOk; decide
  · refine ⟨by decide, ?_, ?_, by decide, ⟨rfl, ?_⟩, ?_⟩
    · unfold Near; decide
    · unfold Moves Near; exact ⟨by decide, by decide, trivial⟩
    · unfold DctOk; decide
    · unfold DctOk; decide

example : createAll twoCurves = .ok twoSplines := rfl

def splineValues (s : Set) : List (Nat × Nat) := (tokens s).getD []

theorem two_tokenised : Stream.Tokenised splinePlan 0 0 ((splineValues ⟨starts twoCurves, -2, twoSplines⟩).map fun v => ⟨false, v.1, v.2⟩) (splineValues ⟨starts twoCurves, -2, twoSplines⟩) :=
  tokenised_plain rfl (by decide +kernel) (by decide +kernel)

example (env : Stream.Env) (he : Stream.EnvOk env) (mem : Nat → List Alias.Entry) (hm : ∀ la, (mem la).length = 2 ^ la) :
    ∃ bits s, readSet env 64 bits = .ok (s, []) ∧ allPoints 64 s.starts s.splines = .ok [[(1, 2), (5, 2), (4, 7)], [(-3, 4), (9, -1)]] := by
  obtain ⟨qs, toks, h1, h2, h3⟩ := C73_round_trip_partial twoCurves_ok (by intro c hc p hp; cases hc; cases hp; decide) hm splinePlan_sound rfl
  have e : qs = twoSplines := by
    have : Stream.Out.ok twoSplines = Stream.Out.ok qs := h1
    injection this with this
    exact this.symm
  subst e
  obtain ⟨bits, b1, b2⟩ := h3 _ (by
    have : splineValues ⟨starts twoCurves, -2, twoSplines⟩ = toks := by unfold splineValues; rw [h2]; rfl
    rw [← this]
    exact two_tokenised)
  obtain ⟨s, s1, s2, -⟩ := b2 env he []
  rw [List.append_nil] at s1
  exact ⟨bits, s, s1, s2⟩

/-! The same curves in the other order are refused. -/
example : (⟨[(-3, 4), (1, 2)], -2, twoSplines.reverse⟩ : Set).starts.head? = some (-3, 4) ∧ Near (2 ^ 23) (-3, 4) := by
  unfold Near
  decide

/-- A spline with the largest first step, and then the largest change. -/
def wideSet : Set := ⟨[(0, 0)], 0, [⟨[(2 ^ 23 - 1, 2 ^ 23 - 1), (2 ^ 30 - 1, 2 ^ 30 - 1)], List.replicate 3 (List.replicate 32 0), List.replicate 32 0⟩]⟩

theorem wide_ok : wideSet.Ok 64 := by
  refine ⟨by decide, rfl, ?_, ?_, ?_, by decide, by decide⟩
  · unfold Near; decide
  · unfold Near; decide
  · unfold DctOk; decide

theorem wide_tokenised : Stream.Tokenised splinePlan 0 0 ((splineValues wideSet).map fun v => ⟨false, v.1, v.2⟩) (splineValues wideSet) :=
  tokenised_plain rfl (by decide +kernel) (by decide +kernel)

theorem wide_overflow : allPoints 64 wideSet.starts wideSet.splines = .ub := by
  have h : (match allPoints 64 wideSet.starts wideSet.splines with | .ub => true | _ => false) = true := by decide +kernel
  generalize allPoints 64 wideSet.starts wideSet.splines = x at h ⊢
  cases x with
  | ub => rfl
  | deep => cases h
  | bad => cases h
  | ok a => cases h

/-- **C73 (finding).** The length of a step is added up in 32-bit integers before the step is checked.  Here are bits that are read as splines of an 8x8 picture with all numbers in the
checked ranges, and the computation of their control points overflows. -/
theorem C73_points_overflow {mem : Nat → List Alias.Entry} (hm : ∀ la, (mem la).length = 2 ^ la) :
    ∃ bits, ∀ env, Stream.EnvOk env → ∃ s, readSet env 64 bits = .ok (s, []) ∧ allPoints 64 s.starts s.splines = .ub := by
  obtain ⟨bits, b1, b2⟩ := bits_fed hm splinePlan_sound rfl wide_tokenised
  refine ⟨bits, fun env henv => ⟨wideSet, ?_, wide_overflow⟩⟩
  have := (b2 env henv 64 []).1 wideSet (fun ρ R r r' hf => decode_back wide_ok (by intro p hp; cases hp; decide) (show tokens wideSet = some (splineValues wideSet) by decide +kernel) hf)
  rwa [List.append_nil] at this

end Jxl.Props
