import Verif.Lemmas.WeightedPred
/-!
# C47: the weighted predictor never overflows and never leaves its buffers

A session is any sequence of calls: for each pixel a prediction from five neighbours and then an
update with the sample that was coded. Nothing is assumed about the order of the pixels or about how
neighbours and samples are related; they only have to be 32-bit numbers, and the column must lie in
the row.
-/
namespace Jxl.Props
open Jxl.Wp

/-- One pixel of a session. -/
structure WpCall where
  x : Nat
  y : Nat
  N : BitVec 32
  W : BitVec 32
  NE : BitVec 32
  NW : BitVec 32
  NN : BitVec 32
  sample : BitVec 32

/-- The guesses and properties delivered in a session; `none` is undefined behaviour. -/
def wpSession (h : Header) (xsize : Nat) : List WpCall → State → Option (List (Int × Int))
  | [], _ => some []
  | c :: cs, s =>
    (predict h s c.x c.y xsize c.N.toInt c.W.toInt c.NE.toInt c.NW.toInt c.NN.toInt).bind fun r =>
    (update r.st c.sample.toInt c.x c.y xsize).bind fun s' => (wpSession h xsize cs s').map fun l => (r.guess, r.prop) :: l

theorem wpSession_total {h : Header} (hh : h.Ok) (xsize : Nat) : ∀ (cs : List WpCall) (s : State), Inv xsize s → (∀ c ∈ cs, c.x < xsize) →
    ∃ l, wpSession h xsize cs s = some l ∧ l.length = cs.length ∧
      ∀ a ∈ l, a.1.natAbs ≤ 68719476736 ∧ -2147483648 ≤ a.2 ∧ a.2 < 2147483648 := by
  intro cs
  induction cs with
  | nil => intro s _ _; exact ⟨[], rfl, rfl, by simp⟩
  | cons c cs ih =>
    intro s hi hx
    obtain ⟨r, e1, i1, s1, b1, -, b2, b3⟩ := predict_total (y := c.y) hh hi (hx c (List.mem_cons_self ..)) (toInt_bd c.N) (toInt_bd c.W) (toInt_bd c.NE) (toInt_bd c.NW) (toInt_bd c.NN)
    obtain ⟨s', e2, i2, -⟩ := update_total (y := c.y) i1 s1 (hx c (List.mem_cons_self ..)) (toInt_bd c.sample)
    obtain ⟨l, e3, e4, e5⟩ := ih s' i2 (fun d hd => hx d (List.mem_cons_of_mem _ hd))
    refine ⟨(r.guess, r.prop) :: l, ?_, by simp [e4], ?_⟩
    · simp only [wpSession, e1, e2, e3, Option.bind_some, Option.map_some]
    · intro a ha
      rcases List.mem_cons.mp ha with rfl | ha
      · exact ⟨b1, b2, b3⟩
      · exact e5 a ha

/-- **C47.** Every session with every header that can be read from a file ends without overflow of
`int64_t`, without a shift by a negative amount and without an access outside `divlookup` or the
error buffers; every guess is below 2^36 in magnitude and every property is a 32-bit number. -/
theorem C47_safe {h : Header} (hh : h.Ok) (xsize : Nat) (cs : List WpCall) (hx : ∀ c ∈ cs, c.x < xsize) :
    ∃ l, wpSession h xsize cs (init xsize) = some l ∧ l.length = cs.length ∧
      ∀ a ∈ l, a.1.natAbs ≤ 2 ^ 36 ∧ -2 ^ 31 ≤ a.2 ∧ a.2 < 2 ^ 31 :=
  wpSession_total hh xsize cs (init xsize) (init_inv xsize) hx

/-- Extreme samples: the guesses of such a session. -/
def wpExtreme : List WpCall :=
  [⟨0, 0, 0, 0, 0, 0, 0, 0x80000000⟩, ⟨1, 0, 0x80000000, 0x80000000, 0x80000000, 0x80000000, 0x80000000, 0x7fffffff⟩,
   ⟨2, 0, 0x7fffffff, 0x7fffffff, 0x7fffffff, 0x7fffffff, 0x7fffffff, 0x80000000⟩,
   ⟨0, 1, 0x80000000, 0x80000000, 0x7fffffff, 0x80000000, 0x80000000, 0x7fffffff⟩]

example : defaultHeader.Ok ∧ (∀ c ∈ wpExtreme, c.x < 3) ∧ (wpSession defaultHeader 3 wpExtreme (init 3)).map List.length = some 4 := by
  refine ⟨by unfold Header.Ok; decide, by decide, ?_⟩
  obtain ⟨l, h1, h2, -⟩ := C47_safe (h := defaultHeader) (by unfold Header.Ok; decide) 3 wpExtreme (by decide)
  rw [h1, Option.map_some, h2]; rfl

/-- The condition on the column is needed: beyond the row the buffers are left. -/
theorem C47_column_needed : wpSession defaultHeader 1 [⟨5, 0, 0, 0, 0, 0, 0, 0⟩] (init 1) = none := by decide +kernel

end Jxl.Props
