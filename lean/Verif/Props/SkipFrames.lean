import Verif.Lemmas.SkipFramesRun
/-!
# C31: skipping frames keeps every frame that is still needed
-/
namespace Jxl.Props
open Jxl.FrameRefs Jxl.SkipFrames

/-- For any record of references that does not miss a reference of the file, the computed dependencies of frame `t` contain every frame
before `t` whose pixels reach frame `t` or any later frame; they are distinct and all before `t`, and no array is left. -/
theorem C31_dependencies (refs fs : List FrameRef) (t : Nat) (ht : t < refs.length)
    (hd : ∀ i ≤ t, ∃ r f, refs[i]? = some r ∧ fs[i]? = some f ∧ r.savedAs = f.savedAs ∧
      ∀ s < 8, f.reference.testBit s = true → r.reference.testBit s = true) :
    ∃ deps, dependencies t refs = some deps ∧ deps.Nodup ∧ (∀ j ∈ deps, j < t) ∧
      ∀ i j, t ≤ i → j < t → Needs fs i j → j ∈ deps := by
  obtain ⟨r, h1, h2, h3, h4, h5⟩ := dependencies_spec t refs ht
  refine ⟨r, h1, h2, h3, fun i j hi hj hn => ?_⟩
  rcases needs_covered refs fs t hd r h4 h5 i j hi hn with g | g
  · omega
  · exact g

/-- Frame 0 in slot 0, frame 1 reads it and goes to slot 1, frame 2 in slot 0 again, frame 3 reads nothing: a jump to 3 needs 0, 1 and 2. -/
example : dependencies 3 [⟨0, 1⟩, ⟨1, 2⟩, ⟨0, 1⟩, ⟨0, 0⟩, ⟨255, 1⟩] = some [2, 1, 0] ∧
    dependencies 3 [⟨0, 1⟩, ⟨0, 2⟩, ⟨0, 1⟩, ⟨0, 0⟩, ⟨255, 1⟩] = some [2, 1] := by decide +kernel

/-- Whatever the user does with a decoder (decode on, skip any number of frames at any time, abandon frames, rewind), nothing goes wrong
inside, and no frame that is part of what the user gets depends, through any chain of references, on a frame that was skipped without
decoding. -/
theorem C31_skipping_keeps_needed (fs : List Frame) (c : Bool) (as : List Action) (hn : ∀ a ∈ as, ∀ c', a ≠ .coalescing c') :
    ∃ d, run fs { coalescing := c } as = some d ∧
      ∀ i, d.fates[i]? = some .shown → ∀ j, Needs (truth fs) i j → d.fates[j]? = some .hidden ∨ d.fates[j]? = some .shown := by
  obtain ⟨d, h1, h2, _⟩ := good_run fs as hn _ (good_init fs c)
  refine ⟨d, h1, fun i hi j hj => ?_⟩
  have hlt := needs_lt hj
  have hil : i < d.fates.length := by
    rcases Nat.lt_or_ge i d.fates.length with g | g
    · exact g
    · rw [List.getElem?_eq_none g] at hi; cases hi
  have := h2.shown i hi j hj
  rw [List.getElem?_eq_getElem (show j < d.fates.length by omega)] at this ⊢
  cases hf : d.fates[j] with
  | dropped => rw [hf] at this; exact absurd rfl this
  | hidden => exact .inl rfl
  | shown => exact .inr rfl

/-- Six pictures: 0 is stored in slot 1, 1 in slot 2, 2 reads slot 1 and replaces slot 1, 3 reads slot 1, 4 and 5 read nothing. -/
def skipFile : List Frame :=
  [⟨false, true, true, 0, 1, 0⟩, ⟨false, true, true, 0, 2, 0⟩, ⟨false, true, true, 0, 1, 2⟩, ⟨false, true, true, 0, 0, 2⟩,
   ⟨false, true, true, 0, 1, 0⟩, ⟨true, true, true, 0, 0, 0⟩]

/-- A full pass, then a rewind and a jump to picture 3: picture 1 is still decoded (it sits in a slot), as are 0 and 2. A jump to picture 4
drops 0 and 2, whose slot is overwritten. -/
example :
    ((run skipFile {} (List.replicate 6 (.frame true) ++ [.rewind, .skip 3] ++ List.replicate 6 (.frame true))).map (·.fates)) =
      some [.hidden, .hidden, .hidden, .shown, .shown, .shown] ∧
    ((run skipFile {} (List.replicate 6 (.frame true) ++ [.rewind, .skip 4] ++ List.replicate 6 (.frame true))).map (·.fates)) =
      some [.dropped, .hidden, .dropped, .dropped, .shown, .shown] := by decide +kernel

example : Needs (truth skipFile) 3 0 := by
  have bit : ∀ s j, Saves (truth skipFile) s j → ((truth skipFile).getD j default).savedAs.testBit s = true := by
    rintro s j ⟨f, h1, h2⟩; rw [List.getD_eq_getElem?_getD, h1]; exact h2
  refine .step (k := 2) (.direct ⟨_, 1, rfl, by omega, rfl, by omega, ⟨_, rfl, rfl⟩, fun k h1 h2 => by omega⟩)
    ⟨_, 1, rfl, by omega, rfl, by omega, ⟨_, rfl, rfl⟩, fun k h1 h2 hs => ?_⟩
  obtain rfl : k = 1 := by omega
  exact absurd (bit 1 1 hs) (by decide)

/-- After a rewind, skipping `n` pictures leaves exactly the frames of picture `n` and later (picture numbers as the user counts them). -/
theorem C31_target (fs : List Frame) (c : Bool) (as : List Action) (hn : ∀ a ∈ as, ∀ c', a ≠ .coalescing c') (n m : Nat) (cs : Nat → Bool)
    (hm : m ≤ fs.length) :
    ∃ d', run fs { coalescing := c } (as ++ .rewind :: .skip n :: (List.range m).map fun i => .frame (cs i)) = some d' ∧ d'.internal = m ∧
      ∀ i, i < m → (d'.fates[i]? = some .shown ↔ n ≤ stills c fs i) := by
  obtain ⟨d, h0, h, hc⟩ := good_run fs as hn _ (good_init fs c)
  have hr := good_rewind fs d h
  obtain ⟨d1, s1, s2, s3⟩ := good_skip fs _ hr n
  have hd1 : d1.internal = 0 ∧ d1.external = 0 ∧ d1.skipFrames = n ∧ d1.fates = [] := by
    obtain ⟨r, hr', rfl⟩ : ∃ r, _ ∧ _ = d1 := by
      unfold skip at s1
      rw [Option.map_eq_some_iff] at s1
      exact s1
    simp [rewind]
  have gen : ∀ m, m ≤ fs.length → ∃ d', run fs d1 ((List.range m).map fun i => .frame (cs i)) = some d' ∧ Good fs d' ∧
      d'.coalescing = d.coalescing ∧ d'.internal = m ∧ d'.skipFrames = n - stills d.coalescing fs m ∧
      ∀ i, i < m → (d'.fates[i]? = some .shown ↔ n ≤ stills d.coalescing fs i) := by
    intro m
    induction m with
    | zero =>
      intro _
      refine ⟨d1, rfl, s2, s3, hd1.1, ?_, fun i hi => by omega⟩
      rw [hd1.2.2.1]; simp [stills]
    | succ m ih =>
      intro hm
      obtain ⟨d2, a1, a2, a3, a4, a5, a6⟩ := ih (by omega)
      have hf : fs[d2.internal]? = some fs[m] := by rw [a4, List.getElem?_eq_getElem (by omega)]
      obtain ⟨d3, b1, b2, b3⟩ := good_frame fs d2 a2 fs[m] hf (cs m)
      refine ⟨d3, ?_, b2, by rw [b3, a3], ?_, ?_, ?_⟩
      · unfold run at a1 ⊢
        rw [List.range_succ, List.map_append, List.foldlM_append, a1]
        simp only [Option.bind_eq_bind, Option.bind_some, List.map_cons, List.map_nil, List.foldlM_cons, List.foldlM_nil, step]
        rw [hf]
        simp only [b1]
        rfl
      all_goals
        obtain ⟨e, e1, b1⟩ := Option.bind_eq_some_iff.1 b1
        obtain ⟨r, r1, b1⟩ := Option.map_eq_some_iff.1 b1
        rw [← b1]
        dsimp only
      · omega
      · rw [a3, a5, stills_succ d.coalescing fs m fs[m] (List.getElem?_eq_getElem (by omega))]
        cases fs[m].lastOfStill d.coalescing <;> simp <;> split <;> omega
      · intro i hi
        by_cases him : i < m
        · rw [List.getElem?_append_left (by rw [a2.fl]; omega)]
          exact a6 i him
        · obtain rfl : i = m := by omega
          rw [List.getElem?_append_right (by rw [a2.fl]; omega), a2.fl, a4, Nat.sub_self]
          simp only [List.getElem?_cons_zero, Option.some.injEq]
          by_cases hs : d2.skipFrames > 0
          · have : ¬ n ≤ stills d.coalescing fs i := by omega
            simp only [this, iff_false]
            split
            · simp
            · simp [hs]
          · have hdr : drops d2 fs[i] = false := by simp [drops, hs]
            simp [hdr, hs]
            omega
  obtain ⟨d2, a1, _, _, a4, _, a6⟩ := gen m hm
  have hc' : d.coalescing = c := hc
  refine ⟨d2, ?_, a4, hc' ▸ a6⟩
  unfold run at a1 h0 ⊢
  rw [List.foldlM_append, h0]
  simp only [step, Option.bind_eq_bind, Option.bind_some, List.foldlM_cons]
  rw [s1]
  exact a1

example : stills true skipFile 3 = 3 ∧ stills false skipFile 3 = 3 ∧ ∀ a ∈ [Action.frame true, .skip 2, .frame false], ∀ c', a ≠ .coalescing c' := by
  refine ⟨by decide, by decide, ?_⟩
  intro a ha c'
  simp only [List.mem_cons, List.not_mem_nil, or_false] at ha
  rcases ha with rfl | rfl | rfl <;> simp

/-- A patch source (slot 1), a layer shown for no time, a picture with patches from slot 1, and a picture stored in slot 1. -/
def layeredFile : List Frame :=
  [⟨false, false, false, 0, 1, 0⟩, ⟨false, false, true, 0, 0, 0⟩, ⟨false, true, true, 0, 0, 2⟩, ⟨false, true, true, 0, 1, 0⟩,
   ⟨true, true, true, 0, 0, 0⟩]

/-- The full claim fails when the user switches coalescing off between two passes, which the decoder allows: the table translating picture
numbers is kept from the first pass although pictures are now counted differently.  Skipping one frame then drops the patch source that
the shown frame 2 reads. -/
theorem C31_coalescing_change_fails :
    ∃ d, run layeredFile {} (List.replicate 5 (.frame true) ++ [.rewind, .coalescing false, .skip 1] ++ List.replicate 5 (.frame true)) = some d ∧
      d.fates[2]? = some .shown ∧ d.fates[0]? = some .dropped ∧ Needs (truth layeredFile) 2 0 := by
  have h : ((run layeredFile {} (List.replicate 5 (.frame true) ++ [.rewind, .coalescing false, .skip 1] ++ List.replicate 5 (.frame true))).map
      (·.fates)) = some [.dropped, .hidden, .shown, .shown, .shown] := by decide +kernel
  obtain ⟨d, h1, h2⟩ := Option.map_eq_some_iff.1 h
  refine ⟨d, h1, by rw [h2]; rfl, by rw [h2]; rfl, .direct ⟨_, 1, rfl, by omega, rfl, by omega, ⟨_, rfl, rfl⟩, ?_⟩⟩
  rintro k h1 h2 ⟨f, hf, hs⟩
  obtain rfl : k = 1 := by omega
  simp only [truth, layeredFile, List.map_cons, List.getElem?_cons_succ, List.getElem?_cons_zero, Option.some.injEq] at hf
  subst hf
  exact absurd hs (by decide)

end Jxl.Props
