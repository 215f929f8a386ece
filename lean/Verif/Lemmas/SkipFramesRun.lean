import Verif.Lemmas.SkipFrames
namespace Jxl.SkipFrames
open Jxl.FrameRefs

/-- Number of pictures completed by the first `n` frames. -/
def stills (c : Bool) (fs : List Frame) (n : Nat) : Nat := (fs.take n).countP (Frame.lastOfStill c)

theorem stills_succ (c : Bool) (fs : List Frame) (n : Nat) (f : Frame) (h : fs[n]? = some f) :
    stills c fs (n + 1) = if f.lastOfStill c then stills c fs n + 1 else stills c fs n := by
  unfold stills
  rw [List.take_add_one, h, List.countP_append]
  cases hb : f.lastOfStill c <;> simp [hb]

theorem stills_mono (c : Bool) (fs : List Frame) {m n : Nat} (h : m ≤ n) : stills c fs m ≤ stills c fs n := by
  unfold stills
  obtain ⟨k, rfl⟩ := Nat.exists_eq_add_of_le h
  rw [List.take_add, List.countP_append]
  omega

theorem reads_lt {fs : List FrameRef} {i j : Nat} (h : Reads fs i j) : j < i := by
  obtain ⟨_, _, _, _, _, hh⟩ := h; exact hh.1

theorem needs_lt {fs : List FrameRef} {i j : Nat} (h : Needs fs i j) : j < i := by
  induction h with
  | direct h => exact reads_lt h
  | step _ h ih => have := reads_lt h; omega

theorem needs_saves {fs : List FrameRef} {i j : Nat} (h : Needs fs i j) : ∃ s, Saves fs s j := by
  cases h with
  | direct h => obtain ⟨_, s, _, _, _, hh⟩ := h; exact ⟨s, hh.2.1⟩
  | step _ h => obtain ⟨_, s, _, _, _, hh⟩ := h; exact ⟨s, hh.2.1⟩

/-- The recorded entry is safe for the real frame. -/
def EntryOk (r : FrameRef) (f : Frame) : Prop := r.savedAs = f.savedAs ∧ ∀ s < 8, f.reference.testBit s = true → r.reference.testBit s = true

theorem entry_unknown (f : Frame) : EntryOk ⟨255, f.savedAs⟩ f := by
  refine ⟨rfl, fun s hs _ => ?_⟩
  have : s = 0 ∨ s = 1 ∨ s = 2 ∨ s = 3 ∨ s = 4 ∨ s = 5 ∨ s = 6 ∨ s = 7 := by omega
  rcases this with rfl | rfl | rfl | rfl | rfl | rfl | rfl | rfl <;> (show Nat.testBit 255 _ = true) <;> decide

/-- All entries are safe. -/
def RefsOk (fs : List Frame) (refs : List FrameRef) : Prop := ∀ (i : Nat) (r : FrameRef), refs[i]? = some r → ∃ f, fs[i]? = some f ∧ EntryOk r f

/-- Frame `k` is the first frame of picture `e`. -/
def FirstOf (c : Bool) (fs : List Frame) (e k : Nat) : Prop := stills c fs k = e ∧ ∀ i, e ≤ stills c fs i → k ≤ i

/-- `required` is good for a jump to picture `T`. -/
def ReqOk (c : Bool) (fs : List Frame) (required : List Bool) (T : Nat) : Prop :=
  required = [] ∨ ∃ t, FirstOf c fs T t ∧ ∀ i, i < t → required[i]? = some false → ∀ k, t ≤ k → ¬ Needs (truth fs) k i

structure Good (fs : List Frame) (d : State) : Prop where
  fl : d.fates.length = d.internal
  il : d.internal ≤ d.refs.length
  refsOk : RefsOk fs d.refs
  ext : d.external = stills d.coalescing fs d.internal
  el : d.external ≤ d.extToInt.length
  efresh : d.extToInt.length = d.external → ∀ i, i < d.internal → stills d.coalescing fs i < d.external
  e2i : ∀ e k, d.extToInt[e]? = some k → FirstOf d.coalescing fs e k
  req : d.skipFrames > 0 → ReqOk d.coalescing fs d.required (d.external + d.skipFrames)
  dropped : ∀ i : Nat, d.fates[i]? = some .dropped → ∃ T, T ≤ d.external + d.skipFrames ∧ ∀ k, T ≤ stills d.coalescing fs k → ¬ Needs (truth fs) k i
  shown : ∀ i : Nat, d.fates[i]? = some .shown → ∀ j, Needs (truth fs) i j → d.fates[j]? ≠ some .dropped

theorem good_init (fs : List Frame) (c : Bool) : Good fs { coalescing := c } := by
  constructor <;> simp [RefsOk, stills]

theorem good_rewind (fs : List Frame) (d : State) (h : Good fs d) : Good fs (rewind d) := by
  constructor <;> simp only [rewind]
  · rfl
  · omega
  · exact h.refsOk
  · simp [stills]
  · omega
  · intro _ i hi; omega
  · exact h.e2i
  · intro h; omega
  · intro i hi; simp at hi
  · intro i hi; simp at hi

theorem newRequired_spec (fs : List Frame) (d : State) (h : Good fs d) (n : Nat) :
    ∃ r, newRequired d n = some r ∧ ReqOk d.coalescing fs r n := by
  unfold newRequired
  cases he : d.extToInt[n]? with
  | none => exact ⟨[], rfl, .inl rfl⟩
  | some t =>
    dsimp only
    by_cases ht : t < d.refs.length
    · rw [if_pos ht]
      obtain ⟨deps, a1, _, a3, a4, a5⟩ := dependencies_spec t d.refs ht
      obtain ⟨r, b1, b2, b3⟩ := mark_spec deps (List.replicate (t + 1) false) (fun j hj => by have := a3 j hj; simp; omega)
      rw [a1, Option.bind_some, b1]
      refine ⟨r, rfl, .inr ⟨t, h.e2i n t he, ?_⟩⟩
      intro i hi hf k hk hn
      have hd : Describes d.refs (truth fs) t := by
        intro q hq
        obtain ⟨f, f1, f2, f3⟩ := h.refsOk q d.refs[q] (List.getElem?_eq_getElem (by omega))
        refine ⟨d.refs[q], ⟨f.reference, f.savedAs⟩, List.getElem?_eq_getElem _, ?_, f2, f3⟩
        simp [truth, f1]
      rcases needs_covered d.refs (truth fs) t hd deps a4 a5 k i hk hn with g | g
      · omega
      · have := (b3 i).2 (.inl g)
        rw [hf] at this; cases this
    · rw [if_neg ht]
      exact ⟨[], rfl, .inl rfl⟩

theorem good_skip (fs : List Frame) (d : State) (h : Good fs d) (n : Nat) :
    ∃ d', skip d n = some d' ∧ Good fs d' ∧ d'.coalescing = d.coalescing := by
  obtain ⟨r, h1, h2⟩ := newRequired_spec fs d h (d.external + (d.skipFrames + n))
  refine ⟨_, by rw [skip, h1, Option.map_some], ?_, ?_⟩
  rotate_left
  · rfl
  constructor <;> dsimp only
  · exact h.fl
  · exact h.il
  · exact h.refsOk
  · exact h.ext
  · exact h.el
  · exact h.efresh
  · exact h.e2i
  · intro _; exact h2
  · intro i hi
    obtain ⟨T, t1, t2⟩ := h.dropped i hi
    exact ⟨T, by omega, t2⟩
  · exact h.shown

theorem newExtToInt_spec (fs : List Frame) (d : State) (h : Good fs d) :
    ∃ e, newExtToInt d = some e ∧ d.external < e.length ∧ ∀ x k, e[x]? = some k → FirstOf d.coalescing fs x k := by
  unfold newExtToInt
  by_cases h1 : d.external ≥ d.extToInt.length
  · have he : d.extToInt.length = d.external := by have := h.el; omega
    rw [if_pos h1, if_pos (by omega)]
    refine ⟨_, rfl, by simp; omega, ?_⟩
    intro x k hk
    by_cases hx : x < d.extToInt.length
    · rw [List.getElem?_append_left hx] at hk; exact h.e2i x k hk
    · rw [List.getElem?_append_right (by omega)] at hk
      have : x = d.extToInt.length := by
        rcases Nat.lt_or_ge (x - d.extToInt.length) 1 with g | g
        · omega
        · rw [List.getElem?_eq_none (by simpa using g)] at hk; cases hk
      rw [this, Nat.sub_self] at hk
      simp only [List.getElem?_cons_zero, Option.some.injEq] at hk
      subst hk
      rw [this, he]
      refine ⟨h.ext.symm, fun i hi => ?_⟩
      rcases Nat.lt_or_ge i d.internal with g | g
      · have := h.efresh he i g; omega
      · exact g
  · rw [if_neg h1]
    exact ⟨_, rfl, by omega, h.e2i⟩

theorem newRefs_spec (fs : List Frame) (d : State) (h : Good fs d) (f : Frame) (hf : fs[d.internal]? = some f) :
    ∃ r, newRefs d f = some r ∧ d.internal < r.length ∧ RefsOk fs r := by
  unfold newRefs
  by_cases h1 : d.internal ≥ d.refs.length
  · have he : d.refs.length = d.internal := by have := h.il; omega
    rw [if_pos h1, if_pos (by omega)]
    refine ⟨_, rfl, by simp; omega, ?_⟩
    intro i r hr
    by_cases hx : i < d.refs.length
    · rw [List.getElem?_append_left hx] at hr; exact h.refsOk i r hr
    · rw [List.getElem?_append_right (by omega)] at hr
      have : i = d.refs.length := by
        rcases Nat.lt_or_ge (i - d.refs.length) 1 with g | g
        · omega
        · rw [List.getElem?_eq_none (by simpa using g)] at hr; cases hr
      rw [this, Nat.sub_self] at hr
      simp only [List.getElem?_cons_zero, Option.some.injEq] at hr
      subst hr
      exact ⟨f, by rw [this, he, hf], entry_unknown f⟩
  · rw [if_neg h1]
    exact ⟨_, rfl, by omega, h.refsOk⟩

theorem fillIn_spec (fs : List Frame) (refs : List FrameRef) (i : Nat) (f : Frame) (h : RefsOk fs refs) (hf : fs[i]? = some f) :
    (fillIn refs i f).length = refs.length ∧ RefsOk fs (fillIn refs i f) := by
  unfold fillIn
  cases hr : refs[i]? with
  | none => exact ⟨rfl, h⟩
  | some r =>
    dsimp only
    refine ⟨by simp, ?_⟩
    intro j q hq
    by_cases e : i = j
    · subst e
      have hlt : i < refs.length := by
        rcases Nat.lt_or_ge i refs.length with g | g
        · exact g
        · rw [List.getElem?_eq_none g] at hr; cases hr
      rw [List.getElem?_set_self hlt] at hq
      cases hq
      obtain ⟨f', f1, f2, _⟩ := h i r hr
      rw [hf] at f1
      cases f1
      exact ⟨f, hf, f2, fun _ _ h => h⟩
    · rw [List.getElem?_set_ne e] at hq
      exact h j q hq

theorem savedAs_zero (f : Frame) (h : (f.canBeReferenced || f.dcLevel != 0) = false) : f.savedAs = 0 := by
  simp only [Bool.or_eq_false_iff, bne_eq_false_iff_eq] at h
  unfold Frame.savedAs
  simp [h.1, h.2]

/-- A frame dropped now is not needed by anything shown later. -/
theorem drop_safe (fs : List Frame) (d : State) (h : Good fs d) (f : Frame) (hf : fs[d.internal]? = some f) (hd : drops d f = true) :
    d.skipFrames > 0 ∧ ∀ k, d.external + d.skipFrames ≤ stills d.coalescing fs k → ¬ Needs (truth fs) k d.internal := by
  unfold drops at hd
  simp only [Bool.and_eq_true, decide_eq_true_eq, Bool.not_eq_true', Bool.and_eq_false_iff] at hd
  obtain ⟨hs, hd⟩ := hd
  refine ⟨hs, ?_⟩
  intro k hk hn
  rcases hd with hd | hd
  · obtain ⟨s, g, hg1, hg2⟩ := needs_saves hn
    simp only [truth, List.getElem?_map, hf, Option.map_some, Option.some.injEq] at hg1
    subst hg1
    rw [savedAs_zero f hd] at hg2
    simp at hg2
  · rcases h.req hs with hr | ⟨t, ht, hr⟩
    · rw [hr] at hd; simp at hd
    · have hreq : d.required[d.internal]? = some false := by
        rw [List.getD_eq_getElem?_getD] at hd
        cases hq : d.required[d.internal]? with
        | none => rw [hq] at hd; simp at hd
        | some b => rw [hq] at hd; simp at hd; rw [hd]
      have hlt : d.internal < t := by
        rcases Nat.lt_or_ge d.internal t with g | g
        · exact g
        · have := stills_mono d.coalescing fs g
          rw [ht.1, ← h.ext] at this; omega
      exact hr d.internal hlt hreq k (ht.2 k hk) hn

theorem good_frame (fs : List Frame) (d : State) (h : Good fs d) (f : Frame) (hf : fs[d.internal]? = some f) (complete : Bool) :
    ∃ d', frame d f complete = some d' ∧ Good fs d' ∧ d'.coalescing = d.coalescing := by
  obtain ⟨e, e1, e2, e3⟩ := newExtToInt_spec fs d h
  obtain ⟨r, r1, r2, r3⟩ := newRefs_spec fs d h f hf
  refine ⟨_, by rw [frame, e1, Option.bind_some, r1, Option.map_some], ?_, ?_⟩
  rotate_left
  · rfl
  have hst := stills_succ d.coalescing fs d.internal f hf
  have hfi := fillIn_spec fs r d.internal f r3 hf
  -- the sum of the frame number and the frames still to skip never goes down, and stays while skipping
  have hsum : d.external + d.skipFrames ≤
      (if f.lastOfStill d.coalescing = true then d.external + 1 else d.external) +
        (if d.skipFrames > 0 ∧ f.lastOfStill d.coalescing = true then d.skipFrames - 1 else d.skipFrames) := by
    cases f.lastOfStill d.coalescing <;> simp <;> split <;> omega
  have hsum2 : d.skipFrames > 0 → d.external + d.skipFrames =
      (if f.lastOfStill d.coalescing = true then d.external + 1 else d.external) +
        (if d.skipFrames > 0 ∧ f.lastOfStill d.coalescing = true then d.skipFrames - 1 else d.skipFrames) := by
    intro hs
    cases f.lastOfStill d.coalescing <;> simp [hs]; omega
  have hfate : ∀ (x : Fate) (i : Nat), (d.fates ++ [x])[i]? = if i = d.internal then some x else d.fates[i]? := by
    intro x i
    by_cases hi : i < d.fates.length
    · rw [List.getElem?_append_left hi, if_neg (by rw [← h.fl]; omega)]
    · rw [List.getElem?_append_right (by omega)]
      by_cases hi2 : i = d.internal
      · rw [if_pos hi2, hi2, ← h.fl, Nat.sub_self]; rfl
      · rw [if_neg hi2, List.getElem?_eq_none (by simp; have := h.fl; omega), List.getElem?_eq_none (by omega)]
  constructor <;> dsimp only
  · simp [h.fl]
  · split
    · omega
    · rw [hfi.1]; omega
  · split
    · exact r3
    · exact hfi.2
  · rw [hst, ← h.ext]
  · split <;> omega
  · intro he i hi
    by_cases hl : f.lastOfStill d.coalescing = true
    · rw [if_pos hl]
      have := stills_mono d.coalescing fs (show i ≤ d.internal by omega)
      rw [← h.ext] at this; omega
    · rw [if_neg hl] at he; omega
  · exact e3
  · intro hs
    have hs0 : d.skipFrames > 0 := by
      split at hs <;> omega
    rw [← hsum2 hs0]
    exact h.req hs0
  · intro i hi
    rw [hfate] at hi
    by_cases hii : i = d.internal
    · rw [if_pos hii] at hi
      have hd : drops d f = true := by
        cases hd : drops d f with
        | true => rfl
        | false => rw [hd] at hi; simp at hi; split at hi <;> cases hi
      rw [hii]
      exact ⟨_, hsum, (drop_safe fs d h f hf hd).2⟩
    · rw [if_neg hii] at hi
      obtain ⟨T, t1, t2⟩ := h.dropped i hi
      exact ⟨T, by omega, t2⟩
  · intro i hi j hn hj
    have hji := needs_lt hn
    rw [hfate] at hi hj
    by_cases hii : i = d.internal
    · rw [if_pos hii] at hi
      rw [if_neg (by omega)] at hj
      have hs0 : d.skipFrames = 0 := by
        cases hd : drops d f with
        | true => rw [hd] at hi; simp at hi
        | false =>
          rw [hd] at hi
          by_cases hs : d.skipFrames > 0
          · simp [hs] at hi
          · omega
      obtain ⟨T, t1, t2⟩ := h.dropped j hj
      rw [hs0, Nat.add_zero, h.ext, ← hii] at t1
      exact t2 i t1 hn
    · rw [if_neg hii] at hi
      have : i < d.internal := by
        rcases Nat.lt_or_ge i d.fates.length with g | g
        · rw [← h.fl]; exact g
        · rw [List.getElem?_eq_none g] at hi; cases hi
      rw [if_neg (by omega)] at hj
      exact h.shown i hi j hn hj

theorem good_run (fs : List Frame) (as : List Action) (hn : ∀ a ∈ as, ∀ c, a ≠ .coalescing c) : ∀ d, Good fs d →
    ∃ d', run fs d as = some d' ∧ Good fs d' ∧ d'.coalescing = d.coalescing := by
  induction as with
  | nil => intro d h; exact ⟨d, rfl, h, rfl⟩
  | cons a as ih =>
    intro d h
    have hstep : ∃ d', step fs d a = some d' ∧ Good fs d' ∧ d'.coalescing = d.coalescing := by
      cases a with
      | skip n => exact good_skip fs d h n
      | rewind => exact ⟨_, rfl, good_rewind fs d h, rfl⟩
      | frame complete =>
        unfold step
        cases hf : fs[d.internal]? with
        | none => exact ⟨d, rfl, h, rfl⟩
        | some f => exact good_frame fs d h f hf complete
      | coalescing c => exact absurd rfl (hn _ List.mem_cons_self c)
    obtain ⟨d1, a1, a2, a3⟩ := hstep
    obtain ⟨d2, b1, b2, b3⟩ := ih (fun b hb => hn b (List.mem_cons_of_mem _ hb)) d1 a2
    refine ⟨d2, ?_, b2, by rw [b3, a3]⟩
    unfold run at b1 ⊢
    rw [List.foldlM_cons, a1]
    exact b1

end Jxl.SkipFrames
