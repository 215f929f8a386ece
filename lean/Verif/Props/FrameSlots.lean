import Verif.Model.FrameSlots
/-!
# C31: the reference masks describe the storage that frames really use
-/
namespace Jxl.Props
open Jxl.FrameRefs Jxl.SkipFrames

/-- Headers the decoder accepts: two-bit references, DC levels 1 to 4 exactly for DC frames, no DC frame below level 4, patches from the four
reference slots (frame_header.cc:90, 313-316, 392; passes_state.cc:64; dec_patch_dictionary.cc:66). -/
structure HeaderOk (h : Header) : Prop where
  dc : h.frameType = 1 → 1 ≤ h.dcLevel ∧ h.dcLevel ≤ 4
  noDc : h.frameType ≠ 1 → h.dcLevel = 0
  save : h.saveAs < 4
  source : ∀ b ∈ h.blending, b.2 < 4
  patches : ∀ l, h.patches = some l → ∀ s ∈ l, s < 4
  useDc : h.useDcFrame = true → h.dcLevel < 4

/-- Places frames are stored in: `reference_frames[k]` and `dc_frames[k]`. -/
inductive Place
  | ref (k : Nat)
  | dc (k : Nat)
  deriving DecidableEq, Repr

/-- The frame's pixels end up in this place: `reference_frames[save_as_reference]` unless it is a DC frame, the last frame, or a shown frame
that asks for slot 0 (dec_frame.cc:874-879); `dc_frames[dc_level - 1]` for DC frames (dec_cache.cc:221-224). -/
def StoredIn (h : Header) : Place → Prop
  | .ref k => h.frameType ≠ 1 ∧ h.isLast = false ∧ (h.hasDuration = false ∨ h.saveAs ≠ 0) ∧ k = h.saveAs
  | .dc k => h.frameType = 1 ∧ k + 1 = h.dcLevel

/-- Decoding the frame reads this place: the background of a channel it is blended onto (stage_blending.cc:53-84), the source of a patch
(dec_patch_dictionary.cc:335), the next DC level (passes_state.cc:69). -/
def ReadsFrom (h : Header) : Place → Prop
  | .ref k => ((h.frameType = 0 ∨ h.frameType = 3) ∧ ∃ b ∈ h.blending, (h.cropped = true ∨ b.1 = true) ∧ b.2 = k) ∨
      ∃ l, h.patches = some l ∧ k ∈ l
  | .dc k => h.useDcFrame = true ∧ k = h.dcLevel

/-- Slot number of a place. -/
def Place.slot : Place → Nat
  | .ref k => k
  | .dc k => 4 + k

theorem one_shl_bit (k s : Nat) : (1 <<< k).testBit s = decide (k = s) := by
  rw [Nat.shiftLeft_eq, Nat.one_mul, Nat.testBit_two_pow]

theorem sixteen_shl_bit (k s : Nat) : (16 <<< k).testBit s = decide (4 + k = s) := by
  rw [show (16 : Nat) = 1 <<< 4 from rfl, ← Nat.shiftLeft_add, one_shl_bit]

theorem blend_bits (c : Bool) (s : Nat) : ∀ (l : List (Bool × Nat)) (r : Nat),
    ((l.foldl (blendBit c) r).testBit s = true ↔ r.testBit s = true ∨ ∃ b ∈ l, (c = true ∨ b.1 = true) ∧ b.2 = s)
  | [], r => by simp
  | b :: l, r => by
    rw [List.foldl_cons, blend_bits c s l]
    unfold blendBit
    by_cases hc : (c || b.1) = true
    · rw [if_pos hc, Nat.testBit_or, one_shl_bit]
      rw [Bool.or_eq_true] at hc
      simp only [Bool.or_eq_true, decide_eq_true_eq, List.mem_cons]
      constructor
      · rintro ((h | h) | ⟨b', h1, h2⟩)
        · exact Or.inl h
        · exact Or.inr ⟨b, Or.inl rfl, hc, h⟩
        · exact Or.inr ⟨b', Or.inr h1, h2⟩
      · rintro (h | ⟨b', rfl | h1, h2, h3⟩)
        · exact Or.inl (Or.inl h)
        · exact Or.inl (Or.inr h3)
        · exact Or.inr ⟨b', h1, h2, h3⟩
    · rw [if_neg hc]
      rw [Bool.or_eq_true] at hc
      simp only [List.mem_cons]
      constructor
      · rintro (h | ⟨b', h1, h2⟩)
        · exact Or.inl h
        · exact Or.inr ⟨b', Or.inr h1, h2⟩
      · rintro (h | ⟨b', rfl | h1, h2, h3⟩)
        · exact Or.inl h
        · exact (hc h2).elim
        · exact Or.inr ⟨b', h1, h2, h3⟩

theorem patch_bits (s : Nat) : ∀ (l : List Nat) (r : Nat), ((patchRefs l r).testBit s = true ↔ r.testBit s = true ∨ s ∈ l)
  | [], r => by simp [patchRefs]
  | b :: l, r => by
    have : patchRefs (b :: l) r = patchRefs l (r ||| (1 <<< b)) := rfl
    rw [this, patch_bits s l, Nat.testBit_or, one_shl_bit]
    simp only [Bool.or_eq_true, decide_eq_true_eq, List.mem_cons]
    constructor
    · rintro ((h | h) | h)
      · exact Or.inl h
      · exact Or.inr (Or.inl h.symm)
      · exact Or.inr (Or.inr h)
    · rintro (h | h | h)
      · exact Or.inl (Or.inl h)
      · exact Or.inl (Or.inr h.symm)
      · exact Or.inr h

/-- **C31, masks.**  For every header the decoder accepts, the mask of saved slots has exactly the slots of the places the frame is stored in,
and the mask of references exactly the slots of the places it reads; different places have different slots, all below 8. -/
theorem C31_masks (h : Header) (ok : HeaderOk h) :
    (∀ s, h.frame.savedAs.testBit s = true ↔ ∃ p : Place, p.slot = s ∧ StoredIn h p) ∧
    (∀ s, h.frame.reference.testBit s = true ↔ ∃ p : Place, p.slot = s ∧ ReadsFrom h p) ∧
    (∀ p, StoredIn h p ∨ ReadsFrom h p → p.slot < 8 ∧ ∀ q, StoredIn h q ∨ ReadsFrom h q → q.slot = p.slot → q = p) := by
  refine ⟨?_, ?_, ?_⟩
  · intro s
    unfold Frame.savedAs Frame.canBeReferenced Header.frame
    by_cases ht : h.frameType = 1
    · obtain ⟨d1, d2⟩ := ok.dc ht
      simp only [ht, if_true]
      rw [if_pos (by omega), sixteen_shl_bit, decide_eq_true_eq]
      constructor
      · rintro rfl
        exact ⟨.dc (h.dcLevel - 1), rfl, ht, by omega⟩
      · rintro ⟨p, rfl, hp⟩
        cases p with
        | ref k => exact (hp.1 ht).elim
        | dc k => show 4 + _ = 4 + k; have := hp.2; omega
    · simp only [if_neg ht]
      rw [if_neg (by decide)]
      by_cases hc : (!h.isLast && (0 : Nat) == 0 && (!h.hasDuration || h.saveAs != 0)) = true
      · rw [if_pos hc, one_shl_bit, decide_eq_true_eq]
        simp only [Bool.and_eq_true, Bool.or_eq_true, Bool.not_eq_true', bne_iff_ne, ne_eq] at hc
        constructor
        · rintro rfl
          exact ⟨.ref h.saveAs, rfl, ht, hc.1.1, hc.2, rfl⟩
        · rintro ⟨p, rfl, hp⟩
          cases p with
          | ref k => exact hp.2.2.2.symm
          | dc k => exact (ht hp.1).elim
      · rw [if_neg hc, Nat.zero_testBit]
        constructor
        · intro h; cases h
        · rintro ⟨p, rfl, hp⟩
          cases p with
          | ref k =>
            obtain ⟨_, h1, h2, _⟩ := hp
            exfalso
            apply hc
            simp only [Bool.and_eq_true, Bool.or_eq_true, Bool.not_eq_true', bne_iff_ne, ne_eq]
            exact ⟨⟨h1, rfl⟩, h2⟩
          | dc k => exact (ht hp.1).elim
  · intro s
    show h.references.testBit s = true ↔ _
    unfold Header.references
    -- the part without the DC level
    have base : h.pixelRefs.testBit s = true ↔ ReadsFrom h (.ref s) := by
      have hb : (h.blendRefs.testBit s = true ↔
          ((h.frameType = 0 ∨ h.frameType = 3) ∧ ∃ b ∈ h.blending, (h.cropped = true ∨ b.1 = true) ∧ b.2 = s)) := by
        unfold Header.blendRefs
        by_cases hf : h.frameType = 0 ∨ h.frameType = 3
        · rw [if_pos hf, blend_bits]
          simp [hf]
        · rw [if_neg hf]
          simp [hf]
      unfold ReadsFrom Header.pixelRefs
      cases hp : h.patches with
      | none => simp only [hb, reduceCtorEq, false_and, exists_false, or_false]
      | some refs =>
        simp only [Nat.testBit_or, Bool.or_eq_true, hb, patch_bits, Nat.zero_testBit, Bool.false_eq_true, false_or, Option.some.injEq,
          exists_eq_left']
    have hs : ∀ p : Place, p.slot = s → ReadsFrom h p → p = .ref s ∨ (p = .dc h.dcLevel ∧ h.useDcFrame = true ∧ s = 4 + h.dcLevel) := by
      intro p e hr
      cases p with
      | ref k => left; rw [← e]; rfl
      | dc k =>
        right
        obtain ⟨h1, h2⟩ := hr
        subst h2
        exact ⟨rfl, h1, e.symm⟩
    by_cases hu : h.useDcFrame = true
    · rw [if_pos hu, Nat.testBit_or, Bool.or_eq_true, base, sixteen_shl_bit, decide_eq_true_eq]
      constructor
      · rintro (h1 | h1)
        · exact ⟨.ref s, rfl, h1⟩
        · exact ⟨.dc h.dcLevel, by show 4 + h.dcLevel = s; omega, hu, rfl⟩
      · rintro ⟨p, e, hr⟩
        rcases hs p e hr with rfl | ⟨rfl, _, h2⟩
        · exact Or.inl hr
        · right; omega
    · rw [if_neg hu, base]
      constructor
      · intro h1
        exact ⟨.ref s, rfl, h1⟩
      · rintro ⟨p, e, hr⟩
        rcases hs p e hr with rfl | ⟨rfl, h1, _⟩
        · exact hr
        · exact (hu h1).elim
  · have hk : ∀ p, StoredIn h p ∨ ReadsFrom h p → (∃ k, p = .ref k ∧ k < 4) ∨ (∃ k, p = .dc k ∧ k < 4) := by
      rintro (k | k) hp
      · left
        refine ⟨k, rfl, ?_⟩
        rcases hp with ⟨_, _, _, rfl⟩ | ⟨_, b, hb, _, rfl⟩ | ⟨l, hl, hm⟩
        · exact ok.save
        · exact ok.source b hb
        · exact ok.patches l hl k hm
      · right
        refine ⟨k, rfl, ?_⟩
        rcases hp with ⟨h1, h2⟩ | ⟨h1, rfl⟩
        · have := ok.dc h1; omega
        · exact ok.useDc h1
    intro p hp
    rcases hk p hp with ⟨k, rfl, h4⟩ | ⟨k, rfl, h4⟩
    · refine ⟨by show k < 8; omega, fun q hq e => ?_⟩
      rcases hk q hq with ⟨k', rfl, h4'⟩ | ⟨k', rfl, h4'⟩
      · have e : k' = k := e
        rw [e]
      · have e : 4 + k' = k := e
        omega
    · refine ⟨by show 4 + k < 8; omega, fun q hq e => ?_⟩
      rcases hk q hq with ⟨k', rfl, h4'⟩ | ⟨k', rfl, h4'⟩
      · have e : k' = 4 + k := e
        omega
      · have e : 4 + k' = 4 + k := e
        have : k' = k := by omega
        rw [this]

/-- A DC frame of level 2 and a cropped frame with patches, blended onto slot 1, that reads it. -/
def slotsDc : Header := ⟨false, false, 1, 2, 0, false, [(false, 0)], none, false⟩
def slotsUse : Header := ⟨false, true, 0, 0, 3, true, [(false, 1), (true, 1)], some [2, 0], true⟩

example : HeaderOk slotsDc ∧ HeaderOk slotsUse ∧ slotsDc.frame.savedAs = 32 ∧ slotsUse.frame.savedAs = 8 ∧ slotsUse.frame.reference = 1 + 2 + 4 + 16 := by
  refine ⟨⟨by decide, by decide, by decide, by decide, (by intro l h; cases h), by decide⟩,
    ⟨by decide, by decide, by decide, by decide, (by intro l h; cases h; decide), by decide⟩, by decide, by decide, by decide⟩

end Jxl.Props
