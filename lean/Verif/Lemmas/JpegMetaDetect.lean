import Verif.Lemmas.JpegMeta
/-!
# What the encoder takes for profile, Exif and XMP segments
-/
namespace Jxl.JpegMeta

theorem payloadOf_seg (h : Segment (m :: hi :: lo :: data)) (marker : Nat) :
    payloadOf marker (m :: hi :: lo :: data) = if m ≠ marker then none else some data := by
  obtain ⟨h1, h2, h3⟩ := segment_bytes (seg := []) h
  unfold payloadOf
  simp only [List.head?_cons, ne_eq, Option.some.injEq]
  split
  · rfl
  · rw [payload, or_size h2, if_neg (by simp only [List.length_cons]; omega)]

theorem not_part (h : ¬ ProfilePart (0xE2 :: hi :: lo :: data)) : ¬ (data.take 12 = iccTag) := by
  intro ht
  exact h ⟨hi, lo, data.drop 12, by rw [← ht, List.take_append_drop]⟩

theorem iccStep_other (hs : Segment app) (h : ¬ ProfilePart app) (n total : Nat) :
    iccStep app n total = some (some (0, n, total)) := by
  obtain ⟨m, hi, lo, d, rfl, h1, h2, h3⟩ := hs
  unfold iccStep
  rw [if_neg (by simp only [List.length_cons]; omega)]
  simp only [load, List.getElem?_cons_zero, List.getElem?_cons_succ]
  by_cases hm : m = 0xE2
  · subst hm
    rw [if_neg (by simp), if_neg (by simp only [List.length_cons]; omega)]
    by_cases hl : hi * 256 + lo < 16
    · rw [if_pos hl]
    · rw [if_neg hl, iccChunk, if_neg (by simp only [List.length_cons]; omega), if_pos]
      exact not_part h
  · rw [if_pos hm]

theorem iccStep_part (hs : Segment (0xE2 :: hi :: lo :: (iccTag ++ ((n + 1) :: total :: c))))
    (ht : tot = total ∨ (tot = 0 ∧ n = 0)) :
    iccStep (0xE2 :: hi :: lo :: (iccTag ++ ((n + 1) :: total :: c))) n tot = some (some (1, n + 1, total)) := by
  obtain ⟨h1, h2, h3⟩ := segment_bytes (seg := []) hs
  have hlen : (0xE2 :: hi :: lo :: (iccTag ++ ((n + 1) :: total :: c))).length = 17 + c.length := by
    simp only [List.length_cons, List.length_append, iccTag, List.length_nil]; omega
  have hlen' : (iccTag ++ ((n + 1) :: total :: c)).length = 14 + c.length := by
    simp only [List.length_cons, List.length_append, iccTag, List.length_nil]; omega
  rw [hlen'] at h3
  unfold iccStep
  rw [hlen, if_neg (by omega)]
  simp only [load, List.getElem?_cons_zero, List.getElem?_cons_succ]
  rw [if_neg (by simp), if_neg (by omega), if_neg (by omega), iccChunk, hlen, if_neg (by omega)]
  rw [if_neg (by simp [iccTag])]
  simp only [load, iccTag, List.cons_append, List.nil_append, List.getElem?_cons_zero, List.getElem?_cons_succ]
  rw [if_neg (by simp)]
  have e : (if tot = 0 then total else tot) = total := by
    rcases ht with rfl | ⟨rfl, _⟩
    · split
      · rfl
      · rfl
    · rfl
  rw [e, if_neg (by simp)]

theorem Numbered.le {total : Nat} (h : Numbered total apps n parts) : n + parts.length = total := by
  induction h with
  | done => rfl
  | part _ ih => rw [List.length_cons]; omega
  | other _ _ ih => exact ih

theorem blob_done (tag : List Nat) (apps : List (List Nat)) (h : b ≠ []) : blob tag apps b = b := by
  induction apps with
  | nil => rfl
  | cons a rest ih =>
    rw [blob]
    split
    · exact ih
    · rw [if_neg (fun hh => h hh.2.2), ih]

theorem blob_other (tag : List Nat) (hs : Segment (m :: hi :: lo :: data)) (hm : m ≠ 0xE1) :
    blob tag ((m :: hi :: lo :: data) :: apps) b = blob tag apps b := by
  rw [blob, payloadOf_seg hs, if_pos hm]

theorem blob_untagged (tag : List Nat) (hs : Segment (0xE1 :: hi :: lo :: data)) (ht : data.take tag.length ≠ tag) :
    blob tag ((0xE1 :: hi :: lo :: data) :: apps) b = blob tag apps b := by
  rw [blob, payloadOf_seg hs, if_neg (by simp)]
  dsimp only
  rw [if_neg (fun h => ht h.2.1)]

theorem blob_tagged (tag : List Nat) (hs : Segment (0xE1 :: hi :: lo :: (tag ++ e))) :
    blob tag ((0xE1 :: hi :: lo :: (tag ++ e)) :: apps) [] = blob tag apps e := by
  rw [blob, payloadOf_seg hs, if_neg (by simp)]
  dsimp only
  rw [if_pos ⟨by simp only [List.length_append]; omega, List.take_left' rfl, rfl⟩, List.drop_left' rfl]

/-- What is known of the Exif or XMP data found: at most one segment, and its content is the box's. -/
def Found (tag : List Nat) (apps : List (List Nat)) (flag : Bool) (es : List (List Nat)) : Prop :=
  (flag = true → es = []) ∧ (es = [] ∨ ∃ e, es = [e] ∧ (e = [] ∨ blob tag apps [] = e))

theorem Found.step (h : Found tag apps flag es) (hb : flag = false → blob tag (app :: apps) [] = blob tag apps []) :
    Found tag (app :: apps) flag es := by
  refine ⟨h.1, ?_⟩
  rcases h.2 with h2 | ⟨e, he, h2⟩
  · exact Or.inl h2
  · cases hf : flag with
    | true => rw [h.1 hf] at he; cases he
    | false => rw [hb hf]; exact Or.inr ⟨e, he, h2⟩

theorem Found.here (h : Found tag apps true es) (hs : Segment (0xE1 :: hi :: lo :: (tag ++ e))) :
    Found tag ((0xE1 :: hi :: lo :: (tag ++ e)) :: apps) false (e :: es) := by
  refine ⟨fun h => (by cases h), Or.inr ⟨e, by rw [h.1 rfl], ?_⟩⟩
  by_cases he : e = []
  · exact Or.inl he
  · rw [blob_tagged tag hs, blob_done tag _ he]; exact Or.inr rfl

/-- The types chosen by the encoder. -/
theorem detected (h : Numbered total apps n cs) (hs : ∀ a ∈ apps, Segment a) (tot : Nat)
    (ht : tot = total ∨ (tot = 0 ∧ n = 0)) :
    ∃ ts, detectIcc apps n tot = some (some ts) ∧ ∀ fe fx, ∃ es xs,
      Typed total n apps (detectBlobs apps ts fe fx) cs es xs ∧ Found exifTag apps fe es ∧ Found xmpTag apps fx xs ∧
        (∀ e ∈ es, e ≠ []) := by
  induction h generalizing tot with
  | done =>
    refine ⟨[], ?_, fun fe fx => ⟨[], [], .nil, ⟨fun _ => rfl, .inl rfl⟩, ⟨fun _ => rfl, .inl rfl⟩, fun e h => (by cases h)⟩⟩
    rw [detectIcc, if_neg]
    rcases ht with rfl | ⟨rfl, rfl⟩ <;> simp
  | @part apps i parts hi lo part hrest ih =>
    have hseg := hs _ List.mem_cons_self
    obtain ⟨ts, h1, h2⟩ := ih (fun a ha => hs a (List.mem_cons_of_mem _ ha)) total (Or.inl rfl)
    refine ⟨1 :: ts, ?_, fun fe fx => ?_⟩
    · rw [detectIcc, iccStep_part hseg ht]
      dsimp only
      rw [h1]
    · obtain ⟨es, xs, g1, g2, g3, g4⟩ := h2 fe fx
      refine ⟨es, xs, ?_, g2.step fun _ => blob_other _ hseg (by decide), g3.step fun _ => blob_other _ hseg (by decide), g4⟩
      rw [detectBlobs, payloadOf_seg hseg, if_pos (by decide)]
      exact .icc hseg g1
  | @other app apps i parts hp hrest ih =>
    have hseg := hs _ List.mem_cons_self
    obtain ⟨ts, h1, h2⟩ := ih (fun a ha => hs a (List.mem_cons_of_mem _ ha)) tot ht
    refine ⟨0 :: ts, ?_, fun fe fx => ?_⟩
    · rw [detectIcc, iccStep_other hseg hp]
      dsimp only
      rw [h1]
    · obtain ⟨m, hi, lo, d, rfl, b1, b2, b3⟩ := id hseg
      by_cases hm : m = 0xE1
      · subst hm
        rw [detectBlobs, payloadOf_seg hseg, if_neg (by simp)]
        dsimp only
        by_cases hx : d.take 29 = xmpTag
        · -- an XMP segment
          obtain ⟨x, rfl⟩ : ∃ x, d = xmpTag ++ x := ⟨d.drop 29, by rw [← hx, List.take_append_drop]⟩
          have hne : (xmpTag ++ x).take exifTag.length ≠ exifTag := by simp [xmpTag, exifTag]
          have hne' : ((xmpTag ++ x).take 6 == exifTag) = false := by simp [xmpTag, exifTag]
          have hxx : ((xmpTag ++ x).take 29 == xmpTag) = true := by rw [hx]; exact beq_self_eq_true _
          have hlen : decide (29 ≤ (xmpTag ++ x).length) = true := by
            simp only [List.length_append, xmpTag, List.length_cons, List.length_nil, decide_eq_true_eq]; omega
          rw [hne', hxx, hlen, Bool.and_false, Bool.or_false, Bool.and_true, Bool.and_true]
          obtain ⟨es, xs, g1, g2, g3, g4⟩ := h2 fe (fx || !fx)
          cases fx with
          | true =>
            refine ⟨es, xs, ?_, g2.step fun _ => blob_untagged _ hseg hne, g3.step (by simp), g4⟩
            exact .plain hseg g1
          | false =>
            refine ⟨es, x :: xs, ?_, g2.step fun _ => blob_untagged _ hseg hne, g3.here hseg, g4⟩
            exact .xmp hseg g1
        · have hxx : (d.take 29 == xmpTag) = false := by simpa using hx
          rw [hxx, Bool.and_false, Bool.or_false]
          by_cases he : d.take 6 = exifTag
          · obtain ⟨e, rfl⟩ : ∃ e, d = exifTag ++ e := ⟨d.drop 6, by rw [← he, List.take_append_drop]⟩
            have hee : ((exifTag ++ e).take 6 == exifTag) = true := by rw [he]; exact beq_self_eq_true _
            rw [hee, Bool.and_true]
            by_cases h0 : e = []
            · -- no data behind the tag
              subst h0
              have hlen : decide (6 < (exifTag ++ []).length) = false := by simp [exifTag]
              rw [hlen, Bool.and_false, Bool.or_false]
              obtain ⟨es, xs, g1, g2, g3, g4⟩ := h2 fe fx
              exact ⟨es, xs, .plain hseg g1, g2.step fun _ => blob_tagged _ hseg, g3.step fun _ => blob_untagged _ hseg hx, g4⟩
            · have hlen : decide (6 < (exifTag ++ e).length) = true := by
                have := List.length_pos_iff.mpr h0
                simp only [List.length_append, exifTag, List.length_cons, List.length_nil, decide_eq_true_eq]; omega
              rw [hlen, Bool.and_true]
              obtain ⟨es, xs, g1, g2, g3, g4⟩ := h2 (fe || !fe) fx
              cases fe with
              | true =>
                exact ⟨es, xs, .plain hseg g1, g2.step (by simp), g3.step fun _ => blob_untagged _ hseg hx, g4⟩
              | false =>
                refine ⟨e :: es, xs, .exif hseg g1, g2.here hseg, g3.step fun _ => blob_untagged _ hseg hx, ?_⟩
                intro e' he'
                rcases List.mem_cons.mp he' with rfl | he'
                · exact h0
                · exact g4 _ he'
          · have hee : (d.take 6 == exifTag) = false := by simpa using he
            rw [hee, Bool.and_false, Bool.or_false]
            obtain ⟨es, xs, g1, g2, g3, g4⟩ := h2 fe fx
            exact ⟨es, xs, .plain hseg g1, g2.step fun _ => blob_untagged _ hseg he, g3.step fun _ => blob_untagged _ hseg hx, g4⟩
      · rw [detectBlobs, payloadOf_seg hseg, if_pos hm]
        obtain ⟨es, xs, g1, g2, g3, g4⟩ := h2 fe fx
        exact ⟨es, xs, .plain hseg g1, g2.step fun _ => blob_other _ hseg hm, g3.step fun _ => blob_other _ hseg hm, g4⟩

/-! ## The profile the encoder extracts -/

theorem chunks_skip (hs : Segment app) (h : ¬ ProfilePart app) : chunks (app :: apps) n exp = chunks apps n exp := by
  obtain ⟨m, hi, lo, d, rfl, h1, h2, h3⟩ := id hs
  rw [chunks, payloadOf_seg hs]
  by_cases hm : m = 0xE2
  · subst hm
    rw [if_neg (by simp)]
    dsimp only
    rw [if_pos (Or.inr (not_part h))]
  · rw [if_pos hm]

theorem chunks_part (hs : Segment (0xE2 :: hi :: lo :: (iccTag ++ rest))) :
    chunks ((0xE2 :: hi :: lo :: (iccTag ++ rest)) :: apps) n exp =
      match (generalizing := false) rest with
      | index :: total :: chunk =>
        if index ≠ n + 1 ∨ total = 0 ∨ exp.getD total ≠ total ∨ total < index then none
        else (chunks apps (n + 1) (some total)).map fun r => (chunk :: r.1, r.2)
      | _ => none := by
  rw [chunks, payloadOf_seg hs, if_neg (by simp)]
  dsimp only
  rw [if_neg]
  · rfl
  · rintro (h | h)
    · simp only [List.length_append, iccTag, List.length_cons, List.length_nil] at h; omega
    · exact h (List.take_left' rfl)

theorem Numbered.parsed (h : Numbered total apps n cs) (hs : ∀ a ∈ apps, Segment a) (exp : Option Nat)
    (he : exp = some total ∨ (exp = none ∧ n = 0)) :
    ∃ exp', chunks apps n exp = some (cs, exp') ∧ exp'.getD 0 = total := by
  induction h generalizing exp with
  | done =>
    refine ⟨exp, rfl, ?_⟩
    rcases he with rfl | ⟨rfl, h⟩
    · rfl
    · exact h.symm
  | @part apps i parts hi lo part hrest ih =>
    have hseg := hs _ List.mem_cons_self
    obtain ⟨exp', h1, h2⟩ := ih (fun a ha => hs a (List.mem_cons_of_mem _ ha)) (some total) (Or.inl rfl)
    have := hrest.le
    refine ⟨exp', ?_, h2⟩
    rw [chunks_part hseg]
    dsimp only
    rw [if_neg, h1]
    · rfl
    · rintro (h | h | h | h)
      · exact h rfl
      · omega
      · rcases he with rfl | ⟨rfl, _⟩
        · exact h rfl
        · exact h rfl
      · omega
  | @other app apps i parts hp hrest ih =>
    rw [chunks_skip (hs _ List.mem_cons_self) hp]
    exact ih (fun a ha => hs a (List.mem_cons_of_mem _ ha)) exp he

theorem chunks_expected (h : chunks apps n (some t) = some (cs, exp')) : exp' = some t := by
  induction apps generalizing n cs with
  | nil =>
    rw [chunks] at h
    cases h; rfl
  | cons a rest ih =>
    rw [chunks] at h
    split at h
    · exact ih h
    · split at h
      · exact ih h
      · split at h
        · split at h
          · cases h
          · rename_i hc
            cases hr : chunks rest (n + 1) (some _) with
            | none => rw [hr] at h; cases h
            | some r =>
              rw [hr] at h
              cases h
              have ht : t = _ := Decidable.of_not_not fun h => hc (.inr (.inr (.inl h)))
              subst ht
              exact ih hr
        · cases h

theorem numbered_of_chunks (hs : ∀ a ∈ apps, Segment a) (h : chunks apps n exp = some (cs, exp'))
    (hn : n + cs.length = exp'.getD 0) : Numbered (exp'.getD 0) apps n cs := by
  induction apps generalizing n exp cs with
  | nil =>
    rw [chunks] at h
    cases h
    rw [← hn]
    exact .done
  | cons a rest ih =>
    have hseg := hs _ List.mem_cons_self
    have ih := fun {n exp cs} => ih (n := n) (exp := exp) (cs := cs) (fun a ha => hs a (List.mem_cons_of_mem _ ha))
    by_cases hp : ProfilePart a
    · obtain ⟨hi, lo, r, rfl⟩ := hp
      rw [chunks_part hseg] at h
      split at h
      · rename_i index total chunk
        split at h
        · cases h
        · rename_i hc
          have hi1 : index = n + 1 := Decidable.of_not_not fun h => hc (.inl h)
          subst hi1
          cases hr : chunks rest (n + 1) (some total) with
          | none => rw [hr] at h; cases h
          | some r =>
            obtain ⟨cs', e'⟩ := r
            rw [hr] at h
            cases h
            have ht := chunks_expected hr
            subst ht
            exact .part (ih hr (by rw [← hn, List.length_cons]; omega))
      · cases h
    · rw [chunks_skip hseg hp] at h
      exact .other hp (ih h hn)

theorem Numbered.small (h : Numbered total apps n cs) (hb : ∀ a ∈ apps, ∀ b ∈ a, b < 256) (hn : n < 256) : total < 256 := by
  induction h with
  | done => exact hn
  | @part apps i parts hi lo part hrest ih =>
    exact hb _ List.mem_cons_self total (by simp)
  | other _ _ ih => exact ih (fun a ha => hb a (List.mem_cons_of_mem _ ha)) hn

theorem parseIcc_intact (hs : ∀ a ∈ apps, Segment a) (h : ProfileIntact apps profile) : parseIcc apps = some profile := by
  obtain ⟨total, parts, ht, hn, rfl⟩ := h
  obtain ⟨exp', h1, h2⟩ := hn.parsed hs none (Or.inr ⟨rfl, rfl⟩)
  unfold parseIcc
  rw [h1]
  dsimp only
  have := hn.le
  rw [if_neg (by omega)]

theorem parseIcc_iff (hs : ∀ a ∈ apps, Segment a) (hb : ∀ a ∈ apps, ∀ b ∈ a, b < 256) (profile : List Nat) :
    parseIcc apps = some profile ↔ ProfileIntact apps profile := by
  constructor
  · intro h
    unfold parseIcc at h
    split at h
    · cases h
    · rename_i cs exp' hc
      split at h
      · cases h
      · rename_i hl
        cases h
        have := numbered_of_chunks hs hc (by omega)
        exact ⟨exp'.getD 0, cs, this.small hb (by decide), this, rfl⟩
  · exact parseIcc_intact hs

/-- Metadata with an intact profile are rebuilt. -/
theorem rebuilt (m : Meta) (hw : m.WellFormed) (hp : ProfileIntact m.app profile) (hicc : icc = profile ∨ profile = []) :
    ∃ s, encodeMeta m = some (some s) ∧ rebuild s icc (exifBox m.app) (xmpBox m.app) = some (some m) := by
  obtain ⟨total, parts, ht, hn, rfl⟩ := hp
  obtain ⟨ts, h1, h2⟩ := detected hn hw.app 0 (Or.inr ⟨rfl, rfl⟩)
  obtain ⟨es, xs, g1, g2, g3, g4⟩ := h2 false false
  refine ⟨_, by unfold encodeMeta; rw [h1], ?_⟩
  refine rebuild_typed m g1 ht hw.com hicc ?_ ?_
  · rcases g2.2 with h | ⟨e, he, h⟩
    · exact Or.inl h
    · have h0 := g4 e (by rw [he]; exact List.mem_cons_self)
      rcases h with h | h
      · exact absurd h h0
      · refine Or.inr ⟨e, he, ?_⟩
        unfold exifBox
        dsimp only
        rw [h, if_neg h0]
  · rcases g3.2 with h | ⟨x, hx, h⟩
    · exact Or.inl h
    · by_cases h0 : x = []
      · subst h0; exact Or.inr (Or.inl hx)
      · rcases h with h | h
        · exact absurd h h0
        · refine Or.inr (Or.inr ⟨x, hx, ?_⟩)
          unfold xmpBox
          dsimp only
          rw [h, if_neg h0]

end Jxl.JpegMeta
