import Verif.Lemmas.Toc
/-!
# C09: table of contents
-/
namespace Jxl.Props
open Toc Lehmer

/-- Where the file puts the section with logical index `i`. -/
def filePos (perm : List Nat) (i : Nat) : Nat := if perm ≠ [] then perm.getD i 0 else i

/-- A table of contents lays the sections out exactly: all inside `[0, total)`, and every byte belongs to exactly one. -/
structure Tiles (offsets sizes : List Nat) (total : Nat) : Prop where
  same : offsets.length = sizes.length
  inside : ∀ (i o s : Nat), offsets[i]? = some o → sizes[i]? = some s → o + s ≤ total
  covered : ∀ x, x < total → ∃ i o s : Nat, offsets[i]? = some o ∧ sizes[i]? = some s ∧ o ≤ x ∧ x < o + s
  once : ∀ i j o s o' s' : Nat, offsets[i]? = some o → sizes[i]? = some s → offsets[j]? = some o' → sizes[j]? = some s' →
    i ≠ j → o + s ≤ o' ∨ o' + s' ≤ o

theorem groupOffsets_spec (sizes perm : List Nat) (hs : sizes.sum < 2 ^ 64)
    (hp : perm = [] ∨ perm.Perm (List.range sizes.length)) :
    ∃ offs szs, groupOffsets sizes perm = some (offs, szs, sizes.sum) ∧ offs.length = sizes.length ∧ szs.length = sizes.length ∧
      ∀ i, i < sizes.length → filePos perm i < sizes.length ∧
        offs[i]? = some (sizes.take (filePos perm i)).sum ∧ szs[i]? = sizes[filePos perm i]? := by
  have h0 := prefixSums_spec 0 sizes (by omega)
  simp only [Nat.zero_add] at h0
  by_cases hne : perm ≠ []
  · have hp' : perm.Perm (List.range sizes.length) := hp.resolve_left hne
    obtain ⟨g1, g2, g3⟩ := perm_facts hp'
    obtain ⟨o, o1, o2, o3⟩ := gather_spec ((List.range sizes.length).map fun i => (sizes.take i).sum) perm (by simpa using g2)
    obtain ⟨s, s1, s2, s3⟩ := gather_spec sizes perm (by simpa using g2)
    refine ⟨o, s, by simp [groupOffsets, h0, hne, o1, s1], by omega, by omega, ?_⟩
    intro i hi
    have hi' : i < perm.length := by omega
    have hf : filePos perm i = perm[i] := by simp [filePos, hne, List.getD_eq_getElem?_getD, List.getElem?_eq_getElem hi']
    have hb := g2 perm[i] (List.getElem_mem hi')
    rw [hf, o3 i hi', s3 i hi']
    refine ⟨hb, ?_, rfl⟩
    simp [List.getElem?_map, List.getElem?_range hb]
  · have hf : ∀ i, filePos perm i = i := fun i => by simp only [filePos, if_neg hne]
    refine ⟨_, sizes, by simp only [groupOffsets, h0, Option.bind_eq_bind, Option.bind_some, if_neg hne]; rfl, by simp, rfl, ?_⟩
    intro i hi
    rw [hf]
    refine ⟨hi, ?_, rfl⟩
    simp [List.getElem?_map, List.getElem?_range hi]

/-- **C09, decoder.**  For any sizes read from the table and any permutation, the offsets given to the sections tile the
frame exactly, and section `i` sits where the file order says. -/
theorem C09_layout (sizes perm : List Nat) (h32 : ∀ g ∈ sizes, g < 2 ^ 32) (hn : sizes.length ≤ 65536)
    (hp : perm = [] ∨ perm.Perm (List.range sizes.length)) :
    ∃ offs szs, groupOffsets sizes perm = some (offs, szs, sizes.sum) ∧ szs.length = sizes.length ∧ Tiles offs szs sizes.sum ∧
      ∀ i, i < sizes.length → offs[i]? = some (sizes.take (filePos perm i)).sum ∧ szs[i]? = sizes[filePos perm i]? := by
  have hsum : sizes.sum < 2 ^ 64 := by
    have : sizes.sum ≤ sizes.length * 2 ^ 32 := by
      clear hp hn
      induction sizes with
      | nil => simp
      | cons g gs ih =>
        have h1 := h32 g (by simp)
        have h2 := ih (fun x hx => h32 x (by simp [hx]))
        simp only [List.sum_cons, List.length_cons]; omega
    omega
  obtain ⟨offs, szs, e1, e2, e3, e4⟩ := groupOffsets_spec sizes perm hsum hp
  have hlook : ∀ (i o s : Nat), offs[i]? = some o → szs[i]? = some s → ∃ hi : filePos perm i < sizes.length,
      i < sizes.length ∧ o = (sizes.take (filePos perm i)).sum ∧ s = sizes[filePos perm i] := by
    intro i o s ho hs
    have hi : i < sizes.length := by
      rcases Nat.lt_or_ge i offs.length with h | h
      · omega
      · rw [List.getElem?_eq_none h] at ho; cases ho
    obtain ⟨h1, h2, h3⟩ := e4 i hi
    rw [ho] at h2; rw [hs, List.getElem?_eq_getElem h1] at h3
    exact ⟨h1, hi, by simpa using h2, by simpa using h3⟩
  -- the map from logical index to file position is a bijection
  have hinj : ∀ i j, i < sizes.length → j < sizes.length → filePos perm i = filePos perm j → i = j := by
    intro i j hi hj h
    by_cases hne : perm ≠ []
    · obtain ⟨g1, g2, g3⟩ := perm_facts (hp.resolve_left hne)
      simp only [filePos, if_pos hne, List.getD_eq_getElem?_getD, List.getElem?_eq_getElem (g3 ▸ hi : i < perm.length),
        List.getElem?_eq_getElem (g3 ▸ hj : j < perm.length), Option.getD_some] at h
      exact (List.getElem_inj g1).mp h
    · simpa only [filePos, if_neg hne] using h
  have hsurj : ∀ j, j < sizes.length → ∃ i, i < sizes.length ∧ filePos perm i = j := by
    intro j hj
    by_cases hne : perm ≠ []
    · have hp' := hp.resolve_left hne
      obtain ⟨g1, g2, g3⟩ := perm_facts hp'
      have hm : j ∈ perm := hp'.mem_iff.mpr (List.mem_range.mpr hj)
      obtain ⟨i, hi, e⟩ := List.getElem_of_mem hm
      exact ⟨i, by omega, by simp [filePos, hne, List.getD_eq_getElem?_getD, List.getElem?_eq_getElem hi, e]⟩
    · exact ⟨j, hj, by simp only [filePos, if_neg hne]⟩
  refine ⟨offs, szs, e1, e3, ⟨by omega, ?_, ?_, ?_⟩, fun i hi => (e4 i hi).2⟩
  · intro i o s ho hs
    obtain ⟨h1, _, rfl, rfl⟩ := hlook i o s ho hs
    exact take_sum_le sizes _ h1
  · intro x hx
    obtain ⟨j, hj, c1, c2⟩ := cover sizes x hx
    obtain ⟨i, hi, rfl⟩ := hsurj j hj
    obtain ⟨_, h2, h3⟩ := e4 i hi
    exact ⟨i, _, _, h2, by rw [h3, List.getElem?_eq_getElem hj], c1, c2⟩
  · intro i j o s o' s' ho hs ho' hs' hij
    obtain ⟨h1, hi, rfl, rfl⟩ := hlook i o s ho hs
    obtain ⟨h2, hj, rfl, rfl⟩ := hlook j o' s' ho' hs'
    have hne : filePos perm i ≠ filePos perm j := fun h => hij (hinj i j hi hj h)
    rcases Nat.lt_or_gt_of_ne hne with h | h
    · left
      rw [← take_sum_succ sizes _ h1]
      exact take_sum_mono sizes h
    · right
      rw [← take_sum_succ sizes _ h2]
      exact take_sum_mono sizes h

/-- **C09, refusal.**  Totals are refused exactly when they do not fit in 64 bits. -/
theorem C09_overflow (sizes : List Nat) (h : ∀ g ∈ sizes, g < 2 ^ 32) :
    groupOffsets sizes [] = none ↔ 2 ^ 64 ≤ sizes.sum := by
  have := prefixSums_iff 0 sizes (by omega) (fun g hg => by have := h g hg; omega)
  rcases hp : prefixSums 0 sizes with _ | ⟨o, t⟩
  · simp [hp] at this; simp [groupOffsets, hp]; omega
  · simp [hp] at this; simp [groupOffsets, hp]; omega

/-- **C09, the frame decoder's own table.**  The entry at the file position of section `i` is labelled `i` and has the same
size as in the offsets table. -/
theorem C09_frame_toc (sizes perm : List Nat) (hp : perm = [] ∨ perm.Perm (List.range sizes.length)) :
    (frameToc sizes perm).length = sizes.length ∧
    ∀ i, i < sizes.length → (frameToc sizes perm)[filePos perm i]? = (sizes[filePos perm i]?).map (i, ·) := by
  by_cases hne : perm ≠ []
  · obtain ⟨g1, g2, g3⟩ := perm_facts (hp.resolve_left hne)
    refine ⟨by simp [frameToc, fillIds_length], ?_⟩
    intro i hi
    have hi' : i < perm.length := by omega
    have hf : filePos perm i = perm[i] := by simp [filePos, hne, List.getD_eq_getElem?_getD, List.getElem?_eq_getElem hi']
    have hb := g2 perm[i] (List.getElem_mem hi')
    have := fillIds_get perm 0 (List.replicate sizes.length 0) g1 (by simpa using g2) i hi'
    rw [hf]
    simp only [frameToc, if_pos hne, List.getElem?_zip_eq_some, List.getElem?_eq_getElem hb, Option.map_some]
    exact ⟨by simpa using this, trivial⟩
  · refine ⟨by simp [frameToc, fillIds_length], ?_⟩
    intro i hi
    have := fillIds_get (List.range sizes.length) 0 (List.replicate sizes.length 0) List.nodup_range (by simp) i (by simpa using hi)
    simp only [filePos, if_neg hne, frameToc, List.getElem?_zip_eq_some, List.getElem?_eq_getElem hi, Option.map_some]
    exact ⟨by simpa using this, trivial⟩

/-- **C09, encoder and decoder together.**  For any sections, any permutation (or none) and any position of the table in
the stream: the decoder finds the table, and the slice it takes for logical section `i` is the bytes of section `i`. -/
theorem C09_round_trip (enc : List Nat → List Bool) (dec : Nat → List Bool → Option (List Nat × List Bool))
    (perm : List Nat) (codes : List (List UInt8)) (pre : Nat) (hn1 : 1 ≤ codes.length) (hn2 : codes.length ≤ 65536)
    (hs : ∀ c ∈ codes, c.length < 4211712 + 2 ^ 30) (hp : perm = [] ∨ perm.Perm (List.range codes.length))
    (hd : perm ≠ [] → ∀ rest, dec codes.length (enc perm ++ rest) = some (perm, rest)) :
    ∃ toc payload, writeFrame enc perm codes pre = some (toc, payload) ∧ (pre + toc.length) % 8 = 0 ∧
      ∀ rest, ∃ sizes offs szs, readToc dec codes.length (pre + (toc ++ rest).length) (toc ++ rest) = some (sizes, perm, rest) ∧
        groupOffsets sizes perm = some (offs, szs, payload.length) ∧ Tiles offs szs payload.length ∧
        szs = codes.map List.length ∧
        ∀ i (hi : i < codes.length), ∃ o, offs[i]? = some o ∧ (payload.drop o).take codes[i].length = codes[i] := by
  have hfl : (fileOrder perm codes).length = codes.length := by
    unfold fileOrder; split <;> simp [scatter_length]
  have hfg : ∀ i (hi : i < codes.length), filePos perm i < codes.length ∧ (fileOrder perm codes)[filePos perm i]? = some codes[i] := by
    intro i hi
    by_cases hne : perm ≠ []
    · obtain ⟨g1, g2, g3⟩ := perm_facts (hp.resolve_left hne)
      have hi' : i < perm.length := by omega
      have hf : filePos perm i = perm[i] := by simp [filePos, hne, List.getD_eq_getElem?_getD, List.getElem?_eq_getElem hi']
      rw [hf, fileOrder, if_pos hne, scatter_get perm codes _ (by omega) g1 (by simpa using g2) i hi', List.getElem?_eq_getElem hi]
      exact ⟨g2 _ (List.getElem_mem hi'), rfl⟩
    · simp only [filePos, fileOrder, if_neg hne]
      exact ⟨hi, List.getElem?_eq_getElem hi⟩
  have hmem : ∀ c ∈ fileOrder perm codes, c.length < 4211712 + 2 ^ 30 := by
    intro c hc
    by_cases hne : perm ≠ []
    · obtain ⟨j, hj, rfl⟩ := List.getElem_of_mem hc
      have hp' := hp.resolve_left hne
      have hm : j ∈ perm := hp'.mem_iff.mpr (List.mem_range.mpr (by omega))
      obtain ⟨i, hi, e⟩ := List.getElem_of_mem hm
      have hi' : i < codes.length := by rw [(perm_facts hp').2.2] at hi; exact hi
      have h1 := (hfg i hi').2
      have hf : filePos perm i = j := by simp [filePos, hne, List.getD_eq_getElem?_getD, List.getElem?_eq_getElem hi, e]
      rw [hf, List.getElem?_eq_getElem hj] at h1
      simp only [Option.some.injEq] at h1
      rw [h1]; exact hs _ (List.getElem_mem hi')
    · have h2 : fileOrder perm codes = codes := by simp only [fileOrder, if_neg hne]
      rw [h2] at hc; exact hs c hc
  generalize hF : fileOrder perm codes = f at *
  have hlen : (f.map List.length).length = codes.length := by simp [hfl]
  obtain ⟨b2, w1, w2, w3⟩ := readToc_write enc dec perm (f.map List.length) pre (by omega) (by omega)
    (by simpa using hmem) (by rw [hlen]; exact hd)
  refine ⟨writePermutation enc perm pre ++ b2, f.flatten, by simp only [writeFrame, hF, w1]; rfl, by rw [List.length_append]; omega, ?_⟩
  intro rest
  obtain ⟨offs, szs, l1, l2, l3, l4⟩ := C09_layout (f.map List.length) perm
    (fun g hg => by
      obtain ⟨c, hc, rfl⟩ := List.mem_map.mp hg
      have := hmem c hc; omega) (by omega) (by rw [hlen]; exact hp)
  have hsum : (f.map List.length).sum = f.flatten.length := by rw [List.length_flatten]
  rw [hsum] at l1 l3
  refine ⟨f.map List.length, offs, szs, by rw [← hlen]; exact w3 rest, l1, l3, ?_, ?_⟩
  · apply List.ext_getElem?
    intro i
    by_cases hi : i < codes.length
    · obtain ⟨_, h2⟩ := l4 i (by omega)
      obtain ⟨_, h4⟩ := hfg i hi
      rw [h2]; simp [h4, List.getElem?_eq_getElem hi]
    · rw [List.getElem?_eq_none (by omega), List.getElem?_eq_none (by simp; omega)]
  · intro i hi
    obtain ⟨h1, _⟩ := l4 i (by omega)
    obtain ⟨h3, h4⟩ := hfg i hi
    refine ⟨_, h1, ?_⟩
    have hj : filePos perm i < f.length := by omega
    have := flatten_slice f (filePos perm i) hj
    rw [List.getElem?_eq_getElem hj] at h4
    simp only [Option.some.injEq] at h4
    rwa [h4] at this

-- three sections stored in the order 1, 2, 0 (section 0 is at file position 2)
example : (groupOffsets [5, 0, 7] [2, 0, 1]) = some ([5, 0, 5], [7, 5, 0], 12) ∧ frameToc [5, 0, 7] [2, 0, 1] = [(1, 5), (2, 0), (0, 7)] := by decide
example : [2, 0, 1].Perm (List.range 3) := by decide
example : fileOrder [2, 0, 1] [[1, 2], [3], [4, 5, 6]] = [[3], [4, 5, 6], [1, 2]] := by decide

end Jxl.Props
