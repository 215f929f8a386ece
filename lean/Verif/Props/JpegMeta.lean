import Verif.Lemmas.JpegMetaSafe
/-!
# C57: the metadata of a JPEG file are rebuilt
-/
namespace Jxl.Props
open Jxl.JpegMeta

/-- Application segments, comments, bytes between markers and bytes after the end of a file whose colour profile is
intact (or that has none) are rebuilt from what is stored, from the profile of the image and from the Exif and XMP
boxes.  Missing: files whose profile segments are not numbered as they should be; the encoder accepts some of them, and
they are not rebuilt (`C57_wrong_count_not_rebuilt`, `C57_stray_part_not_rebuilt`). -/
theorem C57_metadata_rebuilt_partial (m : Meta) (hw : m.WellFormed) (profile : List Nat)
    (hp : ProfileIntact m.app profile) (builtin : List Nat) :
    ∃ s, encodeMeta m = some (some s) ∧
      rebuild s (storedIcc builtin m.app) (exifBox m.app) (xmpBox m.app) = some (some m) := by
  refine rebuilt m hw hp ?_
  unfold storedIcc
  rw [parseIcc_intact hw.app hp]
  dsimp only
  split
  · exact Or.inr (by assumption)
  · exact Or.inl rfl

/-- The profile of the image is taken from the file exactly if it is intact there, and is then the concatenation of
its parts. -/
theorem C57_profile_iff_intact (m : Meta) (hw : m.WellFormed) (hb : ∀ a ∈ m.app, ∀ b ∈ a, b < 256) (profile : List Nat) :
    parseIcc m.app = some profile ↔ ProfileIntact m.app profile :=
  parseIcc_iff hw.app hb profile

/-- Whatever the segments, the encoder does not read outside of them. -/
theorem C57_encoder_safe (m : Meta) : encodeMeta m ≠ none := by
  unfold encodeMeta
  have := detectIcc_safe m.app 0 0
  split
  · contradiction
  · simp
  · simp

/-- Whatever types, sizes (as the bundle admits them), compressed data, profile and boxes, the decoder stays within the
segments, and what it accepts are segments with right length fields; storing them with the same types gives back the
types, sizes and data they come from. -/
theorem C57_any_data_safe (s : Stored) (hw : s.WellFormed) (hb : ∀ b ∈ s.data, b < 256) (icc : List Nat)
    (exif xmp : Option (List Nat)) :
    rebuild s icc exif xmp ≠ none ∧
      ∀ m, rebuild s icc exif xmp = some (some m) → m.WellFormed ∧ store m (s.app.map Prod.fst) = s := by
  have h := rebuild_ens s hw hb icc exif xmp
  constructor
  · intro h0
    rw [h0] at h
    exact h
  · intro m hm
    rw [hm] at h
    exact ⟨h.2, h.1.stored⟩

/-- Two empty parts of a profile, the first of which says that there are 0 parts. -/
def wrongCount : Meta where
  app := [[0xE2, 0, 16] ++ iccTag ++ [1, 0], [0xE2, 0, 16] ++ iccTag ++ [2, 2]]
  com := []
  inter := []
  tail := []

/-- A file the encoder accepts and that is rebuilt with another byte, whatever the substitute profile. -/
theorem C57_wrong_count_not_rebuilt :
    ∃ m, m.WellFormed ∧ ∀ builtin, ∃ s m', encodeMeta m = some (some s) ∧
      rebuild s (storedIcc builtin m.app) (exifBox m.app) (xmpBox m.app) = some (some m') ∧ m' ≠ m := by
  refine ⟨wrongCount, ⟨?_, ?_⟩, fun builtin => ?_⟩
  · intro a ha
    rcases List.mem_cons.mp ha with rfl | ha
    · exact ⟨0xE2, 0, 16, iccTag ++ [1, 0], rfl, by decide, by decide, by decide⟩
    · rcases List.mem_cons.mp ha with rfl | ha
      · exact ⟨0xE2, 0, 16, iccTag ++ [2, 2], rfl, by decide, by decide, by decide⟩
      · cases ha
  · intro a ha; cases ha
  · refine ⟨_, { wrongCount with app := [[0xE2, 0, 16] ++ iccTag ++ [1, 2], [0xE2, 0, 16] ++ iccTag ++ [2, 2]] }, rfl, ?_,
      by decide⟩
    refine rebuild_typed (total := 2) (ts := [1, 1]) (cs := [[], []]) (es := []) (xs := [])
      { wrongCount with app := [[0xE2, 0, 16] ++ iccTag ++ [1, 2], [0xE2, 0, 16] ++ iccTag ++ [2, 2]] } ?_ (by decide)
      (fun a ha => (by cases ha)) (Or.inr rfl) (Or.inl rfl) (Or.inl rfl)
    exact .icc (n := 0) (c := []) ⟨0xE2, 0, 16, iccTag ++ [1, 2], rfl, by decide, by decide, by decide⟩
      (.icc (n := 1) (c := []) ⟨0xE2, 0, 16, iccTag ++ [2, 2], rfl, by decide, by decide, by decide⟩ .nil)

/-- A profile in one part, and a segment that claims to be part number 0. -/
def strayPart (hi lo : Nat) (part : List Nat) : Meta where
  app := [0xE2 :: hi :: lo :: (iccTag ++ (1 :: 1 :: part)), [0xE2, 0, 16] ++ iccTag ++ [0, 1]]
  com := []
  inter := []
  tail := []

/-- Whatever the substitute profile (of a length that fits in a segment), there is a file with another profile that the
encoder accepts and that is rebuilt with the substitute profile instead of its own. -/
theorem C57_stray_part_not_rebuilt (builtin : List Nat) (h0 : builtin ≠ []) (hl : builtin.length ≤ 65519) :
    ∃ hi lo part s, part ≠ builtin ∧ (strayPart hi lo part).WellFormed ∧
      encodeMeta (strayPart hi lo part) = some (some s) ∧
      rebuild s (storedIcc builtin (strayPart hi lo part).app) (exifBox (strayPart hi lo part).app)
        (xmpBox (strayPart hi lo part).app) = some (some (strayPart hi lo builtin)) := by
  obtain ⟨b, bs, rfl⟩ : ∃ b bs, builtin = b :: bs := by
    cases builtin with
    | nil => exact absurd rfl h0
    | cons b bs => exact ⟨b, bs, rfl⟩
  rw [List.length_cons] at hl
  let hi := (bs.length + 17) / 256
  let lo := (bs.length + 17) % 256
  have hhi : hi < 256 := by omega
  have hlo : lo < 256 := Nat.mod_lt _ (by decide)
  have hseg : ∀ x, Segment (0xE2 :: hi :: lo :: (iccTag ++ (1 :: 1 :: x :: bs))) := by
    intro x
    refine ⟨0xE2, hi, lo, _, rfl, hhi, hlo, ?_⟩
    simp only [List.length_append, List.length_cons, iccTag, List.length_nil]
    omega
  have hseg2 : Segment ([0xE2, 0, 16] ++ iccTag ++ [0, 1]) := ⟨0xE2, 0, 16, iccTag ++ [0, 1], rfl, by decide, by decide, by decide⟩
  have hd : ∀ x, detectIcc (strayPart hi lo (x :: bs)).app 0 0 = some (some [1, 0]) := by
    intro x
    unfold strayPart
    dsimp only
    rw [detectIcc, iccStep_part (n := 0) (total := 1) (tot := 0) (hseg x) (Or.inr ⟨rfl, rfl⟩)]
    rfl
  have he1 : exifBox (strayPart hi lo ((b + 1) :: bs)).app = none := rfl
  have he2 : xmpBox (strayPart hi lo ((b + 1) :: bs)).app = none := rfl
  refine ⟨hi, lo, (b + 1) :: bs, store (strayPart hi lo ((b + 1) :: bs)) [1, 0], by simp, ⟨?_, ?_⟩, ?_, ?_⟩
  · intro a ha
    rcases List.mem_cons.mp ha with rfl | ha
    · exact hseg (b + 1)
    · rcases List.mem_cons.mp ha with rfl | ha
      · exact hseg2
      · cases ha
  · intro a ha; cases ha
  · unfold encodeMeta
    rw [hd]
    dsimp only
    have hb : detectBlobs (strayPart hi lo ((b + 1) :: bs)).app [1, 0] false false = [1, 0] := rfl
    rw [hb]
  · have hstore : store (strayPart hi lo ((b + 1) :: bs)) [1, 0] = store (strayPart hi lo (b :: bs)) [1, 0] := rfl
    have hst : storedIcc (b :: bs) (strayPart hi lo ((b + 1) :: bs)).app = b :: bs := by
      unfold storedIcc
      have : parseIcc (strayPart hi lo ((b + 1) :: bs)).app = none := by
        unfold parseIcc strayPart
        dsimp only
        rw [chunks_part (hseg (b + 1))]
        dsimp only
        rw [if_neg (by decide)]
        have : chunks [[0xE2, 0, 16] ++ iccTag ++ [0, 1]] (0 + 1) (some 1) = none := by decide
        rw [this]
        rfl
      rw [this]
    rw [hst, hstore]
    refine rebuild_typed (total := 1) (cs := [b :: bs]) (es := []) (xs := []) (strayPart hi lo (b :: bs)) ?_ (by decide)
      (fun a ha => (by cases ha)) (Or.inl (by simp)) (Or.inl rfl) (Or.inl rfl)
    exact .icc (hseg b) (.plain hseg2 .nil)

/-- Two parts of a profile, Exif data, two XMP segments, another application segment and a comment. -/
def richMeta : Meta where
  app := [[0xE0, 0, 4, 7, 7],
    [0xE2, 0, 19] ++ iccTag ++ [1, 2, 10, 11, 12],
    [0xE1, 0, 11] ++ exifTag ++ [1, 2, 3],
    [0xE1, 0, 32] ++ xmpTag ++ [5],
    [0xE2, 0, 18] ++ iccTag ++ [2, 2, 13, 14],
    [0xE1, 0, 33] ++ xmpTag ++ [6, 6]]
  com := [[0xFE, 0, 5, 72, 105, 33]]
  inter := [[1, 2], []]
  tail := [0, 0, 0]

example : ProfileIntact richMeta.app [10, 11, 12, 13, 14] := by
  rw [← C57_profile_iff_intact richMeta ?_ (by decide)]
  · decide
  · constructor
    · intro a ha
      simp only [richMeta, List.mem_cons, List.not_mem_nil, or_false] at ha
      rcases ha with rfl | rfl | rfl | rfl | rfl | rfl
      all_goals exact ⟨_, _, _, _, rfl, by decide, by decide, by decide⟩
    · intro a ha
      simp only [richMeta, List.mem_cons, List.not_mem_nil, or_false] at ha
      subst ha
      exact ⟨_, _, _, _, rfl, by decide, by decide, by decide⟩

/-- What is stored of it, and that it comes back. -/
example : (encodeMeta richMeta).map (Option.map fun s => s.app) =
    some (some [(0, 5), (1, 20), (2, 12), (3, 33), (1, 19), (0, 34)]) := by decide

example : ∃ s, encodeMeta richMeta = some (some s) ∧
    rebuild s [10, 11, 12, 13, 14] (some [0, 0, 0, 0, 1, 2, 3]) (some [5]) = some (some richMeta) ∧
    rebuild s [10, 11, 12, 13] (some [0, 0, 0, 0, 1, 2, 3]) (some [5]) = some none ∧
    rebuild s [10, 11, 12, 13, 14] (some [0, 0, 0, 0, 1, 2]) (some [5]) = some none ∧
    rebuild s [10, 11, 12, 13, 14] (some [0, 0, 0, 0, 1, 2, 3]) none = some none :=
  ⟨_, rfl, by decide, by decide, by decide, by decide⟩

end Jxl.Props
