import Verif.Lemmas.FastPalette
/-!
# C67: the palette of the fast lossless encoder
-/
namespace Jxl.Props
open Jxl.FastCode

/-- The colour of the pixel in column `x` of row `y` of the caller's buffer: its `nb` bytes, the first one lowest. -/
def pixelColour (nb stride : Nat) (buf : List Nat) (y x : Nat) : Nat := bytesAt buf (y * stride + x * nb) nb

/-- A buffer of bytes with one to four samples per pixel that holds all rows. -/
structure BytesOk (nb width height stride : Nat) (buf : List Nat) : Prop where
  chans : 1 ≤ nb ∧ nb ≤ 4
  octets : ∀ b ∈ buf, b < 256
  inside : ∀ y < height, y * stride + width * nb ≤ buf.length

/-- The colour zero cannot be mistaken: it does not occur, or no other colour falls on its place in the hash table. -/
def ZeroApart (nb width height stride : Nat) (buf : List Nat) : Prop :=
  (∀ x < width, ∀ y < height, pixelColour nb stride buf y x ≠ 0) ∨
  ∀ x < width, ∀ y < height, pixelColour nb stride buf y x ≠ 0 → pixelHash (pixelColour nb stride buf y x) ≠ 0

/-- Looking for a palette reads only bytes of the buffer, also in the loop that reads four bytes per pixel.  If a palette is used, it has, with the
colour zero, at most 512 colours, no colour twice and only colours of the image; and every pixel is sent as the index of its own colour.

Partial: unless some other colour shares the place of zero in the hash table; see `C67_colour_lost`. -/
theorem C67_palette_partial {srt : List Nat → List Nat} (hsrt : ∀ l, (srt l).Perm l) {nb width height stride : Nat} {buf : List Nat}
    (h : BytesOk nb width height stride buf) :
    ∃ o, choosePalette srt nb width height stride buf = some o ∧ ∀ colours lookup, o = some (colours, lookup) →
      colours.length + 1 ≤ 512 ∧ (0 :: colours).Nodup ∧ (∀ c ∈ colours, ∃ x y, x < width ∧ y < height ∧ c = pixelColour nb stride buf y x) ∧
      (∀ x < width, ∀ y < height, pixelColour nb stride buf y x ≠ 0 → storedColour colours (indexOf lookup (pixelColour nb stride buf y x)) = some (pixelColour nb stride buf y x)) ∧
      (ZeroApart nb width height stride buf → ∀ x < width, ∀ y < height, storedColour colours (indexOf lookup (pixelColour nb stride buf y x)) = some (pixelColour nb stride buf y x)) := by
  obtain ⟨s, s1, s2⟩ := detectRows_eq h.chans.1 h.chans.2 h.octets (groupRows nb width height stride) (fun _ => 0) [] (groupRows_inside h.inside)
    ⟨fun p hp => by simp at hp, fun k hk => absurd rfl hk⟩
  unfold choosePalette
  rw [s1, Option.map_some]
  refine ⟨_, rfl, fun colours lookup ho => ?_⟩
  split at ho
  · cases ho
  · rename_i hc
    simp only [Bool.or_eq_true, decide_eq_true_eq, not_or, Bool.not_eq_true] at hc
    injection ho with ho
    injection ho with h1 h2
    subst h1 h2
    have hseen := s2 hc.1.1
    rw [List.nil_append] at hseen
    have hp := hsrt (paletteEntries s.1)
    have hnd : ((srt (paletteEntries s.1)).map pixelHash).Nodup := (hp.map pixelHash).nodup_iff.mpr (entries_nodup hseen)
    have hhit : ∀ x < width, ∀ y < height, pixelColour nb stride buf y x ≠ 0 →
        storedColour (srt (paletteEntries s.1)) (indexOf (lookupOf 1 (srt (paletteEntries s.1)) fun _ => 0) (pixelColour nb stride buf y x)) = some (pixelColour nb stride buf y x) := by
      intro x hx y hy h0
      have ht := hseen.1 _ (groupRows_pixels (fun p => bytesAt buf p nb) hx hy) h0
      have hm : pixelColour nb stride buf y x ∈ srt (paletteEntries s.1) := hp.mem_iff.mpr ((mem_entries hseen).mpr ⟨h0, ht⟩)
      obtain ⟨j, hj, hje⟩ := List.getElem_of_mem hm
      have hje : (srt (paletteEntries s.1))[j]? = some (pixelColour nb stride buf y x) := by rw [List.getElem?_eq_getElem hj, hje]
      unfold storedColour indexOf
      rw [lookupOf_hit _ 1 _ j _ hnd hje, Nat.add_comm, List.getElem?_cons_succ, hje]
    refine ⟨by have := hp.length_eq; omega, ?_, fun c hc' => ?_, hhit, fun hz x hx y hy => ?_⟩
    · rw [List.nodup_cons]
      refine ⟨fun h0 => ((mem_entries hseen).mp (hp.mem_iff.mp h0)).1 rfl, ?_⟩
      exact (List.pairwise_map.mp hnd).imp fun h e => h (congrArg _ e)
    · obtain ⟨h0, ht⟩ := (mem_entries hseen).mp (hp.mem_iff.mp hc')
      have := (hseen.2 (pixelHash c) (by rw [ht]; exact h0)).2
      rw [ht] at this
      exact mem_groupRows_pixels (fun p => bytesAt buf p nb) this
    · by_cases h0 : pixelColour nb stride buf y x = 0
      · rcases hz with hz | hz
        · exact absurd h0 (hz x hx y hy)
        · rw [h0]
          unfold storedColour indexOf
          rw [lookupOf_miss]
          · rfl
          · intro p hpm
            obtain ⟨p0, ht⟩ := (mem_entries hseen).mp (hp.mem_iff.mp hpm)
            have := (hseen.2 (pixelHash p) (by rw [ht]; exact p0)).2
            rw [ht] at this
            obtain ⟨x', y', hx', hy', rfl⟩ := mem_groupRows_pixels (fun p => bytesAt buf p nb) this
            exact hz x' hx' y' hy' p0
      · exact hhit x hx y hy h0

/-- Halving a range of `2 ^ n` numbers to look at each. -/
def eachBelow (f : Nat → Bool) : Nat → Nat → Bool
  | 0, lo => f lo
  | n + 1, lo => eachBelow f n lo && eachBelow f n (lo + 2 ^ n)

theorem eachBelow_spec {f : Nat → Bool} : ∀ (n lo : Nat), eachBelow f n lo = true → ∀ p, lo ≤ p → p < lo + 2 ^ n → f p = true
  | 0, lo, h, p, h1, h2 => by
    have : p = lo := by omega
    subst this
    exact h
  | n + 1, lo, h, p, h1, h2 => by
    unfold eachBelow at h
    rw [Bool.and_eq_true] at h
    rw [Nat.pow_succ] at h2
    by_cases hp : p < lo + 2 ^ n
    · exact eachBelow_spec n lo h.1 p h1 hp
    · exact eachBelow_spec n _ h.2 p (by omega) (by omega)

/-- No colour of two bytes shares the place of zero. -/
theorem pixelHash_small {p : Nat} (h : p < 2 ^ 16) (h0 : p ≠ 0) : pixelHash p ≠ 0 := by
  have e : eachBelow (fun p => p == 0 || pixelHash p != 0) 16 0 = true := by decide +kernel
  have := eachBelow_spec 16 0 e p (Nat.zero_le _) (by simpa using h)
  simpa [h0] using this

/-- Grey images, with alpha or without: if a palette is used, every pixel is sent as the index of its own colour. -/
theorem C67_grey {srt : List Nat → List Nat} (hsrt : ∀ l, (srt l).Perm l) {nb width height stride : Nat} {buf : List Nat}
    (h : BytesOk nb width height stride buf) (h2 : nb ≤ 2) {colours : List Nat} {lookup : Nat → Nat}
    (hc : choosePalette srt nb width height stride buf = some (some (colours, lookup))) :
    ∀ x < width, ∀ y < height, storedColour colours (indexOf lookup (pixelColour nb stride buf y x)) = some (pixelColour nb stride buf y x) := by
  obtain ⟨o, o1, o2⟩ := C67_palette_partial hsrt h
  rw [hc] at o1
  injection o1 with o1
  obtain ⟨-, -, -, -, hz⟩ := o2 colours lookup o1.symm
  refine hz (Or.inr fun x _ y _ h0 => pixelHash_small ?_ h0)
  have := bytesAt_lt h.octets (y * stride + x * nb) nb
  exact Nat.lt_of_lt_of_le this (Nat.le_trans (Nat.pow_le_pow_right (by decide) h2) (by decide))

/-- Two pixels, black and (172, 181, 1). -/
def lostBuf : List Nat := [0, 0, 0, 172, 181, 1]

theorem lostBuf_ok : BytesOk 3 2 1 6 lostBuf := by
  refine ⟨by decide, by decide, fun y hy => ?_⟩
  have : y = 0 := by omega
  subst this
  decide

/-- **The encoder is not lossless**: of an image with the two pixels black and (172, 181, 1), the second colour takes the place of black in the
hash table without being noticed, and the black pixel is sent as the index of the second colour. -/
theorem C67_colour_lost {srt : List Nat → List Nat} (hsrt : ∀ l, (srt l).Perm l) : ∃ colours lookup,
    choosePalette srt 3 2 1 6 lostBuf = some (some (colours, lookup)) ∧ pixelColour 3 6 lostBuf 0 0 = 0 ∧ pixelColour 3 6 lostBuf 0 1 = 172 + 256 * 181 + 65536 * 1 ∧
      storedColour colours (indexOf lookup (pixelColour 3 6 lostBuf 0 0)) = some (pixelColour 3 6 lostBuf 0 1) := by
  have hd : detectRows 3 lostBuf (groupRows 3 2 1 6) (fun _ => 0) = some ((fun i => if i = 0 then 112044 else if i = 0 then 0 else 0), false) := by rfl
  have he : paletteEntries (fun i => if i = 0 then 112044 else if i = 0 then 0 else 0) = [112044] := by
    unfold paletteEntries
    rw [List.range_eq_range', show (2 : Nat) ^ 16 = 65535 + 1 from rfl, List.range'_succ, List.filterMap_cons]
    have : ∀ n, (List.range' (0 + 1) n).filterMap (fun k => if (if k = 0 then 112044 else if k = 0 then 0 else 0) = 0 then none else some (if k = 0 then 112044 else if k = 0 then 0 else 0)) = ([] : List Nat) := by
      intro n
      rw [List.filterMap_eq_nil_iff]
      intro k hk
      rw [List.mem_range'_1] at hk
      rw [if_neg (show k ≠ 0 by omega), if_neg (show k ≠ 0 by omega), if_pos rfl]
    rw [this]
    rfl
  have hs : srt [112044] = [112044] := List.perm_singleton.mp (hsrt [112044])
  refine ⟨[112044], lookupOf 1 [112044] fun _ => 0, ?_, by decide, by decide, by decide⟩
  unfold choosePalette
  rw [hd, Option.map_some, he, hs]
  rfl

/-- Six pixels in two rows of a buffer with a byte between the rows. -/
def paletteBuf : List Nat := [0, 0, 0, 255, 0, 0, 255, 0, 0, 77, 0, 0, 0, 0, 0, 9, 255, 0, 0]

example : BytesOk 3 3 2 10 paletteBuf ∧ ZeroApart 3 3 2 10 paletteBuf := by
  refine ⟨⟨by decide, by decide, fun y hy => ?_⟩, Or.inr ?_⟩
  · have : y = 0 ∨ y = 1 := by omega
    rcases this with rfl | rfl <;> decide
  · decide

/-- A palette is used for it. -/
example : ((choosePalette id 3 3 2 10 paletteBuf).bind id).isSome = true := by decide +kernel

/-- A palette is used for a grey image of three pixels. -/
example : BytesOk 1 3 1 3 [0, 255, 17] ∧ ((choosePalette id 1 3 1 3 [0, 255, 17]).bind id).isSome = true := by
  refine ⟨⟨by decide, by decide, fun y hy => ?_⟩, by decide +kernel⟩
  have : y = 0 := by omega
  subst this
  decide

example : ¬ ZeroApart 3 2 1 6 lostBuf := by
  intro h
  rcases h with h | h
  · exact h 0 (by decide) 0 (by decide) (by decide)
  · exact h 1 (by decide) 0 (by decide) (by decide) (by decide)

end Jxl.Props
