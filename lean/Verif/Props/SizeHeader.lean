import Verif.Lemmas.SizeHeader
import Verif.Props.Bundle
/-!
# C05: image and preview dimensions survive their headers
-/
namespace Jxl.Props
open Bundle SizeHeader

/-- Every size up to 2^30 x 2^30 can be set and written, and reading the bits back (into any object, followed by
anything) yields exactly that size and consumes exactly those bits. -/
theorem C05_size (x y : Nat) (hx : 1 ≤ x ∧ x ≤ 2 ^ 30) (hy : 1 ≤ y ∧ y ≤ 2 ^ 30) :
    ∃ h b, SizeHeader.set x y = some h ∧ write (· == ·) SizeHeader.prog (toEnv h) = some (b, b.length) ∧
      ∀ rest e0 pos, ∃ e', read SizeHeader.prog e0 (b ++ rest) pos = some (e', rest) ∧
        SizeHeader.xsize (ofEnv e') = some x ∧ SizeHeader.ysize (ofEnv e') = y := by
  obtain ⟨h, h1, h2, h3, h4, h5, h6, h7, _⟩ := size_set x y (by omega) (by omega)
  have henc : Encodable SizeHeader.prog (toEnv h) := by
    simp only [SizeHeader.prog, Encodable, List.map_cons, List.map_nil, toEnv]
    refine ⟨by split <;> decide, fun hc => ?_, fun hc => ?_, h4, fun hc => ?_, fun hc => ?_⟩
    · exact (h5 (by simpa using hc)).1
    · rw [sizeEnc_represents, h6 (by simpa using hc)]; exact hy
    · exact (h5 (by simp at hc; exact hc.2)).2
    · simp at hc
      rw [sizeEnc_represents, h7 (by simpa [hc.1] using hc.2) hc.1]; exact hx
  have hxy : h.x < 2 ^ 32 ∧ h.y < 2 ^ 32 := by
    clear henc h2 h3 h4 h5 h6 h7
    simp only [SizeHeader.set] at h1
    rw [if_neg (by omega), if_neg (by omega)] at h1
    generalize (decide (y ≤ 256) && decide (y % 8 = 0) && (decide (findAspectRatio x y ≠ 0) || (decide (x ≤ 256) && decide (x % 8 = 0)))) = sm at h1
    cases sm <;> by_cases hr : findAspectRatio x y = 0 <;>
      simp only [hr, if_true, if_false, Bool.false_eq_true] at h1 <;>
      (split at h1
       · simp only [Option.some.injEq] at h1
         subst h1; dsimp only; omega
       · cases h1)
  obtain ⟨f1, f2, f3, f4⟩ := SizeHeader.prog_facts h hxy.1 hxy.2
  obtain ⟨b, hb⟩ := write_ok (· == ·) SizeHeader.prog (toEnv h) henc f2
  refine ⟨h, b, h1, hb, fun rest e0 pos => ?_⟩
  obtain ⟨_, e', g1, g2⟩ := C06_round_trip_partial _ _ SizeHeader.prog (toEnv h) e0 b rest b.length pos f1 f2 f3 f4 hb
  obtain ⟨k1, k2⟩ := SizeHeader.ofEnv_sizes h e' g2
  exact ⟨e', g1, by rw [k1, h2], by rw [k2, h3]⟩

/-- Larger heights are accepted by `Set` but cannot be written. -/
theorem C05_size_limit (x y : Nat) (hx : 1 ≤ x ∧ x < 2 ^ 32) (hy : 2 ^ 30 < y ∧ y < 2 ^ 32) :
    ∃ h, SizeHeader.set x y = some h ∧ write (· == ·) SizeHeader.prog (toEnv h) = none := by
  obtain ⟨h, h1, h2, h3, h4, h5, h6, h7, h8⟩ := size_set x y (by omega) (by omega)
  refine ⟨h, h1, ?_⟩
  have hf := h8 (by omega)
  have hc : U32.chooseSelector sizeEnc (toEnv h 2) = none := by
    rw [U32.chooseSelector_none]
    intro t ht hr
    have := (sizeEnc_represents _).mp ⟨t, ht, hr⟩
    have e : toEnv h 2 = y := h6 hf
    omega
  have e0 : toEnv h 0 = 0 := by simp [toEnv, hf]
  simp [write, SizeHeader.prog, canP, e0, U32.canEncode, hc, canEncodeBits]

/-- Every preview size up to 4352 x 4352 can be set, written and read back. -/
theorem C05_preview (x y : Nat) (hx : 1 ≤ x ∧ x ≤ 4352) (hy : 1 ≤ y ∧ y ≤ 4352) :
    ∃ h b, Preview.set x y = some h ∧ write (· == ·) Preview.prog (toEnv h) = some (b, b.length) ∧
      ∀ rest e0 pos, ∃ e', read Preview.prog e0 (b ++ rest) pos = some (e', rest) ∧
        Preview.xsize (ofEnv e') = some x ∧ Preview.ysize (ofEnv e') = y := by
  obtain ⟨h, h1, h2, h3⟩ := Preview.set_ok x y hx hy
  obtain ⟨g1, g2, g3, g4, g5, g6, g7⟩ := Preview.set_some x y h h1
  obtain ⟨f1, f2, f3, f4⟩ := Preview.prog_facts h g5 g4 g7 g6
  have henc : Encodable Preview.prog (toEnv h) := by
    simp only [Preview.prog, Encodable, List.map_cons, List.map_nil, toEnv]
    refine ⟨by split <;> decide, fun hc => ?_, fun hc => ?_, g3, fun hc => ?_, fun hc => ?_⟩
    · exact Preview.enc8_represents _ (h2 (by simpa using hc)).1
    · exact Preview.enc1_represents _ (h3 (by simpa using hc)).1
    · simp at hc; exact Preview.enc8_represents _ ((h2 hc.2).2 hc.1)
    · simp at hc; exact Preview.enc1_represents _ ((h3 (by simpa [hc.1] using hc.2)).2 hc.1)
  obtain ⟨b, hb⟩ := write_ok (· == ·) Preview.prog (toEnv h) henc f2
  refine ⟨h, b, h1, hb, fun rest e0 pos => ?_⟩
  obtain ⟨_, e', k1, k2⟩ := C06_round_trip_partial _ _ Preview.prog (toEnv h) e0 b rest b.length pos f1 f2 f3 f4 hb
  obtain ⟨m1, m2⟩ := Preview.ofEnv_sizes h e' k2
  exact ⟨e', k1, by rw [m1, g1], by rw [m2, g2]⟩

/-- A preview of any size, however large, that is accepted and can be written reads back as that size. -/
theorem C05_preview_any (x y : Nat) (h : Hdr) (b : List Bool) (total : Nat) (hs : Preview.set x y = some h)
    (hw : write (· == ·) Preview.prog (toEnv h) = some (b, total)) (rest : List Bool) (e0 : Env) (pos : Nat) :
    total = b.length ∧ ∃ e', read Preview.prog e0 (b ++ rest) pos = some (e', rest) ∧
      Preview.xsize (ofEnv e') = some x ∧ Preview.ysize (ofEnv e') = y := by
  obtain ⟨g1, g2, g3, g4, g5, g6, g7⟩ := Preview.set_some x y h hs
  obtain ⟨f1, f2, f3, f4⟩ := Preview.prog_facts h g5 g4 g7 g6
  obtain ⟨k0, e', k1, k2⟩ := C06_round_trip_partial _ _ Preview.prog (toEnv h) e0 b rest total pos f1 f2 f3 f4 hw
  obtain ⟨m1, m2⟩ := Preview.ofEnv_sizes h e' k2
  exact ⟨k0, e', k1, by rw [m1, g1], by rw [m2, g2]⟩

/-- The seven aspect ratios of the format: 1:1, 6:5, 4:3, 3:2, 16:9, 5:4 and 2:1, rounded down. -/
theorem C05_ratio (h : Hdr) (hy : ysize h < 2 ^ 31) :
    (h.ratio = 1 → xsize h = some (ysize h)) ∧ (h.ratio = 2 → xsize h = some (ysize h * 6 / 5)) ∧ (h.ratio = 3 → xsize h = some (ysize h * 4 / 3)) ∧
      (h.ratio = 4 → xsize h = some (ysize h * 3 / 2)) ∧ (h.ratio = 5 → xsize h = some (ysize h * 16 / 9)) ∧
      (h.ratio = 6 → xsize h = some (ysize h * 5 / 4)) ∧ (h.ratio = 7 → xsize h = some (ysize h * 2)) := by
  have e : ysize h * 12 / 10 = ysize h * 6 / 5 := by rw [show 12 = 6 * 2 from rfl, ← Nat.mul_assoc]; exact Nat.mul_div_mul_right _ 5 (by decide)
  refine ⟨?_, ?_, ?_, ?_, ?_, ?_, ?_⟩ <;> intro hr <;> unfold xsize <;> rw [if_pos (by omega), hr] <;>
    simp only [ratios, mulTruncate, Nat.reduceSub, List.getElem?_cons_succ, List.getElem?_cons_zero, Option.map_some, Option.some.injEq, e] <;> omega

example : SizeHeader.xsize { ratio := 5, y := 1081 } = some 1921 := by decide

-- 4000 x 3000 uses the 4:3 form, 1921 x 1081 the truncated 16:9 form, 256 x 128 the small 2:1 form.
example : SizeHeader.set 4000 3000 = some { ratio := 3, y := 3000 } ∧ SizeHeader.set 1921 1081 = some { ratio := 5, y := 1081 } ∧
    SizeHeader.set 256 128 = some { flag := true, ratio := 7, yd := 15 } ∧ SizeHeader.set 24 40 = some { flag := true, yd := 4, xd := 2 } := by
  decide
example : ((Preview.set 5001 5003).bind fun h => write (· == ·) Preview.prog (toEnv h)).isSome := by decide

end Jxl.Props
