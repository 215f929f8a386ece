import Verif.Model.SizeHeader
import Verif.Lemmas.BundleEnc
namespace Jxl.SizeHeader
open Bundle

theorem findFrom_spec (x y r : Nat) (qs : List (Nat × Nat)) (hr : 1 ≤ r) :
    (findFrom x y r qs = 0) ∨
    (∃ i q, qs[i]? = some q ∧ findFrom x y r qs = r + i ∧ x = mulTruncate q y) := by
  induction qs generalizing r with
  | nil => left; rfl
  | cons q qs ih =>
    simp only [findFrom]
    split
    · right; exact ⟨0, q, rfl, rfl, by assumption⟩
    · rcases ih (r + 1) (by omega) with h | ⟨i, q', h1, h2, h3⟩
      · left; exact h
      · right; exact ⟨i + 1, q', by simpa using h1, by omega, h3⟩

theorem findAspectRatio_spec (x y : Nat) :
    findAspectRatio x y = 0 ∨
    (findAspectRatio x y ≠ 0 ∧ findAspectRatio x y < 8 ∧
      ratios[findAspectRatio x y - 1]?.map (fun q => mulTruncate q y) = some x) := by
  rcases findFrom_spec x y 1 ratios (by decide) with h | ⟨i, q, h1, h2, h3⟩
  · left; exact h
  · right
    have hi : i < ratios.length := (List.getElem?_eq_some_iff.mp h1).1
    have h7 : ratios.length = 7 := rfl
    unfold findAspectRatio
    refine ⟨by omega, by omega, ?_⟩
    rw [h2, show 1 + i - 1 = i by omega, h1, h3]; rfl

theorem ratio_lt (x y : Nat) : findAspectRatio x y < 8 := by
  rcases findAspectRatio_spec x y with h | h <;> omega

theorem represents_off (bits off v : Nat) (h1 : 1 ≤ bits) (h2 : bits ≤ 32) (h3 : off < 2 ^ 26)
    (h : off ≤ v ∧ v < off + 2 ^ bits) (hd : U32.isDirect (U32.bitsOffset bits off) = false)
    (he : U32.extraBits (U32.bitsOffset bits off) = bits) (ho : U32.offset (U32.bitsOffset bits off) = off) :
    U32.Represents (U32.bitsOffset bits off) v := by
  simp [U32.Represents, hd, he, ho, h]

theorem sizeEnc_represents (v : Nat) : (∃ t < 4, U32.Represents (sizeEnc.get t) v) ↔ 1 ≤ v ∧ v ≤ 2 ^ 30 := by
  have hr : ∀ b, b = 9 ∨ b = 13 ∨ b = 18 ∨ b = 30 → (U32.Represents (U32.bitsOffset b 1) v ↔ 1 ≤ v ∧ v < 1 + 2 ^ b) := by
    rintro b (rfl | rfl | rfl | rfl)
    all_goals
      unfold U32.Represents
      rw [show U32.isDirect _ = false from by decide]
      simp only [Bool.false_eq_true, if_false]
      exact Iff.rfl
  constructor
  · rintro ⟨t, ht, h⟩
    have : t = 0 ∨ t = 1 ∨ t = 2 ∨ t = 3 := by omega
    rcases this with rfl | rfl | rfl | rfl
    · have := (hr 9 (by simp)).mp h; omega
    · have := (hr 13 (by simp)).mp h; omega
    · have := (hr 18 (by simp)).mp h; omega
    · have := (hr 30 (by simp)).mp h; omega
  · intro h
    exact ⟨3, by decide, (hr 30 (by simp)).mpr (by omega)⟩

theorem size_set (x y : Nat) (hx : 1 ≤ x ∧ x < 2 ^ 32) (hy : 1 ≤ y ∧ y < 2 ^ 32) :
    ∃ h, set x y = some h ∧ xsize h = some x ∧ ysize h = y ∧ h.ratio < 8 ∧
      (h.flag = true → h.yd < 32 ∧ h.xd < 32) ∧ (h.flag = false → h.y = y) ∧
      (h.flag = false → h.ratio = 0 → h.x = x) ∧ (256 < y → h.flag = false) := by
  simp only [set]
  rw [if_neg (by omega), if_neg (by omega)]
  have hlt := ratio_lt x y
  rcases findAspectRatio_spec x y with hr | ⟨hr, _, hq⟩
  · rw [hr]
    simp only [ne_eq, not_true_eq_false, decide_false, Bool.false_or]
    by_cases hs : (decide (y ≤ 256) && decide (y % 8 = 0) && (decide (x ≤ 256) && decide (x % 8 = 0))) = true
    · simp only [hs, if_true]
      simp only [Bool.and_eq_true, decide_eq_true_eq] at hs
      refine ⟨_, if_pos ?_, ?_⟩ <;> simp [xsize, ysize] <;> omega
    · simp only [hs]
      simp only [Bool.and_eq_true, decide_eq_true_eq] at hs
      refine ⟨_, if_pos ?_, ?_⟩ <;> simp [xsize, ysize]
  · simp only [if_neg hr]
    rw [show decide (findAspectRatio x y ≠ 0) = true from by simpa using hr]
    simp only [Bool.true_or, Bool.and_true]
    by_cases hs : (decide (y ≤ 256) && decide (y % 8 = 0)) = true
    · simp only [hs, if_true]
      simp only [Bool.and_eq_true, decide_eq_true_eq] at hs
      have e : (y / 8 - 1 + 1) * 8 % 2 ^ 32 = y := by omega
      refine ⟨_, if_pos ?_, ?_⟩ <;> simp only [xsize, ysize, if_pos hr, if_true, e]
      · exact ⟨hq, trivial⟩
      · exact ⟨hq, trivial, hlt, fun _ => ⟨by omega, by decide⟩, by simp, by simp, by omega⟩
    · simp only [hs]
      refine ⟨_, if_pos ?_, ?_⟩ <;> simp only [xsize, ysize, if_pos hr, Bool.false_eq_true, if_false]
      · exact ⟨hq, trivial⟩
      · exact ⟨hq, trivial, hlt, by simp, by simp, fun _ h => absurd h hr, by simp⟩

theorem prog_facts (h : Hdr) (hr : h.x < 2 ^ 32) (hy : h.y < 2 ^ 32) :
    HasDefaults (fun i => if i = 2 ∨ i = 5 then 1 else 0) prog ∧ NoExt prog (toEnv h) ∧
    Good (· == ·) prog (toEnv h) ∧ Causal prog (toEnv h) [] := by
  refine ⟨?_, ?_, ?_, ?_⟩
  · simp [prog, HasDefaults]
  · simp [prog, NoExt]
  · simp [prog, Good, toEnv]; exact ⟨fun _ => hy, fun _ _ => hr⟩
  · unfold prog
    simp only [Causal, known]
    refine ⟨trivial, ⟨by simp, fun _ => trivial⟩, ⟨?_, fun _ => trivial⟩, trivial, ⟨?_, fun _ => trivial⟩, ?_, fun _ => trivial⟩
    all_goals (repeat' split) <;> simp

theorem ofEnv_sizes (h : Hdr) (e : Env) (ha : ∀ f ∈ known prog (toEnv h) [], e f = toEnv h f) :
    xsize (ofEnv e) = xsize h ∧ ysize (ofEnv e) = ysize h := by
  rcases h with ⟨flag, yd, y, ratio, xd, x⟩
  unfold prog at ha
  simp only [known] at ha
  cases flag <;> by_cases hr : ratio = 0 <;> simp [toEnv, hr] at ha <;>
    simp [xsize, ysize, ofEnv, ha, hr]

namespace Preview

theorem enc8_represents (v : Nat) (h : 1 ≤ v ∧ v ≤ 544) : ∃ t < 4, U32.Represents (enc8.get t) v := by
  have h5 : U32.Represents (U32.bitsOffset 5 1) v ↔ 1 ≤ v ∧ v < 1 + 2 ^ 5 := by
    unfold U32.Represents; rw [show U32.isDirect _ = false from by decide]; simp only [Bool.false_eq_true, if_false]; exact Iff.rfl
  have h9 : U32.Represents (U32.bitsOffset 9 33) v ↔ 33 ≤ v ∧ v < 33 + 2 ^ 9 := by
    unfold U32.Represents; rw [show U32.isDirect _ = false from by decide]; simp only [Bool.false_eq_true, if_false]; exact Iff.rfl
  by_cases hv : v < 33
  · exact ⟨2, by decide, h5.mpr (by omega)⟩
  · exact ⟨3, by decide, h9.mpr (by omega)⟩

theorem enc1_represents (v : Nat) (h : 1 ≤ v ∧ v ≤ 5440) : ∃ t < 4, U32.Represents (enc1.get t) v := by
  have h6 : U32.Represents (U32.bitsOffset 6 1) v ↔ 1 ≤ v ∧ v < 1 + 2 ^ 6 := by
    unfold U32.Represents; rw [show U32.isDirect _ = false from by decide]; simp only [Bool.false_eq_true, if_false]; exact Iff.rfl
  have h8 : U32.Represents (U32.bitsOffset 8 65) v ↔ 65 ≤ v ∧ v < 65 + 2 ^ 8 := by
    unfold U32.Represents; rw [show U32.isDirect _ = false from by decide]; simp only [Bool.false_eq_true, if_false]; exact Iff.rfl
  have h10 : U32.Represents (U32.bitsOffset 10 321) v ↔ 321 ≤ v ∧ v < 321 + 2 ^ 10 := by
    unfold U32.Represents; rw [show U32.isDirect _ = false from by decide]; simp only [Bool.false_eq_true, if_false]; exact Iff.rfl
  have h12 : U32.Represents (U32.bitsOffset 12 1345) v ↔ 1345 ≤ v ∧ v < 1345 + 2 ^ 12 := by
    unfold U32.Represents; rw [show U32.isDirect _ = false from by decide]; simp only [Bool.false_eq_true, if_false]; exact Iff.rfl
  by_cases h1 : v < 65
  · exact ⟨0, by decide, h6.mpr (by omega)⟩
  by_cases h2 : v < 321
  · exact ⟨1, by decide, h8.mpr (by omega)⟩
  by_cases h3 : v < 1345
  · exact ⟨2, by decide, h10.mpr (by omega)⟩
  · exact ⟨3, by decide, h12.mpr (by omega)⟩

/-- Whatever `Set` accepts it stores faithfully. -/
theorem set_some (x y : Nat) (h : Hdr) (hs : set x y = some h) :
    xsize h = some x ∧ ysize h = y ∧ h.ratio < 8 ∧ h.y < 2 ^ 32 ∧ h.x < 2 ^ 32 ∧ h.yd < 2 ^ 32 ∧ h.xd < 2 ^ 32 := by
  simp only [set] at hs
  by_cases h0 : x = 0 ∨ y = 0
  · rw [if_pos h0] at hs; cases hs
  rw [if_neg h0] at hs
  have hlt := ratio_lt (x % 2 ^ 32) (y % 2 ^ 32)
  by_cases hd : (decide (x % 8 = 0) && decide (y % 8 = 0)) = true <;>
    by_cases hr : findAspectRatio (x % 2 ^ 32) (y % 2 ^ 32) = 0 <;>
    simp only [hd, hr, if_true, if_false, Bool.false_eq_true] at hs <;>
    (split at hs
     · rename_i h2
       simp only [Option.some.injEq] at hs
       subst hs
       refine ⟨h2.1, h2.2, ?_, ?_, ?_, ?_, ?_⟩ <;> simp [init] <;> omega
     · cases hs)

theorem set_ok (x y : Nat) (hx : 1 ≤ x ∧ x ≤ 4352) (hy : 1 ≤ y ∧ y ≤ 4352) :
    ∃ h, set x y = some h ∧ (h.flag = true → (1 ≤ h.yd ∧ h.yd ≤ 544) ∧ (h.ratio = 0 → 1 ≤ h.xd ∧ h.xd ≤ 544)) ∧
      (h.flag = false → (1 ≤ h.y ∧ h.y ≤ 5440) ∧ (h.ratio = 0 → 1 ≤ h.x ∧ h.x ≤ 5440)) := by
  simp only [set]
  rw [if_neg (by omega), Nat.mod_eq_of_lt (show x < 2 ^ 32 by omega), Nat.mod_eq_of_lt (show y < 2 ^ 32 by omega)]
  by_cases hs : (decide (x % 8 = 0) && decide (y % 8 = 0)) = true
  · simp only [hs, if_true]
    simp only [Bool.and_eq_true, decide_eq_true_eq] at hs
    have e : y / 8 * 8 % 2 ^ 32 = y := by omega
    have e' : x / 8 * 8 % 2 ^ 32 = x := by omega
    rcases findAspectRatio_spec x y with hr | ⟨hr, _, hq⟩
    · simp only [hr, if_true]
      refine ⟨_, if_pos ?_, ?_⟩ <;> simp [xsize, ysize] <;> omega
    · simp only [if_neg hr]
      refine ⟨_, if_pos ?_, ?_⟩ <;> simp only [xsize, ysize, if_pos hr, if_true, e]
      · exact ⟨hq, trivial⟩
      · exact ⟨fun _ => ⟨by omega, fun h => absurd h hr⟩, by simp⟩
  · simp only [hs]
    rcases findAspectRatio_spec x y with hr | ⟨hr, _, hq⟩
    · simp only [hr, if_true]
      refine ⟨_, if_pos ?_, ?_⟩ <;> simp [xsize, ysize] <;> omega
    · simp only [if_neg hr]
      refine ⟨_, if_pos ?_, ?_⟩ <;> simp only [xsize, ysize, if_pos hr, Bool.false_eq_true, if_false]
      · exact ⟨hq, trivial⟩
      · exact ⟨by simp, fun _ => ⟨by omega, fun h => absurd h hr⟩⟩

theorem prog_facts (h : Hdr) (hr : h.x < 2 ^ 32) (hy : h.y < 2 ^ 32) (hxd : h.xd < 2 ^ 32) (hyd : h.yd < 2 ^ 32) :
    HasDefaults (fun i => if i = 0 ∨ i = 3 then 0 else 1) prog ∧ NoExt prog (toEnv h) ∧
    Good (· == ·) prog (toEnv h) ∧ Causal prog (toEnv h) [] := by
  refine ⟨?_, ?_, ?_, ?_⟩
  · simp [prog, HasDefaults]
  · simp [prog, NoExt]
  · simp [prog, Good, toEnv]; exact ⟨fun _ => hyd, fun _ => hy, fun _ _ => hxd, fun _ _ => hr⟩
  · unfold prog
    simp only [Causal, known]
    refine ⟨trivial, ⟨by simp, fun _ => trivial⟩, ⟨?_, fun _ => trivial⟩, trivial, ⟨?_, fun _ => trivial⟩, ?_, fun _ => trivial⟩
    all_goals (repeat' split) <;> simp

theorem ofEnv_sizes (h : Hdr) (e : Env) (ha : ∀ f ∈ known prog (toEnv h) [], e f = toEnv h f) :
    xsize (ofEnv e) = xsize h ∧ ysize (ofEnv e) = ysize h := by
  rcases h with ⟨flag, yd, y, ratio, xd, x⟩
  unfold prog at ha
  simp only [known] at ha
  cases flag <;> by_cases hr : ratio = 0 <;> simp [toEnv, hr] at ha <;>
    simp [xsize, ysize, ofEnv, ha, hr]

end Preview
end Jxl.SizeHeader
