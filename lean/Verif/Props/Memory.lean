import Verif.Lemmas.Memory
/-!
# C32: size computations never wrap
-/
namespace Jxl.Props
open Memory

/-- The checked operations are exact: they give the mathematical result when it fits and fail otherwise. -/
theorem C32_checked (a b : Nat) (ha : a < 2 ^ 64) (hb : b < 2 ^ 64) :
    safeAdd a b = (if a + b < 2 ^ 64 then some (a + b) else none) ∧ safeMul a b = (if a * b < 2 ^ 64 then some (a * b) else none) ∧
      (0 < b → safeRoundUpTo a b = if roundUp a b < 2 ^ 64 then some (roundUp a b) else none) ∧
      (0 < b → b ∣ roundUp a b ∧ a ≤ roundUp a b ∧ roundUp a b < a + b) :=
  ⟨safeAdd_spec a b ha hb, safeMul_spec a b, fun h => safeRoundUpTo_spec a b ha hb h, fun h => ⟨roundUp_dvd a b h, roundUp_bounds a b h⟩⟩

/-- **C32, row stride.**  A stride, when given, holds the row and a full vector starting at the last sample, is aligned, and is not a multiple of
2 KiB.  Missing: the last part for vectors of 2 KiB or more, where it is false (`C32_two_kib_fails`). -/
theorem C32_stride_partial (vec xsize sizeofT bpr : Nat) (hv : vec < 2 ^ 32) (h0 : 0 < xsize)
    (h : bytesPerRow vec xsize sizeofT = some bpr) :
    xsize * sizeofT + (vec - sizeofT) ≤ bpr ∧ bpr < 2 ^ 64 ∧ max vec 128 ∣ bpr ∧ 128 ∣ bpr ∧ (max vec 128 < 2048 → ¬ 2048 ∣ bpr) ∧
      bpr < xsize * sizeofT + vec + 2 * max vec 128 := by
  unfold bytesPerRow at h
  rw [if_neg (by omega)] at h
  -- bytes of the row plus a vector
  have hvb : ∀ v, validBytes vec xsize sizeofT = some v → v = xsize * sizeofT + (vec - sizeofT) ∧ v < 2 ^ 64 := by
    intro v hv'
    unfold validBytes at hv'
    rw [safeMul_spec] at hv'
    by_cases hm : xsize * sizeofT < 2 ^ 64
    · simp only [if_pos hm] at hv'
      split at hv'
      · split at hv'
        · rw [safeAdd_spec _ _ hm (by omega)] at hv'
          split at hv'
          · cases hv'; omega
          · cases hv'
        · cases hv'
      · cases hv'; omega
    · simp only [if_neg hm] at hv'; cases hv'
  split at h
  · cases h
  rename_i v hvv
  obtain ⟨e, hlt⟩ := hvb v hvv
  dsimp only at h
  rw [show kAlignment = 128 from rfl, show kAlias = 2048 from rfl] at h
  by_cases hpow : powerOfTwoTest (max vec 128) = true
  case neg => rw [if_neg hpow] at h; cases h
  rw [if_pos hpow, safeRoundUpTo_spec _ _ hlt (by omega) (by omega)] at h
  have hal : 0 < max vec 128 := by omega
  have hd := roundUp_dvd v _ hal
  have hb := roundUp_bounds v _ hal
  -- 128 divides the alignment, a power of two
  have h128 : 128 ∣ max vec 128 := by
    have hp : max vec 128 &&& (max vec 128 - 1) = 0 := by simpa [powerOfTwoTest] using hpow
    by_cases hle : vec ≤ 128
    · rw [Nat.max_eq_right hle]; exact Nat.dvd_refl _
    · rw [Nat.max_eq_left (by omega)] at hp ⊢
      -- if a low bit were set, it would also be set in vec - 1
      apply Nat.dvd_of_mod_eq_zero
      rcases Nat.eq_zero_or_pos (vec % 128) with hz | hz
      · exact hz
      · exfalso
        -- vec and vec-1 agree above the low 7 bits, and vec ≥ 128 has a bit there
        have e1 : (vec &&& (vec - 1)) / 128 = (vec / 128) &&& ((vec - 1) / 128) := by
          have := Nat.shiftRight_and_distrib (i := 7) (a := vec) (b := vec - 1)
          simpa [Nat.shiftRight_eq_div_pow] using this
        have e2 : (vec - 1) / 128 = vec / 128 := by omega
        rw [hp, e2, Nat.and_self] at e1
        omega
  by_cases hfit : roundUp v (max vec 128) < 2 ^ 64
  · simp only [if_pos hfit] at h
    by_cases hz : roundUp v (max vec 128) % 2048 = 0
    · rw [if_pos hz, safeAdd_spec _ _ hfit (by omega)] at h
      split at h
      · cases h
        refine ⟨by omega, by assumption, Nat.dvd_add hd (Nat.dvd_refl _), Nat.dvd_add (Nat.dvd_trans h128 hd) h128, ?_, by omega⟩
        intro h2 h3
        omega
      · cases h
    · rw [if_neg hz] at h
      cases h
      exact ⟨by omega, hfit, hd, Nat.dvd_trans h128 hd, fun _ h3 => hz (Nat.mod_eq_zero_of_dvd h3), by omega⟩
  · simp only [if_neg hfit] at h; cases h

/-- The stride is refused only when the sizes really do not fit (or a sample is larger than a vector). -/
theorem C32_stride_refused (vec xsize sizeofT : Nat) (k : Nat) (hk : k < 32) (hv : vec = 2 ^ k) (h0 : 0 < xsize) (hs : 0 < sizeofT) (hsv : sizeofT ≤ vec)
    (hfit : xsize * sizeofT + vec + 2 * max vec 128 < 2 ^ 64) : ∃ bpr, bytesPerRow vec xsize sizeofT = some bpr := by
  have hlt : vec < 2 ^ 32 := by rw [hv]; exact Nat.pow_lt_pow_right (by omega) hk
  have hpos : 0 < vec := by omega
  have hpow : max vec 128 &&& (max vec 128 - 1) = 0 := by
    have key : ∀ j, 2 ^ j &&& (2 ^ j - 1) = 0 := by intro j; rw [Nat.and_two_pow_sub_one_eq_mod, Nat.mod_self]
    by_cases hle : vec ≤ 128
    · rw [Nat.max_eq_right hle]; decide
    · rw [Nat.max_eq_left (by omega), hv]; exact key k
  unfold bytesPerRow validBytes
  rw [if_neg (by omega), safeMul_spec, if_pos (by omega)]
  dsimp only
  rw [show kAlignment = 128 from rfl, show kAlias = 2048 from rfl]
  rw [if_pos (show vec ≠ 0 by omega), if_pos (show vec ≥ sizeofT from hsv), safeAdd_spec _ _ (by omega) (by omega), if_pos (by omega)]
  simp only
  have hb := roundUp_bounds (xsize * sizeofT + (vec - sizeofT)) (max vec 128) (by omega)
  rw [if_pos (by simpa [powerOfTwoTest] using hpow), safeRoundUpTo_spec _ _ (by omega) (by omega) (by omega), if_pos (by omega)]
  simp only
  split
  · rw [safeAdd_spec _ _ (by omega) (by omega), if_pos (by omega)]; exact ⟨_, rfl⟩
  · exact ⟨_, rfl⟩

/-- **C32, alignment.**  For every address the allocator can return (the block ends inside the address space), every counter value and every
pre-padding up to 2 KiB: the address handed out is a multiple of 128, at least `prePadding` bytes into the block, and `size` bytes fit behind it. -/
theorem C32_aligned (counter a size pre n : Nat) (hs : size < 2 ^ 64) (hn : allocationSize size pre = some n) (ha : a + n ≤ 2 ^ 64) :
    n = size + pre + 2048 ∧ 128 ∣ alignedAddress counter a pre ∧ a + pre ≤ alignedAddress counter a pre ∧
      alignedAddress counter a pre + size ≤ a + n ∧ alignedAddress counter a pre % 2048 = 128 * (counter % 16) := by
  unfold allocationSize at hn
  rw [show kAlias = 2048 from rfl] at hn
  by_cases hp : pre ≤ 2048
  · rw [if_pos hp] at hn
    rw [safeAdd_spec _ _ hs (by omega)] at hn
    by_cases h1 : size + pre < 2 ^ 64
    · simp only [if_pos h1] at hn
      rw [safeAdd_spec _ _ h1 (by omega)] at hn
      by_cases h2 : size + pre + 2048 < 2 ^ 64
      · rw [if_pos h2] at hn
        cases hn
        have hg : (counter % 2 ^ 32) &&& (16 - 1) = counter % 16 := by
          rw [show (16 : Nat) = 2 ^ 4 from rfl, Nat.and_two_pow_sub_one_eq_mod]; omega
        unfold alignedAddress
        rw [show kAlias = 2048 from rfl, show kNumAlignmentGroups = 16 from rfl, show kAlignment = 128 from rfl]
        dsimp only
        rw [hg]
        unfold w64
        have e1 : (a + pre) % 2 ^ 64 = a + pre := by omega
        rw [e1]
        have e2 : (a + pre - (a + pre) % 2048 + 128 * (counter % 16)) % 2 ^ 64 = a + pre - (a + pre) % 2048 + 128 * (counter % 16) := by omega
        rw [e2]
        split
        · rename_i hlt
          have e3 : (a + pre - (a + pre) % 2048 + 128 * (counter % 16) + 2048) % 2 ^ 64 = a + pre - (a + pre) % 2048 + 128 * (counter % 16) + 2048 := by
            omega
          rw [e3]
          omega
        · omega
      · rw [if_neg h2] at hn; cases hn
    · simp only [if_neg h1] at hn; cases hn
  · rw [if_neg hp] at hn; cases hn

/-- **C32, planes.**  When a plane is allocated, every row lies inside the allocated block, with room for a full vector starting at any sample; rows
do not overlap. -/
theorem C32_plane (vec counter : Nat) (alloc : Nat → Option Nat) (halloc : ∀ n a, alloc n = some a → a + n ≤ 2 ^ 64) (xsize ysize sizeofT pre : Nat)
    (hv : vec < 2 ^ 32) (h0 : 0 < xsize) (h1 : 0 < ysize) (p : Plane)
    (h : allocate vec counter alloc xsize ysize sizeofT pre = some p) :
    ∃ n a start, p.mem = some (n, start) ∧ alloc n = some a ∧ 128 ∣ start ∧ (pre * sizeofT < 2 ^ 64 → a + pre * sizeofT ≤ start) ∧
      ∀ x < xsize, ∀ y < ysize, a ≤ start + y * p.bytesPerRow + x * sizeofT ∧
        start + y * p.bytesPerRow + x * sizeofT + max vec sizeofT ≤ start + (y + 1) * p.bytesPerRow ∧
        start + (y + 1) * p.bytesPerRow ≤ a + n := by
  unfold allocate at h
  split at h
  · cases h
  rename_i bpr hb
  have hst := C32_stride_partial vec xsize sizeofT bpr hv h0 hb
  rw [if_neg (by omega), safeMul_spec] at h
  by_cases hm : ysize * bpr < 2 ^ 64
  · simp only [if_pos hm] at h
    split at h
    · cases h
    rename_i n hn
    split at h
    · cases h
    rename_i a ha
    cases h
    have hal := C32_aligned counter a (ysize * bpr) (w64 (pre * sizeofT)) n hm hn (halloc n a ha)
    refine ⟨n, a, _, rfl, ha, hal.2.1, ?_, ?_⟩
    · intro hp
      have := hal.2.2.1
      rw [w64, Nat.mod_eq_of_lt hp] at this ⊢
      exact this
    intro x hx' y hy'
    simp only
    generalize alignedAddress counter a (w64 (pre * sizeofT)) = start at hal
    have hrow : (y + 1) * bpr ≤ ysize * bpr := Nat.mul_le_mul_right _ hy'
    have hcol : (x + 1) * sizeofT ≤ xsize * sizeofT := Nat.mul_le_mul_right _ hx'
    rw [Nat.add_mul, Nat.one_mul] at hrow hcol ⊢
    generalize y * bpr = Y at *
    generalize x * sizeofT = X at *
    generalize xsize * sizeofT = XS at *
    generalize ysize * bpr = YS at *
    have := hst.1
    omega
  · simp only [if_neg hm] at h; cases h

/-- The 2 KiB rule is violated by the code when vectors have 2 KiB: the correction adds a multiple of 2 KiB. -/
theorem C32_two_kib_fails : ∃ vec xsize sizeofT bpr, 0 < xsize ∧ bytesPerRow vec xsize sizeofT = some bpr ∧ 2048 ∣ bpr :=
  ⟨2048, 10, 4, 6144, by decide, by decide +kernel, by decide⟩

example : bytesPerRow 32 500 4 = some (2048 + 128) ∧ bytesPerRow 32 (2 ^ 62) 4 = none ∧ bytesPerRow 32 0 4 = some 0 ∧
    allocationSize 1000 64 = some 3112 ∧ alignedAddress 5 1000 64 = 2688 := by decide +kernel

example : (allocate 32 3 (fun n => if n < 10 ^ 6 then some 5000 else none) 500 20 4 8).map (fun p => (p.bytesPerRow, p.mem)) =
    some (2176, some (45600, 6528)) ∧ (allocate 32 3 (fun _ => none) 500 20 4 8).isNone := by decide +kernel

end Jxl.Props
