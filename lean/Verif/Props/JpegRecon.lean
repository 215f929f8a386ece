import Verif.Lemmas.JpegReconExact
/-!
# C56: the data from which a JPEG file is reconstructed are read back
-/
namespace Jxl.Props
open Jxl.Jpeg

/-- What is written of the data of a file of less than 4 GiB is read back, whatever follows.  Missing: files with 4 GiB or more
after their end (`C56_long_tail_not_read_back`). -/
theorem C56_recon_read_back_partial (same : Nat → Bool) (r : Recon) (ok : ReconOk r) (bits : List Bool)
    (h : putRecon same r = some (some bits)) (rest : List Bool) : getRecon (bits ++ rest) = some (some (r, rest)) :=
  recon_back ok h rest

/-- Whatever the bits, no array is accessed out of bounds. -/
theorem C56_any_bits_safe (s : List Bool) : getRecon s ≠ none := by
  obtain ⟨r, h, _⟩ := recon_sound s
  rw [h]
  exact fun h => by cases h

/-- The data that are accepted are exactly the sound ones. -/
theorem C56_accepted_iff_sound (r : Recon) : (∃ s rest, getRecon s = some (some (r, rest))) ↔ ReconSound r := by
  constructor
  · rintro ⟨s, rest, h⟩
    obtain ⟨x, h1, h2⟩ := recon_sound s
    rw [h] at h1
    cases h1
    exact h2 _ rfl
  · intro S
    obtain ⟨b, hb⟩ := putRecon_ok S
    exact ⟨b ++ [], [], recon_back (ok_of_sound S) hb []⟩

/-- Sound data can be written. -/
theorem C56_sound_written (r : Recon) (h : ReconSound r) : ∃ bits, putRecon (fun _ => true) r = some (some bits) := putRecon_ok h

/-- A file with one component, one scan, bytes between markers and bytes after its end. -/
def oneScanData : Recon where
  markers := [0xe0, 0xdb, 0xc0, 0xc4, 0xdd, 0xff, 0xda, 0xd9]
  app := [(0, 16)]
  com := []
  quant := [⟨0, 0, true⟩]
  comps := [(1, 0)]
  huff := [⟨0, false, 0 :: 1 :: 1 :: List.replicate 14 0, [3, 256]⟩, ⟨16, true, 0 :: 1 :: 1 :: List.replicate 14 0, [0, 256]⟩]
  scans := [⟨⟨0, 63, 0, 0, [⟨0, 0, 0⟩], 0⟩, [7], [(2, 1), (3, 1)]⟩]
  restart := 4
  inter := [9]
  tail := 2
  pads := some [1, 0]

def oneScanBits : List Bool := ((putRecon (fun _ => false) oneScanData).bind id).getD []

theorem oneScan_written : putRecon (fun _ => false) oneScanData = some (some oneScanBits) := by decide +kernel

/-- The hypotheses of `C56_recon_read_back_partial` are met, ... -/
example : ReconOk oneScanData ∧ putRecon (fun _ => false) oneScanData = some (some oneScanBits) :=
  ⟨{ bytes := by decide, eoi := by decide, inter := by decide, restart := by decide, slot := by decide, counts := by decide, values := by decide,
     bits := fun bs h => (by cases h; decide), appSmall := by decide, comSmall := by decide, interSmall := by decide, tailSmall := by decide,
     quantFew := by decide, compsFew := by decide, huffFew := by decide, padsFew := fun bs h => (by cases h; decide),
     scansFew := by decide }, oneScan_written⟩

/-- ... these data are accepted, ... -/
example : ∃ s rest, getRecon s = some (some (oneScanData, rest)) := ⟨oneScanBits, [], by decide +kernel⟩

/-- ... and a scan that uses a table no segment defines is not. -/
example : ∀ s rest, getRecon s ≠ some (some ({ oneScanData with scans := [⟨⟨0, 63, 0, 0, [⟨0, 1, 0⟩], 0⟩, [], []⟩] }, rest)) := by
  intro s rest h
  have S := (C56_accepted_iff_sound _).mp ⟨s, rest, h⟩
  obtain ⟨x, h1, h2⟩ := S.defined [0xe0, 0xdb, 0xc0, 0xc4, 0xdd, 0xff] [0xd9] rfl
  cases h1
  obtain ⟨t, h3, h4⟩ := (h2 ⟨0, 1, 0⟩ (by simp)).1 (Or.inl (by decide))
  have : ∀ t ∈ segmentTables ([0xe0, 0xdb, 0xc0, 0xc4, 0xdd, 0xff].count 0xc4) oneScanData.huff, t.slot ≠ 1 := by decide
  exact this t h3 h4

/-- The statement without the bound on sizes. -/
def ReconReadBack : Prop := ∀ (same : Nat → Bool) (r : Recon), ReconShape r → ∀ bits, putRecon same r = some (some bits) →
  ∀ rest, getRecon (bits ++ rest) = some (some (r, rest))

/-- With 4 GiB and two bytes after the end of the file, the size that is written and read back is two: the conversion to 32 bits
comes before the check. -/
theorem C56_long_tail_not_read_back : ¬ ReconReadBack := by
  intro h
  have h1 := h (fun _ => false) { oneScanData with tail := 2 ^ 32 + 2 }
    { bytes := by decide, eoi := by decide, inter := by decide, restart := by decide, slot := by decide, counts := by decide, values := by decide,
      bits := fun bs h => (by cases h; decide) } oneScanBits (by decide +kernel) []
  have h2 : getRecon (oneScanBits ++ []) = some (some (oneScanData, [])) := by decide +kernel
  rw [h2] at h1
  have h3 := congrArg (fun x => (x.bind id).map fun y => y.1.tail) h1
  simp [oneScanData] at h3

end Jxl.Props
