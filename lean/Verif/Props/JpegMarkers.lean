import Verif.Lemmas.JpegLoop
import Verif.Lemmas.JpegRange
import Verif.Props.JpegParse
/-!
# C52: a JPEG file is rebuilt byte for byte; C53: reading any bytes as a JPEG file is safe

`Jpeg.readJpeg` reads the bytes of a file into a `Jpeg.Jpg` (`none`: undefined behaviour or no end, `some none`:
refused); `Jpeg.writeJpeg` writes a file from it.

Full statement of C52: for every file that is accepted, the writer returns its bytes.  It does not hold: see
`C52_empty_table_refused`.
-/
namespace Jxl.Props
open Jxl.Jpeg

/-- C53: whatever the bytes, reading them as a JPEG file ends, and never leaves the input, the lookup tables, the blocks
or the lists it keeps. -/
theorem C53_safe (d : List Nat) (hb : ∀ b ∈ d, b < 256) : readJpeg d ≠ none := (read_ok hb).defined

/-- C53: what is accepted begins with the start marker; after the last segment the end marker stands, and what is after
it is kept; every block has 64 coefficients. -/
theorem C53_accepted (d : List Nat) (j : Jpg) (hb : ∀ b ∈ d, b < 256) (hr : readJpeg d = some (some j)) :
    ∃ q, 4 ≤ q ∧ q ≤ d.length ∧ d.take 2 = [255, 0xd8] ∧ d[q - 2]? = some 255 ∧ d[q - 1]? = some 0xd9 ∧ j.tail = d.drop q ∧
      ∀ c i, (j.store c i).length = 64 := by
  obtain ⟨fin, q, xs, h⟩ := (read_ok hb).get hr
  exact ⟨q, h.run.le, h.run.len, h.first, h.run.mark.1, h.run.mark.2, h.tail, by rw [h.store]; exact h.run.good.len⟩

/-- C52: any accepted file, baseline or progressive, with any markers in any order, restarts, bytes between markers and
bytes after the end.  If the writer stays in its output chunk (see C45), it is not refused and returns the same bytes.
Missing: files in which an empty segment of Huffman tables meets a refinement of DC coefficients (refused, below), and
baseline files whose scan header ends in a byte 255. -/
theorem C52_rebuilt_partial (d : List Nat) (j : Jpg) (res : Option (List Nat)) (hb : ∀ b ∈ d, b < 256)
    (hr : readJpeg d = some (some j)) (hA : ∀ s ∈ j.scans, ¬ (s.ah = 15 ∧ s.al = 15))
    (hE : (∀ h ∈ j.huff, h.values ≠ []) ∨ ∀ s ∈ j.scans, s.ss = 0 → s.ah = 0) (hw : writeJpeg j = some res) : res = some d := by
  obtain ⟨fin, q, xs, h⟩ := (read_ok hb).get hr
  rcases (h.facts hb hA hE).2.2 with ⟨h1, _⟩ | h1
  · rw [h1] at hw; cases hw
  · rw [h1] at hw
    injection hw with hw
    exact hw.symm

/-- C52: files without refinement scans are always rebuilt, as long as the DC coefficients have at most 11 bits. -/
theorem C52_rebuilt_unrefined (d : List Nat) (j : Jpg) (hb : ∀ b ∈ d, b < 256) (hr : readJpeg d = some (some j))
    (hA : ∀ s ∈ j.scans, s.ah = 0) (hdc : ∀ c i, ((j.store c i).headD 0).natAbs ≤ 2047) : writeJpeg j = some (some d) := by
  obtain ⟨fin, q, xs, h⟩ := (read_ok hb).get hr
  obtain ⟨k1, k2, k3⟩ := h.facts hb (fun s hs hh => by rw [hA s hs] at hh; exact absurd hh.1 (by decide)) (Or.inr fun s hs _ => hA s hs)
  rcases k3 with ⟨_, x, hx, pads, hs⟩ | k3
  · exfalso
    have hcoarse := h.run.coarse hA
    obtain ⟨n1, n2⟩ := parseFile_range _ _ _ _ _ (fun s hs => by
        obtain ⟨x, hx, rfl⟩ := List.mem_map.mp hs
        exact k1 x hx) (fun s hs => by
        obtain ⟨x, hx, rfl⟩ := List.mem_map.mp hs
        exact hcoarse x hx) empty_narrow k2
    exact encodeScan_some (hcoarse x hx) pads _
      (writerSteps_ok n1 hdc _ _ _ _ (k1 x hx).tables (n2 x.2 (List.mem_map.mpr ⟨x, hx, rfl⟩))) hs
  · exact k3

/-- C52: two different files never give the same data (under the conditions of `C52_rebuilt_unrefined`). -/
theorem C52_told_apart (d d' : List Nat) (j : Jpg) (hb : ∀ b ∈ d, b < 256) (hb' : ∀ b ∈ d', b < 256)
    (hr : readJpeg d = some (some j)) (hr' : readJpeg d' = some (some j)) (hA : ∀ s ∈ j.scans, s.ah = 0)
    (hdc : ∀ c i, ((j.store c i).headD 0).natAbs ≤ 2047) : d = d' := by
  have h1 := C52_rebuilt_unrefined d j hb hr hA hdc
  rw [C52_rebuilt_unrefined d' j hb' hr' hA hdc] at h1
  injection h1 with h1
  injection h1 with h1
  exact h1.symm

/-! ## Files -/

/-- A segment with no Huffman table in it, and a refinement scan that names DC table 0. -/
def emptyTableFile : List Nat :=
  [255, 0xd8, 255, 0xc4, 0, 2, 255, 0xdb, 0, 0x43, 0] ++ List.replicate 64 1 ++
    [255, 0xc2, 0, 11, 8, 0, 8, 0, 8, 1, 1, 0x11, 0, 255, 0xda, 0, 8, 1, 1, 0, 0, 0, 0x10, 0x7f, 255, 0xd9]

/-- C52 does not hold for all accepted files: this one is accepted, and the writer refuses to rebuild it. -/
theorem C52_empty_table_refused : ∃ d j, (∀ b ∈ d, b < 256) ∧ readJpeg d = some (some j) ∧ writeJpeg j = some none := by
  have h : (match readJpeg emptyTableFile with
    | some (some j) => (match writeJpeg j with | some none => true | _ => false)
    | _ => false) = true := by decide +kernel
  generalize hr : readJpeg emptyTableFile = r at h
  match r, h with
  | some (some j), h =>
    refine ⟨emptyTableFile, j, by decide +kernel, hr, ?_⟩
    simp only at h
    generalize writeJpeg j = w at h
    match w, h with
    | some none, _ => rfl

/-- Two blocks, one above the other, with a restart between them; an application segment, stray bytes before a marker,
padding bits that are ones, and bytes after the end. -/
def wholeFile : List Nat :=
  [255, 0xd8, 255, 0xe0, 0, 3, 7, 1, 2, 255, 0xdb, 0, 0x43, 0] ++ List.replicate 64 3 ++
    [255, 0xc0, 0, 11, 8, 0, 9, 0, 5, 1, 1, 0x11, 0,
     255, 0xc4, 0, 24, 0, 0, 3, 1, 1, 0, 0, 0, 0, 0, 0, 0, 0, 0, 0, 0, 0, 0, 1, 2, 3, 4,
     255, 0xc4, 0, 26, 16, 0, 2, 2, 2, 0, 0, 0, 0, 1, 0, 0, 0, 0, 0, 0, 0, 0, 1, 2, 0xf0, 0x10, 0x11, 0x31,
     255, 0xdd, 0, 4, 0, 1, 255, 0xda, 0, 8, 1, 1, 0, 0, 63, 0, 0x0f, 255, 0xd0, 0x6c, 255, 0xd9, 5, 6]

/-- It is accepted, and the hypotheses of C52 hold. -/
example : (match readJpeg wholeFile with
    | some (some j) => j.scans.all (fun s => s.ah == 0) && (j.store 0 0).take 3 == [0, 0, 0] && (j.store 0 1).take 3 == [1, 1, 0] &&
        j.markers == [0xe0, 0xff, 0xdb, 0xc0, 0xc4, 0xc4, 0xdd, 0xda, 0xd9] && j.inter == [[1, 2]] && j.tail == [5, 6] &&
        j.pads == [1, 1, 1, 1] && writeJpeg j == some (some wholeFile)
    | _ => false) = true := by decide +kernel

/-- A progressive file with a refinement of both kinds meets the hypotheses of `C52_rebuilt_partial`. -/
def refinedFile : List Nat :=
  [255, 0xd8, 255, 0xdb, 0, 0x43, 0] ++ List.replicate 64 3 ++
    [255, 0xc2, 0, 11, 8, 0, 8, 0, 8, 1, 1, 0x11, 0,
     255, 0xc4, 0, 24, 0, 0, 3, 1, 1, 0, 0, 0, 0, 0, 0, 0, 0, 0, 0, 0, 0, 0, 1, 2, 3, 4,
     255, 0xc4, 0, 26, 16, 0, 2, 2, 2, 0, 0, 0, 0, 1, 0, 0, 0, 0, 0, 0, 0, 0, 1, 2, 0xf0, 0x10, 0x11, 0x31,
     255, 0xda, 0, 8, 1, 1, 0, 0, 0, 1, 0x6f, 255, 0xda, 0, 8, 1, 1, 0, 1, 63, 1, 0x67,
     255, 0xda, 0, 8, 1, 1, 0, 0, 0, 0x10, 0x7f, 255, 0xda, 0, 8, 1, 1, 0, 1, 63, 0x10, 0x3f, 255, 0xd9]

example : (match readJpeg refinedFile with
    | some (some j) => j.scans.all (fun s => !(s.ah == 15 && s.al == 15)) && j.huff.all (fun h => h.values != []) &&
        j.scans.length == 4 && (j.store 0 0).take 3 == [2, 3, 0] && writeJpeg j == some (some refinedFile)
    | _ => false) = true := by decide +kernel

end Jxl.Props
