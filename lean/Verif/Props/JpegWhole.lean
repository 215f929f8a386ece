import Verif.Lemmas.JpegWhole
import Verif.Props.JpegMarkers
/-!
# C58: a JPEG file through a JPEG XL file
-/
namespace Jxl.Props
open Jxl.Jpeg Jxl.JpegMeta

/-- The encoder as it is by default, with exact arithmetic for DC coefficients. -/
def plainChoices : Choices := ⟨false, fun _ _ _ => 0, exactDc⟩

/-- A file that the encoder accepts comes back byte by byte, whatever it is: markers, tables, application data, comments,
bytes between markers and after the end, padding bits; and whatever the encoder chooses for colour maps and the rounding
of DC coefficients.  The compressor used for the metadata need only be invertible on bytes.  Coefficients are to be in the
range of 8 bits per sample (C59 has files beyond that which do not come back).  Missing: files of 4 GiB; files whose
profile is not intact (C57); the scans excluded in C52; the decoder may run into undefined behaviour where the writer of
C52 does; the entropy coding of the codestream. -/
theorem C58_file_rebuilt_partial (d : List Nat) (j : Jpg) (hb : ∀ b ∈ d, b < 256) (hl : d.length < 2 ^ 32)
    (hr : readJpeg d = some (some j)) (hpads : j.pads.length < 2 ^ 32) (profile : List Nat) (hp : ProfileIntact j.app profile)
    (hA : ∀ s ∈ j.scans, ¬ (s.ah = 15 ∧ s.al = 15))
    (hE : (∀ h ∈ j.huff, h.values ≠ []) ∨ ∀ s ∈ j.scans, s.ss = 0 → s.ah = 0)
    (hac : ∀ k i, ∀ x ∈ (j.store k i).drop 1, x.natAbs ≤ 2047)
    (hdc : ∀ k c q i, j.comps[k]? = some c → j.quant[c.quant]? = some q → ((j.store k i).headD 0).natAbs * q.values 0 ≤ 1024 + q.values 0)
    (compress : List Nat → List Nat) (decompress : List Nat → Option (List Nat))
    (hc : ∀ x : List Nat, (∀ b ∈ x, b < 256) → (∀ b ∈ compress x, b < 256) ∧ decompress (compress x) = some x)
    (e : Choices) (he : e.Ok) (builtin : List Nat) (t : Transcoded) (ht : transcode e compress builtin d = some (some t))
    (res : Option (List Nat)) (hw : reconstruct decompress t = some res) : res = some d := by
  rw [whole_back hb hr hl hpads hp hc he ⟨hac, hdc⟩ ht] at hw
  exact C52_rebuilt_partial d j res hb hr hA hE hw

/-- Files without refinement scans always come back if the encoder accepts them, as long as the DC coefficients are in
the range of 8 bits per sample. -/
theorem C58_file_rebuilt_unrefined (d : List Nat) (j : Jpg) (hb : ∀ b ∈ d, b < 256) (hl : d.length < 2 ^ 32)
    (hr : readJpeg d = some (some j)) (hpads : j.pads.length < 2 ^ 32) (profile : List Nat) (hp : ProfileIntact j.app profile)
    (hA : ∀ s ∈ j.scans, s.ah = 0)
    (hdc : ∀ k c q i, j.comps[k]? = some c → j.quant[c.quant]? = some q → ((j.store k i).headD 0).natAbs * q.values 0 ≤ 1024 + q.values 0)
    (compress : List Nat → List Nat) (decompress : List Nat → Option (List Nat))
    (hc : ∀ x : List Nat, (∀ b ∈ x, b < 256) → (∀ b ∈ compress x, b < 256) ∧ decompress (compress x) = some x)
    (e : Choices) (he : e.Ok) (builtin : List Nat) (t : Transcoded) (ht : transcode e compress builtin d = some (some t)) :
    reconstruct decompress t = some (some d) := by
  have hm : Moderate j := ⟨unrefined_narrow hb hr hA, hdc⟩
  rw [whole_back hb hr hl hpads hp hc he hm ht]
  exact C52_rebuilt_unrefined d j hb hr hA (moderate_dc hb hr hm)

/-- Whatever the bytes given to it, the encoder stays within its arrays, does not divide by zero and does not overflow:
always when it does not predict chroma, otherwise if the coefficients have at most 11 bits (C59 has the overflow). -/
theorem C58_encoder_safe (d : List Nat) (hb : ∀ b ∈ d, b < 256) (compress : List Nat → List Nat) (builtin : List Nat) (e : Choices)
    (he : e.force = false ∨ e.Ok ∧ ∀ j, readJpeg d = some (some j) → ∀ k i, ∀ x ∈ j.store k i, x.natAbs ≤ 2047) :
    transcode e compress builtin d ≠ none := by
  refine transcode_defined hb (fun j hj ycc modes qt hq => ?_) compress builtin
  rcases he with he | ⟨he, hs⟩
  · exact coded_unforced he j ycc modes qt
  · exact coded_defined he (hs j hj) ycc modes hq

example : plainChoices.force = false ∧ plainChoices.Ok := ⟨rfl, fun _ _ _ => (by show -128 ≤ (0 : Int) ∧ (0 : Int) ≤ 127; omega), exact_ok⟩

/-- The decoder allocates for each component as many blocks as the parser of the file did. -/
theorem C58_block_sizes (cs : List Comp) (modes : List Nat) (h : channelModes cs = some modes) (width height i k : Nat) (c : Comp)
    (hi : cs[i]? = some c) (hk : (jpegOrder true (cs.length == 1))[i]? = some k) :
    blocksOf hShift width modes k = blocksWide width cs c ∧ blocksOf vShift height modes k = divCeil height (maxV cs * 8) * c.v :=
  blocks_back h width height i c k hi hk

example : blocksOf hShift 17 [0, 1, 0] 0 = 2 ∧ blocksOf hShift 17 [0, 1, 0] 1 = 4 ∧
    channelModes [⟨1, 2, 2, 0⟩, ⟨2, 1, 1, 1⟩, ⟨3, 1, 1, 1⟩] = some [0, 1, 0] := by decide

/-- A grey file with an application segment, restart markers, padding bits and bytes after the end; the compressor keeps
its input. -/
example : (match transcode plainChoices id [] wholeFile with
    | some (some t) => t.box.length == 408 && t.content.modes == [0, 0, 0] && t.content.qt == List.replicate 192 3 &&
        reconstruct some t == some (some wholeFile)
    | _ => false) = true := by decide +kernel

/-- A progressive file with refinement scans. -/
example : (match transcode plainChoices id [] refinedFile with
    | some (some t) => reconstruct some t == some (some refinedFile)
    | _ => false) = true := by decide +kernel

/-- A colour file with two tables and chroma subsampling: 16×8 pixels, a comment, all coefficients zero. -/
def colourFile : List Nat :=
  [255, 0xd8, 255, 0xfe, 0, 4, 1, 2, 255, 0xdb, 0, 0x43, 0] ++ List.range' 1 64 ++ [255, 0xdb, 0, 0x43, 1] ++ List.replicate 64 9 ++
    [255, 0xc0, 0, 17, 8, 0, 8, 0, 16, 3, 1, 0x21, 0, 2, 0x11, 1, 3, 0x11, 1,
     255, 0xc4, 0, 20, 0, 1, 0, 0, 0, 0, 0, 0, 0, 0, 0, 0, 0, 0, 0, 0, 0, 0,
     255, 0xc4, 0, 20, 16, 1, 0, 0, 0, 0, 0, 0, 0, 0, 0, 0, 0, 0, 0, 0, 0, 0,
     255, 0xda, 0, 12, 3, 1, 0, 2, 0, 3, 0, 0, 63, 0, 0, 255, 0xd9]

example : (match transcode plainChoices id [] colourFile with
    | some (some t) => t.content.ycc && t.content.modes == [0, 2, 0] && t.content.qt.getD 65 0 == 3 && t.content.qt.getD 1 0 == 9 &&
        reconstruct some t == some (some colourFile)
    | _ => false) = true := by decide +kernel

end Jxl.Props
