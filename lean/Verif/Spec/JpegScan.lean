import Verif.Model.JpegScan
/-!
# What a JPEG scan may contain

The inputs of the scan coder that can reach it, and the number of refinement bits waiting between two blocks of a
refinement scan, computed from the coefficients alone.
-/
namespace Jxl.Jpeg

/-- A Huffman table as `BuildHuffmanCodeTable` (dec_jpeg_data_writer.cc:280-319) leaves it: codes of 1 to 16 bits;
symbols without a code keep the depth 127. -/
def HuffOk (h : Huff) : Prop := ∀ s, s < 256 → (1 ≤ h.depth s ∧ h.depth s ≤ 16) ∨ h.depth s = 127

/-- Blocks as they leave the group decoder, and extra zero runs as accepted by `JPEGData::VisitFields`
(jpeg_data.cc:351-354). -/
def StepOk : Step → Prop
  | .restart => True
  | .reset => True
  | .block _ dc ac coeffs zeroRuns =>
    HuffOk dc ∧ HuffOk ac ∧ coeffs.length = 64 ∧ (coeffs.headD 0).natAbs ≤ 2047 ∧
      (∀ c ∈ coeffs, c.natAbs ≤ 4095) ∧ zeroRuns ≤ 4

/-- Refinement bits waiting after some coefficients of a block, if `p` were waiting before: a coefficient that
becomes nonzero in this scan sends everything out, one that was nonzero before adds its own bit. -/
def waitAc (al : Nat) (cs : List Int) (p : Nat) : Nat :=
  cs.foldl (fun p c => if c.natAbs >>> al = 1 then 0 else if c.natAbs >>> al > 1 then p + 1 else p) p

/-- The coefficients of the block that a scan of the band `ss..se` looks at, without DC. -/
def band (ss se : Nat) (coeffs : List Int) : List Int := (coeffs.take (se + 1)).drop (max 1 ss)

/-- The refinement bits waiting before every block never exceed `N`. -/
def WaitLe (N ss se al : Nat) : List Step → Nat → Prop
  | [], _ => True
  | .restart :: xs, _ => WaitLe N ss se al xs 0
  | .reset :: xs, _ => WaitLe N ss se al xs 0
  | .block _ _ _ coeffs _ :: xs, p => p ≤ N ∧ WaitLe N ss se al xs (waitAc al (band ss se coeffs) p)

end Jxl.Jpeg
