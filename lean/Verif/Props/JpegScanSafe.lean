import Verif.Lemmas.JpegScanSafe
/-!
# C45: rebuilding a JPEG never writes outside its output chunk

The outcome `none` of `encodeScan` is undefined behaviour, above all a store outside the 16384 bytes of the
current chunk.  Full statement: for every mode, all blocks, tables, restarts and reset points, `encodeScan ≠ none`.

True for sequential scans and for first scans of a band.  False for refinement scans
(`C45_refinement_overflow`): the 512 bytes reserved for a block are used up by the refinement bits of earlier
blocks, and after them only 16 bytes are reserved for what follows.  True for refinement scans in which at most
916 bits are waiting before each block (`C45_refinement_partial`).
-/
namespace Jxl.Props
open Jxl.Jpeg

/-- Sequential scans: every list of blocks and restarts, any padding bits. -/
theorem C45_sequential (xs : List Step) (pads : Option (List Nat)) (ac : Huff) (hx : ∀ x ∈ xs, StepOk x) :
    encodeScan .sequential xs pads ac ≠ none :=
  scan_end (runSteps_some (fun _ _ _ h => by cases h) xs _ (init_inv pads ac) hx)

/-- First scans of any band, at any bit position. -/
theorem C45_first_scan (ss se al : Nat) (xs : List Step) (pads : Option (List Nat)) (ac : Huff)
    (hx : ∀ x ∈ xs, StepOk x) : encodeScan (.first ss se al) xs pads ac ≠ none :=
  scan_end (runSteps_some (fun _ _ _ h => by cases h) xs _ (init_inv pads ac) hx)

/-- Refinement scans, as long as no more than 916 bits of earlier blocks are waiting when a block begins. -/
theorem C45_refinement_partial (ss se al : Nat) (xs : List Step) (pads : Option (List Nat)) (ac : Huff)
    (hx : ∀ x ∈ xs, StepOk x) (hw : WaitLe 916 ss se al xs 0) : encodeScan (.refine ss se al) xs pads ac ≠ none :=
  scan_end (runSteps_refine xs _ 0 (init_inv pads ac) hx hw)

/-- A table with two codes of 16 bits, for a new coefficient at once (0x01) and for a run of 32 to 63 ends of
band (0x50). -/
def c45Huff : Huff :=
  { depth := fun s => if s = 1 ∨ s = 0x50 then 16 else 127, code := fun s => if s = 0x50 then 1 else 0 }

/-- A block with the given AC coefficients. -/
def c45Block (cs : List Int) : Step := .block 0 c45Huff c45Huff (0 :: cs) 0

/-- 151 blocks: 119 that place the position in the chunk, then 32 that only have bits to refine. -/
def c45Before : List Step :=
  List.replicate 118 (c45Block (List.replicate 63 (-1))) ++
    c45Block (List.replicate 27 2 ++ List.replicate 36 (-1)) :: List.replicate 32 (c45Block (List.replicate 62 3 ++ [0]))

/-- The block that overflows: 62 coefficients to refine, then a new one. -/
def c45Last : List Int := List.replicate 62 3 ++ [1]

/-- The writer while the last block is being coded, after the flush, the symbol, the sign and `k` of the 62
refinement bits. -/
def c45Inside (k : Nat) : Option Writer :=
  match runSteps (.refine 1 63 0) c45Before (Scan.init none c45Huff) with
  | some (some st) =>
    (flush st.coding (reserve st.w 512)).bind fun p => (writeSymbol 1 c45Huff p.2).bind fun w =>
      (writeBits w 1 1).bind (writeOnes (List.replicate k 1))
  | _ => none

theorem c45_steps_ok : ∀ x ∈ c45Before ++ [c45Block c45Last], StepOk x := by
  have hh : HuffOk c45Huff := by
    intro s _
    unfold c45Huff
    simp only
    split
    · left; omega
    · right; rfl
  have hb : ∀ cs : List Int, cs.length = 63 → (∀ c ∈ cs, c.natAbs ≤ 4095) → StepOk (c45Block cs) := by
    intro cs h1 h2
    refine ⟨hh, hh, by simp [h1], by show (0 : Int).natAbs ≤ 2047; decide, ?_, by decide⟩
    intro c hc
    rcases List.mem_cons.1 hc with rfl | hc
    · decide
    · exact h2 c hc
  intro x hx
  simp only [c45Before, List.mem_append, List.mem_cons, List.mem_replicate, List.not_mem_nil, or_false] at hx
  rcases hx with (⟨_, rfl⟩ | rfl | ⟨_, rfl⟩) | rfl
  all_goals exact hb _ (by decide) (by decide)

/-- Refinement scans do leave the chunk: 152 admissible blocks. -/
theorem C45_refinement_overflow :
    ∃ xs ac, (∀ x ∈ xs, StepOk x) ∧ encodeScan (.refine 1 63 0) xs none ac = none :=
  ⟨c45Before ++ [c45Block c45Last], c45Huff, c45_steps_ok, by
    have h : (encodeScan (.refine 1 63 0) (c45Before ++ [c45Block c45Last]) none c45Huff).isNone = true := by
      decide +kernel
    exact Option.isNone_iff_eq_none.1 h⟩

/-- Where it happens: after 49 of the 62 refinement bits the bit buffer is full at position 16375; its eight bytes
take 14 with the stuffed zeros and end at 16389, five bytes behind the chunk. -/
theorem C45_overflow_position :
    (c45Inside 49).map (fun w => (w.pos, w.room, w.pos + (stuff (be64Rev w.buf).reverse).length)) =
      some (16375, 0, 16389) ∧ (c45Inside 50).isNone = true ∧ chunkSize = 16384 := by decide +kernel

/-- A refinement scan meeting the hypotheses, with bits waiting between blocks, a reset point and a restart. -/
def c45Some : List Step :=
  [c45Block c45Last, .reset, c45Block (List.replicate 62 3 ++ [0]), c45Block (List.replicate 62 3 ++ [0]), .restart,
    c45Block (List.replicate 63 (-1))]

example : WaitLe 916 1 63 0 c45Some 0 := by
  refine ⟨by decide, ?_, ?_, ?_, trivial⟩ <;> decide +kernel

example : (c45Some.map fun x => match x with | .block _ _ _ c _ => waitAc 0 (band 1 63 c) 0 | _ => 0) =
    [0, 0, 62, 62, 0, 0] := by decide +kernel

example : ((encodeScan (.refine 1 63 0) c45Some none c45Huff).map (·.map fun st => (st.w.pos, st.w.room))).isSome =
    true := by decide +kernel

/-- A sequential block: DC difference 5, three coefficients with a run of 20 zeros between them, one extra run of
zeros recorded, end of block. -/
def c45Seq : Huff := { depth := fun s => if s < 128 then 8 else 9, code := fun s => s }

example : (encodeScan .sequential [.block 0 c45Seq c45Seq (5 :: 3 :: List.replicate 20 0 ++ -2 :: List.replicate 41 0) 1,
    .restart, .block 0 c45Seq c45Seq (List.replicate 64 0) 0] none c45Seq).map (·.map fun st => st.w.out.reverse) =
    some (some [3, 160, 91, 193, 9, 120, 0, 127, 255, 208, 0, 0]) := by decide +kernel

example : (encodeScan (.first 1 63 1) [.block 0 c45Seq c45Seq (5 :: 3 :: List.replicate 62 0) 0,
    .block 0 c45Seq c45Seq (5 :: 1 :: List.replicate 62 0) 0, .reset] none c45Seq).map (·.map fun st => st.w.out.reverse) =
    some (some [1, 136, 63]) := by decide +kernel

end Jxl.Props
