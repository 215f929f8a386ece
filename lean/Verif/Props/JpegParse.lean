import Verif.Lemmas.JpegRange
/-!
# C51: the scans of a JPEG file are rebuilt byte for byte

`Jpeg.parseFile` reads the scans of a file into coefficients, reset points, extra zero runs and padding bits;
`Jpeg.writeFile` rebuilds the scans from the coefficients at the end of the file and from these records.
`Jpeg.Ends`, `Jpeg.ScanOk` say what the rest of the file guarantees, `Jpeg.scanData` are the bytes of a scan.

Full statement: for every file that the parser accepts, the writer produces the bytes of all scans.  Proved for all
modes of scans, in any order and number, whenever the writer does not leave its output chunk (which refinement scans
can make it do, C45); for files without refinement scans that cannot happen.
-/
namespace Jxl.Props
open Jxl.Jpeg

/-- Any bytes, any list of scans (sequential, first, refinement; any bands, bit positions, restarts, tables): if the
parser accepts them, the writer is never refused and rebuilds exactly the bytes the scans were read from. -/
theorem C51_rebuilt_partial (d : List Nat) (q : Nat) (ss : List ScanIn) (os : List ParsedScan) (fin : Store) (ac : Huff)
    (res : Option (List (List Nat))) (hd : Ends d q) (hok : ∀ s ∈ ss, ScanOk d q s)
    (hp : parseFile d ss (fun _ _ => 0) Store.empty = some (some (os, fin)))
    (hw : writeFile fin ac (ss.zip os) (padSource (os.flatMap (·.pads))) = some res) :
    os.length = ss.length ∧ res = some ((ss.zip os).map fun x => scanData d x.1 x.2) := by
  obtain ⟨h1, _, h3, h4⟩ := parse_file hd ss _ _ _ _ hok between_start hp
  refine ⟨h1, write_file _ [] _ res (fun x hx => (h4 x hx).2) ?_ hw⟩
  rw [zip_pads ss os h1]
  apply padsFor_source
  intro b hb
  obtain ⟨o, ho, hbo⟩ := List.mem_flatMap.mp hb
  exact h3 o ho b hbo

/-- Files without refinement scans (baseline and sequential files, progressive files by spectral selection only):
the writer also completes, as long as the DC coefficients have at most 11 bits. -/
theorem C51_rebuilt_unrefined (d : List Nat) (q : Nat) (ss : List ScanIn) (os : List ParsedScan) (fin : Store) (ac : Huff)
    (hd : Ends d q) (hok : ∀ s ∈ ss, ScanOk d q s) (hr : ∀ s ∈ ss, s.mode.refining = false)
    (hp : parseFile d ss (fun _ _ => 0) Store.empty = some (some (os, fin)))
    (hdc : ∀ c i, ((fin c i).headD 0).natAbs ≤ 2047) :
    os.length = ss.length ∧
      writeFile fin ac (ss.zip os) (padSource (os.flatMap (·.pads))) =
        some (some ((ss.zip os).map fun x => scanData d x.1 x.2)) := by
  obtain ⟨k1, k2⟩ := parseFile_range ss _ _ _ _ hok hr empty_narrow hp
  have hne := writeFile_some k1 hdc ac (ss.zip os) (padSource (os.flatMap (·.pads)))
    (fun x hx => hr x.1 (List.of_mem_zip hx).1) (fun x hx => (hok x.1 (List.of_mem_zip hx).1).tables)
    (fun x hx => k2 x.2 (List.of_mem_zip hx).2)
  cases hw : writeFile fin ac (ss.zip os) (padSource (os.flatMap (·.pads))) with
  | none => exact absurd hw hne
  | some res =>
    obtain ⟨g1, g2⟩ := C51_rebuilt_partial d q ss os fin ac res hd hok hp hw
    exact ⟨g1, by rw [g2]⟩

/-- Later scans never disturb what an earlier scan has to write: the coefficients after the scans already read and
those at the end of the file agree in every bit coded so far, in DC coefficients (rounded down) and AC coefficients
(rounded towards zero). -/
theorem C51_bits_kept (d : List Nat) (q : Nat) (ss : List ScanIn) (p : Progress) (st : Store) (os : List ParsedScan) (fin : Store)
    (hd : Ends d q) (hok : ∀ s ∈ ss, ScanOk d q s) (hb : Between p st) (hp : parseFile d ss p st = some (some (os, fin)))
    (c i n : Nat) :
    ((p c 0).testBit n = true → (fin c i)[0]?.getD 0 / ((2 ^ n : Nat) : Int) = (st c i)[0]?.getD 0 / ((2 ^ n : Nat) : Int)) ∧
    (∀ k, 0 < k → (p c k).testBit n = true →
      ((fin c i)[k]?.getD 0).tdiv ((2 ^ n : Nat) : Int) = ((st c i)[k]?.getD 0).tdiv ((2 ^ n : Nat) : Int)) := by
  obtain ⟨_, h2, _, _⟩ := parse_file hd ss _ _ _ _ hok hb hp
  constructor
  · intro h
    have := h2.2 c i 0 n h
    simpa [view] using this
  · intro k hk h
    have := h2.2 c i k n h
    unfold view at this
    rw [if_neg (by omega), if_neg (by omega)] at this
    exact this

/-! ## A file -/

/-- A table read into a fresh slot. -/
def parseDemoTable (isAc : Bool) (counts values : List Nat) : Table :=
  match readTable isAc counts values (List.replicate 1024 LutEntry.fresh) with
  | some (some x) => x
  | _ => ([], [])

theorem parseDemoTable_ok {isAc : Bool} {counts values : List Nat} (hc : counts.length = 16) (hv : ∀ v ∈ values, v < 256)
    (h : (parseDemoTable isAc counts values).1 ≠ []) : FromFile (parseDemoTable isAc counts values) := by
  refine ⟨_, isAc, counts, values, Slot.fresh, hc, hv, ?_⟩
  unfold parseDemoTable at h ⊢
  generalize readTable isAc counts values (List.replicate 1024 LutEntry.fresh) = r at h ⊢
  match r, h with
  | some (some x), _ => rfl
  | some none, h => exact absurd rfl h
  | none, h => exact absurd rfl h

def parseDemoDc : Table := parseDemoTable false [0, 3, 1, 1, 0, 0, 0, 0, 0, 0, 0, 0, 0, 0, 0, 0] [0, 1, 2, 3, 4]
def parseDemoAc : Table := parseDemoTable true [0, 2, 2, 2, 0, 0, 0, 0, 1, 0, 0, 0, 0, 0, 0, 0] [0, 1, 2, 0xF0, 0x10, 0x11, 0x31]

/-- Four blocks with a restart before the last. -/
def parseDemoUnits : List ScanUnit :=
  [.block 0 0 parseDemoDc parseDemoAc, .block 0 1 parseDemoDc parseDemoAc, .block 0 3 parseDemoDc parseDemoAc, .restart,
    .block 0 2 parseDemoDc parseDemoAc]

/-- A progressive file: DC and AC without their last bit (padded with zeros), then the last bit of both (padded with
ones).  The second scan has two runs of ends of band in a row and extra zero runs. -/
def parseDemoFile : List Nat :=
  [255, 218, 0, 141, 128, 255, 208, 176, 255, 218, 0, 119, 128, 183, 0, 255, 208, 224, 104, 255, 218, 0, 255, 0, 255,
    208, 255, 0, 255, 218, 0, 224, 117, 118, 107, 31, 255, 208, 31, 255, 217]

def parseDemoScans : List ScanIn :=
  [⟨.first 0 0 1, [0], parseDemoUnits, 3⟩, ⟨.first 1 63 1, [0], parseDemoUnits, 11⟩, ⟨.refine 0 0 0, [0], parseDemoUnits, 22⟩,
    ⟨.refine 1 63 0, [0], parseDemoUnits, 31⟩]

theorem parseDemo_ends : Ends parseDemoFile 39 := ⟨by decide, rfl, 217, rfl, by decide, by decide⟩

theorem parseDemo_tables : FromFile parseDemoDc ∧ FromFile parseDemoAc :=
  ⟨parseDemoTable_ok rfl (by decide) (by decide +kernel), parseDemoTable_ok rfl (by decide) (by decide +kernel)⟩

theorem parseDemo_scans : ∀ s ∈ parseDemoScans, ScanOk parseDemoFile 39 s := by
  have ht : ∀ u ∈ parseDemoUnits, TablesOk u := by
    intro u hu
    simp only [parseDemoUnits, List.mem_cons, List.not_mem_nil, or_false] at hu
    rcases hu with rfl | rfl | rfl | rfl | rfl
    all_goals first | exact ⟨.inl parseDemo_tables.1, .inl parseDemo_tables.2⟩ | trivial
  have hb : blocks parseDemoUnits = [(0, 0), (0, 1), (0, 3), (0, 2)] := rfl
  have ho : (blocks parseDemoUnits).Nodup := by rw [hb]; decide
  have hc : ∀ c i, (c, i) ∈ blocks parseDemoUnits → c ∈ [0] := by
    intro c i h
    rw [hb] at h
    simp at h ⊢
    omega
  intro s hs
  simp only [parseDemoScans, List.mem_cons, List.not_mem_nil, or_false] at hs
  rcases hs with rfl | rfl | rfl | rfl
  all_goals exact ⟨by unfold ModeOk; decide, ht, ho, hc, by decide, by decide⟩

/-- The parser accepts it: coefficients, records, padding bits; and the writer completes. -/
example : (match parseFile parseDemoFile parseDemoScans (fun _ _ => 0) Store.empty with
    | some (some (os, fin)) =>
      (os.map fun (o : ParsedScan) => (o.points, o.runs, o.pads.length, o.pos)) ==
          [([], [], 8, 8), ([2], [(0, 2), (3, 1)], 4, 19), ([], [], 12, 28), ([], [], 10, 39)] &&
        (fin 0 0).take 6 == [-5, 3, 0, 0, 0, 1] && (fin 0 0)[21]? == some (-2) && (fin 0 0)[40]? == some 1 &&
        (fin 0 1).take 3 == [7, 0, -1] && (fin 0 2).take 5 == [7, 0, 0, 0, 2] && (fin 0 3).take 3 == [7, 0, 0] &&
        (writeFile fin (codeTable parseDemoAc.1) (parseDemoScans.zip os) (padSource (os.flatMap (·.pads))) ==
          some (some [[141, 128, 255, 208, 176], [119, 128, 183, 0, 255, 208, 224, 104], [255, 0, 255, 208, 255, 0],
            [224, 117, 118, 107, 31, 255, 208, 31]]))
    | _ => false) = true := by decide +kernel

/-- Scans that overlap, or come after a finer one, are refused. -/
example : (match parseFile parseDemoFile (parseDemoScans.take 1) (fun _ _ => 0) Store.empty,
      parseFile parseDemoFile (parseDemoScans.take 1 ++ parseDemoScans.take 1) (fun _ _ => 0) Store.empty,
      parseFile parseDemoFile [⟨.refine 0 0 0, [0], parseDemoUnits, 22⟩, ⟨.first 0 0 1, [0], parseDemoUnits, 3⟩] (fun _ _ => 0) Store.empty with
    | some (some _), some none, some none => true
    | _, _, _ => false) = true := by decide +kernel

/-- A file without refinement scans meets the hypotheses of `C51_rebuilt_unrefined`. -/
example : ∃ os fin, parseFile parseDemoFile (parseDemoScans.take 2) (fun _ _ => 0) Store.empty = some (some (os, fin)) ∧
    (∀ s ∈ parseDemoScans.take 2, s.mode.refining = false) := by
  have h : (match parseFile parseDemoFile (parseDemoScans.take 2) (fun _ _ => 0) Store.empty with
    | some (some _) => true
    | _ => false) = true := by decide +kernel
  generalize parseFile parseDemoFile (parseDemoScans.take 2) (fun _ _ => 0) Store.empty = r at h
  match r, h with
  | some (some (os, fin)), _ => exact ⟨os, fin, rfl, by decide⟩

end Jxl.Props
