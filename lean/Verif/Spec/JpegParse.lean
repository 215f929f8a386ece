import Verif.Spec.JpegBits
import Verif.Spec.JpegHuff
import Verif.Model.JpegParse
/-!
# Scans of a JPEG file (specification vocabulary)
-/
namespace Jxl.Jpeg

/-- The scan parameters `ProcessSOS` lets through (enc_jpeg_data_reader.cc:186-189). -/
def ModeOk (m : Mode) : Prop := m.ss ≤ m.se ∧ m.se ≤ 63

/-- The blocks of a scan, as pairs of component and index. -/
def blocks : List ScanUnit → List (Nat × Nat)
  | [] => []
  | .restart :: us => blocks us
  | .block comp idx _ _ :: us => (comp, idx) :: blocks us

/-- What a slot for tables holds: codes and lookup table of the last marker segment that named it, or nothing. -/
def InSlot (x : Table) : Prop := FromFile x ∨ x = ([], List.replicate 1024 LutEntry.fresh)

/-- The tables of a unit come from the slots of the file. -/
def TablesOk : ScanUnit → Prop
  | .restart => True
  | .block _ _ dc ac => InSlot dc ∧ InSlot ac

/-- The padding bits the writer is given: the recorded ones, or none at all when none of the recorded ones is zero. -/
def PadsFor (recorded : List Nat) (p : Option (List Nat)) : Prop :=
  p = some recorded ∨ (p = none ∧ ∀ b ∈ recorded, b = 1)

/-- Bytes in which a marker other than a restart marker stands at `p` (such as the end-of-image marker). -/
structure Ends (d : List Nat) (p : Nat) : Prop where
  bytes : ∀ b ∈ d, b < 256
  marker : d[p]? = some 255
  other : ∃ m, d[p + 1]? = some m ∧ m ≠ 0 ∧ (m < 0xD0 ∨ 0xD7 < m)

/-- What the headers of the file guarantee about a scan: a band in the block, tables from slots, every block once,
only blocks of the components of the scan, and data that begins before the marker at `p` and not after a byte 255. -/
structure ScanOk (d : List Nat) (p : Nat) (s : ScanIn) : Prop where
  mode : ModeOk s.mode
  tables : ∀ u ∈ s.units, TablesOk u
  once : (blocks s.units).Nodup
  comps : ∀ c i, (c, i) ∈ blocks s.units → c ∈ s.comps
  start : 0 < s.pos ∧ s.pos ≤ p
  header : d[s.pos - 1]? ≠ some 255

/-- A coefficient has no bits below the ones that have been coded. -/
def Fits (mask : Nat) (v : Int) : Prop := ∀ n, (∀ i, i < n → mask.testBit i = false) → ∃ u : Int, v = u * ((2 ^ n : Nat) : Int)

/-- Between scans: blocks of 64 coefficients without bits below the ones that have been coded. -/
structure Between (p : Progress) (st : Store) : Prop where
  len : ∀ c i, (st c i).length = 64
  small : ∀ c k, p c k < 65536
  fits : ∀ c i k v, (st c i)[k]? = some v → Fits (p c k) v

/-- The bytes of the file that a scan was read from. -/
def scanData (d : List Nat) (s : ScanIn) (o : ParsedScan) : List Nat := (d.take o.pos).drop s.pos

end Jxl.Jpeg
