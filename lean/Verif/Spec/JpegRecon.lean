import Verif.Model.JpegRecon
/-!
# JPEG reconstruction data (specification vocabulary)
-/
namespace Jxl.Jpeg

/-- Data as the parser of JPEG files leaves them: the end marker only at the end, table slots of two kinds, as many symbols as
the counts say, a restart interval only if there is a marker for it, bits that are bits. -/
structure ReconShape (r : Recon) : Prop where
  bytes : ∀ m ∈ r.markers, m < 256
  eoi : 0xd9 ∉ r.markers.dropLast
  inter : r.inter.length = numInter r.markers
  restart : 0xdd ∉ r.markers → r.restart = 0
  slot : ∀ h ∈ r.huff, h.slot < 32
  counts : ∀ h ∈ r.huff, h.counts.length = 17
  values : ∀ h ∈ r.huff, h.values.length = h.counts.sum
  bits : ∀ bs, r.pads = some bs → ∀ b ∈ bs, b ≤ 1

/-- The same of a file with less than 4 GiB. -/
structure ReconOk (r : Recon) : Prop extends ReconShape r where
  appSmall : ∀ a ∈ r.app, a.2 < 2 ^ 32
  comSmall : ∀ n ∈ r.com, n < 2 ^ 32
  interSmall : ∀ n ∈ r.inter, n < 2 ^ 32
  tailSmall : r.tail < 2 ^ 32
  quantFew : r.quant.length < 2 ^ 32
  compsFew : r.comps.length < 2 ^ 32
  huffFew : r.huff.length < 2 ^ 32
  padsFew : ∀ bs, r.pads = some bs → bs.length < 2 ^ 32
  scansFew : ∀ s ∈ r.scans, s.points.length < 2 ^ 32 ∧ s.runs.length < 2 ^ 32 ∧
    (∀ b ∈ s.points, b < 2 ^ 32) ∧ ∀ x ∈ s.runs, x.1 < 2 ^ 32

/-- The tables of the first `n` segments: a segment ends with a table marked so. -/
def segmentTables : Nat → List ReconHuff → List ReconHuff
  | 0, _ => []
  | _ + 1, [] => []
  | n + 1, h :: hs => h :: segmentTables (if h.isLast then n else n + 1) hs

/-- Data whose sizes, indices and tables can be relied on: every marker, size and index in its range, as many things as there
are markers for them, symbols that are distinct and end with the one that stands for no code, blocks in order, tables defined
before they are used. -/
structure ReconSound (r : Recon) : Prop where
  markers : r.markers.length ≤ 16384 ∧ ∀ m ∈ r.markers, 0xc0 ≤ m ∧ m ≤ 0xff
  eoi : r.markers.getLast? = some 0xd9 ∧ 0xd9 ∉ r.markers.dropLast
  sos : 0xda ∈ r.markers
  numApp : r.app.length = r.markers.countP fun m => 0xe0 ≤ m && m ≤ 0xef
  numCom : r.com.length = r.markers.count 0xfe
  numScans : r.scans.length = r.markers.count 0xda
  numInter : r.inter.length = r.markers.count 0xff
  app : ∀ a ∈ r.app, a.1 ≤ 3 ∧ 3 ≤ a.2 ∧ a.2 ≤ 65536
  com : ∀ n ∈ r.com, 3 ≤ n ∧ n ≤ 65536
  numQuant : 1 ≤ r.quant.length ∧ r.quant.length ≤ 3
  quant : ∀ q ∈ r.quant, q.precision ≤ 1 ∧ q.index ≤ 3
  numComps : r.comps.length = 1 ∨ r.comps.length = 3
  comps : ∀ c ∈ r.comps, c.1 ≤ 255 ∧ c.2 < r.quant.length
  first : ∃ c ∈ r.comps, c.2 = 0
  slot : ∀ h ∈ r.huff, h.slot ≤ 3 ∨ (16 ≤ h.slot ∧ h.slot ≤ 19)
  numHuff : 2 ≤ r.huff.length ∧ r.huff.length ≤ 89
  counts : ∀ h ∈ r.huff, h.counts.length = 17 ∧ h.values.length = h.counts.sum ∧ ∀ c ∈ h.counts, c ≤ 255
  symbols : ∀ h ∈ r.huff, h.values ≠ [] →
    h.values.length ≤ 257 ∧ h.values.Nodup ∧ h.values.getLast? = some 256 ∧ (∀ v ∈ h.values, v ≤ 256) ∧
    (h.slot ≤ 3 → ∀ v ∈ h.values, v = 256 ∨ v < 12)
  scans : ∀ s ∈ r.scans, (1 ≤ s.head.comps.length ∧ s.head.comps.length ≤ 3) ∧ s.head.ss ≤ 63 ∧ s.head.se ≤ 63 ∧ s.head.al ≤ 15 ∧ s.head.ah ≤ 15 ∧ s.head.last ≤ 10 ∧
    ∀ c ∈ s.head.comps, c.comp < r.comps.length ∧ c.dc ≤ 3 ∧ c.ac ≤ 3
  points : ∀ s ∈ r.scans, s.points.length ≤ 65555 ∧ s.points.Pairwise (· < ·) ∧ ∀ p ∈ s.points, p < 3 * 2 ^ 26
  runs : ∀ s ∈ r.scans, s.runs.length ≤ 65555 ∧ (s.runs.map (·.1)).Pairwise (· < ·) ∧ ∀ x ∈ s.runs, x.1 ≤ 3 * 2 ^ 26 ∧ 1 ≤ x.2 ∧ x.2 ≤ 4
  restart : r.restart ≤ 65535 ∧ (0xdd ∉ r.markers → r.restart = 0)
  inter : ∀ n ∈ r.inter, n ≤ 65535
  tail : r.tail ≤ 4260096
  pads : ∀ bs, r.pads = some bs → bs.length < 2 ^ 24 ∧ ∀ b ∈ bs, b ≤ 1
  defined : ∀ pre post, r.markers = pre ++ 0xda :: post → ∃ s, r.scans[pre.count 0xda]? = some s ∧ ∀ c ∈ s.head.comps,
    (0xc2 ∉ pre ∨ s.head.ss = 0 → ∃ h ∈ segmentTables (pre.count 0xc4) r.huff, h.slot = c.dc) ∧
    (0xc2 ∉ pre ∨ s.head.se ≠ 0 ∨ s.head.ss ≠ 0 → ∃ h ∈ segmentTables (pre.count 0xc4) r.huff, h.slot = 16 + c.ac)

end Jxl.Jpeg
