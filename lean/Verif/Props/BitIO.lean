import Verif.Lemmas.BitReader
import Verif.Lemmas.BitWriter
/-!
# C01, C02, C39: bit input/output and byte buffers
-/
namespace Jxl.Props
open Jxl

/-- **C02.**  For every buffer and every sequence of operations (reads of at most 56 bits), the reader never performs
an out-of-bounds access or violates an assertion (`some`), answers every operation as the specification
"bits of the buffer, then zeros forever" does, reports "within bounds" exactly when the number of consumed bits is at
most `8 * length`, and closes successfully exactly when it was not over-read or nothing was consumed since the last
check. -/
theorem C02_reader_refines (bytes : List UInt8) (ops : List BitReader.Op)
    (hops : ∀ n, BitReader.Op.read n ∈ ops → n ≤ 56) :
    ∃ r0 r, BitReader.mk' bytes = some r0 ∧
      r0.run ops = some ((BitReader.Spec.run (bitsOfBytes bytes) 0 ops).1, r) ∧
      r.allReadsWithinBounds.1 = decide ((BitReader.Spec.run (bitsOfBytes bytes) 0 ops).2 ≤ 8 * bytes.length) ∧
      r.close = BitReader.Spec.closeOk (bitsOfBytes bytes) ops ∧
      r.allReadsWithinBounds.2.close = true := by
  obtain ⟨r0, e0, i0, b0, c0⟩ := BitReader.mk_inv bytes
  obtain ⟨r, pos, e, i, b, hr, hk⟩ := BitReader.run_refines ops r0 0 0 0 i0 (Or.inl rfl)
    ⟨by omega, by omega⟩ (fun op ho => by cases op <;> simp [BitReader.Op.ok]; exact hops _ ho)
  rw [b0] at e hr hk b
  refine ⟨r0, r, e0, e, ?_, ?_, ?_⟩
  · simp only [BitReader.allReadsWithinBounds, i.total, b]
    generalize (BitReader.Spec.run (bitsOfBytes bytes) 0 ops).2 = sp at *
    rw [Bool.eq_iff_iff]
    simp only [Bool.not_eq_true', decide_eq_false_iff_not, decide_eq_true_eq]
    rcases hr with h | ⟨h1, h2, _⟩ <;> omega
  · obtain ⟨k1, k2⟩ := hk
    simp only [BitReader.close, BitReader.Spec.closeOk, i.total, b, bitsOfBytes_length]
    generalize (BitReader.Spec.run (bitsOfBytes bytes) 0 ops).2 = sp at *
    generalize BitReader.Spec.unchecked (bitsOfBytes bytes) 0 0 ops = ac at *
    rw [Bool.eq_iff_iff]
    simp only [Bool.not_eq_true', Bool.and_eq_false_iff, decide_eq_false_iff_not, decide_eq_true_eq]
    rcases hr with h | ⟨h1, h2, _⟩ <;> omega
  · simp [BitReader.allReadsWithinBounds, BitReader.close, BitReader.totalBitsConsumed]

-- A run that over-reads a 2-byte buffer: 3 bits, skip 6, pad, then 20 bits (12 of them past the end).
example : (BitReader.Spec.run (bitsOfBytes [0xAB, 0xCD]) 0 [.read 3, .skip 6, .check, .read 20]) =
    ([.value 3, .done, .status true, .value 0x66], 29) := by decide +kernel
example : BitReader.Spec.closeOk (bitsOfBytes [0xAB, 0xCD]) [.read 3, .skip 6, .check, .read 20] = false := by
  decide +kernel

/-- Fields are written inside allotments that are large enough: opening one allotment of the total size is a legal
history for every list of fields, ended by padding. -/
def fieldOps (a : Alloc) (fields : List (Nat × Nat)) : List BitWriter.Op :=
  .openAllot a ((fields.map (·.1)).sum + 8) :: (fields.map fun f => .write f.1 f.2) ++ [.pad, .closeAllot]

/-- The bits of a list of fields, each least significant bit first. -/
def fieldBits (fields : List (Nat × Nat)) : List Bool := fields.flatMap fun f => bitsOf f.1 f.2

/-- `s` padded with zero bits to a multiple of 8. -/
def padded (s : List Bool) : List Bool := s ++ List.replicate ((8 - s.length % 8) % 8) false

theorem fieldBits_length (fields : List (Nat × Nat)) : (fieldBits fields).length = (fields.map (·.1)).sum := by
  induction fields with
  | nil => rfl
  | cons f fs ih => simp only [fieldBits, List.flatMap_cons, List.length_append, bitsOf_length, List.map_cons, List.sum_cons] at *; omega

theorem run_writes (fields : List (Nat × Nat)) (h : ∀ f ∈ fields, f.2 < 2 ^ f.1 ∧ f.1 ≤ 56)
    (bs : List Bool) (b : Nat) (rest : List Nat) (ops : List BitWriter.Op) (hb : (fields.map (·.1)).sum ≤ b) :
    BitWriter.Spec.run ⟨bs, b :: rest, true⟩ ((fields.map fun f => .write f.1 f.2) ++ ops) =
      BitWriter.Spec.run ⟨bs ++ fieldBits fields, (b - (fields.map (·.1)).sum) :: rest, true⟩ ops := by
  induction fields generalizing bs b with
  | nil => simp [fieldBits]
  | cons f fs ih =>
    obtain ⟨h1, h2⟩ := h f (by simp)
    simp only [List.map_cons, List.sum_cons] at hb
    simp only [List.map_cons, List.cons_append, BitWriter.Spec.run, BitWriter.Spec.step]
    rw [if_pos ⟨h1, h2, by omega, trivial⟩]
    simp only [Option.bind_some]
    rw [ih (fun g hg => h g (by simp [hg])) _ _ (by omega)]
    simp [fieldBits, Nat.sub_sub]

/-- The specification accepts the history and produces the concatenated fields plus padding. -/
theorem spec_fieldOps (a : Alloc) (fields : List (Nat × Nat)) (h : ∀ f ∈ fields, f.2 < 2 ^ f.1 ∧ f.1 ≤ 56) :
    BitWriter.Spec.run {} (fieldOps a fields) = some ⟨padded (fieldBits fields), [], true⟩ := by
  have hl := fieldBits_length fields
  simp only [fieldOps, List.cons_append, BitWriter.Spec.run, BitWriter.Spec.step, Option.bind_some]
  have hd : (false || decide (0 < (fields.map (·.1)).sum + 8)) = true := by simp
  rw [hd]
  rw [run_writes fields h [] _ [] _ (by omega)]
  simp only [List.nil_append, BitWriter.Spec.run, BitWriter.Spec.step]
  by_cases h0 : (8 - (fieldBits fields).length % 8) % 8 = 0
  · rw [if_pos h0]; simp [padded, h0]
  · rw [if_neg h0, if_pos ⟨by omega, trivial⟩]; simp [padded]

/-- Reading the fields back in the specification. -/
theorem spec_read_fields (fields : List (Nat × Nat)) (h : ∀ f ∈ fields, f.2 < 2 ^ f.1 ∧ f.1 ≤ 56)
    (pre post : List Bool) (ops : List BitReader.Op) :
    BitReader.Spec.run (pre ++ fieldBits fields ++ post) pre.length ((fields.map fun f => .read f.1) ++ ops) =
      ((fields.map fun f => .value f.2) ++
        (BitReader.Spec.run (pre ++ fieldBits fields ++ post) (pre ++ fieldBits fields).length ops).1,
       (BitReader.Spec.run (pre ++ fieldBits fields ++ post) (pre ++ fieldBits fields).length ops).2) := by
  induction fields generalizing pre with
  | nil => simp [fieldBits]
  | cons f fs ih =>
    obtain ⟨h1, h2⟩ := h f (by simp)
    have e : pre ++ fieldBits (f :: fs) ++ post = (pre ++ bitsOf f.1 f.2) ++ fieldBits fs ++ post := by
      simp [fieldBits]
    have e2 : (pre ++ fieldBits (f :: fs)).length = (pre ++ bitsOf f.1 f.2 ++ fieldBits fs).length := by
      simp [fieldBits]
    have ihh := ih (fun g hg => h g (by simp [hg])) (pre ++ bitsOf f.1 f.2)
    have hr : readAt ((pre ++ bitsOf f.1 f.2) ++ fieldBits fs ++ post) pre.length f.1 = f.2 := by
      rw [readAt, List.append_assoc, List.append_assoc, List.drop_left, List.take_append_of_le_length (by simp),
        List.take_of_length_le (by simp), ofBits_bitsOf_lt h1]
    rw [e, e2]
    simp only [List.map_cons, List.cons_append, BitReader.Spec.run, BitReader.Spec.step, hr]
    rw [show pre.length + f.1 = (pre ++ bitsOf f.1 f.2).length by simp, ihh]

/-- **C01.**  Write any list of `(width, value)` fields, pad, close, take the bytes; unless the user's allocator
fails, reading the same widths gives the same values, the padding check succeeds, all reads are within bounds, the
number of bits consumed is that of the stream, and closing succeeds. -/
theorem C01_round_trip (a : Alloc) (fields : List (Nat × Nat)) (h : ∀ f ∈ fields, f.2 < 2 ^ f.1 ∧ f.1 ≤ 56) :
    BitWriter.run {} (fieldOps a fields) = some none ∨
    ∃ w bytes r0 r, BitWriter.run {} (fieldOps a fields) = some (some w) ∧ w.getSpan = some bytes ∧
      bytes.length = ((fields.map (·.1)).sum + 7) / 8 ∧
      BitReader.mk' bytes = some r0 ∧
      r0.run ((fields.map fun f => .read f.1) ++ [.jump, .check]) =
        some ((fields.map fun f => .value f.2) ++ [.status true, .status true], r) ∧
      r.totalBitsConsumed = 8 * bytes.length ∧ r.close = true := by
  rcases BitWriter.run_inv (fieldOps a fields) {} {} _ BitWriter.Inv.init (spec_fieldOps a fields h) with e | ⟨w, e, hi⟩
  · exact Or.inl e
  right
  have hl := fieldBits_length fields
  have h8 : (padded (fieldBits fields)).length % 8 = 0 := by simp [padded]; omega
  obtain ⟨bytes, eb, hb⟩ := BitWriter.getSpan_of_inv w _ hi h8
  simp only at hb
  have hlen : 8 * bytes.length = (padded (fieldBits fields)).length := by rw [← hb]; simp
  have hspec : BitReader.Spec.run (bitsOfBytes bytes) 0 ((fields.map fun f => .read f.1) ++ [.jump, .check]) =
      ((fields.map fun f => .value f.2) ++ [.status true, .status true], 8 * bytes.length) := by
    have hr := spec_read_fields fields h [] (List.replicate ((8 - (fieldBits fields).length % 8) % 8) false) [.jump, .check]
    simp only [List.nil_append, List.length_nil] at hr
    rw [hb, padded, hr]
    simp only [BitReader.Spec.run, BitReader.Spec.step, readAt, List.drop_left, List.length_append,
      List.length_replicate]
    rw [List.take_of_length_le (by simp), ofBits_replicate_false]
    simp [hlen, padded]
  obtain ⟨r0, e0, i0, b0, c0⟩ := BitReader.mk_inv bytes
  obtain ⟨r, pos, er, i, b, hr, hk⟩ := BitReader.run_refines ((fields.map fun f => .read f.1) ++ [.jump, .check]) r0 0 0 0 i0
    (Or.inl rfl) ⟨by omega, by omega⟩ (by
      intro op ho
      simp only [List.mem_append, List.mem_map, List.mem_cons, List.not_mem_nil, or_false] at ho
      rcases ho with ⟨f, hf, rfl⟩ | rfl | rfl
      · exact (h f hf).2
      · trivial
      · trivial)
  rw [b0] at er hr
  rw [hspec] at er hr
  have hp : pos = 8 * bytes.length := by rcases hr with hr | ⟨h1, h2, _⟩ <;> simp only at * <;> omega
  refine ⟨w, bytes, r0, r, e, eb, ?_, e0, er, by rw [i.total, hp], ?_⟩
  · simp only [padded, List.length_append, List.length_replicate] at hlen; omega
  · simp only [BitReader.close, i.total, b, b0, hp]
    rw [Nat.mul_comm]; simp

/-- Writing, padding and closing never report failure. -/
theorem no_status_failure (ops : List BitWriter.Op) (w : BitWriter)
    (h : ∀ op ∈ ops, (∃ n v, op = .write n v) ∨ op = .pad ∨ op = .closeAllot) : w.run ops ≠ some none := by
  induction ops generalizing w with
  | nil => simp [BitWriter.run]
  | cons op ops ih =>
    have hi := fun w => ih w (fun o ho => h o (by simp [ho]))
    have hh : w.step op = none ∨ ∃ w', w.step op = some (true, w') := by
      rcases h op (by simp) with ⟨n, v, rfl⟩ | rfl | rfl <;> simp only [BitWriter.step]
      · cases w.write n v <;> simp
      · cases w.zeroPadToByte <;> simp
      · cases w.closeAllotment <;> simp
    rcases hh with e | ⟨w', e⟩ <;> simp only [BitWriter.run, e]
    · simp
    · exact hi w'

/-- **C01, liveness.**  The failure alternative of `C01_round_trip` occurs only when the allocator fails (or the
total size does not fit 64 bits). -/
theorem C01_no_failure (g : Nat → UInt8) (fields : List (Nat × Nat)) (hs : (fields.map (·.1)).sum < 2 ^ 64) :
    BitWriter.run {} (fieldOps (some g) fields) ≠ some none := by
  simp only [fieldOps, List.cons_append, BitWriter.run, BitWriter.step, BitWriter.openAllotment]
  have e : ∃ st, PaddedBytes.resize {} (some g) (0 + ((fields.map (·.1)).sum + 8 + 7) / 8) = (true, st) := by
    simp only [PaddedBytes.resize, PaddedBytes.reserve]
    rw [if_neg (by simp), if_pos (by simp [sizeMax])]
    simp only [PaddedBytes.changeCapacity]
    rw [if_pos (by simp only [sizeMax]; omega)]
    exact ⟨_, rfl⟩
  obtain ⟨st, e⟩ := e
  simp only [e]
  refine no_status_failure _ _ ?_
  intro op ho
  simp only [List.mem_append, List.mem_map, List.mem_cons, List.not_mem_nil, or_false] at ho
  rcases ho with ⟨f, _, rfl⟩ | rfl | rfl
  · exact Or.inl ⟨_, _, rfl⟩
  · exact Or.inr (Or.inl rfl)
  · exact Or.inr (Or.inr rfl)

/-- **C01, nested writers.**  Any legal history (nested allotments, appended byte-aligned pieces, shrinking) leaves
exactly the specified bit string in the finished bytes; the writer never touches memory outside its allocation and
no assertion fires. -/
theorem C01_writer_refines (ops : List BitWriter.Op) (s : BitWriter.Spec.St)
    (h : BitWriter.Spec.run {} ops = some s) (h8 : s.bs.length % 8 = 0) :
    BitWriter.run {} ops = some none ∨
    ∃ w bytes, BitWriter.run {} ops = some (some w) ∧ w.getSpan = some bytes ∧ bitsOfBytes bytes = s.bs ∧
      w.bits = s.bs.length := by
  rcases BitWriter.run_inv ops {} {} s BitWriter.Inv.init h with e | ⟨w, e, hi⟩
  · exact Or.inl e
  · obtain ⟨bytes, eb, hb⟩ := BitWriter.getSpan_of_inv w s hi h8
    exact Or.inr ⟨w, bytes, e, eb, hb, hi.bits⟩

-- A concrete history with garbage in fresh memory succeeds and round-trips.
example : ((BitWriter.run {} (fieldOps (some fun _ => 0xAA) [(3, 5), (0, 0), (12, 0xABC), (1, 1)])).bind
    (·.bind (·.getSpan))) = some [0xE5, 0xD5] := by decide +kernel
example : ∃ s, BitWriter.Spec.run {} [.openAllot none 100, .write 3 5, .openAllot none 20, .write 12 0xABC, .closeAllot,
    .write 7 1, .pad, .closeAllot, .append none [1, 2]] = some s ∧ s.bs.length = 40 := ⟨_, rfl, by decide +kernel⟩

/-- **C39.**  Whatever the allocator returns (including garbage contents and failures), after any history the visible
bytes agree with the vector specification applied to the operations that reported success; failed operations change
nothing. -/
theorem C39_vector (ops : List PaddedBytes.Op) :
    PaddedBytes.Spec.Agrees (PaddedBytes.Spec.run [] (PaddedBytes.run {} ops).1 ops) (PaddedBytes.run {} ops).2.contents :=
  (PaddedBytes.run_refines ops {} [] PaddedBytes.WF.init ⟨rfl, by simp⟩).2

/-- The size an operation asks for, starting from `size` bytes. -/
def requested (size : Nat) : PaddedBytes.Op → Nat
  | .reserve _ n => n
  | .shrink _ => size
  | .resize _ n => n
  | .fill _ n _ => n
  | .push _ _ => size + 1
  | .append _ d => size + d.length

def allocOf : PaddedBytes.Op → Alloc
  | .reserve a _ => a
  | .shrink a => a
  | .resize a _ => a
  | .fill a _ _ => a
  | .push a _ => a
  | .append a _ => a

theorem reserve_ok (b : PaddedBytes) (g : Nat → UInt8) (n : Nat) (hn : n + 8 < 2 ^ 64)
    (hc : b.cap + b.cap / 2 + 8 < 2 ^ 64) : (b.reserve (some g) n).1 = true := by
  simp only [PaddedBytes.reserve]
  split
  · rfl
  · rw [if_pos (by simp only [sizeMax]; omega), PaddedBytes.changeCapacity, if_pos (by simp only [sizeMax]; omega)]

/-- **C39, liveness.**  An operation fails only if the allocator fails or the sizes do not fit 64 bits. -/
theorem C39_success (b : PaddedBytes) (h : b.WF) (op : PaddedBytes.Op) (ha : (allocOf op).isSome)
    (hn : requested b.size op + 8 < 2 ^ 64) (hc : b.cap + b.cap / 2 + 8 < 2 ^ 64) : (b.step op).1 = true := by
  have hs := h.size_le
  cases op with
  | reserve a n =>
    obtain ⟨g, rfl⟩ := Option.isSome_iff_exists.mp ha
    exact reserve_ok b g n hn hc
  | shrink a =>
    obtain ⟨g, rfl⟩ := Option.isSome_iff_exists.mp ha
    simp only [requested] at hn
    simp only [PaddedBytes.step, PaddedBytes.shrinkToFit, PaddedBytes.changeCapacity]
    rw [if_pos (by simp only [sizeMax]; omega)]
  | resize a n =>
    obtain ⟨g, rfl⟩ := Option.isSome_iff_exists.mp ha
    have := reserve_ok b g n hn hc
    simp only [PaddedBytes.step, PaddedBytes.resize]
    rcases hp : b.reserve (some g) n with ⟨s, b'⟩
    rw [hp] at this; simp only at this; subst this; rfl
  | fill a n v =>
    obtain ⟨g, rfl⟩ := Option.isSome_iff_exists.mp ha
    have := reserve_ok b g n hn hc
    simp only [PaddedBytes.step, PaddedBytes.resizeFill, PaddedBytes.resize]
    rcases hp : b.reserve (some g) n with ⟨s, b'⟩
    rw [hp] at this; simp only at this; subst this; rfl
  | push a v =>
    obtain ⟨g, rfl⟩ := Option.isSome_iff_exists.mp ha
    simp only [requested] at hn
    simp only [PaddedBytes.step, PaddedBytes.pushBack]
    split
    · rfl
    · rename_i hx
      split at hx
      · have := reserve_ok b g (b.cap + 1) (by omega) hc
        rw [hx] at this; cases this
      · cases hx
  | append a d =>
    obtain ⟨g, rfl⟩ := Option.isSome_iff_exists.mp ha
    simp only [requested] at hn
    have := reserve_ok b g (b.size + d.length) hn hc
    simp only [PaddedBytes.step, PaddedBytes.append, PaddedBytes.resize]
    split
    · rw [if_pos (by simp only [sizeMax]; omega)]
      rcases hp : b.reserve (some g) (b.size + d.length) with ⟨s, b'⟩
      rw [hp] at this; simp only at this; subst this; rfl
    · rfl

-- Growth past the initial capacity with garbage memory, a failing allocator in the middle, fills and shrinks.
example : (PaddedBytes.run {} [.append (some fun _ => 7) [1, 2], .fill (some fun i => UInt8.ofNat i) 70 9,
    .resize none 100000, .push none 5, .shrink (some fun _ => 3), .resize none 4]).1 =
    [true, true, false, true, true, true] := by decide +kernel
example : (PaddedBytes.run {} [.append (some fun _ => 7) [1, 2], .fill (some fun i => UInt8.ofNat i) 70 9,
    .resize none 100000, .push none 5, .shrink (some fun _ => 3), .resize none 4]).2.contents =
    [1, 2, 9, 9] := by decide +kernel

end Jxl.Props
