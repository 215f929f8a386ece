import Verif.Lemmas.BoxContent
/-!
# C30: box contents are delivered completely whatever the buffer sizes

The file after the box header is the box contents followed by anything (`contents ++ rest`); a
call gives the decoder any window of it together with any amount of output space.
-/
namespace Jxl.Props
open Jxl.BoxContent

/-- Everything written by the calls `0 .. i`. -/
def boxWritten {σ : Type} (rs : List (Res σ)) (n : Nat) : List UInt8 := ((rs.take n).map (·.out)).flatten

/-- Everything handed to the Brotli decoder (after the four bytes of the inner type). -/
def boxHanded {σ : Type} (rs : List (Res σ)) (n : Nat) : List UInt8 := ((rs.take n).map (·.fed)).flatten

theorem boxc_raw_out {σ : Type} {B : Brotli σ} {s : St σ} (hb : s.brob = false) (inp : List UInt8) (p cap : Nat) :
    (process B s inp p cap).out = (process B s inp p cap).fed := by
  unfold process
  simp only [hb, Bool.false_eq_true, if_false]
  split
  · rfl
  · split <;> rfl

theorem boxc_written_fed {σ : Type} {B : Brotli σ} {file : List UInt8} {eof : Bool} {size : Nat} (cs : List Call) :
    ∀ (s0 : St σ), Inv false eof size file s0 → (run B file s0 cs).map (·.out) = (run B file s0 cs).map (·.fed) := by
  induction cs with
  | nil => intro s0 _; rfl
  | cons c cs ih =>
    intro s0 h0
    have ho := boxc_raw_out (B := B) h0.hb ((file.drop c.boxPos).take c.len) c.boxPos c.cap
    have hi := (process_steps (B := B) (by simp) h0 c).2
    simp only [run]
    split
    · simp [ho]
    · simp [ho, ih _ hi]

theorem boxc_written_take {σ : Type} {B : Brotli σ} {file : List UInt8} {eof : Bool} {size : Nat} (cs : List Call) {i : Nat} {r : Res σ}
    (h : (run B file (startBox false eof size) cs)[i]? = some r) :
    boxWritten (run B file (startBox false eof size) cs) (i + 1) = file.take r.st.pos ∧ Inv false eof size file r.st := by
  obtain ⟨h1, h2⟩ := fed_upto (B := B) (by simp) cs h
  refine ⟨?_, h2⟩
  rw [← h1]
  unfold boxWritten
  rw [List.map_take, List.map_take, boxc_written_fed cs _ (inv_start false eof size file)]

/-- C30, uncompressed boxes of known size: after every call, what has been written so far is a
prefix of the contents; it is the whole contents as soon as the box is reported complete; no call
writes more than the output space it was given, and a call that asks for more output has filled
it; a call that asks for more input has delivered all it was given. -/
theorem C30_uncompressed {σ : Type} (B : Brotli σ) (contents rest : List UInt8) (cs : List Call) {i : Nat} {r : Res σ} {c : Call}
    (h : (run B (contents ++ rest) (startBox false false contents.length) cs)[i]? = some r) (hc : cs[i]? = some c) :
    boxWritten (run B (contents ++ rest) (startBox false false contents.length) cs) (i + 1) <+: contents ∧
    (r.status = .complete → boxWritten (run B (contents ++ rest) (startBox false false contents.length) cs) (i + 1) = contents) ∧
    r.out.length ≤ c.cap ∧
    (r.status = .needMoreOutput → r.out.length = c.cap) ∧
    (r.status = .needMoreInput → boxWritten (run B (contents ++ rest) (startBox false false contents.length) cs) (i + 1) = (contents ++ rest).take (c.boxPos + c.len)) := by
  obtain ⟨s, c', h1, h2, h3, h4, h5⟩ := run_trace (B := B) (by simp) cs _ (inv_start false false contents.length (contents ++ rest)) i r h
  obtain rfl : c' = c := by rw [hc] at h1; exact (Option.some.inj h1).symm
  obtain ⟨hw, hi⟩ := boxc_written_take cs h
  rw [hw]
  have hrem := hi.hrem rfl
  have hle : r.st.pos ≤ contents.length := by omega
  rw [List.take_append_of_le_length hle]
  have hb := h2.hb
  have he := h2.he
  have hsrem := h2.hrem rfl
  refine ⟨List.take_prefix _ _, ?_, ?_, ?_, ?_⟩ <;>
    (unfold process at h4
     simp only [hb, Bool.false_eq_true, if_false] at h4
     by_cases g1 : s.pos < c'.boxPos
     · rw [if_pos g1] at h4; subst h4; simp
     rw [if_neg g1] at h4
     by_cases g2 : (((contents ++ rest).drop c'.boxPos).take c'.len).length < s.pos - c'.boxPos
     · rw [if_pos g2] at h4; subst h4; simp
     rw [if_neg g2, window_drop _ (by omega) (by omega)] at h4
     subst h4
     simp only [processRaw, clampIn, advance, he, Bool.false_eq_true, if_false, Bool.not_false, Bool.true_and, decide_eq_true_eq, List.length_take, List.length_drop, List.length_append] at *)
  · intro hst
    split at hst
    · cases hst
    · split at hst
      · cases hst
      · apply List.take_of_length_le
        omega
  · omega
  · intro hst
    split at hst
    · omega
    · split at hst <;> cases hst
  · intro hst
    split at hst
    · cases hst
    · split at hst
      · rename_i k1 k2
        have hx : c'.boxPos + c'.len ≤ contents.length := by omega
        rw [List.take_append_of_le_length hx]
        congr 1
        omega
      · cases hst

/-- C30, uncompressed boxes that extend to the end of the file: what has been written is a prefix
of the file, no call overruns its output space, and "complete" means: all that was given so far
has been written. -/
theorem C30_until_end_of_file {σ : Type} (B : Brotli σ) (file : List UInt8) (cs : List Call) {i : Nat} {r : Res σ} {c : Call}
    (h : (run B file (startBox false true 0) cs)[i]? = some r) (hc : cs[i]? = some c) :
    boxWritten (run B file (startBox false true 0) cs) (i + 1) <+: file ∧
    (r.status = .complete → boxWritten (run B file (startBox false true 0) cs) (i + 1) = file.take (c.boxPos + c.len)) ∧
    r.out.length ≤ c.cap ∧
    (r.status = .needMoreOutput → r.out.length = c.cap) ∧
    r.status ≠ .needMoreInput := by
  obtain ⟨s, c', h1, h2, h3, h4, h5⟩ := run_trace (B := B) (by simp) cs _ (inv_start false true 0 file) i r h
  obtain rfl : c' = c := by rw [hc] at h1; exact (Option.some.inj h1).symm
  obtain ⟨hw, hi⟩ := boxc_written_take cs h
  rw [hw]
  have hp := hi.hpos
  have hb := h2.hb
  have he := h2.he
  have hsp := h2.hpos
  refine ⟨List.take_prefix _ _, ?_, ?_, ?_, ?_⟩ <;>
    (unfold process at h4
     simp only [hb, Bool.false_eq_true, if_false] at h4
     by_cases g1 : s.pos < c'.boxPos
     · rw [if_pos g1] at h4; subst h4; simp
     rw [if_neg g1] at h4
     by_cases g2 : ((file.drop c'.boxPos).take c'.len).length < s.pos - c'.boxPos
     · rw [if_pos g2] at h4; subst h4; simp
     rw [if_neg g2, window_drop _ (by omega) (by omega)] at h4
     subst h4
     simp only [processRaw, clampIn, advance, he, if_true, Bool.not_true, Bool.false_and, Bool.false_eq_true, if_false, List.length_take, List.length_drop] at *)
  · intro hst
    split at hst
    · cases hst
    · rename_i k1
      rw [List.take_eq_take_iff]
      omega
  · omega
  · intro hst
    split at hst
    · omega
    · cases hst
  · split <;> simp

/-- C30: a call on an uncompressed box fails exactly if the given window does not reach from at
or before the first byte not delivered yet to that byte. -/
theorem C30_failure {σ : Type} (B : Brotli σ) (file : List UInt8) (eof : Bool) (size : Nat) (cs : List Call) {i : Nat} {r : Res σ} {c : Call}
    (h : (run B file (startBox false eof size) cs)[i]? = some r) (hc : cs[i]? = some c) :
    r.status = .error ↔
      ((boxWritten (run B file (startBox false eof size) cs) i).length < c.boxPos ∨ c.boxPos + c.len < (boxWritten (run B file (startBox false eof size) cs) i).length) := by
  obtain ⟨s, c', h1, h2, h3, h4, h5⟩ := run_trace (B := B) (by simp) cs _ (inv_start false eof size file) i r h
  obtain rfl : c' = c := by rw [hc] at h1; exact (Option.some.inj h1).symm
  have hw : boxWritten (run B file (startBox false eof size) cs) i = file.take s.pos := by
    unfold boxWritten
    rw [List.map_take] at h5 ⊢
    rw [boxc_written_fed cs _ (inv_start false eof size file), h5]
    simp [startBox]
  have hsp := h2.hpos
  have hb := h2.hb
  rw [hw, List.length_take, Nat.min_eq_left hsp]
  unfold process at h4
  simp only [hb, Bool.false_eq_true, if_false] at h4
  by_cases g1 : s.pos < c'.boxPos
  · rw [if_pos g1] at h4; subst h4; simp [g1]
  rw [if_neg g1] at h4
  simp only [List.length_take, List.length_drop] at h4
  by_cases g2 : min c'.len (file.length - c'.boxPos) < s.pos - c'.boxPos
  · rw [if_pos g2] at h4
    subst h4
    simp only [true_iff]
    omega
  · rw [if_neg g2] at h4
    subst h4
    simp only [processRaw]
    constructor
    · intro hst
      split at hst
      · cases hst
      · split at hst <;> cases hst
    · omega

/-- C30, Brotli-compressed boxes: whatever the Brotli decoder does within its interface, the bytes
handed over so far are a prefix of the contents (type bytes first), all of them when the box is
reported complete, and no call writes more than the output space it was given. -/
theorem C30_compressed {σ : Type} (B : Brotli σ) (hB : Contract B) (contents rest : List UInt8) (cs : List Call) {i : Nat} {r : Res σ} {c : Call}
    (h : (run B (contents ++ rest) (startBox true false contents.length) cs)[i]? = some r) (hc : cs[i]? = some c) :
    boxHanded (run B (contents ++ rest) (startBox true false contents.length) cs) (i + 1) <+: contents ∧
    (r.status = .complete → boxHanded (run B (contents ++ rest) (startBox true false contents.length) cs) (i + 1) = contents) ∧
    r.out.length ≤ c.cap := by
  obtain ⟨s, c', h1, h2, h3, h4, h5⟩ := run_trace (B := B) (fun _ => hB) cs _ (inv_start true false contents.length (contents ++ rest)) i r h
  obtain rfl : c' = c := by rw [hc] at h1; exact (Option.some.inj h1).symm
  obtain ⟨hw, hi⟩ := fed_upto (B := B) (fun _ => hB) cs h
  unfold boxHanded
  rw [hw]
  have hrem := hi.hrem rfl
  have hle : r.st.pos ≤ contents.length := by omega
  rw [List.take_append_of_le_length hle]
  have key : ∀ (q : St σ) (inp : List UInt8), (processBrotli B q inp c'.cap).out.length ≤ c'.cap ∧
      ((processBrotli B q inp c'.cap).status = .complete → (processBrotli B q inp c'.cap).st.untilEof = false → (processBrotli B q inp c'.cap).st.remaining = 0) := by
    intro q inp
    unfold processBrotli
    simp only
    have hout := (hB (q.brotli.getD B.init) (inp.take (clampIn q inp.length)) c'.cap).2
    split
    · exact ⟨hout, by simp⟩
    · refine ⟨hout, ?_⟩
      simp only
      intro hst hu
      unfold brobStatus at hst
      split at hst
      · cases hst
      · split at hst <;> cases hst
      · cases hst
      · split at hst
        · cases hst
        · rename_i k
          simp [hu] at k
          exact k
  have key2 : r.out.length ≤ c'.cap ∧ (r.status = .complete → r.st.remaining = 0) := by
    have hu := hi.he
    unfold process at h4
    simp only [h2.hb, if_true] at h4
    split at h4
    · subst h4; simp
    split at h4
    · subst h4; simp
    unfold processBrob at h4
    split at h4
    · subst h4; exact ⟨(key _ _).1, fun hst => (key _ _).2 hst hu⟩
    split at h4
    · subst h4; simp
    split at h4
    · subst h4; simp
    · subst h4; exact ⟨(key _ _).1, fun hst => (key _ _).2 hst hu⟩
  refine ⟨List.take_prefix _ _, ?_, key2.1⟩
  intro hst
  have := key2.2 hst
  apply List.take_of_length_le
  omega

/-- A toy decompressor that copies, used for the examples. -/
def copyBrotli : Brotli Unit :=
  { init := (), step := fun _ inp cap => { consumed := min inp.length cap, out := inp.take cap, res := if cap < inp.length then .needsMoreOutput else .needsMoreInput, st := () } }

/-- A box of five bytes followed by two bytes of another box, read in four calls. -/
example : (run copyBrotli [1, 2, 3, 4, 5, 9, 9] (startBox false false 5) [⟨0, 2, 10⟩, ⟨2, 5, 1⟩, ⟨2, 5, 1⟩, ⟨2, 5, 8⟩]).map (fun r => (r.status, r.out)) =
    [(.needMoreInput, [1, 2]), (.needMoreOutput, [3]), (.needMoreOutput, [4]), (.complete, [5])] := by decide

/-- A box up to the end of the file. -/
example : (run copyBrotli [1, 2, 3, 4] (startBox false true 0) [⟨0, 2, 10⟩, ⟨2, 2, 1⟩]).map (fun r => (r.status, r.out)) =
    [(.complete, [1, 2]), (.needMoreOutput, [3])] := by decide

/-- The contract is met by the toy decompressor, and type bytes are not handed to it. -/
example : Contract copyBrotli := by
  intro s inp cap; simp [copyBrotli]; omega

example : (run copyBrotli [69, 120, 105, 102, 7, 8] (startBox true false 6) [⟨0, 3, 10⟩, ⟨0, 6, 1⟩]).map (fun r => (r.status, r.out, r.fed)) =
    [(.needMoreInput, [], []), (.needMoreOutput, [7], [69, 120, 105, 102, 7])] := by decide

/-- A legal caller can be refused: after "more output needed" the file position has not moved, and
a caller that releases its input and offers a shorter piece than before gets an error. -/
theorem C30_shorter_piece_refused :
    ∃ (file : List UInt8) (cs : List Call), (∀ c ∈ cs, c.boxPos = 0 ∧ 0 < c.len ∧ c.len ≤ file.length) ∧
      (run copyBrotli file (startBox false false file.length) cs).map (·.status) = [.needMoreOutput, .error] :=
  ⟨[1, 2, 3, 4], [⟨0, 4, 3⟩, ⟨0, 2, 3⟩], by decide, by decide⟩

end Jxl.Props
