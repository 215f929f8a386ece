import Verif.Model.BoxContent
/-!
# Lemmas about the box contents decoder
-/
namespace Jxl.BoxContent

variable {σ : Type}

/-- What the Brotli interface promises: it consumes some of the input it is given and writes at
most as much as fits. -/
def Contract (B : Brotli σ) : Prop :=
  ∀ s inp cap, (B.step s inp cap).consumed ≤ inp.length ∧ (B.step s inp cap).out.length ≤ cap

/-- Between calls: the counters agree about how far into the box we are. -/
structure Inv (brob eof : Bool) (size : Nat) (file : List UInt8) (s : St σ) : Prop where
  hb : s.brob = brob
  he : s.untilEof = eof
  hrem : eof = false → s.remaining + s.pos = size
  hpos : s.pos ≤ file.length

theorem take_take_drop (l : List UInt8) (a n : Nat) : (l.drop a).take n = (l.take (a + n)).drop a := by
  rw [List.drop_take]; congr 1; omega

theorem window_drop (file : List UInt8) {boxPos len p : Nat} (h1 : boxPos ≤ p) (_h2 : p - boxPos ≤ ((file.drop boxPos).take len).length) :
    ((file.drop boxPos).take len).drop (p - boxPos) = (file.drop p).take (boxPos + len - p) := by
  rw [List.drop_take, List.drop_drop]
  congr 1
  · omega
  · congr 1; omega

/-- Effect of a step on the position: `n` more bytes of the file have been handed over. -/
def Steps (file : List UInt8) (s : St σ) (r : Res σ) : Prop :=
  s.pos ≤ r.st.pos ∧ r.fed = (file.drop s.pos).take (r.st.pos - s.pos)

theorem clampIn_le (s : St σ) (n : Nat) : clampIn s n ≤ n := by unfold clampIn; split <;> omega

theorem inv_advance {brob eof size} {file : List UInt8} {s : St σ} (h : Inv brob eof size file s) {n : Nat}
    (hn : n ≤ clampIn s (file.length - s.pos)) : Inv brob eof size file (advance s n) := by
  have hp := h.hpos
  have hl := clampIn_le s (file.length - s.pos)
  refine ⟨h.hb, h.he, ?_, ?_⟩
  · intro he
    have h1 := h.hrem he
    have h2 := h.he
    subst he
    unfold clampIn at hn
    rw [h2] at hn
    simp only [advance, h2, Bool.false_eq_true, if_false] at hn ⊢
    omega
  · simp only [advance]; omega

theorem clampIn_mono (s : St σ) {a b : Nat} (h : a ≤ b) : clampIn s a ≤ clampIn s b := by
  unfold clampIn; split <;> omega

theorem raw_steps {brob eof size} {file : List UInt8} {s : St σ} (h : Inv brob eof size file s) (m cap : Nat) :
    Steps file s (processRaw s ((file.drop s.pos).take m) cap) ∧ Inv brob eof size file (processRaw s ((file.drop s.pos).take m) cap).st := by
  have hl : ((file.drop s.pos).take m).length ≤ file.length - s.pos := by simp; omega
  have hc := clampIn_le s ((file.drop s.pos).take m).length
  have hm := clampIn_mono s hl
  constructor
  · refine ⟨Nat.le_add_right _ _, ?_⟩
    simp only [processRaw, advance, Nat.add_sub_cancel_left]
    rw [List.take_take]
    congr 1
    simp at hc ⊢
    omega
  · exact inv_advance h (by omega)

theorem brotli_steps {brob eof size} {file : List UInt8} {B : Brotli σ} (hB : Contract B) {s : St σ} (h : Inv brob eof size file s) (m cap : Nat) :
    Steps file s (processBrotli B s ((file.drop s.pos).take m) cap) ∧ Inv brob eof size file (processBrotli B s ((file.drop s.pos).take m) cap).st := by
  have hl : ((file.drop s.pos).take m).length ≤ file.length - s.pos := by simp; omega
  have hc := clampIn_le s ((file.drop s.pos).take m).length
  have hm := clampIn_mono s hl
  have hb := (hB (s.brotli.getD B.init) (((file.drop s.pos).take m).take (clampIn s ((file.drop s.pos).take m).length)) cap).1
  unfold processBrotli
  simp only
  generalize hcall : B.step (s.brotli.getD B.init) (((file.drop s.pos).take m).take (clampIn s ((file.drop s.pos).take m).length)) cap = c at *
  by_cases he : c.res = .error
  · rw [if_pos he]
    exact ⟨⟨Nat.le_refl _, by simp⟩, ⟨h.hb, h.he, h.hrem, h.hpos⟩⟩
  · rw [if_neg he]
    constructor
    · refine ⟨Nat.le_add_right _ _, ?_⟩
      simp only [advance, Nat.add_sub_cancel_left]
      rw [List.take_take]
      congr 1
      simp at hb
      omega
    · refine inv_advance (s := { s with brotli := some c.st }) ⟨h.hb, h.he, h.hrem, h.hpos⟩ ?_
      have : clampIn { s with brotli := some c.st } (file.length - s.pos) = clampIn s (file.length - s.pos) := rfl
      simp only [this]
      rw [List.length_take] at hb
      omega

theorem brob_steps {brob eof size} {file : List UInt8} {B : Brotli σ} (hB : Contract B) {s : St σ} (h : Inv brob eof size file s) (m cap : Nat) :
    Steps file s (processBrob B s ((file.drop s.pos).take m) cap) ∧ Inv brob eof size file (processBrob B s ((file.drop s.pos).take m) cap).st := by
  unfold processBrob
  by_cases h1 : s.headerDone = true
  · rw [if_pos h1]; exact brotli_steps hB h m cap
  rw [if_neg h1]
  by_cases h2 : ((file.drop s.pos).take m).length < 4
  · rw [if_pos h2]; exact ⟨⟨Nat.le_refl _, by simp⟩, h⟩
  rw [if_neg h2]
  by_cases h3 : (!s.untilEof && decide (s.remaining < 4)) = true
  · rw [if_pos h3]; exact ⟨⟨Nat.le_refl _, by simp⟩, h⟩
  rw [if_neg h3]
  simp only [List.length_take, List.length_drop] at h2
  have hs : Inv brob eof size file { advance s 4 with headerDone := true } := by
    have : Inv brob eof size file (advance s 4) := by
      apply inv_advance h
      unfold clampIn
      split
      · omega
      · rename_i hu
        simp [hu] at h3
        omega
    exact ⟨this.hb, this.he, this.hrem, this.hpos⟩
  have hd : ((file.drop s.pos).take m).drop 4 = (file.drop (s.pos + 4)).take (m - 4) := by
    rw [List.drop_take, List.drop_drop]
  obtain ⟨⟨hp, hf⟩, hi⟩ := brotli_steps hB hs (m - 4) cap
  simp only [advance] at hp hf hi
  simp only [Steps, advance, hd]
  revert hp hf hi
  generalize processBrotli B _ _ cap = q
  intro hi hp hf
  refine ⟨⟨by omega, ?_⟩, hi⟩
  rw [hf, List.take_take]
  have e4 : min 4 m = 4 := by omega
  rw [e4]
  rw [← List.drop_drop, ← List.take_add]
  congr 1
  omega

theorem process_steps {brob eof size} {file : List UInt8} {B : Brotli σ} (hB : brob = true → Contract B) {s : St σ} (h : Inv brob eof size file s) (c : Call) :
    Steps file s (process B s ((file.drop c.boxPos).take c.len) c.boxPos c.cap) ∧
      Inv brob eof size file (process B s ((file.drop c.boxPos).take c.len) c.boxPos c.cap).st := by
  unfold process
  simp only
  by_cases h1 : s.pos < c.boxPos
  · rw [if_pos h1]; exact ⟨⟨Nat.le_refl _, by simp⟩, h⟩
  rw [if_neg h1]
  by_cases h2 : ((file.drop c.boxPos).take c.len).length < s.pos - c.boxPos
  · rw [if_pos h2]; exact ⟨⟨Nat.le_refl _, by simp⟩, h⟩
  rw [if_neg h2]
  rw [window_drop file (by omega) (by omega)]
  by_cases h3 : s.brob = true
  · rw [if_pos h3]; exact brob_steps (hB (by rw [← h.hb]; exact h3)) h _ _
  · rw [if_neg h3]; exact raw_steps h _ _

/-- Every result of a run comes from a call on a state that has handed over exactly the bytes
before its position. -/
theorem run_trace {brob eof size} {file : List UInt8} {B : Brotli σ} (hB : brob = true → Contract B) :
    ∀ (cs : List Call) (s0 : St σ), Inv brob eof size file s0 → ∀ (i : Nat) (r : Res σ), (run B file s0 cs)[i]? = some r →
      ∃ (s : St σ) (c : Call), cs[i]? = some c ∧ Inv brob eof size file s ∧ s0.pos ≤ s.pos ∧
        r = process B s ((file.drop c.boxPos).take c.len) c.boxPos c.cap ∧
        (((run B file s0 cs).take i).map (·.fed)).flatten = (file.drop s0.pos).take (s.pos - s0.pos) := by
  intro cs
  induction cs with
  | nil => intro s0 _ i r h; simp [run] at h
  | cons c cs ih =>
    intro s0 h0 i r h
    cases i with
    | zero =>
      refine ⟨s0, c, rfl, h0, Nat.le_refl _, ?_, by simp⟩
      simp only [run] at h
      split at h <;> simp at h <;> exact h.symm
    | succ i =>
      obtain ⟨⟨hp, hf⟩, hi⟩ := process_steps hB h0 c
      by_cases he : (process B s0 ((file.drop c.boxPos).take c.len) c.boxPos c.cap).status = .error
      · simp [run, he] at h
      · simp only [run, he, if_false, List.getElem?_cons_succ] at h
        obtain ⟨s, c', h1, h2, h3, h4, h5⟩ := ih _ hi i r h
        refine ⟨s, c', by simpa using h1, h2, by omega, h4, ?_⟩
        simp only [run, he, if_false, List.take_succ_cons, List.map_cons, List.flatten_cons, h5]
        rw [hf]
        have hd : file.drop (process B s0 ((file.drop c.boxPos).take c.len) c.boxPos c.cap).st.pos = (file.drop s0.pos).drop ((process B s0 ((file.drop c.boxPos).take c.len) c.boxPos c.cap).st.pos - s0.pos) := by
          rw [List.drop_drop]; congr 1; omega
        rw [hd, ← List.take_add]
        congr 1
        omega

theorem inv_start (brob eof : Bool) (size : Nat) (file : List UInt8) : Inv brob eof size file (startBox (σ := σ) brob eof size) :=
  ⟨rfl, rfl, fun h => by simp [startBox, h], Nat.zero_le _⟩

theorem fed_upto {brob eof size} {file : List UInt8} {B : Brotli σ} (hB : brob = true → Contract B) (cs : List Call) {i : Nat} {r : Res σ}
    (h : (run B file (startBox brob eof size) cs)[i]? = some r) :
    ((((run B file (startBox brob eof size) cs).take (i + 1)).map (·.fed)).flatten = file.take r.st.pos) ∧ Inv brob eof size file r.st := by
  obtain ⟨s, c, h1, h2, h3, h4, h5⟩ := run_trace hB cs _ (inv_start brob eof size file) i r h
  obtain ⟨⟨hp, hf⟩, hi⟩ := process_steps hB h2 c
  rw [← h4] at hp hf hi
  refine ⟨?_, hi⟩
  rw [List.take_add_one, h, List.map_append, List.flatten_append, h5]
  simp only [startBox, List.drop_zero, Nat.sub_zero, Option.toList, List.map_cons, List.map_nil, List.flatten_cons, List.flatten_nil, List.append_nil, hf]
  rw [← List.take_add]
  congr 1
  omega

end Jxl.BoxContent
