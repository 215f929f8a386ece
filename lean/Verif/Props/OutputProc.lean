import Verif.Lemmas.OutputProcBox
/-!
# C34: the encoder's output does not depend on the output buffers

The file is described in `Spec/OutputProc.lean` with no buffers: bytes written once each at positions of the writer's
choice.  `drain false St.init q ws` is a new encoder with the inputs `q` queued and one `JxlEncoderProcessOutput` call
for each buffer of `ws`.
-/
namespace Jxl.Props
open OutProc

/-- Whatever buffers the caller offers, no call fails; the bytes received are the first bytes of the file, as many as
there was room for.  Success is reported only with the complete file, and is reported if there was room to spare. -/
theorem C34_stream (q : List (List Op)) (hq : File.empty.OkQueue q) (ws : List (List Nat)) :
    ∃ bs ok, drain false St.init q ws = some (bs, ok) ∧
      (File.empty.runQueue q).Starts bs ∧
      bs.length = min (ws.map List.length).sum (File.empty.runQueue q).fin ∧
      (ok = true → bs.length = (File.empty.runQueue q).fin) ∧
      ((File.empty.runQueue q).fin < (ws.map List.length).sum → ok = true) := by
  obtain ⟨bs, ok, e, h1, h2, h3, h4, _⟩ := drain_spec ws inv_init flushed_init closed_empty q hq false
    (by intro h; cases h)
  have h0 : St.init.out = 0 := rfl
  rw [h0, Nat.zero_add, Nat.zero_add] at h2
  refine ⟨bs, ok, e, h1, h2, fun h => ?_, fun h => h4 ?_⟩
  · have := h3 h
    omega
  · show _ < 0 + total ws
    unfold total
    omega

/-- Two schedules of buffers: the bytes of the one with less room start the bytes of the other; two which succeed give
the same bytes. -/
theorem C34_same_bytes (q : List (List Op)) (hq : File.empty.OkQueue q) (ws ws' : List (List Nat))
    (bs bs' : List Nat) (ok ok' : Bool) (h : drain false St.init q ws = some (bs, ok))
    (h' : drain false St.init q ws' = some (bs', ok')) :
    (bs.length ≤ bs'.length → bs <+: bs') ∧ (ok = true → ok' = true → bs = bs') := by
  obtain ⟨_, _, e, s1, l1, o1, _⟩ := C34_stream q hq ws
  obtain ⟨_, _, e', s2, l2, o2, _⟩ := C34_stream q hq ws'
  rw [h] at e
  rw [h'] at e'
  cases e
  cases e'
  have hp : bs.length ≤ bs'.length → bs <+: bs' := by
    intro hl
    rw [List.prefix_iff_eq_take]
    apply List.ext_getElem?
    intro i
    by_cases hi : i < bs.length
    · rw [List.getElem?_take_of_lt hi, ← s1 i hi, ← s2 i (by omega)]
    · rw [List.getElem?_eq_none (by omega), List.getElem?_eq_none (by simp; omega)]
  refine ⟨hp, fun a b => ?_⟩
  have hl : bs.length = bs'.length := by rw [o1 a, o2 b]
  exact (hp (by omega)).eq_of_length hl

/-- Boxes, each with its header patched in after its contents: the caller receives header, contents, header, contents,
and so on, cut off where the room ends. -/
theorem C34_boxes (bx : List (List Nat × List Nat)) (hb : ∀ b ∈ bx, b.1 ≠ []) (ws : List (List Nat)) :
    ∃ ok, drain false St.init (boxQueue 0 bx) ws =
        some ((bx.flatMap fun b => b.1 ++ b.2).take (ws.map List.length).sum, ok) ∧
      (ok = true → (bx.flatMap fun b => b.1 ++ b.2).length ≤ (ws.map List.length).sum) ∧
      ((bx.flatMap fun b => b.1 ++ b.2).length < (ws.map List.length).sum → ok = true) := by
  obtain ⟨hq, hr⟩ := boxes_spec bx hb File.empty rfl closed_empty (by intro i hi; cases hi)
  obtain ⟨bs, ok, e, s, l, o, o'⟩ := C34_stream _ hq ws
  have hb' : boxBytes bx = bx.flatMap fun b => b.1 ++ b.2 := rfl
  have hfin : (File.empty.runQueue (boxQueue File.empty.pos bx)).fin = (boxBytes bx).length := by
    rw [hr]
    show 0 + (boxBytes bx).length = _
    omega
  rw [hfin] at l o o'
  rw [hb'] at l o o'
  refine ⟨ok, ?_, fun h => ?_, o'⟩
  · rw [show boxQueue 0 bx = boxQueue File.empty.pos bx from rfl, e]
    congr 2
    apply List.ext_getElem?
    intro i
    by_cases hi : i < bs.length
    · rw [← s i hi, hr, List.getElem?_take_of_lt (by omega)]
      show (File.empty.put (boxBytes bx)).cell i = _
      rw [put_cell, hb', if_pos (by show 0 ≤ i ∧ i < 0 + _; omega)]
      rfl
    · rw [List.getElem?_eq_none (by omega), List.getElem?_eq_none (by rw [List.length_take]; omega)]
  · have := o h
    omega

/-- The states an encoder gets into when the caller offers a buffer after each finished input and the inputs follow the
rules, with the file written so far. -/
inductive OutReached : St → File → Prop where
  | init : OutReached St.init File.empty
  | call {s f s'} (w : List Nat) : OutReached s f → f.Closed → setAvailOut s w = some s' → OutReached s' f
  | op {s f s'} (o : Op) : OutReached s f → f.Ok o → step s o = some s' → OutReached s' (f.next o)

theorem OutReached.inv {s f} (h : OutReached s f) : ∃ done, Inv s f done ∧ Flushed s := by
  induction h with
  | init => exact ⟨[], inv_init, flushed_init⟩
  | call w _ hc e ih =>
    obtain ⟨done, i, fl⟩ := ih
    obtain ⟨_, e', i', fl', _⟩ := setAvailOut_spec i fl hc w
    rw [e] at e'
    cases e'
    exact ⟨_, i', fl'⟩
  | op o _ hok e ih =>
    obtain ⟨done, i, fl⟩ := ih
    obtain ⟨_, e', i', fl', _⟩ := step_spec i fl o hok
    rw [e] at e'
    cases e'
    exact ⟨_, i', fl'⟩

/-- Seeking back and writing never touches bytes the caller has been given: in every reachable state the next operation
succeeds, stays in the caller's buffer, and leaves the bytes before `*next_out` as they are. -/
theorem C34_finalised_unaltered {s : St} {f : File} (h : OutReached s f) (o : Op) (hok : f.Ok o) :
    ∃ s', step s o = some s' ∧ s'.win.length = s.win.length ∧ s.used ≤ s'.used ∧
      s'.win.take s.used = s.win.take s.used := by
  obtain ⟨done, i, fl⟩ := h.inv
  obtain ⟨s', e, i', fl', hw⟩ := step_spec i fl o hok
  have hfin : f.fin ≤ (f.next o).fin := by
    cases o with
    | finalize => exact i.finPos
    | _ => exact Nat.le_refl _
  have a1 := i.fin
  have a2 := i'.fin
  have a3 := i.len
  have a4 := i'.len
  have a5 := i.outFin
  have a6 := i.used
  have a7 := i'.used
  have hu : s.used ≤ s'.used := by
    rcases fl' with h1 | h1
    · omega
    · unfold St.avail at h1
      omega
  refine ⟨s', e, hw, hu, ?_⟩
  apply List.ext_getElem?
  intro k
  by_cases hk : k < s.used
  · have hd := i.deliv (done.length + k) (by omega)
    have hd' := i'.deliv (done.length + k) (by omega)
    rw [List.getElem?_append_right (by omega), Nat.add_sub_cancel_left, List.getElem?_take_of_lt hk] at hd
    rw [List.getElem?_append_right (by omega), Nat.add_sub_cancel_left,
      List.getElem?_take_of_lt (by omega)] at hd'
    rw [List.getElem?_take_of_lt hk, List.getElem?_take_of_lt hk, ← hd, ← hd']
    refine next_keeps hok _ (i.finalised _ (by omega))
  · rw [List.getElem?_eq_none (by simp; omega), List.getElem?_eq_none (by simp; omega)]

/-- Output produced before any buffer was offered and then copied out whole (how a frame is encoded into a vector,
enc_frame.cc:2760): the copy is the file. -/
theorem C34_copy_output (ops : List Op) (hok : File.empty.OkAll ops) :
    ∃ s bs, runOps ops St.init = some s ∧ copyOut s = some bs ∧ (File.empty.run ops).Starts bs ∧
      bs.length = (File.empty.run ops).fin := by
  obtain ⟨s, e, i, _, hw⟩ := runOps_spec ops inv_init flushed_init hok
  have : s.win = [] := List.length_eq_zero_iff.1 (by rw [hw]; rfl)
  obtain ⟨bs, e', h1, h2⟩ := copyOut_spec i this
  exact ⟨s, bs, e, e', h1, h2⟩

/-! Two boxes, the second with contents longer than any buffer offered. -/

def outBoxes : List (List Nat × List Nat) :=
  [([0, 0, 0, 12], [1, 2, 3, 4, 5]), ([0, 0, 0, 9], [10, 11, 12, 13, 14, 15, 16])]

example : ∀ b ∈ outBoxes, b.1 ≠ [] := by decide

example : File.empty.OkQueue (boxQueue 0 outBoxes) :=
  (boxes_spec outBoxes (by decide) File.empty rfl closed_empty (by intro i hi; cases hi)).1

example : drain false St.init (boxQueue 0 outBoxes)
      [List.replicate 3 0, List.replicate 1 0, [], List.replicate 6 0, List.replicate 40 0] =
    some ([0, 0, 0, 12, 1, 2, 3, 4, 5, 0, 0, 0, 9, 10, 11, 12, 13, 14, 15, 16], true) := by decide +kernel

example : drain false St.init (boxQueue 0 outBoxes) [List.replicate 50 0] =
    some ([0, 0, 0, 12, 1, 2, 3, 4, 5, 0, 0, 0, 9, 10, 11, 12, 13, 14, 15, 16], true) := by decide +kernel

example : drain false St.init (boxQueue 0 outBoxes) [List.replicate 3 0, List.replicate 8 0] =
    some ([0, 0, 0, 12, 1, 2, 3, 4, 5, 0, 0], false) := by decide +kernel

/-- A state in the middle of a box: contents written directly into the caller's buffer behind bytes already given. -/
example : ∃ s f, OutReached s f ∧ s.used = 9 ∧ f.Ok (Op.seek 13) := by
  refine ⟨_, _, .op .finalize (.op (.seek 9) (.op (.put [0, 0, 0, 12]) (.op (.seek 0)
    (.op (Op.copy [1, 2, 3, 4, 5]) (.op (.seek 4) (.call (s' := ⟨[], 0, 0, 0, List.replicate 20 0, 0, false⟩)
      (List.replicate 20 0) .init closed_empty rfl)
    ?_ rfl) ?_ rfl) ?_ rfl) ?_ rfl) ?_ rfl) ?_ rfl, rfl, ?_⟩
  · exact Nat.zero_le _
  · refine ⟨by decide, fun i _ _ => rfl, ?_⟩
    intro r size h1 h2
    omega
  · exact Nat.zero_le _
  · refine ⟨by decide, fun i _ h2 => ?_⟩
    have h2' : i < 4 := h2
    have : i = 0 ∨ i = 1 ∨ i = 2 ∨ i = 3 := by omega
    rcases this with rfl | rfl | rfl | rfl <;> rfl
  · exact Nat.zero_le _
  · intro i hi
    have hi' : i < 9 := hi
    have : i = 0 ∨ i = 1 ∨ i = 2 ∨ i = 3 ∨ i = 4 ∨ i = 5 ∨ i = 6 ∨ i = 7 ∨ i = 8 := by omega
    rcases this with rfl | rfl | rfl | rfl | rfl | rfl | rfl | rfl | rfl <;> intro h <;> cases h
  · show 9 ≤ 13
    omega

example : (runOps [.seek 4, Op.copy [7, 8], .seek 0, .put [1, 2, 3, 4], .seek 6, .finalize] St.init).bind copyOut =
    some [1, 2, 3, 4, 7, 8] := by decide +kernel

end Jxl.Props
