import Verif.Lemmas.OutputSeek
/-!
# C46: output processor callbacks

`XSt.init sk ans` is a new encoder with an output processor, with `seek` if `sk`; its `get_buffer` answers with the
sizes `ans 0`, `ans 1`, ..., where 0 is a request to stop.  `flushInput q` is `JxlEncoderFlushInput` with the inputs `q`
queued; `none` would be an internal error or a breach of the protocol of the callbacks.
-/
namespace Jxl.Props
open OutProc

/-- Processor without `seek`: whatever the answers, the protocol is followed, the caller has received the file up to
the announced finalised position and nothing else, and no buffer is left lent out.  Without a stop request the result is
success and the file complete; an error is only returned after a stop request.

Missing for the full claim: an error after every stop request, which is false (`C46_stop_reported_as_success`). -/
theorem C46_no_seek_partial (q : List (List Op)) (hq : File.empty.OkQueue q) (hs : File.empty.OkSeekQueue q)
    (ans : Nat → Nat) :
    ∃ s ok, flushInput q (XSt.init false ans) = some (s, ok) ∧ s.usr.lent = none ∧
      s.usr.told = s.usr.pos ∧ s.usr.pos ≤ (File.empty.runQueue q).fin ∧
      (∀ i, s.usr.cells i = if i < s.usr.pos then (File.empty.runQueue q).cell i else none) ∧
      (∀ i, i < s.usr.pos → s.usr.cells i ≠ none) ∧
      (ok = false → ∃ k, ans k = 0) ∧
      ((∀ k, 0 < ans k) → ok = true ∧ s.usr.pos = (File.empty.runQueue q).fin) := by
  have hcl := runQueue_closed q closed_empty hq
  obtain ⟨s, c, e, fl, hr⟩ := flushInput_spec q (xinv_init ans) (xflushed_init false ans) hq hs
  have key : ∃ g, XInv s g ∧ Sub g (File.empty.runQueue q) := by
    rcases hr with ⟨_, i, _⟩ | ⟨_, _, g, i, sb⟩
    · exact ⟨_, i, Sub.refl _⟩
    · exact ⟨g, i, sb⟩
  obtain ⟨g, i, sb⟩ := key
  have hh := i.holds sb
  have hsome : ∀ k, k < s.usr.pos → s.usr.cells k ≠ none := by
    intro k hk
    have hk' : k < s.out := by rw [← i.upos]; exact hk
    rw [i.cells, if_pos hk']
    exact i.finalised k (by have := i.outFin; omega)
  refine ⟨s, c, e, i.lent, hh.1, ?_, hh.2, hsome, ?_, ?_⟩
  · by_cases hlt : s.usr.pos ≤ (File.empty.runQueue q).fin
    · exact hlt
    · have h1 := hsome (File.empty.runQueue q).fin (by omega)
      rw [hh.2, if_pos (by omega)] at h1
      exact absurd (hcl _ (Nat.le_refl _)) h1
  · intro hc
    rcases hr with ⟨h1, _⟩ | ⟨_, ng, _⟩
    · rw [hc] at h1
      cases h1
    · by_cases hz : ∃ k, ans k = 0
      · exact hz
      · exact absurd ⟨rfl, fun k => Nat.pos_of_ne_zero fun h => hz ⟨k, h⟩⟩ ng
  · intro hn
    rcases hr with ⟨h1, i', g'⟩ | ⟨_, ng, _⟩
    · refine ⟨h1, ?_⟩
      have hst := (g' ⟨rfl, hn⟩).1
      have ho : s.out = s.fin := by
        rcases fl with h | h
        · exact h
        · rw [hst] at h
          cases h
      have h2 := i'.fin1
      have h3 := i'.upos
      by_cases hlt : (File.empty.runQueue q).fin < s.fin
      · exact absurd (hcl _ (Nat.le_refl _)) (i'.finalised _ hlt)
      · omega
    · exact absurd ⟨rfl, hn⟩ ng

/-- Processor with `seek`, no stop request: success, the caller has every byte of the file at its position, and all of
the file is announced as finalised.

Missing for the full claim: what happens after a stop request; there it is false (`C46_finalised_but_unwritten`). -/
theorem C46_seek_partial (q : List (List Op)) (hq : File.empty.OkQueue q) (ans : Nat → Nat) (hn : ∀ k, 0 < ans k) :
    ∃ s, flushInput q (XSt.init true ans) = some (s, true) ∧ s.usr.lent = none ∧
      s.usr.cells = (File.empty.runQueue q).cell ∧ s.usr.told = (File.empty.runQueue q).fin := by
  obtain ⟨s, e, i⟩ := sflushInput_spec q (sinv_init hn) hq
  exact ⟨s, e, i.lent, i.cells, i.told⟩

/-- A file of boxes, headers written after the contents: with or without `seek`, a caller who never asks to stop gets
header, contents, header, contents, and so on. -/
theorem C46_boxes_partial (bx : List (List Nat × List Nat)) (hb : ∀ b ∈ bx, b.1 ≠ []) (sk : Bool) (ans : Nat → Nat)
    (hn : ∀ k, 0 < ans k) :
    ∃ s, flushInput (boxQueue 0 bx) (XSt.init sk ans) = some (s, true) ∧
      (∀ i, s.usr.cells i = (bx.flatMap fun b => b.1 ++ b.2)[i]?) ∧
      s.usr.told = (bx.flatMap fun b => b.1 ++ b.2).length := by
  obtain ⟨hq, hr⟩ := boxes_spec bx hb File.empty rfl closed_empty (by intro i hi; cases hi)
  have hfin : (File.empty.runQueue (boxQueue 0 bx)).fin = (bx.flatMap fun b => b.1 ++ b.2).length := by
    rw [show boxQueue 0 bx = boxQueue File.empty.pos bx from rfl, hr]
    show 0 + (boxBytes bx).length = _
    rw [Nat.zero_add]
    rfl
  have hcell : ∀ i, (File.empty.runQueue (boxQueue 0 bx)).cell i = (bx.flatMap fun b => b.1 ++ b.2)[i]? := by
    intro i
    rw [show boxQueue 0 bx = boxQueue File.empty.pos bx from rfl, hr]
    show (File.empty.put (boxBytes bx)).cell i = _
    rw [put_cell]
    by_cases hi : i < (boxBytes bx).length
    · rw [if_pos (by show 0 ≤ i ∧ i < 0 + _; omega)]
      rfl
    · rw [if_neg (by show ¬ (0 ≤ i ∧ i < 0 + _); omega)]
      have : (boxBytes bx)[i]? = none := List.getElem?_eq_none (by omega)
      exact this.symm
  cases sk with
  | true =>
    obtain ⟨s, e, _, h1, h2⟩ := C46_seek_partial _ hq ans hn
    exact ⟨s, e, fun i => by rw [h1]; exact hcell i, by rw [h2]; exact hfin⟩
  | false =>
    obtain ⟨s, ok, e, _, h1, _, h2, _, _, h3⟩ := C46_no_seek_partial _ hq
      (boxes_seeks bx hb File.empty rfl closed_empty) ans
    obtain ⟨rfl, h4⟩ := h3 hn
    have h4' : s.usr.pos = (File.empty.runQueue (boxQueue 0 bx)).fin := h4
    refine ⟨s, e, fun i => ?_, by rw [h1, h4']; exact hfin⟩
    have h2' : s.usr.cells i =
      if i < s.usr.pos then (File.empty.runQueue (boxQueue 0 bx)).cell i else none := h2 i
    rw [h2', h4', hfin, hcell]
    by_cases hi : i < (bx.flatMap fun b => b.1 ++ b.2).length
    · rw [if_pos hi]
    · rw [if_neg hi, List.getElem?_eq_none (by omega)]

def stopBox : List (List Nat × List Nat) := [([0, 0, 0, 7], [1, 2, 3])]

/-- The claim about stop requests is false without `seek`: here the second request for a buffer is answered with null,
`JxlEncoderFlushInput` returns `JXL_ENC_SUCCESS`, and the caller has only the box header. -/
theorem C46_stop_reported_as_success :
    ∃ s, flushInput (boxQueue 0 stopBox) (XSt.init false fun k => if k = 1 then 0 else 8) = some (s, true) ∧
      s.stop = true ∧ s.usr.pos = 4 ∧ s.usr.cells 4 = none ∧
      (File.empty.runQueue (boxQueue 0 stopBox)).cell 4 = some 1 :=
  ⟨_, rfl, rfl, rfl, rfl, rfl⟩

/-- With `seek` it is worse: here the third request is answered with null while the header is handed over;
`JxlEncoderFlushInput` returns `JXL_ENC_SUCCESS` and has announced all of the file as finalised although the header was
never written. -/
theorem C46_finalised_but_unwritten :
    ∃ s, flushInput (boxQueue 0 stopBox)
        (XSt.init true fun k => if k = 0 then 8 else if k = 1 then 2 else 0) = some (s, true) ∧
      s.stop = true ∧ s.usr.told = 7 ∧ ∀ i, i < 4 → s.usr.cells i = none := by
  refine ⟨_, rfl, rfl, rfl, fun i hi => ?_⟩
  have : i = 0 ∨ i = 1 ∨ i = 2 ∨ i = 3 := by omega
  rcases this with rfl | rfl | rfl | rfl <;> rfl

/-! The hypotheses: two boxes through one-byte buffers. -/

def extBoxes : List (List Nat × List Nat) :=
  [([0, 0, 0, 7], [1, 2, 3]), ([0, 0, 0, 4], []), ([0, 0, 0, 9], [10, 11, 12, 13, 14])]

example : ∀ b ∈ extBoxes, b.1 ≠ [] := by decide

example : File.empty.OkQueue (boxQueue 0 extBoxes) ∧ File.empty.OkSeekQueue (boxQueue 0 extBoxes) :=
  ⟨(boxes_spec extBoxes (by decide) File.empty rfl closed_empty (by intro i hi; cases hi)).1,
   boxes_seeks extBoxes (by decide) File.empty rfl closed_empty⟩

example : (flushInput (boxQueue 0 extBoxes) (XSt.init false fun _ => 1)).map
      (fun r => (r.2, r.1.usr.told, (List.range 22).map r.1.usr.cells)) =
    some (true, 20, [0, 0, 0, 7, 1, 2, 3, 0, 0, 0, 4, 0, 0, 0, 9, 10, 11, 12, 13, 14].map some ++ [none, none]) := by
  decide +kernel

example : (flushInput (boxQueue 0 extBoxes) (XSt.init true fun k => k % 3 + 1)).map
      (fun r => (r.2, r.1.usr.told, (List.range 22).map r.1.usr.cells)) =
    some (true, 20, [0, 0, 0, 7, 1, 2, 3, 0, 0, 0, 4, 0, 0, 0, 9, 10, 11, 12, 13, 14].map some ++ [none, none]) := by
  decide +kernel

/-- An error after a stop request, with a beginning of the file received. -/
example : (flushInput (boxQueue 0 extBoxes) (XSt.init false fun k => 3 - k)).map
      (fun r => (r.2, r.1.usr.told, (List.range 6).map r.1.usr.cells)) =
    some (false, 3, [0, 0, 0].map some ++ [none, none, none]) := by
  decide +kernel

end Jxl.Props
