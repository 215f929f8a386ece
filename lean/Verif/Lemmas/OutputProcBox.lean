import Verif.Lemmas.OutputProc

namespace Jxl.OutProc

/-! ### Boxes -/

theorem put_cell (f : File) (bs : List Nat) (i : Nat) :
    (f.put bs).cell i =
      if f.pos ≤ i ∧ i < f.pos + bs.length then bs[i - f.pos]? else f.cell i := rfl

theorem file_ext (a b : File) (h1 : a.cell = b.cell) (h2 : a.pos = b.pos)
    (h3 : a.fin = b.fin) : a = b := by
  cases a; cases b
  simp_all

theorem put_fin (f : File) (bs : List Nat) : (f.put bs).fin = f.fin := rfl

theorem box_run (f : File) (hdr c : List Nat) :
    f.run (appendBox f.pos hdr [Op.copy c] c.length) =
      { f.put (hdr ++ c) with fin := f.pos + (hdr ++ c).length } := by
  apply file_ext
  · funext i
    show (if f.pos ≤ i ∧ i < f.pos + hdr.length then hdr[i - f.pos]?
      else if f.pos + hdr.length ≤ i ∧ i < f.pos + hdr.length + c.length then
        c[i - (f.pos + hdr.length)]? else f.cell i) = (f.put (hdr ++ c)).cell i
    rw [put_cell, List.length_append]
    by_cases h1 : f.pos ≤ i ∧ i < f.pos + hdr.length
    · rw [if_pos h1, if_pos (by omega), List.getElem?_append_left (by omega)]
    · rw [if_neg h1]
      by_cases h2 : f.pos + hdr.length ≤ i ∧ i < f.pos + hdr.length + c.length
      · rw [if_pos h2, if_pos (by omega), List.getElem?_append_right (by omega)]
        congr 1
        omega
      · rw [if_neg h2, if_neg (by omega)]
  · show f.pos + hdr.length + c.length = f.pos + (hdr ++ c).length
    rw [List.length_append]
    omega
  · show f.pos + hdr.length + c.length = f.pos + (hdr ++ c).length
    rw [List.length_append]
    omega

theorem box_ok (f : File) (hf : f.fin = f.pos) (hc : f.Closed)
    (hw : ∀ i, i < f.fin → f.cell i ≠ none) (hdr c : List Nat) (hh : hdr ≠ []) :
    f.OkAll (appendBox f.pos hdr [Op.copy c] c.length) := by
  have hrun := box_run f hdr c
  unfold appendBox at hrun ⊢
  simp only [List.singleton_append, List.cons_append, List.nil_append, File.run] at hrun
  simp only [List.singleton_append, List.cons_append, List.nil_append, File.OkAll]
  refine ⟨?_, ⟨by omega, ?_, ?_⟩, ?_, ⟨hh, ?_⟩, ?_, ?_, trivial⟩
  · show f.fin ≤ f.pos + hdr.length
    omega
  · intro i h1 h2
    exact hc i (by
      have : f.pos + hdr.length ≤ i := h1
      omega)
  · intro r sz h1 h2
    omega
  · show f.fin ≤ f.pos
    omega
  · intro i h1 h2
    have h1' : f.pos ≤ i := h1
    have h2' : i < f.pos + hdr.length := h2
    show (if f.pos + hdr.length ≤ i ∧ i < f.pos + hdr.length + c.length then
        c[i - (f.pos + hdr.length)]? else f.cell i) = none
    rw [if_neg (by omega)]
    exact hc i (by omega)
  · show f.fin ≤ _
    omega
  · intro i hi
    have hi' : i < f.pos + hdr.length + c.length := hi
    have hcell := congrArg (fun g => g.cell i) hrun
    have hval : (f.put (hdr ++ c)).cell i ≠ none := by
      unfold File.put
      dsimp only
      by_cases h1 : f.pos ≤ i ∧ i < f.pos + (hdr ++ c).length
      · rw [if_pos h1, List.getElem?_eq_getElem (by omega)]
        simp
      · rw [if_neg h1]
        rw [List.length_append] at h1
        exact hw i (by omega)
    intro hn
    apply hval
    rw [← hn]
    exact hcell.symm

/-- The queue of a list of boxes, each a header and contents. -/
def boxQueue : Nat → List (List Nat × List Nat) → List (List Op)
  | _, [] => []
  | p, (hdr, c) :: bx =>
    appendBox p hdr [Op.copy c] c.length :: boxQueue (p + (hdr ++ c).length) bx

def boxBytes (bx : List (List Nat × List Nat)) : List Nat := bx.flatMap (fun b => b.1 ++ b.2)

theorem boxes_spec (bx : List (List Nat × List Nat)) (hb : ∀ b ∈ bx, b.1 ≠ []) :
    ∀ (f : File), f.fin = f.pos → f.Closed → (∀ i, i < f.fin → f.cell i ≠ none) →
    f.OkQueue (boxQueue f.pos bx) ∧
      f.runQueue (boxQueue f.pos bx) =
        { f.put (boxBytes bx) with fin := f.pos + (boxBytes bx).length } := by
  induction bx with
  | nil =>
    intro f hf hc hw
    refine ⟨trivial, ?_⟩
    show f = _
    simp only [boxBytes, List.flatMap_nil, put_nil, List.length_nil, Nat.add_zero]
    exact file_ext _ _ rfl rfl hf
  | cons b bx ih =>
    intro f hf hc hw
    obtain ⟨hdr, c⟩ := b
    have hrun := box_run f hdr c
    have hok := box_ok f hf hc hw hdr c (hb (hdr, c) (by simp))
    have hc' : (f.run (appendBox f.pos hdr [Op.copy c] c.length)).Closed := by
      rw [hrun]
      intro i hi
      have hi' : f.pos + (hdr ++ c).length ≤ i := hi
      show (f.put (hdr ++ c)).cell i = none
      unfold File.put
      dsimp only
      rw [if_neg (by omega)]
      exact hc i (by omega)
    have hw' : ∀ i, i < (f.run (appendBox f.pos hdr [Op.copy c] c.length)).fin →
        (f.run (appendBox f.pos hdr [Op.copy c] c.length)).cell i ≠ none := by
      rw [hrun]
      intro i hi
      have hi' : i < f.pos + (hdr ++ c).length := hi
      show (f.put (hdr ++ c)).cell i ≠ none
      unfold File.put
      dsimp only
      by_cases h1 : f.pos ≤ i
      · rw [if_pos (by omega), List.getElem?_eq_getElem (by omega)]
        simp
      · rw [if_neg (by omega)]
        exact hw i (by omega)
    have := ih (fun b h => hb b (by simp [h]))
      (f.run (appendBox f.pos hdr [Op.copy c] c.length)) (by rw [hrun]; rfl) hc' hw'
    have hp : (f.run (appendBox f.pos hdr [Op.copy c] c.length)).pos =
        f.pos + (hdr ++ c).length := by rw [hrun]; rfl
    rw [hp] at this
    refine ⟨⟨hok, hc', this.1⟩, ?_⟩
    show (f.run (appendBox f.pos hdr [Op.copy c] c.length)).runQueue
      (boxQueue (f.pos + (hdr ++ c).length) bx) = _
    rw [this.2, hrun]
    have happ := put_append f (hdr ++ c) (boxBytes bx)
    have hbb : boxBytes ((hdr, c) :: bx) = (hdr ++ c) ++ boxBytes bx := by
      simp [boxBytes]
    rw [hbb, ← happ, List.length_append (as := hdr ++ c), ← Nat.add_assoc]
    rfl

/-! ### `CopyOutput` -/

/-- With the window used up, a new one can be offered at any time. -/
theorem rewindow {s f done} (h : Inv s f done) (ha : s.avail = 0) (w : List Nat) :
    Inv { s with win := w, used := 0 } f (done ++ s.win.take s.used) := by
  have hl := deliv_length h
  constructor
  · exact h.held
  · exact h.pos
  · exact h.fin
  · exact h.finPos
  · exact h.outFin
  · exact Nat.zero_le _
  · exact hl
  · intro i hi
    show f.cell i = ((done ++ s.win.take s.used) ++ w.take 0)[i]?
    rw [List.take_zero, List.append_nil]
    exact h.deliv i hi
  · exact h.sorted
  · exact h.wr
  · exact h.own
  · intro b hb ho
    exfalso
    obtain ⟨q, r⟩ := h.dir b hb ho
    obtain ⟨w0, wl⟩ := h.wr b hb
    have hu := h.used
    have hav : s.avail = s.win.length - s.used := rfl
    omega
  · exact h.cover
  · exact h.finalised

theorem copyOutput_spec (fuel : Nat) : ∀ (n : Nat) {s f acc}, 0 < n → Inv s f acc →
    (s.out < s.fin → 0 < s.avail) → s.fin - s.out + 1 ≤ fuel →
    ∃ bs, copyOutput fuel n acc s = some bs ∧ f.Starts bs ∧ bs.length = f.fin := by
  induction fuel with
  | zero => intro n s f acc _ _ _ hf; omega
  | succ fuel ih =>
    intro n s f acc hn h ha hf
    rw [copyOutput]
    have hof := h.outFin
    by_cases hc : s.out < s.fin
    · rw [if_pos hc]
      obtain ⟨s1, e1, i1, fl1, n1, w1⟩ := flush_spec h
      rw [e1, Option.bind_some]
      have hl := h.len
      have hl1 := i1.len
      have hu := h.used
      have hu1 := i1.used
      have hof1 := i1.outFin
      have hav : s.avail = s.win.length - s.used := rfl
      have hav1 : s1.avail = s1.win.length - s1.used := rfl
      have := ha hc
      by_cases h0 : s1.avail = 0
      · rw [if_pos h0]
        refine ih (2 * n) (by omega) (rewindow i1 h0 (List.replicate n 0)) ?_ ?_
        · intro _
          show 0 < (List.replicate n 0).length - 0
          simpa using hn
        · show s1.fin - s1.out + 1 ≤ fuel
          omega
      · rw [if_neg h0]
        have h1 : s1.out = s1.fin := fl1.resolve_right h0
        exact ih n hn i1 (by omega) (by omega)
    · rw [if_neg hc]
      have hl := deliv_length h
      have hff := h.fin
      exact ⟨_, rfl, fun i hi => h.deliv i (by omega), by omega⟩

theorem copyOut_spec {s f} (h : Inv s f []) (hw : s.win = []) :
    ∃ bs, copyOut s = some bs ∧ f.Starts bs ∧ bs.length = f.fin := by
  have hu := h.used
  rw [hw] at hu
  have hu0 : s.used = 0 := by simpa using hu
  have ha : s.avail = 0 := by unfold St.avail; rw [hw]; simp
  have := rewindow h ha (List.replicate 64 0)
  rw [hw, List.take_nil, List.append_nil] at this
  unfold copyOut
  exact copyOutput_spec _ 64 (by omega) this
    (fun _ => by show 0 < (List.replicate 64 0).length - 0; simp)
    (by show s.fin - s.out + 1 ≤ _; omega)

end Jxl.OutProc
