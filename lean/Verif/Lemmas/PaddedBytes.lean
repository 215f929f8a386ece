import Verif.Spec.PaddedBytes
namespace Jxl.PaddedBytes

/-- Well-formedness of the buffer. -/
structure WF (b : PaddedBytes) : Prop where
  size_le : b.size ≤ b.cap
  mem_len : (b.mem = [] ∧ b.cap = 0) ∨ b.mem.length = b.cap + 8

theorem WF.init : WF {} := ⟨by simp, by simp⟩

theorem WF.len {b : PaddedBytes} (h : WF b) : b.mem = [] ∨ b.size + 8 ≤ b.mem.length := by
  rcases h.mem_len with ⟨h, _⟩ | h'
  · exact Or.inl h
  · have := h.size_le; right; omega

theorem contents_length {b : PaddedBytes} (h : WF b) : b.contents.length = b.size := by
  have := h.size_le
  rcases h.mem_len with ⟨h1, h2⟩ | h'
  · simp [contents, h1]; omega
  · simp [contents]; omega

theorem changeCapacity_props (b : PaddedBytes) (a : Alloc) (n : Nat) (h : WF b) (hn : b.size ≤ n) :
    WF (b.changeCapacity a n).2 ∧ (b.changeCapacity a n).2.size = b.size ∧
    (b.changeCapacity a n).2.contents = b.contents ∧
    ((b.changeCapacity a n).1 = false → (b.changeCapacity a n).2 = b) ∧
    ((b.changeCapacity a n).1 = true → n ≤ (b.changeCapacity a n).2.cap ∧
      (b.changeCapacity a n).2.mem ≠ [] ∧ (b.changeCapacity a n).2.mem[b.size]? = some 0) := by
  unfold changeCapacity
  simp only
  split
  · cases a with
    | none => refine ⟨h, rfl, rfl, fun _ => rfl, by simp⟩
    | some g =>
      simp only
      by_cases hm : b.mem = []
      · have hs : b.size = 0 := by
          have := h.size_le
          rcases h.mem_len with ⟨h1, h2⟩ | h'
          · omega
          · rw [hm] at h'; simp at h'
        rw [if_pos hm]
        refine ⟨⟨?_, Or.inr ?_⟩, trivial, ?_, ?_, fun _ => ⟨?_, ?_, ?_⟩⟩
        · simp only; omega
        · simp
        · simp [contents, hs]
        · simp
        · omega
        · intro hx; have := congrArg List.length hx; simp at this
        · rw [hs, List.getElem?_set_self]; simp
      · have hl := h.len.resolve_left hm
        rw [if_neg hm]
        refine ⟨⟨?_, Or.inr ?_⟩, trivial, ?_, ?_, fun _ => ⟨?_, ?_, ?_⟩⟩
        · simp only; omega
        · simp; omega
        · simp only [contents]
          rw [List.take_set_of_le (Nat.le_refl _), List.take_append_of_le_length (by simp; omega)]
          rw [List.take_take, Nat.min_self]
        · simp
        · omega
        · intro hx; have := congrArg List.length hx; simp at this; omega
        · rw [List.getElem?_set_self]; simp; omega
  · refine ⟨h, rfl, rfl, fun _ => rfl, by simp⟩

theorem reserve_props (b : PaddedBytes) (a : Alloc) (n : Nat) (h : WF b) :
    WF (b.reserve a n).2 ∧ (b.reserve a n).2.size = b.size ∧
    (b.reserve a n).2.contents = b.contents ∧
    ((b.reserve a n).1 = false → (b.reserve a n).2 = b) ∧
    ((b.reserve a n).1 = true → n ≤ (b.reserve a n).2.cap) := by
  rw [reserve]
  split
  · exact ⟨h, rfl, rfl, by simp, fun _ => by assumption⟩
  · split
    · have hs := h.size_le
      obtain ⟨h1, h2, h3, h4, h5⟩ := changeCapacity_props b a (max n (b.cap + b.cap / 2)) h (by omega)
      exact ⟨h1, h2, h3, h4, fun ht => by have := (h5 ht).1; omega⟩
    · exact ⟨h, rfl, rfl, by simp, by simp⟩

theorem resize_props (b : PaddedBytes) (a : Alloc) (n : Nat) (h : WF b) :
    WF (b.resize a n).2 ∧
    ((b.resize a n).1 = false → (b.resize a n).2 = b) ∧
    ((b.resize a n).1 = true → (b.resize a n).2.size = n ∧
      (b.resize a n).2.contents.take b.size = b.contents.take n) := by
  obtain ⟨h1, h2, h3, h4, h5⟩ := reserve_props b a n h
  rw [resize]
  generalize b.reserve a n = p at h1 h2 h3 h4 h5 ⊢
  obtain ⟨s, b'⟩ := p
  cases s with
  | false => exact ⟨h1, h4, by simp⟩
  | true =>
    simp only at *
    have h5 := h5 trivial
    refine ⟨⟨h5, h1.mem_len⟩, by simp, fun _ => ⟨trivial, ?_⟩⟩
    simp only [contents] at *
    rw [← h3, List.take_take, List.take_take, Nat.min_comm, h2]

theorem blit_length (mem : List UInt8) (off : Nat) (d : List UInt8) (h : off + d.length ≤ mem.length) :
    (blit mem off d).length = mem.length := by
  simp [blit]; omega

theorem blit_take (mem : List UInt8) (off : Nat) (d : List UInt8) (h : off + d.length ≤ mem.length) :
    (blit mem off d).take (off + d.length) = mem.take off ++ d := by
  rw [blit, List.take_append_of_le_length (by simp; omega)]
  rw [List.take_of_length_le (by simp; omega)]

namespace Spec

theorem agrees_take {v : Vec} {l : List UInt8} (h : Agrees v l) (n : Nat) : Agrees (v.take n) (l.take n) := by
  refine ⟨by simp [h.1], fun i x hx => ?_⟩
  rw [List.getElem?_take] at hx ⊢
  split at hx
  · rename_i hi; rw [if_pos hi]; exact h.2 i x hx
  · cases hx

theorem agrees_append {v w : Vec} {l m : List UInt8} (h : Agrees v l) (h' : Agrees w m) : Agrees (v ++ w) (l ++ m) := by
  refine ⟨by simp [h.1, h'.1], fun i x hx => ?_⟩
  rw [List.getElem?_append] at hx ⊢
  rw [h.1]
  split at hx
  · rename_i hi; rw [if_pos hi]; exact h.2 i x hx
  · rename_i hi; rw [if_neg hi]; exact h'.2 _ x hx

theorem agrees_none (n : Nat) (l : List UInt8) (hl : l.length = n) : Agrees (List.replicate n none) l := by
  refine ⟨by simp [hl], fun i x hx => ?_⟩
  rw [List.getElem?_replicate] at hx
  split at hx <;> simp at hx

theorem agrees_some (l : List UInt8) : Agrees (l.map some) l := by
  refine ⟨by simp, fun i x hx => ?_⟩
  simpa using hx

end Spec

open Spec in
theorem push_key (b : PaddedBytes) (v : Vec) (x : UInt8) (ha : Agrees v b.contents)
    (b' : PaddedBytes) (w1 : WF b') (w2 : b'.size = b.size) (w3 : b'.contents = b.contents)
    (w4 : b.size < b'.cap) :
    WF { b' with mem := b'.mem.set b'.size x, size := b'.size + 1 } ∧
    Agrees (v ++ [some x]) (contents { b' with mem := b'.mem.set b'.size x, size := b'.size + 1 }) := by
  have hml : b'.mem.length = b'.cap + 8 := by
    rcases w1.mem_len with ⟨_, hc⟩ | hc
    · omega
    · exact hc
  refine ⟨⟨by simp only; omega, Or.inr (by simp [hml])⟩, ?_⟩
  simp only [contents] at *
  rw [List.take_set, List.take_add_one, List.set_append]
  have : (b'.mem.take b'.size).length = b'.size := by simp; omega
  simp only [this, Nat.lt_irrefl, if_false, Nat.sub_self]
  rw [w3]
  have hx : b'.mem[b'.size]? = some b'.mem[b'.size] := List.getElem?_eq_getElem (by omega)
  rw [hx]
  exact agrees_append ha ⟨rfl, by intro i y; cases i <;> simp⟩

open Spec in
theorem step_refines (b : PaddedBytes) (v : Vec) (op : Op) (h : WF b) (ha : Agrees v b.contents) :
    WF (b.step op).2 ∧ Agrees (Spec.step v (b.step op).1 op) (b.step op).2.contents := by
  have hvl : v.length = b.size := by rw [← ha.1, contents_length h]
  cases op with
  | reserve a n =>
    obtain ⟨h1, h2, h3, h4, h5⟩ := reserve_props b a n h
    refine ⟨h1, ?_⟩
    simp only [step, h3]
    cases (b.reserve a n).1 <;> exact ha
  | shrink a =>
    obtain ⟨h1, h2, h3, h4, h5⟩ := changeCapacity_props b a b.size h (Nat.le_refl _)
    refine ⟨h1, ?_⟩
    simp only [step, shrinkToFit, h3]
    cases (b.changeCapacity a b.size).1 <;> exact ha
  | resize a n =>
    obtain ⟨h1, h2, h3⟩ := resize_props b a n h
    have hl := contents_length h1
    simp only [step]
    rcases hp : b.resize a n with ⟨s, b'⟩
    rw [hp] at h1 h2 h3 hl
    simp only at *
    refine ⟨h1, ?_⟩
    cases s with
    | false => rw [h2 rfl]; exact ha
    | true =>
      obtain ⟨e1, e2⟩ := h3 rfl
      rw [e1] at hl
      simp only [Spec.step, grow]
      rw [← List.take_append_drop b.size b'.contents, e2]
      exact agrees_append (agrees_take ha n) (agrees_none _ _ (by simp [hl, hvl]))
  | fill a n x =>
    obtain ⟨h1, h2, h3⟩ := resize_props b a n h
    have hl := contents_length h1
    simp only [step, resizeFill]
    rcases hp : b.resize a n with ⟨s, b'⟩
    rw [hp] at h1 h2 h3 hl
    simp only at *
    cases s with
    | false => simp only; rw [h2 rfl]; exact ⟨h, ha⟩
    | true =>
      simp only
      obtain ⟨e1, e2⟩ := h3 rfl
      simp only [Spec.step, grow]
      split
      · rename_i hlt
        have hml : n + 8 ≤ b'.mem.length := by
          rcases h1.len with hm | hm
          · rcases h1.mem_len with ⟨_, hc⟩ | hc
            · have := h1.size_le; omega
            · rw [hm] at hc; simp at hc
          · omega
        have hle : b.size + (List.replicate (b'.size - b.size) x).length ≤ b'.mem.length := by simp; omega
        refine ⟨⟨h1.size_le, Or.inr ?_⟩, ?_⟩
        · simp only; rw [blit_length _ _ _ hle]
          rcases h1.mem_len with ⟨hm, hc⟩ | hc
          · rw [hm] at hml; simp at hml
          · exact hc
        · have hb := blit_take _ _ _ hle
          rw [show b.size + (List.replicate (b'.size - b.size) x).length = b'.size by simp; omega] at hb
          simp only [contents]
          rw [hb]
          have e3 : b'.mem.take b.size = b.contents.take n := by
            rw [← e2, contents, List.take_take, Nat.min_eq_left (by omega)]
          rw [e3]
          have hv2 : n - v.length = b'.size - b.size := by omega
          rw [hv2]
          apply agrees_append (agrees_take ha n)
          have := agrees_some (List.replicate (b'.size - b.size) x)
          simpa using this
      · rename_i hge
        refine ⟨h1, ?_⟩
        rw [← List.take_append_drop b.size b'.contents, e2]
        refine agrees_append (agrees_take ha n) ?_
        have e4 : n - v.length = 0 := by omega
        have e5 : b'.contents.drop b.size = [] := by
          apply List.drop_eq_nil_of_le; omega
        rw [e4, e5]
        exact ⟨rfl, by simp⟩
  | push a x =>
    have hs := h.size_le
    simp only [step, pushBack]
    by_cases hc : b.size = b.cap
    · rw [if_pos hc]
      obtain ⟨h1, h2, h3, h4, h5⟩ := reserve_props b a (b.cap + 1) h
      rcases hp : b.reserve a (b.cap + 1) with ⟨s, b'⟩
      rw [hp] at h1 h2 h3 h4 h5
      simp only at *
      cases s with
      | false => simp only; rw [h4 rfl]; exact ⟨h, ha⟩
      | true => exact push_key b v x ha b' h1 h2 h3 (by have := h5 rfl; omega)
    · rw [if_neg hc]
      exact push_key b v x ha b h rfl rfl (by omega)
  | append a d =>
    simp only [step, append]
    split
    · rename_i hd
      split
      · obtain ⟨h1, h2, h3⟩ := resize_props b a (b.size + d.length) h
        rcases hp : b.resize a (b.size + d.length) with ⟨s, b'⟩
        rw [hp] at h1 h2 h3
        simp only at *
        cases s with
        | false => simp only; rw [h2 rfl]; exact ⟨h, ha⟩
        | true =>
          simp only
          obtain ⟨e1, e2⟩ := h3 rfl
          have hs := h1.size_le
          have hml : b'.mem.length = b'.cap + 8 := by
            rcases h1.mem_len with ⟨_, hc⟩ | hc
            · omega
            · exact hc
          refine ⟨⟨h1.size_le, Or.inr ?_⟩, ?_⟩
          · simp only; rw [blit_length _ _ _ (by omega)]; exact hml
          · simp only [contents, Spec.step]
            rw [e1, blit_take _ _ _ (by omega)]
            have e3 : b'.mem.take b.size = b.contents := by
              simp only [contents] at e2 ⊢
              rw [e1, List.take_take, List.take_take] at e2
              rw [Nat.min_eq_left (by omega), Nat.min_eq_right (by omega)] at e2
              exact e2
            rw [e3]
            exact agrees_append ha (agrees_some d)
      · exact ⟨h, ha⟩
    · rename_i hd
      have : d = [] := by cases d with
        | nil => rfl
        | cons x d => simp at hd
      subst this
      exact ⟨h, by simpa [Spec.step] using ha⟩

theorem run_refines (ops : List Op) (b : PaddedBytes) (v : Spec.Vec) (h : WF b) (ha : Spec.Agrees v b.contents) :
    WF (b.run ops).2 ∧ Spec.Agrees (Spec.run v (b.run ops).1 ops) (b.run ops).2.contents := by
  induction ops generalizing b v with
  | nil => exact ⟨h, ha⟩
  | cons op ops ih =>
    obtain ⟨h1, h2⟩ := step_refines b v op h ha
    exact ih _ _ h1 h2

end Jxl.PaddedBytes
