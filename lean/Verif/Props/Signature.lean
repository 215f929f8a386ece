import Verif.Model.Signature
/-!
# C33: signature detection

The specification says what a valid file start is; the check answers according to whether the bytes start with one.
-/
namespace Jxl.Props
open Signature

/-- The two ways a file can start. -/
def fileStarts : List (Sig × List UInt8) :=
  [(.codestream, [0xff, 0x0a]),
   (.container, [0x00, 0x00, 0x00, 0x0c, 0x4a, 0x58, 0x4c, 0x20, 0x0d, 0x0a, 0x87, 0x0a])]

/-- `b` can be extended to something with a valid start. -/
def Open (b : List UInt8) : Prop := ∃ s ∈ fileStarts, b <+: s.2 ∧ b ≠ s.2

theorem check_cons (x : UInt8) (b : List UInt8) : check (x :: b) =
    if x = 0xff then (if b = [] then .notEnough else if b.head? = some 0x0a then .codestream else .invalid)
    else if x = 0 then (if b.length < 11 then .notEnough else if b.take 11 = box.tail then .container else .invalid)
    else .invalid := by
  unfold check Signature.read
  by_cases h : x = 0xff
  · subst h
    cases b with
    | nil => simp
    | cons y b => by_cases hy : y = 0x0a <;> simp [hy, show ¬ (b.length + 1 + 1 < 2) by omega]
  · by_cases h0 : x = 0
    · subst h0
      by_cases hl : b.length < 11
      · simp [h, box, hl, show b.length + 1 < 12 by omega]
      · by_cases ht : b.take 11 = box.tail <;>
        · simp only [box, List.tail_cons] at ht
          simp [h, box, hl, ht, show ¬ (b.length + 1 < 12) by omega]
    · simp [h, h0]

/-- A definite answer never changes when more bytes arrive. -/
theorem C33_stable (b c : List UInt8) (h : check b ≠ .notEnough) : check (b ++ c) = check b := by
  cases b with
  | nil => exact absurd rfl h
  | cons x b =>
    rw [List.cons_append, check_cons, check_cons] at *
    by_cases hx : x = 0xff
    · simp only [hx, if_true] at h ⊢
      cases b with
      | nil => simp at h
      | cons y b => simp
    · simp only [hx, if_false] at h ⊢
      by_cases h0 : x = 0
      · simp only [h0, if_true] at h ⊢
        by_cases hl : b.length < 11
        · simp [hl] at h
        · have hl' : ¬ (b ++ c).length < 11 := by simp; omega
          rw [if_neg hl, if_neg hl', List.take_append_of_le_length (by omega)]
      · simp only [h0, if_false]

/-- Each valid start is recognised whatever follows, and nothing else is. -/
theorem C33_recognises (b : List UInt8) (s : Sig) (hs : s = .codestream ∨ s = .container) :
    check b = s ↔ ∃ p ∈ fileStarts, p.1 = s ∧ p.2 <+: b := by
  constructor
  · intro h
    cases b with
    | nil => rcases hs with rfl | rfl <;> cases h
    | cons x b =>
      rw [check_cons] at h
      by_cases hx : x = 0xff
      · simp only [hx, if_true] at h
        cases b with
        | nil => simp at h; rcases hs with rfl | rfl <;> cases h
        | cons y b =>
          by_cases hy : y = 0x0a
          · simp [hy] at h
            subst h; subst hy; subst hx
            exact ⟨_, List.mem_cons_self .., rfl, ⟨b, rfl⟩⟩
          · simp [hy] at h
            rcases hs with rfl | rfl <;> cases h
      · simp only [hx, if_false] at h
        by_cases h0 : x = 0
        · simp only [h0, if_true] at h
          split at h
          · rcases hs with rfl | rfl <;> cases h
          · split at h
            · rename_i hl ht
              subst h
              refine ⟨fileStarts[1], by simp [fileStarts], rfl, ?_⟩
              rw [h0]
              show (0 : UInt8) :: box.tail <+: 0 :: b
              rw [List.cons_prefix_cons, ← ht]
              exact ⟨rfl, List.take_prefix 11 b⟩
            · rcases hs with rfl | rfl <;> cases h
        · simp only [h0, if_false] at h
          rcases hs with rfl | rfl <;> cases h
  · rintro ⟨p, hp, rfl, ⟨r, rfl⟩⟩
    simp only [fileStarts, List.mem_cons, List.not_mem_nil, or_false] at hp
    rcases hp with rfl | rfl
    · exact C33_stable [0xff, 0x0a] r (by decide)
    · exact C33_stable [0x00, 0x00, 0x00, 0x0c, 0x4a, 0x58, 0x4c, 0x20, 0x0d, 0x0a, 0x87, 0x0a] r (by decide)

/-- The position moves past the signature exactly when it is recognised. -/
theorem C33_position (b : List UInt8) (pos : Nat) (h : pos ≤ b.length) :
    (Signature.read b pos).2 = pos + (match (Signature.read b pos).1 with | .codestream => 2 | .container => 12 | _ => 0) ∧ (Signature.read b pos).2 ≤ b.length := by
  unfold Signature.read
  have hd : (b.drop pos).length = b.length - pos := List.length_drop
  simp only [hd, show box.length = 12 from rfl]
  split
  · exact ⟨rfl, h⟩
  split
  · split
    · exact ⟨rfl, h⟩
    · split
      · exact ⟨rfl, by simp only; omega⟩
      · exact ⟨rfl, h⟩
  split
  · split
    · exact ⟨rfl, h⟩
    · split
      · exact ⟨rfl, by simp only; omega⟩
      · exact ⟨rfl, h⟩
  · exact ⟨rfl, h⟩

/-- **C33 (partial).**  "Not enough bytes" is answered for every proper prefix of a valid start, and otherwise only for
fewer than 12 bytes of which the first is zero.  Missing: the exact equivalence with proper prefixes, which is false, see
`C33_exactness_fails`. -/
theorem C33_not_enough_partial (b : List UInt8) :
    (Open b → check b = .notEnough) ∧ (check b = .notEnough → Open b ∨ (b.head? = some 0 ∧ b.length < 12)) := by
  constructor
  · rintro ⟨p, hp, ⟨r, hr⟩, hne⟩
    cases b with
    | nil => rfl
    | cons x b =>
      rw [check_cons]
      simp only [fileStarts, List.mem_cons, List.not_mem_nil, or_false] at hp
      rcases hp with rfl | rfl
      · simp only [List.cons_append, List.cons.injEq] at hr
        cases b with
        | nil => simp [hr.1]
        | cons y b =>
          have h2 := hr.2
          simp only [List.cons_append, List.cons.injEq, List.append_eq_nil_iff] at h2
          exact absurd (by rw [hr.1, h2.1, h2.2.1]) hne
      · simp only [List.cons_append, List.cons.injEq] at hr
        have hl := congrArg List.length hr.2
        simp only [List.length_append, List.length_cons, List.length_nil] at hl
        by_cases h0 : r = []
        · subst h0
          exact absurd (by rw [hr.1, ← hr.2]; simp) hne
        · have := List.length_pos_iff.mpr h0
          rw [hr.1, if_neg (by decide), if_pos rfl, if_pos (by omega)]
  · intro h
    cases b with
    | nil => exact Or.inl ⟨fileStarts[0], by simp [fileStarts], List.nil_prefix, by simp [fileStarts]⟩
    | cons x b =>
      rw [check_cons] at h
      by_cases hx : x = 0xff
      · simp only [hx, if_true] at h
        cases b with
        | nil => exact Or.inl ⟨fileStarts[0], by simp [fileStarts], by rw [hx]; exact ⟨[0x0a], rfl⟩, by simp [fileStarts]⟩
        | cons y b =>
          by_cases hy : y = 0x0a <;> simp [hy] at h
      · simp only [hx, if_false] at h
        by_cases h0 : x = 0
        · simp only [h0, if_true] at h
          split at h
          · exact Or.inr ⟨by simp [h0], by simp; omega⟩
          · split at h <;> cases h
        · simp only [h0, if_false] at h
          cases h

/-- Disagreement: the two bytes `00 01` cannot start any file, yet the answer is "not enough bytes". -/
theorem C33_exactness_fails : ∃ b, check b = .notEnough ∧ ¬ Open b ∧
    ∀ c, 12 ≤ (b ++ c).length → check (b ++ c) = .invalid := by
  refine ⟨[0, 1], rfl, ?_, ?_⟩
  · rintro ⟨p, hp, ⟨r, hr⟩, -⟩
    simp only [fileStarts, List.mem_cons, List.not_mem_nil, or_false] at hp
    rcases hp with rfl | rfl <;> simp at hr
  · intro c hc
    show check (0 :: 1 :: c) = .invalid
    rw [check_cons, if_neg (by decide), if_pos rfl, if_neg (by simpa using hc), if_neg (by simp [box])]

example : check [0xff, 0x0a, 1, 2, 3] = .codestream ∧ check (box ++ [7]) = .container ∧ check [0xff] = .notEnough ∧
  check [0xff, 0xd8] = .invalid ∧ Open [0, 0, 0] ∧ ¬ Open [1] := by
  refine ⟨rfl, by decide, rfl, rfl, ⟨fileStarts[1], by simp [fileStarts], ⟨_, rfl⟩, by simp [fileStarts]⟩, ?_⟩
  rintro ⟨p, hp, ⟨r, hr⟩, -⟩
  simp only [fileStarts, List.mem_cons, List.not_mem_nil, or_false] at hp
  rcases hp with rfl | rfl <;> simp at hr

end Jxl.Props
