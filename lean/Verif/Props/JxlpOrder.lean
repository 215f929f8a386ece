import Verif.Lemmas.JxlpOrder
import Verif.Props.DecInput
/-!
# C29: partial codestream boxes in any order

`jxlpFile` (Spec/JxlpFile) are the bytes of a file; `nth n pay i` is piece `i` of `n`, flagged as
the last if it is.  What a decoder session sees of such a file follows from C28.
-/
namespace Jxl.Props
open Container DecInput

theorem jxlp_malformed {v items} (hv : v ≤ 1) (hok : ∀ i ∈ items, Item.ok i)
    (hlen : (jxlpFile v items).length < 2 ^ 64) :
    malformed (jxlpFile v items) = (assemble { version := v } (parts items)).2 := by
  obtain ⟨h1, h2, h3⟩ := reading_file v items hv hok hlen
  unfold malformed
  rw [h1, h3]
  simp

/-- Distinct pieces in any order among any other boxes: the codestream is the concatenation, in
index order, of the pieces before the first missing one. -/
theorem C29_any_order (n k : Nat) (pay : Nat → List UInt8) (order : List Nat) (items : List Item)
    (hn : order.Nodup) (hlt : ∀ i ∈ order, i < n) (hp : parts items = order.map (nth n pay))
    (hok : ∀ i ∈ items, Item.ok i) (hlen : (jxlpFile 1 items).length < 2 ^ 64)
    (hk : k ∉ order) (ha : ∀ i, i < k → i ∈ order) :
    codestreamOf (jxlpFile 1 items) = (List.range k).flatMap pay ∧
      malformed (jxlpFile 1 items) = false := by
  rw [jxlp_malformed (by omega) hok hlen]
  unfold codestreamOf
  rw [(reading_file 1 items (by omega) hok hlen).1, hp]
  by_cases hn0 : n = 0
  · subst hn0
    have ho : order = [] := by
      cases order with
      | nil => rfl
      | cons x t => exact absurd (hlt x (by simp)) (by omega)
    subst ho
    have : k = 0 := by
      rcases Nat.eq_zero_or_pos k with h | h
      · exact h
      · cases ha 0 h
    subst this
    exact ⟨rfl, rfl⟩
  · have hst : ({ version := 1 } : Asm) = st 1 n pay [] 0 := by
      simp only [st, List.filter_nil, List.map_nil, List.range_zero, List.flatMap_nil,
        Asm.mk.injEq, true_and, and_true]
      rw [eq_comm, decide_eq_false_iff_not]
      omega
    obtain ⟨k', q1, q2, q3⟩ := assemble_st 1 n pay (by decide) order [] 0 (by simpa using hn)
      (by simpa using hlt) (by simp) (by intro i h; omega)
    rw [hst, q1]
    rw [List.nil_append] at q2 q3
    have : k' = k := by
      rcases Nat.lt_trichotomy k k' with h | h | h
      · exact absurd (q3 k h) hk
      · exact h.symm
      · exact absurd (ha k' h) q2
    subst this
    exact ⟨rfl, rfl⟩

/-- All pieces, in any arrangement. -/
theorem C29_permutation (n : Nat) (pay : Nat → List UInt8) (order : List Nat) (items : List Item)
    (hperm : order.Perm (List.range n)) (hp : parts items = order.map (nth n pay))
    (hok : ∀ i ∈ items, Item.ok i) (hlen : (jxlpFile 1 items).length < 2 ^ 64) :
    codestreamOf (jxlpFile 1 items) = (List.range n).flatMap pay ∧
      malformed (jxlpFile 1 items) = false := by
  refine C29_any_order n n pay order items (hperm.nodup_iff.2 List.nodup_range) ?_ hp hok hlen ?_ ?_
  · intro i hi
    exact List.mem_range.1 (hperm.mem_iff.1 hi)
  · intro h
    have := List.mem_range.1 (hperm.mem_iff.1 h)
    omega
  · intro i hi
    exact hperm.mem_iff.2 (List.mem_range.2 hi)

/-- Whatever the payloads and flags, a repeated index is refused. -/
theorem C29_duplicates (v : Nat) (items : List Item) (hv : v ≤ 1)
    (hdup : ¬ ((parts items).map (·.idx)).Nodup) (hok : ∀ i ∈ items, Item.ok i)
    (hlen : (jxlpFile v items).length < 2 ^ 64) : malformed (jxlpFile v items) = true := by
  rw [jxlp_malformed hv hok hlen]
  exact assemble_dup _ _ [] rfl (by intro i h; cases h) (by simpa using hdup) List.nodup_nil

/-- Version 0: accepted exactly if the pieces come in order and only the final one may carry the
flag; the codestream is then their concatenation. -/
theorem C29_version0 (items : List Item) (hok : ∀ i ∈ items, Item.ok i)
    (hlen : (jxlpFile 0 items).length < 2 ^ 64) :
    (malformed (jxlpFile 0 items) = false ↔
      ∀ j p, (parts items)[j]? = some p →
        p.idx = j ∧ (p.isLast = true → j + 1 = (parts items).length)) ∧
    (malformed (jxlpFile 0 items) = false →
      codestreamOf (jxlpFile 0 items) = (parts items).flatMap (·.payload)) := by
  obtain ⟨h1, h2⟩ := assemble_v0 (parts items) { version := 0 } rfl rfl
  rw [jxlp_malformed (by omega) hok hlen]
  constructor
  · rw [h1]
    simp
  · intro h
    unfold codestreamOf
    rw [(reading_file 0 items (by omega) hok hlen).1, h2 h]
    simp

/-- A decoder given such a file in any number of pieces: spans are the payloads in index order
from where the parser stands, nothing is refused, and when the decoder asks for more it holds all
that is left. -/
theorem C29_decoder (n : Nat) (pay : Nat → List UInt8) (order : List Nat) (items : List Item)
    (hperm : order.Perm (List.range n)) (hp : parts items = order.map (nth n pay))
    (hok : ∀ i ∈ items, Item.ok i) (hlen : (jxlpFile 1 items).length < 2 ^ 64)
    (s : Dec) (c : Client) (o : Op) (h : Reach s c) (hl : Legal c s o) :
    (c.supplied <+: jxlpFile 1 items → ∀ l s', DecInput.step o s = some (.span l s') →
      l <+: ((List.range n).flatMap pay).drop c.used) ∧
    (c.supplied <+: jxlpFile 1 items → DecInput.step o s ≠ some .refused) ∧
    (c.supplied = jxlpFile 1 items → ∀ s', DecInput.step o s = some (.need s') →
      s'.copy.drop s'.pos = ((List.range n).flatMap pay).drop c.used) := by
  obtain ⟨h1, h2⟩ := C29_permutation n pay order items hperm hp hok hlen
  refine ⟨?_, ?_, ?_⟩
  · intro hF l s' hs
    rw [← h1]
    exact C28_spans _ _ _ _ _ _ h hl hs hF
  · intro hF hs
    rw [C28_refused _ _ _ _ h hl hs hF] at h2
    cases h2
  · intro hF s' hs
    rw [← h1, ← hF]
    exact (C28_need _ _ _ _ h hl hs).1

/-! Concrete files. -/

/-- Three pieces in the order 2, 0, 1 with a metadata box between them. -/
def jxlpOrderItems : List Item :=
  [.part (nth 3 (fun i => [UInt8.ofNat i, 9]) 2), .part (nth 3 (fun i => [UInt8.ofNat i, 9]) 0),
    .other (chars "Exif") [1, 2, 3], .part (nth 3 (fun i => [UInt8.ofNat i, 9]) 1)]

theorem jxlpOrderItems_ok : ∀ i ∈ jxlpOrderItems, Item.ok i := by
  intro i hi
  simp only [jxlpOrderItems, List.mem_cons, List.not_mem_nil, or_false] at hi
  rcases hi with rfl | rfl | rfl | rfl <;> simp only [Item.ok] <;> decide

example : codestreamOf (jxlpFile 1 jxlpOrderItems) = [0, 9, 1, 9, 2, 9] ∧
    malformed (jxlpFile 1 jxlpOrderItems) = false := by
  have := C29_permutation 3 (fun i => [UInt8.ofNat i, 9]) [2, 0, 1] jxlpOrderItems (by decide) rfl
    jxlpOrderItems_ok (by decide +kernel)
  exact this

/-- The same file of version 0 is refused. -/
example : malformed (jxlpFile 0 jxlpOrderItems) = true := by
  cases h : malformed (jxlpFile 0 jxlpOrderItems) with
  | true => rfl
  | false =>
    have := ((C29_version0 jxlpOrderItems jxlpOrderItems_ok (by decide +kernel)).1.1 h 0 _ rfl).1
    exact absurd this (by decide)

example : malformed (jxlpFile 1 (jxlpOrderItems.take 1 ++ jxlpOrderItems.take 1)) = true :=
  C29_duplicates 1 _ (by decide) (by decide) (by
    intro i hi
    apply jxlpOrderItems_ok
    simp only [List.mem_append, or_self] at hi
    exact List.mem_of_mem_take hi) (by decide +kernel)

end Jxl.Props
