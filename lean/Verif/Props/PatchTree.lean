import Verif.Lemmas.PatchTree
/-!
# Properties: which patches are drawn on which row
-/
namespace Jxl.Props
open Jxl.Patches

/-- **C71** Whatever the patches of a frame (each has at least one row) and whatever order sorting leaves equal keys in, building the index succeeds without
touching anything outside its arrays, and for every row, in or outside the frame, the lookup delivers the patches that cover the row, each once and in the
order of the dictionary. -/
theorem C71_rows {f : Sorts} (hf : f.Ok) {rows : List (Nat × Nat)} (hr : ∀ r ∈ rows, 0 < r.2) :
    ∃ t, computeTree f rows = some t ∧ ∀ y, patchesForRow f t y = some (covering rows y) := tree_rows hf hr

/-- Sorting by merging, the last of equal keys first. -/
def mergeSorts : Sorts where
  y0 l := l.reverse.mergeSort fun a b => decide (a.y0 ≤ b.y0)
  y1 l := l.reverse.mergeSort fun a b => decide (a.y1 ≤ b.y1)
  num l := l.mergeSort fun a b => decide (a ≤ b)

theorem mergeSorts_ok : mergeSorts.Ok := by
  have key : ∀ {α : Type} (k : α → Nat) (l : List α), (l.mergeSort fun a b => decide (k a ≤ k b)).Pairwise fun a b => k a ≤ k b := by
    intro α k l
    refine (List.pairwise_mergeSort (le := fun a b => decide (k a ≤ k b)) ?_ ?_ l).imp fun {a b} h => of_decide_eq_true h
    · intro a b c h1 h2
      simp only [decide_eq_true_eq] at h1 h2 ⊢
      omega
    · intro a b
      simp only [Bool.or_eq_true, decide_eq_true_eq]
      omega
  exact ⟨fun l => ⟨(List.mergeSort_perm _ _).trans (List.reverse_perm _), key Interval.y0 _⟩, fun l => ⟨(List.mergeSort_perm _ _).trans (List.reverse_perm _), key Interval.y1 _⟩,
    fun l => ⟨List.mergeSort_perm _ _, key id _⟩⟩

/-- Seven patches, some on the same rows, some starting together, one alone on row 11. -/
def sevenPatches : List (Nat × Nat) := [(3, 4), (0, 10), (5, 1), (2, 2), (9, 3), (5, 5), (0, 1)]

example : ∃ t, computeTree mergeSorts sevenPatches = some t ∧ patchesForRow mergeSorts t 5 = some [0, 1, 2, 5] ∧ patchesForRow mergeSorts t 0 = some [1, 6] ∧
    patchesForRow mergeSorts t 11 = some [4] ∧ patchesForRow mergeSorts t 12 = some [] := by
  obtain ⟨t, h1, h2⟩ := C71_rows mergeSorts_ok (rows := sevenPatches) (by decide)
  exact ⟨t, h1, h2 5, h2 0, h2 11, h2 12⟩

end Jxl.Props
