import Verif.Model.PatchTree
/-!
# What the rows of patches should be, said without the code
-/
namespace Jxl.Patches

/-- Functions that sort, in whatever order of equal keys. -/
structure Sorts.Ok (f : Sorts) : Prop where
  y0 : ∀ l, (f.y0 l).Perm l ∧ (f.y0 l).Pairwise fun a b => a.y0 ≤ b.y0
  y1 : ∀ l, (f.y1 l).Perm l ∧ (f.y1 l).Pairwise fun a b => a.y1 ≤ b.y1
  num : ∀ l, (f.num l).Perm l ∧ (f.num l).Pairwise fun a b => a ≤ b

/-- The numbers of the patches that cover row `y`, in order. -/
def covering (rows : List (Nat × Nat)) (y : Nat) : List Nat :=
  (List.range rows.length).filter fun i => match rows[i]? with
    | none => false
    | some r => decide (r.1 ≤ y ∧ y < r.1 + r.2)

end Jxl.Patches
