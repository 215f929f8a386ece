import Verif.Model.GroupBorder
/-! # Specification for group borders: which pixels a filtered pixel depends on, and complete runs -/
namespace Jxl.Border
open Jxl.FrameDim

/-- A pixel of a rectangle. -/
def Has (r : Rect) (px py : Nat) : Prop := r.x0 ≤ px ∧ px < r.x0 + r.xs ∧ r.y0 ≤ py ∧ py < r.y0 + r.ys

instance (r : Rect) (px py : Nat) : Decidable (Has r px py) := by unfold Has; infer_instance

/-- Computing pixel `(px, py)` reads a pixel of group `g`: some pixel of the group's rectangle is at most the padding away. -/
def Reads (d : Dims) (padx pady px py g : Nat) : Prop :=
  g < d.numGroups ∧ ∃ qx qy, (qx ≤ px + padx ∧ px ≤ qx + padx) ∧ (qy ≤ py + pady ∧ py ≤ qy + pady) ∧ Has (d.groupRect g) qx qy

/-- The interleaving of the complete calls of the groups in it: valid groups, each making its four updates. -/
def Complete (n : Nat) (sched : List Nat) : Prop := ∀ g ∈ sched, g < n ∧ sched.count g = 4

/-- Corner words that can arise, with the set of completed groups: after initialisation, complete runs of any number of groups in any
interleaving, and resetting groups for a repaint. -/
inductive Reached (xs ys : Nat) : Mem → (Nat → Prop) → Prop
  | init (m : Mem) : init xs ys = some m → Reached xs ys m (fun _ => False)
  | run (m : Mem) (D : Nat → Prop) (sched : List Nat) (s : St) : Reached xs ys m D → Complete (xs * ys) sched → (∀ g ∈ sched, ¬D g) →
      exec xs sched ⟨m, fun _ => []⟩ = some s → Reached xs ys s.mem (fun g => D g ∨ g ∈ sched)
  | clear (m m' : Mem) (D : Nat → Prop) (g : Nat) : Reached xs ys m D → g < xs * ys → clearDone xs m g = some m' →
      Reached xs ys m' (fun g' => D g' ∧ g' ≠ g)

/-- All rectangles handed out in a run. -/
def handed (d : Dims) (padx pady : Nat) (sched : List Nat) (s : St) : List Rect :=
  (List.range d.numGroups).flatMap fun g => if g ∈ sched then (finish d padx pady g (s.got g)).getD [] else []

end Jxl.Border
