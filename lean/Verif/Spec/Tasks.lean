/-!
# Counting the calls of a parallel run

A log of calls lists (run, task, thread).
-/
namespace Jxl.Pool

/-- How often task `t` of run `k` has been called. -/
def cnt (calls : List (Nat × Nat × Nat)) (k t : Nat) : Nat := calls.countP (fun c => c.1 == k && c.2.1 == t)

/-- 1 for the tasks of the range `[r.1, r.2)`, 0 for all others. -/
def inRange (r : Nat × Nat) (t : Nat) : Nat := if r.1 ≤ t ∧ t < r.2 then 1 else 0

end Jxl.Pool
