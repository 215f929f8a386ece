import Verif.Model.BitWriter
/-!
# Specification of the bit writer: an append-only bit string with nested size budgets

`Spec.step` is partial: it is defined exactly for the histories that respect the documented contract (values fit,
at most 56 bits per call, everything written inside an allotment that is large enough).
-/
namespace Jxl.BitWriter.Spec

/-- The bits written so far and the remaining budgets of the open allotments, innermost first. -/
structure St where
  bs : List Bool := []
  budgets : List Nat := []
  /-- some allotment of non-zero size (or append) has happened before -/
  started : Bool := false

def step (s : St) : Op → Option St
  | .openAllot _ m => some { s with budgets := m :: s.budgets, started := s.started || decide (0 < m) }
  | .write n v =>
    match s.budgets with
    | b :: rest =>
      if v < 2 ^ n ∧ n ≤ 56 ∧ n ≤ b ∧ s.started then some { s with bs := s.bs ++ bitsOf n v, budgets := (b - n) :: rest }
      else none
    | [] => none
  | .pad =>
    let r := (8 - s.bs.length % 8) % 8
    if r = 0 then some s else
      match s.budgets with
      | b :: rest =>
        if r ≤ b ∧ s.started then some { s with bs := s.bs ++ List.replicate r false, budgets := (b - r) :: rest }
        else none
      | [] => none
  | .closeAllot =>
    match s.budgets with
    | _ :: rest => some { s with budgets := rest }
    | [] => none
  | .append _ span =>
    if s.budgets = [] ∧ s.bs.length % 8 = 0 then
      some { s with bs := s.bs ++ bitsOfBytes span, started := s.started || !span.isEmpty }
    else none
  | .shrink _ => if s.started then some s else none

def run (s : St) : List Op → Option St
  | [] => some s
  | op :: ops => (step s op).bind (run · ops)

end Jxl.BitWriter.Spec
