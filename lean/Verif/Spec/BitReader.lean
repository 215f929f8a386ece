import Verif.Spec.Bits
import Verif.Model.BitReader
/-!
# Specification of a bit reader: a position in a bit string that is continued by zeros

`len` is the length in bits of the input; nothing here depends on the buffering of the implementation.
-/
namespace Jxl.BitReader.Spec

/-- One operation at bit position `pos` of the stream `s`: its answer and the new position. -/
def step (s : List Bool) (pos : Nat) : Op → Out × Nat
  | .read n => (.value (readAt s pos n), pos + n)
  | .skip n => (.done, pos + n)
  | .jump => (.status (readAt s pos ((8 - pos % 8) % 8) == 0), pos + (8 - pos % 8) % 8)
  | .check => (.status (decide (pos ≤ s.length)), pos)

def run (s : List Bool) (pos : Nat) : List Op → List Out × Nat
  | [] => ([], pos)
  | op :: ops =>
    let (o, pos) := step s pos op
    let (os, pos) := run s pos ops
    (o :: os, pos)

/-- Number of bits consumed since the last explicit bounds check (`acc` so far). -/
def unchecked (s : List Bool) (pos acc : Nat) : List Op → Nat
  | [] => acc
  | .check :: ops => unchecked s pos 0 ops
  | op :: ops => unchecked s (step s pos op).2 (acc + ((step s pos op).2 - pos)) ops

/-- Closing succeeds unless the stream was over-read and bits were consumed after the last bounds check. -/
def closeOk (s : List Bool) (ops : List Op) : Bool :=
  decide ((run s 0 ops).2 ≤ s.length ∨ unchecked s 0 0 ops = 0)

end Jxl.BitReader.Spec
