import Verif.Model.PaddedBytes
/-!
# Specification: a vector of bytes

An entry is `none` while its value is unspecified (grown but never written).  A failed operation (`ok = false`)
changes nothing.
-/
namespace Jxl.PaddedBytes.Spec

abbrev Vec := List (Option UInt8)

def grow (v : Vec) (n : Nat) (x : Option UInt8) : Vec := v.take n ++ List.replicate (n - v.length) x

def step (v : Vec) : Bool → Op → Vec
  | false, _ => v
  | true, .reserve _ _ => v
  | true, .shrink _ => v
  | true, .resize _ n => grow v n none
  | true, .fill _ n x => grow v n (some x)
  | true, .push _ x => v ++ [some x]
  | true, .append _ d => v ++ d.map some

def run (v : Vec) : List Bool → List Op → Vec
  | s :: ss, op :: ops => run (step v s op) ss ops
  | _, _ => v

/-- The concrete bytes agree with every specified entry. -/
def Agrees (v : Vec) (bytes : List UInt8) : Prop :=
  bytes.length = v.length ∧ ∀ (i : Nat) (x : UInt8), v[i]? = some (some x) → bytes[i]? = some x

end Jxl.PaddedBytes.Spec
