import Verif.Model.QuantTables
import Verif.Spec.F16
/-! Which quantisation tables the format can hold.  Magnitudes are in units of 2^-149 for floats and of 2^-24 for half-precision numbers. -/
namespace Jxl.QuantTables
open F16.Spec (mag16 mag32 finite16)

/-- The float `w` is `num / den` times a half-precision number, the sign (also of a zero) included. -/
def Multiple (num den w : Nat) : Prop :=
  w < 2 ^ 32 ∧ ∃ h < 2 ^ 16, finite16 h ∧ den * mag32 w = num * (mag16 h * 2 ^ 125) ∧ w / 2 ^ 31 = h / 2 ^ 15

/-- All numbers of a list, with their places. -/
def Each (ws : List Nat) (p : Nat → Nat → Prop) : Prop := ∀ (i w : Nat), ws[i]? = some w → p i w

/-- Between 1 and 16 bands for each of three channels; the first of each is positive and has another unit. -/
structure Dct.Limits (d : Dct) : Prop where
  n : 1 ≤ d.n ∧ d.n ≤ 16
  length : d.bands.length = 3 * d.n
  each : Each d.bands fun i w => Multiple (if i % d.n = 0 then 64 else 1) 1 w ∧ (i % d.n = 0 → 0 < mag32 w ∧ w < 2 ^ 31)

/-- Encodings of a table of the format; only tables of the size of one block can have the special ones. -/
def Enc.Limits {R : Type} (oneBlock : Prop) (rawOk : R → Prop) : Enc R → Prop
  | .library => True
  | .id ws => oneBlock ∧ ws.length = 9 ∧ Each ws fun _ w => Multiple 64 1 w ∧ 0 < mag32 w
  | .dct2 ws => oneBlock ∧ ws.length = 18 ∧ Each ws fun _ w => Multiple 64 1 w ∧ 0 < mag32 w
  | .dct4 ws d => oneBlock ∧ (ws.length = 6 ∧ Each ws fun _ w => Multiple 1 1 w ∧ 0 < mag32 w) ∧ d.Limits
  | .dct4x8 ws d => oneBlock ∧ (ws.length = 3 ∧ Each ws fun _ w => Multiple 1 1 w ∧ 0 < mag32 w) ∧ d.Limits
  | .afv ws d e => oneBlock ∧ (ws.length = 27 ∧ Each ws fun i w => Multiple (if i % 9 < 6 then 64 else 1) 1 w) ∧ d.Limits ∧ e.Limits
  | .dct d => d.Limits
  | .raw r => rawOk r

/-- The tables that have the size of one block. -/
def OneBlock (i : Nat) : Prop := i = 0 ∨ i = 1 ∨ i = 2 ∨ i = 3 ∨ i = 9 ∨ i = 10

/-- Negative zero, which cannot be written. -/
def negZero : Nat := 2 ^ 31

/-- No number of the table is negative zero. -/
def Enc.NoNegZero {R : Type} : Enc R → Prop
  | .library => True
  | .id ws => negZero ∉ ws
  | .dct2 ws => negZero ∉ ws
  | .dct4 ws d => negZero ∉ ws ∧ negZero ∉ d.bands
  | .dct4x8 ws d => negZero ∉ ws ∧ negZero ∉ d.bands
  | .afv ws d e => negZero ∉ ws ∧ negZero ∉ d.bands ∧ negZero ∉ e.bands
  | .dct d => negZero ∉ d.bands
  | .raw _ => True

/-- All tables of a frame. -/
structure TablesLimits {R : Type} (rawOk : Nat → R → Prop) (es : List (Enc R)) : Prop where
  number : es.length = 17
  each : ∀ (i : Nat) (e : Enc R), es[i]? = some e → e.Limits (OneBlock i) (rawOk i)

/-- Factors of the lowest frequencies: positive, at least the float next to 10^-8. -/
def DcLimits (w : Nat) : Prop := Multiple 1 128 w ∧ w < 2 ^ 31 ∧ 11258999 * 2 ^ 99 ≤ mag32 w

end Jxl.QuantTables
