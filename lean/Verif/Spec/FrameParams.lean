import Verif.Model.FrameParams
import Verif.Spec.F16
/-! Which parameters of a frame the format can hold. -/
namespace Jxl.FrameParams
open F16.Spec (mag32 finite16)

/-- Quantisers of the format; neither number is zero, both are divisors. -/
def Quant.Ok (q : Quant) : Prop := (1 ≤ q.scale ∧ q.scale ≤ 73728) ∧ 1 ≤ q.dc ∧ q.dc ≤ 65536

/-- A float that is the value of a half-precision number (C04); negative zero is not meant. -/
def Half (v : Nat) : Prop := ∃ h < 2 ^ 16, finite16 h ∧ h ≠ 0x8000 ∧ F16.decode h = some v

/-- Correlations of the format, apart from the precision of the base correlations: the factor is a divisor, base correlations have a magnitude of at most 4
(in units of 2^-149), the others are signed bytes. -/
structure Cfl.Limits (c : Cfl) : Prop where
  factor : 2 ≤ c.factor ∧ c.factor ≤ 65793
  baseX : mag32 c.baseX ≤ 4 * 2 ^ 149
  baseB : mag32 c.baseB ≤ 4 * 2 ^ 149
  x : -128 ≤ c.x ∧ c.x ≤ 127
  b : -128 ≤ c.b ∧ c.b ≤ 127

/-- Correlations that can be stored exactly. -/
structure Cfl.Ok (c : Cfl) : Prop where
  limits : c.Limits
  halfX : Half c.baseX
  halfB : Half c.baseB

/-- Half a step of the noise table in units of 2^-149: a step is 1/1024. -/
def halfStep : Nat := 2 ^ 138

/-- Noise tables that can be written: eight values that are not rounded to 1024 steps, and one of them above the float next to a thousandth. -/
structure NoiseOk (lut : List Nat) : Prop where
  eight : lut.length = 8
  small : ∀ v ∈ lut, v < 2047 * halfStep
  some : ∃ v ∈ lut, 8589935 * 2 ^ 116 < v

/-- Closer than half a step, or half a step away. -/
def Near (v w : Nat) : Prop := v ≤ w + halfStep ∧ w ≤ v + halfStep

end Jxl.FrameParams
