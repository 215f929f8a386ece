/-! Meaning of IEEE patterns, independent of the coder. -/
namespace Jxl.F16.Spec

/-- Magnitude of a finite binary16 pattern, in units of `2^-24`. -/
def mag16 (h : Nat) : Nat :=
  let e := h / 2 ^ 10 % 32
  let m := h % 2 ^ 10
  if e = 0 then m else (2 ^ 10 + m) * 2 ^ (e - 1)

/-- Magnitude of a finite binary32 pattern, in units of `2^-149`. -/
def mag32 (b : Nat) : Nat :=
  let e := b / 2 ^ 23 % 256
  let m := b % 2 ^ 23
  if e = 0 then m else (2 ^ 23 + m) * 2 ^ (e - 1)

def finite16 (h : Nat) : Prop := h / 2 ^ 10 % 32 ≠ 31
def finite32 (b : Nat) : Prop := b / 2 ^ 23 % 256 ≠ 255

end Jxl.F16.Spec
