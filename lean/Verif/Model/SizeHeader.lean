import Verif.Model.Bundle
/-!
# Model of `SizeHeader` and `PreviewHeader` (lib/jxl/headers.cc, headers.h)
-/
namespace Jxl.SizeHeader
open Bundle

/-- `FixedAspectRatios` (headers.cc:35-46) for ratio 1..7; an index outside the table is undefined behaviour. -/
def ratios : List (Nat × Nat) := [(1, 1), (12, 10), (4, 3), (3, 2), (16, 9), (5, 4), (2, 1)]

/-- `Rational::MulTruncate` (headers.cc:27-29): 64-bit product, truncated to 32 bits. -/
def mulTruncate (r : Nat × Nat) (y : Nat) : Nat := y * r.1 / r.2 % 2 ^ 32

/-- `FindAspectRatio` (headers.cc:48-55), loop from `r` on. -/
def findFrom (x y : Nat) : Nat → List (Nat × Nat) → Nat
  | _, [] => 0
  | r, q :: qs => if x = mulTruncate q y then r else findFrom x y (r + 1) qs

def findAspectRatio (x y : Nat) : Nat := findFrom x y 1 ratios

/-- The fields of both headers: `flag` is `small_`/`div8_`; `yd`, `xd` are the block counts. -/
structure Hdr where
  flag : Bool := false
  yd : Nat := 0
  y : Nat := 1
  ratio : Nat := 0
  xd : Nat := 0
  x : Nat := 1
deriving DecidableEq, Repr

/-- `SizeHeader::ysize` (headers.h:38-40), in 32-bit arithmetic. -/
def ysize (h : Hdr) : Nat := if h.flag then (h.yd + 1) * 8 % 2 ^ 32 else h.y

/-- `SizeHeader::xsize` (headers.cc:59-65); `none` for a ratio outside the table. -/
def xsize (h : Hdr) : Option Nat :=
  if h.ratio ≠ 0 then ratios[h.ratio - 1]?.map fun r => mulTruncate r (ysize h)
  else some (if h.flag then (h.xd + 1) * 8 % 2 ^ 32 else h.x)

/-- `SizeHeader::Set` (headers.cc:67-94) on a default-constructed header. -/
def set (x y : Nat) : Option Hdr :=
  if x > 2 ^ 32 - 1 ∨ y > 2 ^ 32 - 1 then none
  else if x = 0 ∨ y = 0 then none
  else
    let ratio := findAspectRatio x y
    let small := decide (y ≤ 256) && decide (y % 8 = 0) && (decide (ratio ≠ 0) || (decide (x ≤ 256) && decide (x % 8 = 0)))
    let h : Hdr := { ratio := ratio, flag := small }
    let h := if small then { h with yd := y / 8 - 1 } else { h with y := y }
    let h := if ratio = 0 then (if small then { h with xd := x / 8 - 1 } else { h with x := x }) else h
    if xsize h = some x ∧ ysize h = y then some h else none

/-- Field numbers: 0 flag, 1 ysize in blocks, 2 ysize, 3 ratio, 4 xsize in blocks, 5 xsize. -/
def toEnv (h : Hdr) : Env
  | 0 => if h.flag then 1 else 0
  | 1 => h.yd
  | 2 => h.y
  | 3 => h.ratio
  | 4 => h.xd
  | 5 => h.x
  | _ => 0

def ofEnv (e : Env) : Hdr := ⟨e 0 == 1, e 1, e 2, e 3, e 4, e 5⟩

def sizeEnc : U32.Enc := ⟨U32.bitsOffset 9 1, U32.bitsOffset 13 1, U32.bitsOffset 18 1, U32.bitsOffset 30 1⟩

/-- `SizeHeader::VisitFields` (headers.cc:129-153). -/
def prog : Prog :=
  .seq (.bits 1 0 0) <|
  .seq (.cond [0] (fun l => l == [1]) (.bits 5 0 1)) <|
  .seq (.cond [0] (fun l => l != [1]) (.u32 sizeEnc 1 2)) <|
  .seq (.bits 3 0 3) <|
  .seq (.cond [3, 0] (fun l => l == [0, 1]) (.bits 5 0 4))
    (.cond [3, 0] (fun l => l.head? == some 0 && l != [0, 1]) (.u32 sizeEnc 1 5))

namespace Preview

/-- `PreviewHeader::ysize` (headers.h:64). -/
def ysize (h : Hdr) : Nat := if h.flag then h.yd * 8 % 2 ^ 32 else h.y

/-- `PreviewHeader::xsize` (headers.cc:120-126). -/
def xsize (h : Hdr) : Option Nat :=
  if h.ratio ≠ 0 then ratios[h.ratio - 1]?.map fun r => mulTruncate r (ysize h)
  else some (if h.flag then h.xd * 8 % 2 ^ 32 else h.x)

/-- Default-constructed `PreviewHeader` (all defaults are 1). -/
def init : Hdr := { yd := 1, xd := 1 }

/-- `PreviewHeader::Set` (headers.cc:96-118) on a default-constructed header; sizes are 64-bit. -/
def set (x y : Nat) : Option Hdr :=
  if x = 0 ∨ y = 0 then none
  else
    let x32 := x % 2 ^ 32
    let y32 := y % 2 ^ 32
    let div8 := decide (x % 8 = 0) && decide (y % 8 = 0)
    let h : Hdr := { init with flag := div8 }
    let h := if div8 then { h with yd := y32 / 8 } else { h with y := y32 }
    let ratio := findAspectRatio x32 y32
    let h := { h with ratio := ratio }
    let h := if ratio = 0 then (if div8 then { h with xd := x32 / 8 } else { h with x := x32 }) else h
    if xsize h = some x ∧ ysize h = y then some h else none

def enc8 : U32.Enc := ⟨U32.val 16, U32.val 32, U32.bitsOffset 5 1, U32.bitsOffset 9 33⟩
def enc1 : U32.Enc := ⟨U32.bitsOffset 6 1, U32.bitsOffset 8 65, U32.bitsOffset 10 321, U32.bitsOffset 12 1345⟩

/-- `PreviewHeader::VisitFields` (headers.cc:156-181). -/
def prog : Prog :=
  .seq (.bits 1 0 0) <|
  .seq (.cond [0] (fun l => l == [1]) (.u32 enc8 1 1)) <|
  .seq (.cond [0] (fun l => l != [1]) (.u32 enc1 1 2)) <|
  .seq (.bits 3 0 3) <|
  .seq (.cond [3, 0] (fun l => l == [0, 1]) (.u32 enc8 1 4))
    (.cond [3, 0] (fun l => l.head? == some 0 && l != [0, 1]) (.u32 enc1 1 5))

end Preview
end Jxl.SizeHeader
