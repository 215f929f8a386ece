import Verif.Model.ModularImage
import Verif.Model.Coders
/-!
# Model of the reversible colour transforms (lib/jxl/modular/transform/rct.cc, enc_rct.cc)

All arithmetic wraps modulo 2^32 (vector instructions and `PixelAdd`).  Simplification: the forward transform of the
`HWY_SCALAR` target uses plain `int32_t` subtraction, which is undefined on overflow; the vector version is modelled.
-/
namespace Jxl.Modular.Rct

/-- Arithmetic shift by one. -/
def half (x : Px) : Px := x.sshiftRight 1

/-- `FwdRctRow<transform>` (enc_rct.cc:35-110), one sample. -/
def fwd1 (t : Nat) (p : Px × Px × Px) : Px × Px × Px :=
  match p with
  | (a, b, c) =>
    if t = 6 then
      let o1 := a - c
      let tmp := c + half o1
      let o2 := b - tmp
      (tmp + half o2, o1, o2)
    else
      let second := t >>> 1
      let third := t &&& 1
      let b' := if second = 1 then b - a else if second = 2 then b - half (a + c) else b
      let c' := if third ≠ 0 then c - a else c
      (a, b', c')

/-- The vector body of `InvRCTRow` (rct.cc:43-68), one lane. -/
def inv1 (t : Nat) (p : Px × Px × Px) : Px × Px × Px :=
  match p with
  | (y, co, cg) =>
    if t = 6 then
      let y := y - half cg
      let g := cg + y
      let y := y - half co
      (y + co, g, y)
    else
      let second := t >>> 1
      let third := t &&& 1
      let c' := if third ≠ 0 then cg + y else cg
      let b' := if second = 1 then co + y else if second = 2 then co + half (y + c') else co
      (y, b', c')

/-- The scalar tail of `InvRCTRow` (rct.cc:69-96), one sample. -/
def inv1Tail (t : Nat) (p : Px × Px × Px) : Px × Px × Px :=
  match p with
  | (y, co, cg) =>
    if t = 6 then
      let tmp := y + -(half cg)
      let g := cg + tmp
      let b := tmp + -(half co)
      (b + co, g, b)
    else
      let second := t >>> 1
      let third := t &&& 1
      let c' := if third ≠ 0 then cg + y else cg
      let b' := if second = 1 then co + y else if second = 2 then co + half (y + c') else co
      (y, b', c')

/-- `InvRCTRow` (rct.cc:29-96) on a row of samples with vectors of `n` lanes. -/
def invRow (n t : Nat) : Nat → List (Px × Px × Px) → List (Px × Px × Px)
  | 0, r => r.map (inv1Tail t)
  | fuel + 1, r => if n ≤ r.length then (r.take n).map (inv1 t) ++ invRow n t fuel (r.drop n) else r.map (inv1Tail t)

/-- Three rows side by side. -/
def zip3 (a b c : List Px) : List (Px × Px × Px) := List.zipWith (fun x (y, z) => (x, y, z)) a (List.zip b c)

def unzip3 (l : List (Px × Px × Px)) : List Px × List Px × List Px := (l.map (·.1), l.map (·.2.1), l.map (·.2.2))

/-- The rows of three channels, transformed by `f`. -/
def mapRows (f : List (Px × Px × Px) → List (Px × Px × Px)) :
    List (List Px) → List (List Px) → List (List Px) → List (List Px) × List (List Px) × List (List Px)
  | a :: as, b :: bs, c :: cs =>
    match unzip3 (f (zip3 a b c)), mapRows f as bs cs with
    | (x, y, z), (xs, ys, zs) => (x :: xs, y :: ys, z :: zs)
  | _, _, _ => ([], [], [])

/-- `permutation % 3`, `(permutation + 1 + permutation / 3) % 3`, `(permutation + 2 - permutation / 3) % 3`. -/
def perm (p : Nat) : Nat × Nat × Nat := (p % 3, (p + 1 + p / 3) % 3, (p + 2 - p / 3) % 3)

/-- `FwdRct` (enc_rct.cc:202-211, 112-185), in place. -/
def fwd (img : Image) (m t : Nat) : Option Image := do
  if !checkEqualChannels img m (m + 2) then none
  else if t = 0 then none
  else
    let (i0, i1, i2) := perm (t / 7)
    let a ← img.channel[m + i0]?
    let b ← img.channel[m + i1]?
    let c ← img.channel[m + i2]?
    let (x, y, z) := mapRows (List.map (fwd1 (t % 7))) a.rows b.rows c.rows
    let o0 ← img.channel[m]?
    let o1 ← img.channel[m + 1]?
    let o2 ← img.channel[m + 2]?
    some { img with channel :=
      ((img.channel.set m { o0 with rows := x }).set (m + 1) { o1 with rows := y }).set (m + 2) { o2 with rows := z } }

/-- `InvRCT` (rct.cc:98-150), vectors of `n` lanes. -/
def inv (n : Nat) (img : Image) (m t : Nat) : Option Image := do
  if !checkEqualChannels img m (m + 2) then none
  else if t = 0 then some img
  else if t / 7 < 6 then
    let (i0, i1, i2) := perm (t / 7)
    let a ← img.channel[m]?
    let b ← img.channel[m + 1]?
    let c ← img.channel[m + 2]?
    if t % 7 = 0 then
      some { img with channel := ((img.channel.set (m + i0) a).set (m + i1) b).set (m + i2) c }
    else
      let (x, y, z) := mapRows (fun r => invRow n (t % 7) (r.length + 1) r) a.rows b.rows c.rows
      let o0 ← img.channel[m + i0]?
      let o1 ← img.channel[m + i1]?
      let o2 ← img.channel[m + i2]?
      some { img with channel :=
        ((img.channel.set (m + i0) { o0 with rows := x }).set (m + i1) { o1 with rows := y }).set (m + i2) { o2 with rows := z } }
  else none

/-- Coding of `rct_type` (transform.cc:55-60). -/
def typeEnc : U32.Enc := ⟨U32.val 6, U32.bitsOffset 2 0, U32.bitsOffset 4 2, U32.bitsOffset 6 10⟩

/-- Reading `rct_type` with its check. -/
def readType (s : List Bool) : Option (Nat × List Bool) := do
  let (v, s) ← U32.read typeEnc s
  if v ≥ 42 then none else some (v, s)

end Jxl.Modular.Rct
