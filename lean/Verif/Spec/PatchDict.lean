import Verif.Model.PatchDict
/-!
# What a dictionary of patches means, said without the coding
-/
namespace Jxl.Patches

/-- A patch as it is drawn (dec_patch_dictionary.cc:326-354): where, from where, and how colour and extra channels are blended. -/
structure Patch where
  x : Nat
  y : Nat
  source : Option RefPos
  blends : List Blend
deriving DecidableEq

/-- The patches that are drawn with a dictionary. -/
def drawn (d : Dict) : List Patch := d.positions.mapIdx fun i p => ⟨p.x, p.y, d.refs[p.idx]?, (d.blends.drop (i * d.stride)).take d.stride⟩

/-- Modes 4 to 7 of the format (blend above, blend below, weighted addition above and below) have an alpha channel. -/
def needsAlpha (m : Nat) : Bool := decide (4 ≤ m ∧ m < 8)

/-- Modes 3 to 7 of the format (multiplication and those with alpha) have clamping. -/
def needsClamp (m : Nat) : Bool := decide (3 ≤ m ∧ m < 8)

/-- A blending without what is ignored: the alpha channel where there is no choice or no alpha, the clamping where there is none. -/
def Blend.norm (nec : Nat) (b : Blend) : Blend := ⟨b.mode, if needsAlpha b.mode ∧ nec > 1 then b.alpha else 0, needsClamp b.mode && b.clamp⟩

/-- A patch without what is ignored. -/
def Patch.norm (nec : Nat) (p : Patch) : Patch := { p with blends := p.blends.map (Blend.norm nec) }

/-- A rectangle within a saved frame that may be used. -/
structure RefPos.Ok (frames : Nat → Frame) (r : RefPos) : Prop where
  ref : r.ref < 4
  saved : 0 < (frames r.ref).w
  xyb : (frames r.ref).xyb = true
  xs : 0 < r.xs
  ys : 0 < r.ys
  right : r.x0 + r.xs ≤ (frames r.ref).w
  below : r.y0 + r.ys ≤ (frames r.ref).h

/-- A patch that can be drawn in a frame of `xs` by `ys` pixels with `nec` extra channels. -/
structure Patch.Ok (frames : Nat → Frame) (xs ys nec : Nat) (p : Patch) : Prop where
  source : ∃ r, p.source = some r ∧ r.Ok frames ∧ p.x + r.xs ≤ xs ∧ p.y + r.ys ≤ ys
  count : p.blends.length = nec + 1
  blends : ∀ b ∈ p.blends, b.mode < 8 ∧ (needsAlpha b.mode = true → 1 < nec → b.alpha < nec)

/-- The number of times the source changes from one patch to the next, and one for the first patch. -/
def changes : Option Nat → List Pos → Nat
  | _, [] => 0
  | i, p :: ps => (if i = some p.idx then 0 else 1) + changes (some p.idx) ps

/-- A dictionary an encoder may write for a frame of `xs` by `ys` pixels with `nec` extra channels: every patch can be drawn, sizes have 31 bits, and the limits
of the decoder on the number of patches are kept. -/
structure Dict.Ok (frames : Nat → Frame) (xs ys nec : Nat) (d : Dict) : Prop where
  some : d.positions ≠ []
  channels : nec < 2 ^ 32
  stride : d.stride = nec + 1
  count : d.blends.length = d.positions.length * d.stride
  patches : ∀ p ∈ drawn d, p.Ok frames xs ys nec
  wide : xs < 2 ^ 31
  high : ys < 2 ^ 31
  saved : ∀ i < 4, (frames i).w ≤ 2 ^ 32 ∧ (frames i).h ≤ 2 ^ 32
  sources : changes none d.positions ≤ 1024 + xs * ys / 4
  few : d.positions.length ≤ 4 * (1024 + xs * ys / 4)
  fits : changes none d.positions < 2 ^ 32 ∧ d.positions.length ≤ 2 ^ 32
  room : nec ≤ 3 ∨ 2 * d.positions.length * (nec + 1) ≤ 16 * (1024 + xs * ys / 4)

end Jxl.Patches
