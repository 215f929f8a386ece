import Verif.Model.Passes
/-!
# What passes and sections should be, said without the code
-/
namespace Jxl.Passes
open Jxl Jxl.Modular

/-- The passes a frame header can announce: resolutions in decreasing order, each complete with a later pass than the one before. -/
structure Passes.Good (p : Passes) : Prop where
  num : 1 ≤ p.num ∧ p.num ≤ 11
  one : p.num = 1 → p.shift = [] ∧ p.down = [] ∧ p.last = []
  shifts : p.shift.length = p.num - 1 ∧ ∀ v ∈ p.shift, v < 4
  count : p.down.length ≤ 4 ∧ p.down.length ≤ p.num ∧ p.last.length = p.down.length
  down : (∀ v ∈ p.down, v = 1 ∨ v = 2 ∨ v = 4 ∨ v = 8) ∧ p.down.Pairwise (fun a b => b < a)
  last : (∀ v ∈ p.last, v < p.num ∧ v < 8) ∧ p.last.Pairwise (fun a b => a < b)

/-- A channel of a frame of `w` by `h` pixels that is scaled down by its shifts, and no larger than that. -/
structure Fits (w h : Nat) (c : Channel) : Prop where
  h0 : 0 ≤ c.hshift
  v0 : 0 ≤ c.vshift
  width : ∀ x < c.w, x * 2 ^ c.hshift.toNat < w
  height : ∀ y < c.h, y * 2 ^ c.vshift.toNat < h

/-- The sample (`x`, `y`) of a channel is in a section. -/
def Within (d : FrameDim.Dims) (p : Passes) (c : Channel) (x y : Nat) (s : Sect) : Prop :=
  ∃ r, part (s.shifts p) (s.rect d) c = some r ∧ r.x0 ≤ x ∧ x < r.x0 + r.xs ∧ r.y0 ≤ y ∧ y < r.y0 + r.ys

/-- The channels of a modular frame that are not in the first section: those after the metadata, from the first one on that is larger than a
group. -/
def later (groupDim : Nat) (img : Image) : List Channel := (img.channel.drop img.nbMeta).dropWhile fun c => decide (c.w ≤ groupDim ∧ c.h ≤ groupDim)

/-- The others. -/
def early (groupDim : Nat) (img : Image) : List Channel :=
  img.channel.take img.nbMeta ++ (img.channel.drop img.nbMeta).takeWhile fun c => decide (c.w ≤ groupDim ∧ c.h ≤ groupDim)

/-- The streams of a frame. -/
def Stream.Of (d : FrameDim.Dims) (passes : Nat) : Stream → Prop
  | .global => True
  | .varDctDc g | .modularDc g | .acMetadata g => g < d.numDcGroups
  | .quantTable t => t < 17
  | .modularAc pass g => pass < passes ∧ g < d.numGroups

/-- A frame before its transforms: colour channels, possibly subsampled, and extra channels, not upsampled less than the frame. -/
def Start (d : FrameDim.Dims) (up : Nat) (img : Image) : Prop :=
  img.nbMeta = 0 ∧ ∀ c ∈ img.channel, (∃ hs vs, Squeeze.geom c = colourGeom d hs vs) ∨ ∃ ec, up ≤ ec ∧ Squeeze.geom c = extraGeom d up ec

/-- A section that has come when those of the low frequencies and `n` passes have. -/
def Sect.Come (n : Nat) : Sect → Prop
  | .lf _ => True
  | .hf pass _ => pass < n

end Jxl.Passes
