/-!
# Model of modular images (lib/jxl/modular/modular_image.h)

`pixel_type` is `int32_t`, a `BitVec 32` here.  The plane of a channel is the list of its rows; the padding at the end of a row
is not represented.  `component` only matters to encoder heuristics and is left out.
-/
namespace Jxl.Modular

abbrev Px := BitVec 32

/-- `Channel` (modular_image.h:34-86). -/
structure Channel where
  w : Nat
  h : Nat
  hshift : Int := 0
  vshift : Int := 0
  rows : List (List Px)
deriving DecidableEq

/-- The plane has the announced size. -/
def Channel.Wf (c : Channel) : Prop := c.rows.length = c.h ∧ ∀ r ∈ c.rows, r.length = c.w

/-- `Image` (modular_image.h:90-120), the part transforms use. -/
structure Image where
  channel : List Channel
  nbMeta : Nat
deriving DecidableEq

/-- `CheckEqualChannels` (transform.cc:147-169); 32-bit channel indices. -/
def checkEqualChannels (img : Image) (c1 c2 : Nat) : Bool :=
  if c1 > img.channel.length ∨ c2 ≥ img.channel.length ∨ c2 < c1 then false
  else if c1 < img.nbMeta ∧ c2 ≥ img.nbMeta then false
  else match img.channel[c1]? with
    | none => false
    | some a => (img.channel.drop (c1 + 1)).take (c2 - c1) |>.all fun b =>
        a.w == b.w && a.h == b.h && a.hshift == b.hshift && a.vshift == b.vshift

end Jxl.Modular
