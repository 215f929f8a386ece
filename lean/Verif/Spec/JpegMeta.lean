import Verif.Model.JpegMeta
/-!
# What the metadata segments of a JPEG file look like
-/
namespace Jxl.JpegMeta

/-- A marker segment: the marker, a big-endian length that counts itself, and the data. -/
def Segment (seg : List Nat) : Prop :=
  ∃ m hi lo data, seg = m :: hi :: lo :: data ∧ hi < 256 ∧ lo < 256 ∧ hi * 256 + lo = data.length + 2

/-- Segments that claim to hold a part of the colour profile. -/
def ProfilePart (seg : List Nat) : Prop :=
  ∃ hi lo rest, seg = 0xE2 :: hi :: lo :: (iccTag ++ rest)

/-- The parts of the profile `parts` are exactly the claimed ones, they are numbered in order from 1 on, and each of
them says how many there are. -/
inductive Numbered (total : Nat) : List (List Nat) → Nat → List (List Nat) → Prop
  | done : Numbered total [] total []
  | part : Numbered total apps (i + 1) parts →
      Numbered total ((0xE2 :: hi :: lo :: (iccTag ++ ((i + 1) :: total :: part))) :: apps) i (part :: parts)
  | other : ¬ ProfilePart app → Numbered total apps i parts → Numbered total (app :: apps) i parts

/-- The profile of a file is intact: at most 255 parts, numbered as they should be. -/
def ProfileIntact (apps : List (List Nat)) (profile : List Nat) : Prop :=
  ∃ total parts, total < 256 ∧ Numbered total apps 0 parts ∧ parts.flatten = profile

/-- All segments are segments. -/
structure Meta.WellFormed (m : Meta) : Prop where
  app : ∀ a ∈ m.app, Segment a
  com : ∀ a ∈ m.com, Segment a

/-- What the bundle guarantees of the sizes (C56). -/
structure Stored.WellFormed (s : Stored) : Prop where
  app : ∀ a ∈ s.app, a.1 < 4 ∧ 3 ≤ a.2 ∧ a.2 ≤ 65536
  com : ∀ a ∈ s.com, 3 ≤ a ∧ a ≤ 65536

end Jxl.JpegMeta
