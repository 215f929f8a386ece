import Verif.Model.PatchDict
/-!
# Splines (lib/jxl/splines.cc, lib/jxl/enc_splines.cc)

The coding of splines and the way from coded differences to control points.  The symbol reader is a parameter, as for patches.  Positions are integers here:
the code stores them as `float`, but only after checking that they are less than 2^23, so exactly.  The estimate of the area in `Dequantize`, which may
refuse a spline too, and the drawing are floating point and not modelled.
-/
namespace Jxl.Splines
open Jxl.MaTree (Reader)
open Jxl.Stream (Out)

/-- `QuantizedSpline` (splines.h:83-88): `control_points_`, `color_dct_` and `sigma_dct_`. -/
structure Spline where
  steps : List (Int × Int)
  color : List (List Int)
  sigma : List Int
deriving DecidableEq

/-- What `Splines` holds after decoding (splines.h:169-173). -/
structure Set where
  starts : List (Int × Int)
  adjust : Int
  splines : List Spline
deriving DecidableEq

/-- `ValidateSplinePointPos` (splines.cc:222-230), and with another limit the check of differences (splines.cc:559-562). -/
def within (lim x y : Int) : Bool := !(decide (x ≥ lim) || decide (x ≤ -lim) || decide (y ≥ lim) || decide (y ≤ -lim))

/-! ### The decoder -/

/-- A starting point (splines.cc:265-273); `last` is nothing for the first one. -/
def startPoint (last : Option (Int × Int)) (a b : Nat) : Int × Int :=
  match last with
  | some l => (MaTree.unpack a + l.1, MaTree.unpack b + l.2)
  | none => ((a : Int), (b : Int))

/-- `DecodeAllStartingPoints` (splines.cc:250-280). -/
def readStarts {ρ : Type} (R : Reader ρ) : Nat → Option (Int × Int) → ρ → Option (List (Int × Int) × ρ)
  | 0, _, r => some ([], r)
  | n + 1, last, r =>
    let a := R.read r 1
    let b := R.read a.2 1
    let p := startPoint last a.1 b.1
    if within (2 ^ 23) p.1 p.2 then (readStarts R n (some p) b.2).bind fun q => some (p :: q.1, q.2) else none

/-- The differences of a spline (splines.cc:550-565). -/
def readSteps {ρ : Type} (R : Reader ρ) : Nat → ρ → Option (List (Int × Int) × ρ)
  | 0, r => some ([], r)
  | n + 1, r =>
    let a := R.read r 4
    let b := R.read a.2 4
    if within (2 ^ 30) (MaTree.unpack a.1) (MaTree.unpack b.1) then
      (readSteps R n b.2).bind fun q => some ((MaTree.unpack a.1, MaTree.unpack b.1) :: q.1, q.2)
    else none

/-- The lambda `decode_dct` (splines.cc:567-577), for the remaining `n` coefficients. -/
def readDct {ρ : Type} (R : Reader ρ) : Nat → ρ → Option (List Int × ρ)
  | 0, r => some ([], r)
  | n + 1, r =>
    let a := R.read r 5
    if MaTree.unpack a.1 = -2 ^ 31 then none else (readDct R n a.2).bind fun q => some (MaTree.unpack a.1 :: q.1, q.2)

/-- The remaining channels (splines.cc:578-580). -/
def readDcts {ρ : Type} (R : Reader ρ) : Nat → ρ → Option (List (List Int) × ρ)
  | 0, r => some ([], r)
  | n + 1, r => (readDct R 32 r).bind fun a => (readDcts R n a.2).bind fun q => some (a.1 :: q.1, q.2)

/-- `QuantizedSpline::Decode` (splines.cc:534-583), with the number of points afterwards. -/
def readSpline {ρ : Type} (R : Reader ρ) (mx total : Nat) (r : ρ) : Option ((Spline × Nat) × ρ) :=
  let k := R.read r 3
  if k.1 > mx then none
  else if total + k.1 > mx then none
  else (readSteps R k.1 k.2).bind fun a => (readDcts R 3 a.2).bind fun b => (readDct R 32 b.2).bind fun c => some ((⟨a.1, b.1, c.1⟩, total + k.1), c.2)

/-- The remaining splines (splines.cc:622-630). -/
def readSplines {ρ : Type} (R : Reader ρ) (mx : Nat) : Nat → Nat → ρ → Option (List Spline × ρ)
  | 0, _, r => some ([], r)
  | n + 1, total, r => (readSpline R mx total r).bind fun a => (readSplines R mx n a.1.2 a.2).bind fun q => some (a.1.1 :: q.1, q.2)

/-- `max_control_points` (splines.cc:609-610). -/
def maxPoints (pixels : Nat) : Nat := min (2 ^ 20) (pixels / 2)

/-- `Splines::Decode` (splines.cc:600-642) without the entropy decoder.  There is always a spline, so the last check never fails. -/
def decode {ρ : Type} (R : Reader ρ) (pixels : Nat) (r : ρ) : Option (Set × ρ) :=
  let n := R.read r 2
  if n.1 > maxPoints pixels ∨ n.1 + 1 > maxPoints pixels then none
  else
    (readStarts R (n.1 + 1) none n.2).bind fun a =>
      let q := R.read a.2 0
      (readSplines R (maxPoints pixels) (n.1 + 1) (n.1 + 1) q.2).bind fun b => some (⟨a.1, MaTree.unpack q.1, b.1⟩, b.2)

/-- `Splines::Decode` on bits, with the position afterwards.  Bits missing at the end make the whole fail here. -/
def readSet (env : Stream.Env) (pixels : Nat) (s : List Bool) : Out (Set × List Bool) :=
  (Stream.decodeHistograms env 6 s).bind fun (c, s) =>
    (Stream.start c.tables s).bind fun st =>
      match decode (TreeStream.contextReader c 0) pixels (.ok st) with
      | none => .bad
      | some (d, r) => r.bind fun st => if Stream.finalOk st then .ok (d, st.bits) else .bad

/-! ### Control points -/

/-- The result of arithmetic on `int`: overflow is undefined. -/
def int (v : Int) : Out Int := if -2 ^ 31 ≤ v ∧ v < 2 ^ 31 then .ok v else .ub

/-- An assignment of an `int64_t` to an `int`. -/
def narrow (v : Int) : Int := (BitVec.ofInt 32 v).toInt

/-- A `uint64_t`. -/
def u64 (n : Nat) : Nat := n % 2 ^ 64

/-- `std::abs` of an `int`. -/
def absInt (v : Int) : Out Int := int v.natAbs

/-- `area_limit` (splines.cc:445-447). -/
def areaLimit (size : Nat) : Nat := min (u64 (1024 * size + 2 ^ 32)) (2 ^ 42)

/-- One pass of the loop over the differences (splines.cc:461-475): the point `p`, the last difference `d` and the distance `m` so far become new ones. -/
def step (lim : Nat) (s p d : Int × Int) (m : Nat) : Out ((Int × Int) × (Int × Int) × Nat) :=
  let dx := narrow (d.1 + s.1)
  let dy := narrow (d.2 + s.2)
  (absInt dx).bind fun ax => (absInt dy).bind fun ay => (int (ax + ay)).bind fun a =>
    let m' := u64 (m + a.toNat)
    if m' > lim then .bad
    else if within (2 ^ 23) dx dy then
      (int (p.1 + dx)).bind fun x => (int (p.2 + dy)).bind fun y => if within (2 ^ 23) x y then .ok ((x, y), (dx, dy), m') else .bad
    else .bad

/-- The loop (splines.cc:461-476). -/
def walk (lim : Nat) : List (Int × Int) → Int × Int → Int × Int → Nat → Out (List (Int × Int))
  | [], _, _, _ => .ok []
  | s :: ss, p, d, m => (step lim s p d m).bind fun o => (walk lim ss o.1 o.2.1 o.2.2).bind fun q => .ok (o.1 :: q)

/-- The control points in `Dequantize` (splines.cc:444-476). -/
def points (size : Nat) (start : Int × Int) (steps : List (Int × Int)) : Out (List (Int × Int)) :=
  if within (2 ^ 23) start.1 start.2 then (walk (areaLimit size) steps start (0, 0) 0).bind fun q => .ok (start :: q) else .bad

/-- `std::adjacent_find` finds something (splines.cc:675-677). -/
def repeats : List (Int × Int) → Bool
  | a :: b :: l => decide (a = b) || repeats (b :: l)
  | _ => false

/-- The first loop of `InitializeDrawCache` (splines.cc:669-684), without the estimate of the area. -/
def allPoints (size : Nat) : List (Int × Int) → List Spline → Out (List (List (Int × Int)))
  | p :: ps, s :: ss => (points size p s.steps).bind fun q => if repeats q then .bad else (allPoints size ps ss).bind fun l => .ok (q :: l)
  | _, _ => .ok []

/-! ### The encoder -/

/-- The differences made by `QuantizedSpline::Create` (splines.cc:391-408) after the point `p` and the difference `d`. -/
def makeSteps : Int × Int → Int × Int → List (Int × Int) → Out (List (Int × Int))
  | _, _, [] => .ok []
  | p, d, q :: qs =>
    (int (q.1 - p.1)).bind fun dx => (int (q.2 - p.2)).bind fun dy => (int (dx - d.1)).bind fun sx => (int (dy - d.2)).bind fun sy =>
      (makeSteps q (dx, dy) qs).bind fun l => .ok ((sx, sy) :: l)

/-- `Spline` (splines.h:44-65) with rounded control points and quantised coefficients. -/
structure Curve where
  pts : List (Int × Int)
  color : List (List Int)
  sigma : List Int
deriving DecidableEq

/-- `QuantizedSpline::Create` (splines.cc:385-437), for the control points. -/
def create (c : Curve) : Out Spline :=
  match c.pts with
  | [] => .bad
  | p :: ps => (makeSteps p (0, 0) ps).bind fun l => .ok ⟨l, c.color, c.sigma⟩

/-- All splines of a frame. -/
def createAll : List Curve → Out (List Spline)
  | [] => .ok []
  | c :: cs => (create c).bind fun s => (createAll cs).bind fun l => .ok (s :: l)

/-- `PackSigned` of the low 32 bits. -/
def pack (v : Int) : Nat := (packSigned (BitVec.ofInt 32 v)).toNat

/-- `EncodeAllStartingPoints` (enc_splines.cc:49-70). -/
def startTokens : Option (Int × Int) → List (Int × Int) → List (Nat × Nat)
  | _, [] => []
  | none, p :: ps => (1, (BitVec.ofInt 32 p.1).toNat) :: (1, (BitVec.ofInt 32 p.2).toNat) :: startTokens (some p) ps
  | some l, p :: ps => (1, pack (p.1 - l.1)) :: (1, pack (p.2 - l.2)) :: startTokens (some p) ps

/-- `QuantizedSplineEncoder::Tokenize` (enc_splines.cc:27-44). -/
def splineTokens (s : Spline) : List (Nat × Nat) :=
  (3, Patches.u32 s.steps.length) :: (s.steps.flatMap (fun p => [(4, pack p.1), (4, pack p.2)]) ++ (s.color.flatMap (fun l => l.map fun v => (5, pack v)) ++ s.sigma.map fun v => (5, pack v)))

/-- The tokens of `EncodeSplines` (enc_splines.cc:77-90). -/
def tokens (s : Set) : Option (List (Nat × Nat)) :=
  if s.splines = [] then none
  else some ((2, Patches.u32 (s.splines.length - 1)) :: (startTokens none s.starts ++ (0, pack s.adjust) :: s.splines.flatMap splineTokens))

end Jxl.Splines
