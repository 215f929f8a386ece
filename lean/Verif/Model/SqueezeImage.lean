import Verif.Model.Squeeze
/-!
# Model of the squeeze transform on images (lib/jxl/modular/transform/squeeze.cc, enc_squeeze.cc)

Channel indices are 32-bit in the code; the model's are unbounded (`begin_c` and `num_c` are below 2^14 in the format).
-/
namespace Jxl.Modular.Squeeze

/-- `SqueezeParams` (squeeze_params.h). -/
structure Params where
  horizontal : Bool
  inPlace : Bool
  beginC : Nat
  numC : Nat
deriving DecidableEq

/-- `CheckMetaSqueezeParams` (squeeze.cc:433-441); `c2 = begin_c + num_c - 1` wraps to below `c1` when `num_c` is 0. -/
def checkParams (p : Params) (n : Nat) : Bool := decide (p.numC ≠ 0 ∧ p.beginC + p.numC - 1 < n)

/-- Where the residuals go (enc_squeeze.cc:158-162). -/
def fwdOffset (p : Params) (n : Nat) : Nat := if p.inPlace then p.beginC + p.numC else n

/-- Where the residuals are (squeeze.cc:334-338). -/
def invOffset (p : Params) (n : Nat) : Nat := if p.inPlace then p.beginC + p.numC else n - p.numC

/-- The loop over channels of `FwdSqueeze` (enc_squeeze.cc:163-169), also of `MetaSqueeze` (squeeze.cc:486-511): the channel
shrinks in place, the residual is inserted. -/
def fwdChans {α : Type} (f : α → Option (α × α)) : Nat → Nat → Nat → List α → Option (List α)
  | 0, _, _, chs => some chs
  | k + 1, c, rc, chs => do
    let ch ← chs[c]?
    let (a, r) ← f ch
    fwdChans f k (c + 1) (rc + 1) ((chs.set c a).insertIdx rc r)

/-- One squeeze of `FwdSqueeze` (enc_squeeze.cc:150-169). -/
def fwdOne (p : Params) (chs : List Channel) : Option (List Channel) :=
  if checkParams p chs.length then
    fwdChans (if p.horizontal then fwdH else fwdV) p.numC p.beginC (fwdOffset p chs.length) chs
  else none

def fwdAll : List Params → List Channel → Option (List Channel)
  | [], chs => some chs
  | p :: ps, chs => do
    let chs ← fwdOne p chs
    fwdAll ps chs

/-- The loop over channels of `InvSqueeze` (squeeze.cc:346-362). -/
def invChans (f : Channel → Channel → Option Channel) : Nat → Nat → Nat → List Channel → Option (List Channel)
  | 0, _, _, chs => some chs
  | k + 1, c, rc, chs => do
    let ch ← chs[c]?
    let r ← chs[rc]?
    if ch.w < r.w ∨ ch.h < r.h then none
    else
      let o ← f ch r
      invChans f k (c + 1) (rc + 1) (chs.set c o)

/-- The two inverse kernels, with vectors or without. -/
structure Kernels where
  rows : Nat → List (List Px) → List (List Px) → Option (List (List Px))
  cols : List Px → List Px → List Px → List Px → Option (List Px × List Px)

/-- The `HWY_SCALAR` build. -/
def scalarK : Kernels := { rows := fun _ => invRowsScalar, cols := rowStep unpairAll }

/-- Any other target; `odd0` is the content of an uninitialised buffer. -/
def vectorK (odd0 : List Px) : Kernels := { rows := fun h => invRowsVec odd0 h 0, cols := rowStep colsVec }

def invKernel (K : Kernels) (p : Params) (c r : Channel) : Option Channel :=
  if p.horizontal then invH (K.rows c.h) c r else invV K.cols c r

/-- `nb_meta_channels` after undoing a squeeze (squeeze.cc:339-343). -/
def invMeta (p : Params) (nb : Nat) : Option Nat :=
  if p.beginC < nb then (if nb > p.numC then some (nb - p.numC) else none) else some nb

/-- One squeeze of `InvSqueeze` (squeeze.cc:326-366). -/
def invOne (K : Kernels) (p : Params) (img : Image) : Option Image :=
  if checkParams p img.channel.length then do
    let off := invOffset p img.channel.length
    let nb ← invMeta p img.nbMeta
    let chs ← invChans (invKernel K p) p.numC p.beginC off img.channel
    some { channel := chs.take off ++ chs.drop (off + p.numC), nbMeta := nb }
  else none

/-- `InvSqueeze` (squeeze.cc:324-369): the last squeeze first. -/
def invAll (K : Kernels) : List Params → Image → Option Image
  | [], img => some img
  | p :: ps, img => do
    let img ← invAll K ps img
    invOne K p img

/-! ## What the decoder announces to itself -/

/-- Size and shifts of a channel. -/
structure Geom where
  w : Nat
  h : Nat
  hshift : Int
  vshift : Int
deriving DecidableEq

def geom (c : Channel) : Geom := { w := c.w, h := c.h, hshift := c.hshift, vshift := c.vshift }

/-- `DefaultSqueezeParameters` (squeeze.cc:386-431), the loop. -/
def defaultLoop (b n : Nat) : Nat → Nat → Nat → List Params
  | 0, _, _ => []
  | fuel + 1, w, h =>
    if w > 8 ∨ h > 8 then
      (if w > 8 then [⟨true, true, b, n⟩] else []) ++ (if h > 8 then [⟨false, true, b, n⟩] else []) ++
        defaultLoop b n fuel (if w > 8 then (w + 1) / 2 else w) (if h > 8 then (h + 1) / 2 else h)
    else []

/-- Three channels or more, the second of the size of the first (squeeze.cc:400-401). -/
def hasChroma (nbMeta : Nat) (gs : List Geom) (g : Geom) : Bool :=
  match gs[nbMeta + 1]? with
  | some g1 => decide (gs.length - nbMeta > 2 ∧ g1.w = g.w ∧ g1.h = g.h)
  | none => false

/-- `DefaultSqueezeParameters` (squeeze.cc:386-431), `kMaxFirstPreviewSize` = 8. -/
def defaultParams (nbMeta : Nat) (gs : List Geom) : Option (List Params) := do
  let g ← gs[nbMeta]?
  let n := gs.length - nbMeta
  let first := if hasChroma nbMeta gs g then [⟨true, false, nbMeta + 1, 2⟩, ⟨false, false, nbMeta + 1, 2⟩] else []
  let tall := decide (¬ g.w > g.h ∧ g.h > 8)
  some (first ++ (if tall then [⟨false, true, nbMeta, n⟩] else []) ++
    defaultLoop nbMeta n (g.w + g.h) g.w (if tall then (g.h + 1) / 2 else g.h))

/-- The channels of one squeeze in `MetaSqueeze` (squeeze.cc:486-510). -/
def metaGeom (horizontal : Bool) (g : Geom) : Option (Geom × Geom) :=
  if g.hshift > 30 ∨ g.vshift > 30 then none
  else if g.w = 0 ∨ g.h = 0 then none
  else if horizontal then
    let s := if g.hshift ≥ 0 then g.hshift + 1 else g.hshift
    some ({ g with w := (g.w + 1) / 2, hshift := s }, { g with w := g.w - (g.w + 1) / 2, hshift := s })
  else
    let s := if g.vshift ≥ 0 then g.vshift + 1 else g.vshift
    some ({ g with h := (g.h + 1) / 2, vshift := s }, { g with h := g.h - (g.h + 1) / 2, vshift := s })

/-- `nb_meta_channels` in `MetaSqueeze` (squeeze.cc:457-469). -/
def metaNb (p : Params) (nb : Nat) : Option Nat :=
  if p.beginC < nb then
    (if p.beginC + p.numC - 1 ≥ nb then none else if p.inPlace then some (nb + p.numC) else none)
  else some nb

/-- One squeeze of `MetaSqueeze` (squeeze.cc:449-513). -/
def metaOne (p : Params) (s : Nat × List Geom) : Option (Nat × List Geom) :=
  if checkParams p s.2.length then do
    let nb ← metaNb p s.1
    let gs ← fwdChans (metaGeom p.horizontal) p.numC p.beginC (fwdOffset p s.2.length) s.2
    some (nb, gs)
  else none

def metaAll : List Params → Nat × List Geom → Option (Nat × List Geom)
  | [], s => some s
  | p :: ps, s => do
    let s ← metaOne p s
    metaAll ps s

/-- No parameters stand for the default ones (enc_squeeze.cc:145-147, squeeze.cc:445-447). -/
def useParams (ps : List Params) (nb : Nat) (gs : List Geom) : Option (List Params) :=
  if ps = [] then defaultParams nb gs else some ps

/-- `FwdSqueeze` (enc_squeeze.cc:143-172); refused when there is nothing to do. -/
def fwdSqueeze (ps : List Params) (img : Image) : Option (List Channel) := do
  let ps ← useParams ps img.nbMeta (img.channel.map geom)
  if ps = [] then none else fwdAll ps img.channel

/-- `MetaSqueeze` (squeeze.cc:443-515): the parameters to undo and the announced channels. -/
def metaSqueeze (ps : List Params) (nb : Nat) (gs : List Geom) : Option (List Params × Nat × List Geom) := do
  let ps ← useParams ps nb gs
  let s ← metaAll ps (nb, gs)
  some (ps, s)

end Jxl.Modular.Squeeze
