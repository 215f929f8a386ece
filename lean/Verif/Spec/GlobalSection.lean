import Verif.Model.GlobalSection
import Verif.Spec.PatchDict
import Verif.Spec.Splines
import Verif.Spec.BlockCtx
import Verif.Spec.FrameParams
import Verif.Spec.QuantTables
/-! Which global sections can be written, and what must be read from them. -/
namespace Jxl.GlobalSection

/-- A sound stream with `n` contexts of the symbols `vs`. -/
structure Coding.Ok (c : Coding) (n : Nat) (vs : Option (List (Nat × Nat))) : Prop where
  sound : Stream.Sound c.layers c.plan
  contexts : c.plan.map.length = if c.plan.lz.isSome then n + 1 else n
  tokens : ∃ l, vs = some l ∧ Stream.Tokenised c.plan 0 0 c.tokens l

/-- What a frame has: patches, curves and their adjustment; the rest is in the input itself. -/
structure Content where
  dict : Patches.Dict
  curves : List Splines.Curve
  adjust : Int
  size : Nat

/-- Each part that the header selects can be written; extra channels are subsampled like the colours if there are patches and the colours are subsampled. -/
structure Ok (h : Header) (m : Dims) (c : Content) (i : Input) : Prop where
  patches : h.patches = true → c.dict.Ok m.frames m.xs m.ys m.nec ∧ i.patches.Ok 10 (Patches.tokens c.dict) ∧ (h.upsampling = 1 ∨ ∀ u ∈ h.ecUpsampling, u = h.upsampling)
  splines : h.splines = true → Splines.CurvesOk m.pixels c.size c.curves c.adjust ∧ (∀ k, c.curves.head? = some k → ∀ p, k.pts.head? = some p → 0 ≤ p.1 ∧ 0 ≤ p.2) ∧
    ∃ qs, Splines.createAll c.curves = .ok qs ∧ i.splines.Ok 6 (Splines.tokens ⟨Splines.starts c.curves, c.adjust, qs⟩)
  noise : h.noise = true → FrameParams.NoiseOk i.noise
  dc : QuantTables.DcLimits i.dcX ∧ QuantTables.DcLimits i.dcY ∧ QuantTables.DcLimits i.dcB
  info : h.varDct = true → i.info.quant.Ok ∧ BlockCtx.Fits i.info.ctx ∧ BlockCtx.Choice i.ctxLayers i.useMtf i.simple i.info.ctx ∧ i.info.cfl.Ok

/-- What must be read: the patches at the same places from the same sources, the curves with their coefficients, the noise up to half a step, and all else exactly; what is not
selected is empty, or, for noise, as before. -/
structure Same (h : Header) (c : Content) (i : Input) (oldNoise : List Nat) (g : Global) : Prop where
  patches : (Patches.drawn g.patches).map (fun p => (p.x, p.y, p.source)) = if h.patches then (Patches.drawn c.dict).map (fun p => (p.x, p.y, p.source)) else []
  noSplines : h.splines = false → g.splines = none
  splines : h.splines = true → ∃ s, g.splines = some s ∧ Splines.allPoints c.size s.starts s.splines = .ok (c.curves.map (·.pts)) ∧
    s.splines.map (fun q => (q.color, q.sigma)) = c.curves.map (fun k => (k.color, k.sigma)) ∧ s.adjust = c.adjust
  noNoise : h.noise = false → g.noise = oldNoise
  noise : h.noise = true → g.noise.length = 8 ∧ ∀ (k v w : Nat), i.noise[k]? = some v → g.noise[k]? = some w → FrameParams.Near v w
  dc : g.dc = [i.dcX, i.dcY, i.dcB]
  info : g.info = if h.varDct then some i.info else none

/-- What holds of a section read from any bits: patches can be drawn, splines are in range, no divisor is zero, block contexts are within their table. -/
structure Good (h : Header) (m : Dims) (g : Global) : Prop where
  patches : ∀ p ∈ Patches.drawn g.patches, p.Ok m.frames m.xs m.ys m.nec
  splines : ∀ s, g.splines = some s → s.Ok m.pixels
  dc : g.dc.length = 3 ∧ ∀ w ∈ g.dc, w < 2 ^ 31 ∧ 11258999 * 2 ^ 99 ≤ F16.Spec.mag32 w
  info : ∀ i, g.info = some i → i.quant.Ok ∧ BlockCtx.Fits i.ctx ∧ i.cfl.Limits

end Jxl.GlobalSection
