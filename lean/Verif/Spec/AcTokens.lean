import Verif.Model.AcTokens
import Verif.Spec.AcStrategy
/-! What coding of coefficients has to achieve, independently of how tokens are made. -/
namespace Jxl.AcTokens.Spec
open CoeffOrder

/-- A low frequency coefficient of a transform of `cx` × `cy` blocks, coded with the DC image instead. -/
def IsLow (cx cy i : Nat) : Prop := i % (8 * cx) < cx ∧ i / (8 * cx) < cy

instance (cx cy i : Nat) : Decidable (IsLow cx cy i) := by unfold IsLow; exact inferInstance

/-- A low frequency coefficient of the transform. -/
def Low (v : Visit) (i : Nat) : Prop := IsLow (cxOf v.t) (cyOf v.t) i

instance (v : Visit) (i : Nat) : Decidable (Low v i) := by unfold Low; exact inferInstance

/-- Number of coefficients of the transform. -/
def area (t : Nat) : Nat := 64 * (coveredX.getD t 0 * coveredY.getD t 0)

/-- Where the decoder keeps transform number `j` of the group. -/
def decStart (vs : List Visit) (j : Nat) : Nat := ((vs.take j).map fun v => area v.t).sum

/-- Where the encoder keeps transform number `j` of the group in channel `c`: absent blocks take no place. -/
def encStart (e : Env) (vs : List Visit) (c j : Nat) : Nat :=
  (((vs.take j).filter fun v => e.has v c).map fun v => area v.t).sum

/-- The value that the passes from number `i` on add up to. -/
def total : List Pass → Nat → (Nat → Int) → Int
  | [], _, _ => 0
  | q :: qs, i, f => f i * 2 ^ q.shift + total qs (i + 1) f

/-- The context map has an entry for each combination, all below the number of contexts. -/
structure MapOk (m : BlockCtxMap) : Prop where
  size : m.ctxMap.length = 3 * 13 * (m.qfThresholds.length + 1) * m.numDcCtxs
  entries : ∀ b ∈ m.ctxMap, b < m.numCtxs

/-- The set of histograms lies within the context map. -/
def PassOk (m : BlockCtxMap) (q : Pass) : Prop := q.ctxOffset + m.numACContexts + 16 ≤ q.mapSize

/-- The transforms of a layout. -/
def visits (bs : List AcStrategy.Spec.Varblock) : List Visit := bs.map fun b => ⟨b.x, b.y, b.t⟩

/-- Without subsampling any layout; with subsampling single blocks only (C48). -/
def Sampled (e : Env) (bs : List AcStrategy.Spec.Varblock) : Prop :=
  (∀ c, e.hs c = 0 ∧ e.vs c = 0) ∨ ∀ b ∈ bs, b.cx = 1 ∧ b.cy = 1

/-- A coefficient within the square of `n` × `n` frequencies per block. -/
def Within (cx cy n x y : Nat) : Prop := x < cx * n ∧ y < cy * n

instance (cx cy n x y : Nat) : Decidable (Within cx cy n x y) := by unfold Within; exact inferInstance

/-- A sequence of passes in which each refinement covers the coefficients of the pass it refines, ending with all the
coefficients in full precision.  `n`, `s` describe the previous pass. -/
def Refining : Nat → Nat → List PassDef → Prop
  | n, s, [] => n = 8 ∧ s = 0
  | n, s, p :: ps => (if s = 0 then n < p.ncoeffs else n = p.ncoeffs ∧ p.shift < s) ∧ Refining p.ncoeffs p.shift ps

/-- The condition asserted for progressive modes (enc_progressive_split.h:60-62). -/
def Asserted : Nat → Nat → List PassDef → Prop
  | _, _, [] => True
  | n, s, p :: ps => (n < p.ncoeffs ∨ (p.ncoeffs = n ∧ p.shift < s)) ∧ Asserted p.ncoeffs p.shift ps

/-- What the shifted passes add up to. -/
def recombine : List PassDef → List Int → Int
  | p :: ps, v :: vs => v * 2 ^ p.shift + recombine ps vs
  | _, _ => 0

end Jxl.AcTokens.Spec
