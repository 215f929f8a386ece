import Verif.Model.BlockCtx
import Verif.Spec.EntropyStream
import Verif.Spec.AcTokens
/-! What maps of block contexts are, independently of how they are coded and looked up. -/
namespace Jxl.BlockCtx

/-- Limits of the format: at most 15 thresholds each; DC thresholds of 32 bits, those of the quantisation from 1 to 300; at most 64 combinations of
intervals of DC values and quantisation; an entry for each of them, each of 13 orders and each channel; at most 16 contexts. -/
structure Fits (m : Ctx) : Prop where
  few : m.x.length < 16 ∧ m.y.length < 16 ∧ m.b.length < 16 ∧ m.map.qfThresholds.length < 16
  dc : ∀ t ∈ m.x ++ m.y ++ m.b, -2 ^ 31 ≤ t ∧ t < 2 ^ 31
  qf : ∀ t ∈ m.map.qfThresholds, 1 ≤ t ∧ t ≤ 300
  dcs : m.map.numDcCtxs = (m.x.length + 1) * (m.y.length + 1) * (m.b.length + 1)
  combinations : m.map.numDcCtxs * (m.map.qfThresholds.length + 1) ≤ 64
  size : m.map.ctxMap.length = 39 * (m.map.numDcCtxs * (m.map.qfThresholds.length + 1))
  entries : ∀ c ∈ m.map.ctxMap, c < m.map.numCtxs
  used : ∀ c < m.map.numCtxs, c ∈ m.map.ctxMap
  contexts : m.map.numCtxs ≤ 16

/-- Sound choices for the stored map: if it is in entropy-coded form, there is a sound stream of its symbols. -/
def Choice (layers : List Stream.Layer) (useMtf simple : Bool) (m : Ctx) : Prop :=
  (m.map.numCtxs = 1 ∨ Lehmer.ceilLog2 m.map.numCtxs < 4 ∧ simple = true) ∨
    ∃ l ls syms, layers = l :: ls ∧ Stream.Sound ls l.plan ∧ l.plan.map.length = (if l.plan.lz.isSome then 2 else 1) ∧
      (if useMtf then CtxMap.mtfTransform m.map.ctxMap else some m.map.ctxMap) = some syms ∧
      Stream.Tokenised l.plan 0 0 l.tokens (syms.map fun y => (0, y))

/-- The interval of a value among thresholds: how many of them it exceeds. -/
def interval (ts : List Int) (v : Int) : Nat := ts.countP (· < v)

end Jxl.BlockCtx
