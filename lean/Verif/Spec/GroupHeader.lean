import Verif.Model.GroupHeader
/-! Which headers can be stored, in numbers (independent of the coders). -/
namespace Jxl.Modular.GroupHeader
open Jxl Jxl.Modular Jxl.Modular.Squeeze

/-- One squeeze step that can be stored. -/
def SqueezeOk (p : Params) : Prop := p.beginC ≤ 9287 ∧ 1 ≤ p.numC ∧ p.numC ≤ 19

/-- A transform that can be stored. -/
def TrOk : Tr → Prop
  | .rct b t => b ≤ 9287 ∧ t ≤ 41
  | .palette b n c d p => b ≤ 9287 ∧ (1 ≤ n ∧ n ≤ 8192) ∧ c ≤ 70911 ∧ d ≤ 66816 ∧ p ≤ 13
  | .squeeze ps => ps.length ≤ 296 ∧ ∀ p ∈ ps, SqueezeOk p

/-- A header that can be stored. -/
def Ok (h : Header) : Prop := h.wp.Ok ∧ h.transforms.length ≤ 273 ∧ ∀ t ∈ h.transforms, TrOk t

end Jxl.Modular.GroupHeader
