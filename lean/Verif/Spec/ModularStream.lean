import Verif.Model.ModularStream
import Verif.Spec.Palette
import Verif.Spec.GroupHeader
/-! # Requests the encoder may make of a modular image -/
namespace Jxl.Modular.Whole
open Jxl Jxl.Modular Jxl.Modular.Squeeze Jxl.Modular.GroupHeader

/-- A request within the format: for palettes, one channel or at most 24 bits; for squeezes, the decoder accepts them, they do not touch
meta channels, and no other channel has a negative shift. -/
def RequestOk (depth : Nat) (img : Image) : Request → Prop
  | .rct _ t => t < 42
  | .palette _ n limit => 1 ≤ n ∧ limit ≤ 2 ^ 30 ∧ (n = 1 ∨ depth ≤ 24)
  | .squeeze ps => (∀ c ∈ img.channel.drop img.nbMeta, 0 ≤ c.hshift ∧ 0 ≤ c.vshift) ∧
      ∃ r, metaSqueeze ps img.nbMeta (img.channel.map geom) = some r ∧ ∀ p ∈ r.1, img.nbMeta ≤ p.beginC

/-- The same for a list, each for the image it is applied to. -/
def RequestsOk (srt : List (List Px) → List (List Px)) (depth : Nat) : List Request → Image → Prop
  | [], _ => True
  | r :: rs, img => RequestOk depth img r ∧ ∀ t img', fwdTr srt depth img r = some (some (t, img')) → RequestsOk srt depth rs img'

end Jxl.Modular.Whole
