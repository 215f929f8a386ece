import Verif.Model.ModularImage
/-! # Layout of modular images -/
namespace Jxl.Modular

/-- Sizes and shifts of a channel. -/
def Channel.dims (c : Channel) : Nat × Nat × Int × Int := (c.w, c.h, c.hshift, c.vshift)

/-- Two images with the same channels, apart from the samples. -/
def SameLayout (a b : Image) : Prop := a.channel.map Channel.dims = b.channel.map Channel.dims ∧ a.nbMeta = b.nbMeta

/-- All planes have the announced sizes. -/
def Image.Wf (img : Image) : Prop := ∀ c ∈ img.channel, c.Wf

end Jxl.Modular
