import Verif.Lemmas.ModularSteps
import Verif.Lemmas.FastGroup
import Verif.Props.ModularChannel
import Verif.Props.TreeStream
import Verif.Props.GroupHeader
/-! # What the decoder computes from the layout alone, and its channels -/
namespace Jxl.Modular.Whole
open Jxl Jxl.Modular Jxl.Modular.Squeeze Jxl.Modular.GroupHeader Jxl.MaTree
open Jxl.Props (SameShapes restored TreeOk TreeWf)

/-! ## Functions of the layout -/

theorem dims_cons {c : Channel} {cs ds : List Channel} (h : (c :: cs).map Channel.dims = ds.map Channel.dims) :
    ∃ d ds', ds = d :: ds' ∧ (d.w = c.w ∧ d.h = c.h ∧ d.hshift = c.hshift ∧ d.vshift = c.vshift) ∧ cs.map Channel.dims = ds'.map Channel.dims := by
  cases ds with
  | nil => cases h
  | cons d ds =>
    rw [List.map_cons, List.map_cons] at h
    injection h with h1 h2
    unfold Channel.dims at h1
    simp only [Prod.mk.injEq] at h1
    exact ⟨d, ds, rfl, ⟨h1.1.symm, h1.2.1.symm, h1.2.2.1.symm, h1.2.2.2.symm⟩, h2⟩

theorem dims_nil {ds : List Channel} (h : ([] : List Channel).map Channel.dims = ds.map Channel.dims) : ds = [] := by
  cases ds with
  | nil => rfl
  | cons d ds => cases h

theorem tooLarge_dims {c d : Channel} (h1 : d.w = c.w) (h2 : d.h = c.h) (nb mx i : Nat) : tooLarge nb mx i d = tooLarge nb mx i c := by
  unfold tooLarge; rw [h1, h2]

theorem numCoded_dims (nb mx : Nat) : ∀ (cs ds : List Channel) (i : Nat), cs.map Channel.dims = ds.map Channel.dims → numCoded nb mx i ds = numCoded nb mx i cs
  | [], ds, i, h => by rw [dims_nil h]
  | c :: cs, ds, i, h => by
    obtain ⟨d, ds, rfl, ⟨h1, h2, -⟩, h'⟩ := dims_cons h
    rw [numCoded, numCoded, tooLarge_dims h1 h2, h1, h2, numCoded_dims nb mx cs ds _ h']

theorem numPixels_dims (nb mx : Nat) : ∀ (cs ds : List Channel) (i : Nat), cs.map Channel.dims = ds.map Channel.dims → numPixels nb mx i ds = numPixels nb mx i cs
  | [], ds, i, h => by rw [dims_nil h]
  | c :: cs, ds, i, h => by
    obtain ⟨d, ds, rfl, ⟨h1, h2, -⟩, h'⟩ := dims_cons h
    rw [numPixels, numPixels, tooLarge_dims h1 h2, h1, h2, numPixels_dims nb mx cs ds _ h']

theorem decWidth_dims (nb mx : Nat) : ∀ (cs ds : List Channel) (i acc : Nat), cs.map Channel.dims = ds.map Channel.dims → decWidth nb mx i ds acc = decWidth nb mx i cs acc
  | [], ds, i, acc, h => by rw [dims_nil h]
  | c :: cs, ds, i, acc, h => by
    obtain ⟨d, ds, rfl, ⟨h1, h2, -⟩, h'⟩ := dims_cons h
    rw [decWidth, decWidth, tooLarge_dims h1 h2, h1, h2, decWidth_dims nb mx cs ds _ _ h', decWidth_dims nb mx cs ds _ _ h']

theorem allTiles_dims (g : Nat) (dc : Bool) : ∀ (cs ds : List Channel), cs.map Channel.dims = ds.map Channel.dims → allTiles g dc ds = allTiles g dc cs
  | [], ds, h => by rw [dims_nil h]
  | c :: cs, ds, h => by
    obtain ⟨d, ds, rfl, ⟨h1, h2, h3, h4⟩, h'⟩ := dims_cons h
    have e : tileOk g dc d = tileOk g dc c := by unfold tileOk; rw [h1, h2, h3, h4]
    rw [allTiles, allTiles, e, allTiles_dims g dc cs ds h']

theorem small_dims (g : Nat) : ∀ (cs ds : List Channel), cs.map Channel.dims = ds.map Channel.dims →
    (cs.dropWhile fun c => decide (c.w ≤ g ∧ c.h ≤ g)).map Channel.dims = (ds.dropWhile fun c => decide (c.w ≤ g ∧ c.h ≤ g)).map Channel.dims
  | [], ds, h => by rw [dims_nil h]
  | c :: cs, ds, h => by
    obtain ⟨d, ds, rfl, ⟨h1, h2, -⟩, h'⟩ := dims_cons h
    rw [List.dropWhile_cons, List.dropWhile_cons, h1, h2]
    split
    · exact small_dims g cs ds h'
    · exact h

theorem validDims_layout {a b : Image} (h : SameLayout a b) (g : Nat) : validDims g b = validDims g a := by
  have e : (a.channel.drop a.nbMeta).map Channel.dims = (b.channel.drop b.nbMeta).map Channel.dims := by
    rw [List.map_drop, List.map_drop, h.1, h.2]
  have e' := small_dims g _ _ e
  unfold validDims
  dsimp only
  rw [allTiles_dims g true _ _ e', allTiles_dims g false _ _ e']

theorem sameShapes_of {cs ds : List Channel} (h : cs.map Channel.dims = ds.map Channel.dims) (hd : ∀ d ∈ ds, d.Wf) : SameShapes cs ds := by
  induction cs generalizing ds with
  | nil => rw [dims_nil h]; trivial
  | cons c cs ih =>
    obtain ⟨d, ds, rfl, hs, h'⟩ := dims_cons h
    exact ⟨hs, hd d (by simp), ih h' fun e he => hd e (by simp [he])⟩

/-! ## All channels are in this stream -/

/-- No channel is left to other sections. -/
def AllHere (nb mx : Nat) (cs : List Channel) : Prop := ∀ (i : Nat) (c : Channel), cs[i]? = some c → nb ≤ i → c.w ≤ mx ∧ c.h ≤ mx

theorem restored_all (nb mx : Nat) : ∀ (cs ds : List Channel) (i : Nat), cs.length = ds.length →
    (∀ (j : Nat) (c : Channel), cs[j]? = some c → nb ≤ i + j → c.w ≤ mx ∧ c.h ≤ mx) → restored nb mx i cs ds = cs
  | [], [], i, _, _ => rfl
  | [], _ :: _, i, h, _ => by cases h
  | _ :: _, [], i, h, _ => by cases h
  | c :: cs, d :: ds, i, h, hA => by
    rw [restored, if_neg, restored_all nb mx cs ds (i + 1) (by simpa using h) fun j e he hj => hA (j + 1) e (by simpa using he) (by omega)]
    rintro ⟨h1, h2⟩
    have := hA 0 c rfl h1
    omega

/-! ## Depth of a tree -/

theorem depth_eq {tree : List Node} {i : Nat} {t : Dtree} (h : Represents tree i t) : ∀ fuel, t.height ≤ fuel → depthAt tree fuel i = t.height := by
  induction h with
  | leaf h1 h2 =>
    intro fuel _
    cases fuel with
    | zero => rfl
    | succ fuel => rw [depthAt, h1]; simp only [h2, if_true]; rfl
  | split h1 h2 _ _ ihl ihr =>
    intro fuel hf
    rw [Dtree.height] at hf
    cases fuel with
    | zero => omega
    | succ fuel =>
      rw [depthAt, h1]
      dsimp only
      rw [if_neg (by omega), ihl fuel (by omega), ihr fuel (by omega), Dtree.height]

theorem height_size (t : Dtree) : t.height < t.size := by
  induction t with
  | leaf _ => exact Nat.one_pos
  | split _ _ l r ihl ihr => rw [Dtree.height, Dtree.size]; omega

theorem size_shape {t u : Dtree} (h : t.shape = u.shape) : t.size = u.size := by
  have e : ∀ v : Dtree, v.shape.size = v.size := by
    intro v
    induction v with
    | leaf _ => rfl
    | split _ _ l r ihl ihr => rw [Dtree.shape, Dtree.size, Dtree.size, ihl, ihr]
  rw [← e t, h, e u]

theorem ticksOf_eq {tree : List Node} {t : Dtree} (h : Represents tree 0 t) (hs : t.size = tree.length) : ticksOf tree = ticks t := by
  unfold ticksOf ticks
  rw [depth_eq h tree.length (by have := height_size t; omega), hs]

/-! ## Samples -/

theorem samples_back {h : GroupHeader.Header} (hh : h.wp.Ok) {group mx : Nat} {img d : Image} (hw : img.Wf) (hd : d.Wf) (hs : SameLayout img d) (hA : AllHere img.nbMeta mx img.channel)
    {tree : List Node} {t : Dtree} (ht : TreeWf tree t) (hsize : t.size = tree.length) {p : Stream.Plan} (hp : Stream.PlanOk p) (ho : TreeOk tree p.map) {c : Stream.Code} (ha : Stream.Agrees p c)
    {infos : Stream.Infos} (hf : Stream.Fits p.stats infos c.tables)
    (hB : Props.NoBoundary tree ∨ (p.lz = none ∧ ∀ e ∈ img.channel, e.w = 0 ∨ e.h = 0 ∨ 8 < e.w)) (hwid : ∀ e ∈ img.channel, e.h = 0 → e.w = 0) {vals : List Tok}
    (he : encodeChannels (ticksOf tree) h.wp tree group false img.nbMeta mx [] img.channel = some (some vals)) {toks : List Ans.Token}
    (htok : Stream.Tokenised p 0 (encWidth img.nbMeta mx 0 img.channel 0) toks vals) :
    ∃ bits, Stream.writeTokens p infos 0 toks = some bits ∧ ∀ rest, readSamples h group mx d tree c (bits ++ rest) = .ok (img, rest) := by
  obtain ⟨bits, b1, b2⟩ := Stream.values_read hp ha hf htok
  refine ⟨bits, b1, fun rest => ?_⟩
  obtain ⟨s, -, s2⟩ := b2 rest
  have e : (vals.map fun v => 0 + v.1) = vals.map Prod.fst := List.map_congr_left (fun v _ => Nat.zero_add _)
  rw [e] at s2
  have hmult : encWidth img.nbMeta mx 0 img.channel 0 = decWidth d.nbMeta mx 0 d.channel 0 := by
    rw [Props.C20_width_partial _ _ _ _ _ hwid, ← hs.2, decWidth_dims _ _ _ _ _ _ hs.1]
  rw [hmult] at s2
  unfold Stream.decode at s2
  unfold readSamples
  cases hst : Stream.start c.tables (bits ++ rest) with
  | ub => rw [hst] at s2; cases s2
  | deep => rw [hst] at s2; cases s2
  | bad => rw [hst] at s2; cases s2
  | ok st0 =>
    rw [hst] at s2
    have s2 : Stream.readValues c (decWidth d.nbMeta mx 0 d.channel 0) (vals.map Prod.fst) st0 = .ok (vals.map Prod.snd, ⟨0x13 <<< 16, s, rest⟩) := s2
    have hdel := FastCode.delivers_values _ _ _ _ s2
    rw [Props.zip_halves, ha.map] at hdel
    rw [ticksOf_eq ht.rep hsize] at he ⊢
    have himg := Props.C20_image_partial ht ho hh group img.nbMeta mx (codeInfo c) _ img.channel d.channel [] _ _ vals (by simp) hw (sameShapes_of hs.1 hd)
      (hB.imp id fun hz => ⟨by show c.lz.isSome = false; rw [ha.lz, hz.1]; rfl, hz.2⟩) he hdel
    have hlen : img.channel.length = d.channel.length := by simpa using congrArg List.length hs.1
    rw [List.nil_append, List.length_nil, restored_all _ _ _ _ _ hlen (fun j e he hj => hA j e he (by omega)), ← ha.map, hs.2] at himg
    show (match decodeChannels (ticks t) (codeInfo c) h.wp tree c.map group (FastCode.entropyReader c (decWidth d.nbMeta mx 0 d.channel 0)) d.nbMeta mx []
        d.channel (.ok st0) with
      | none => Stream.Out.ub
      | some (chs, r) => r.bind fun st => if Stream.finalOk st then Stream.Out.ok (Image.mk chs d.nbMeta, st.bits) else .bad) = _
    rw [himg, ← hs.2]
    rfl

/-! ## Trees from a stream -/

theorem read_tree_ok {env : Stream.Env} (hE : Stream.EnvOk env) {limit : Nat} {s rest : List Bool} {out : List Node} (h : TreeStream.readTree env limit s = .ok (out, rest))
    (hsmall : out.length ≤ 131072) {cm : List Nat} (hcm : (out.length + 1) / 2 ≤ cm.length) (h256 : ∀ c ∈ cm, c < 256) :
    ∃ t, TreeWf out t ∧ t.size = out.length ∧ TreeOk out cm := by
  obtain ⟨-, -, hk⟩ := Props.C64_any_bits hE limit s
  obtain ⟨-, ⟨t, t1, t2, -, t4⟩, hn⟩ := hk out rest h
  refine ⟨t, ⟨fun i n hi => ?_, t1, t4⟩, t2, fun i n hi hp => ?_, h256, fun i n hi hp => ?_⟩
  · rcases hn i n hi with h | h
    · exact Or.inl h.1
    · exact Or.inr ⟨h.1, by omega, by omega, by omega, by omega⟩
  · rcases hn i n hi with h | h
    · omega
    · omega
  · rcases hn i n hi with h | h
    · obtain ⟨-, -, -, h1, h2, h3, -⟩ := h
      unfold minInt at h2
      unfold maxInt at h3
      exact ⟨by omega, by omega⟩
    · omega

end Jxl.Modular.Whole
