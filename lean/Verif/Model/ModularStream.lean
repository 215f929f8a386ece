import Verif.Model.GroupHeader
import Verif.Model.Palette
import Verif.Model.ModularChannel
import Verif.Model.TreeStream
/-!
# A modular image as a stream of its own (lib/jxl/modular/encoding/encoding.cc, enc_encoding.cc)

`ModularGenericCompress` and `ModularGenericDecompress` with everything they call: the header, the transforms, the tree, the code and the
samples. Truncated streams (`allow_truncated_group`) are not modelled; missing bits are an error.
-/
namespace Jxl.Modular.Whole
open Jxl Jxl.Modular Jxl.Modular.Squeeze Jxl.Modular.GroupHeader Jxl.MaTree

/-! ## Encoder -/

/-- What the encoder tries: the transform of `TransformForward` (enc_transform.cc:23-38) before it knows the number of colours. -/
inductive Request
  | rct (beginC type : Nat)
  | palette (beginC numC limit : Nat)
  | squeeze (params : List Params)

/-- The width of the first channel. -/
def paletteWidth (img : Image) : Nat :=
  match img.channel with
  | [] => 0
  | c :: _ => c.w

/-- `TransformForward` (enc_transform.cc:23-38) and the transform that is stored; palettes without loss. The outer `none` is undefined
behaviour, the inner one a refusal. -/
def fwdTr (srt : List (List Px) → List (List Px)) (depth : Nat) (img : Image) : Request → Option (Option (Tr × Image))
  | .rct b t => some ((Rct.fwd img b t).map fun i => (.rct b t, i))
  | .palette b n limit => (Palette.fwdPalette srt img b (b + n - 1) limit depth).map (Option.map fun i => (.palette b n (paletteWidth i) 0 0, i))
  | .squeeze ps => some ((fwdSqueeze ps img).map fun chs => (.squeeze ps, ⟨chs, img.nbMeta⟩))

/-- Transforms one after the other (`do_transform`, enc_modular.cc:237-244); those that are refused are not in the list. -/
def fwdAllTr (srt : List (List Px) → List (List Px)) (depth : Nat) : List Request → Image → Option (Option (List Tr × Image))
  | [], img => some (some ([], img))
  | r :: rs, img =>
    (fwdTr srt depth img r).bind fun o =>
      match o with
      | none => some none
      | some (t, img) => (fwdAllTr srt depth rs img).map (Option.map fun p => (t :: p.1, p.2))

/-- `ModularGenericCompress` (enc_encoding.cc:713-808) from the transformed image on: header, tree, code, tokens. What the entropy coder
chooses is given. -/
def writeImage (mem : Nat → List Alias.Entry) (h : GroupHeader.Header) (treeLayers : List Stream.Layer) (treePlan : Stream.Plan) (treeToks : List Ans.Token)
    (layers : List Stream.Layer) (plan : Stream.Plan) (toks : List Ans.Token) : Option (List Bool) := do
  let a ← GroupHeader.write h
  let b ← TreeStream.writeTree mem treeLayers treePlan treeToks
  let (c, i) ← Stream.writeHeader mem layers plan
  let d ← Stream.writeTokens plan i 0 toks
  some (a ++ (b ++ (c ++ d)))

/-! ## Decoder -/

/-- A channel of the given shape with any contents. -/
def blank (junk : Nat → Nat → Px) (g : Geom) : Channel :=
  { w := g.w, h := g.h, hshift := g.hshift, vshift := g.vshift, rows := (List.range g.h).map fun y => (List.range g.w).map fun x => junk y x }

/-- `Transform::MetaApply` (transform.cc:109-145): the transform to undo later and the channels to decode, here with any contents after a
squeeze. -/
def metaTr (junk : Nat → Nat → Nat → Px) (img : Image) : Tr → Option (Tr × Image)
  | .rct b t => if checkEqualChannels img b (b + 2) then some (.rct b t, img) else none
  | .palette b n c d p => (Palette.metaPalette img b (b + n - 1) c d).map fun i => (.palette b n c d p, i)
  | .squeeze ps => (metaSqueeze ps img.nbMeta (img.channel.map geom)).map fun r => (.squeeze r.1, ⟨r.2.2.mapIdx fun i g => blank (junk i) g, r.2.1⟩)

/-- The loop over the transforms (encoding.cc:579-582). -/
def metaAllTr (junk : Nat → Nat → Nat → Px) : List Tr → Image → Option (List Tr × Image)
  | [], img => some ([], img)
  | t :: ts, img => (metaTr junk img t).bind fun p => (metaAllTr junk ts p.2).map fun q => (p.1 :: q.1, q.2)

/-- Choices of the build and the parts of `InvPalette` that do not matter without deltas: lanes of vectors, the squeeze kernels, the
predictors, the bit depth of the image. -/
structure Build where
  lanes : Nat
  kernels : Kernels
  guess : Nat → List (List Px) → List Px → Int
  depth : Nat

/-- `Transform::Inverse` (transform.cc:91-107). -/
def invTr (u : Build) (img : Image) : Tr → Stream.Out Image
  | .rct b t =>
    match Rct.inv u.lanes img b t with
    | none => .bad
    | some i => .ok i
  | .palette b _ _ d p =>
    match Palette.invPalette u.guess (p == 0) img b d u.depth with
    | none => .ub
    | some none => .bad
    | some (some i) => .ok i
  | .squeeze ps =>
    match invAll u.kernels ps img with
    | none => .bad
    | some i => .ok i

/-- `Image::undo_transforms` (modular_image.cc:32-46): the last one first. -/
def undoAll (u : Build) : List Tr → Image → Stream.Out Image
  | [], img => .ok img
  | t :: ts, img => (undoAll u ts img).bind fun i => invTr u i t

/-- One channel of `ValidateChannelDimensions` (encoding.cc:540-548); shifting by a negative number or by 64 is undefined. -/
def tileOk (groupDim : Nat) (dc : Bool) (c : Channel) : Option Bool :=
  if c.w = 0 ∨ c.h = 0 then some true
  else if decide (3 ≤ min c.hshift c.vshift) ≠ dc then some true
  else if max c.hshift c.vshift < 0 ∨ 64 ≤ max c.hshift c.vshift then none
  else some ((groupDim * (if dc then 8 else 1) % 2 ^ 64) >>> (max c.hshift c.vshift).toNat != 0)

/-- Those channels that must be valid. -/
def allTiles (groupDim : Nat) (dc : Bool) : List Channel → Option Bool
  | [] => some true
  | c :: cs => (tileOk groupDim dc c).bind fun b => if b then allTiles groupDim dc cs else some false

/-- `ValidateChannelDimensions` (encoding.cc:530-552). -/
def validDims (groupDim : Nat) (img : Image) : Option Bool :=
  let rest := (img.channel.drop img.nbMeta).dropWhile fun c => decide (c.w ≤ groupDim ∧ c.h ≤ groupDim)
  (allTiles groupDim true rest).bind fun b => if b then allTiles groupDim false rest else some false

/-- `num_chans` (encoding.cc:590-606). -/
def numCoded (nbMeta maxSize : Nat) : Nat → List Channel → Nat
  | _, [] => 0
  | i, c :: cs =>
    if tooLarge nbMeta maxSize i c then 0
    else (if c.w = 0 ∨ c.h = 0 then 0 else 1) + numCoded nbMeta maxSize (i + 1) cs

/-- The pixels of the coded channels (encoding.cc:625-635). -/
def numPixels (nbMeta maxSize : Nat) : Nat → List Channel → Nat
  | _, [] => 0
  | i, c :: cs => if tooLarge nbMeta maxSize i c then 0 else c.w * c.h + numPixels nbMeta maxSize (i + 1) cs

/-- `max_tree_size` (encoding.cc:624-636). -/
def treeLimit (img : Image) (maxSize : Nat) : Nat := min (2 ^ 20) (1024 + numPixels img.nbMeta maxSize 0 img.channel)

/-- `IsHuffRleOnly` (dec_ans.h:275-284) and whether LZ77 is used; the last context is the one of distances. -/
def codeInfo (c : Stream.Code) : CodeInfo :=
  let h := c.map.getLastD 0
  ⟨c.lz.isSome, c.lz.isSome &&
    match c.tables with
    | .ans _ _ => false
    | .huff ts => ((ts.getD h []).take 8).all (fun e => e.bits == 0 && e.value == 1) && decide (2 ^ (c.config.getD h ⟨0, 0, 0⟩).splitExp ≤ 1)⟩

/-- The depth of the tree below a node. -/
def depthAt (tree : List Node) : Nat → Nat → Nat
  | 0, _ => 0
  | fuel + 1, i =>
    match tree[i]? with
    | none => 0
    | some n => if n.property = -1 then 0 else 1 + max (depthAt tree fuel n.lchild) (depthAt tree fuel n.rchild)

/-- The steps the loops over the tree may take in the model, from the size and the depth of the tree. -/
def ticksOf (tree : List Node) : Ticks := { filter := 2 * tree.length, walk := depthAt tree tree.length 0 + 1, lut := tree.length + 1 }

/-- The samples and the final check (encoding.cc:648-684). -/
def readSamples (h : GroupHeader.Header) (group maxSize : Nat) (img : Image) (tree : List Node) (c : Stream.Code) (s : List Bool) :
    Stream.Out (Image × List Bool) :=
  (Stream.start c.tables s).bind fun st =>
    match decodeChannels (ticksOf tree) (codeInfo c) h.wp tree c.map group (FastCode.entropyReader c (decWidth img.nbMeta maxSize 0 img.channel 0)) img.nbMeta maxSize []
        img.channel (.ok st) with
    | none => .ub
    | some (chs, r) => r.bind fun st => if Stream.finalOk st then .ok (⟨chs, img.nbMeta⟩, st.bits) else .bad

/-- The tree and its code, from the stream or those of the frame (encoding.cc:616-646). -/
def readCode (env : Stream.Env) (glob : Option (List Node × Stream.Code)) (useGlobal : Bool) (limit : Nat) (s : List Bool) :
    Stream.Out (List Node × Stream.Code × List Bool) :=
  if useGlobal then
    match glob with
    | none => .bad
    | some (t, c) => if t = [] then .bad else .ok (t, c, s)
  else (TreeStream.readTree env limit s).bind fun p =>
    (Stream.decodeHistograms env ((p.1.length + 1) / 2) p.2).bind fun q => .ok (p.1, q.1, q.2)

/-- `ModularDecode` (encoding.cc:554-684) after the transforms were announced. -/
def readChannels (env : Stream.Env) (glob : Option (List Node × Stream.Code)) (h : GroupHeader.Header) (group groupDim maxSize : Nat)
    (img : Image) (s : List Bool) : Stream.Out (Image × List Bool) :=
  match validDims groupDim img with
  | none => .ub
  | some false => .bad
  | some true =>
    if numCoded img.nbMeta maxSize 0 img.channel = 0 then .ok (img, s)
    else (readCode env glob h.globalTree (treeLimit img maxSize) s).bind fun p => readSamples h group maxSize img p.1 p.2.1 p.2.2

/-- `ModularDecode` (encoding.cc:554-684): the header, the transforms to undo, the channels as they are coded; without channels nothing is
read. -/
def readCoded (env : Stream.Env) (junk : Nat → Nat → Nat → Px) (glob : Option (List Node × Stream.Code)) (group groupDim maxSize : Nat)
    (img : Image) (s : List Bool) : Stream.Out (GroupHeader.Header × List Tr × Image × List Bool) :=
  if img.channel = [] then .ok (⟨false, Wp.defaultHeader, []⟩, [], img, s)
  else
    match GroupHeader.read s with
    | none => .bad
    | some (h, s) =>
      match metaAllTr junk h.transforms img with
      | none => .bad
      | some (ts, img1) => (readChannels env glob h group groupDim maxSize img1 s).bind fun p => .ok (h, ts, p.1, p.2)

/-- `ModularGenericDecompress` (encoding.cc:686-731) with `undo_transforms`; `img` has the channels that are wanted, with any contents. -/
def readImage (env : Stream.Env) (u : Build) (junk : Nat → Nat → Nat → Px) (glob : Option (List Node × Stream.Code))
    (group groupDim maxSize : Nat) (img : Image) (s : List Bool) : Stream.Out (Image × List Bool) :=
  (readCoded env junk glob group groupDim maxSize img s).bind fun p =>
    (undoAll u p.2.1 p.2.2.1).bind fun i =>
      if i.channel.map (fun c => (c.w, c.h)) = img.channel.map (fun c => (c.w, c.h)) then .ok (i, p.2.2.2) else .bad

end Jxl.Modular.Whole
