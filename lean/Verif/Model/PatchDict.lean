import Verif.Model.TreeStream
/-!
# The dictionary of patches (lib/jxl/dec_patch_dictionary.cc, lib/jxl/enc_patch_dictionary.cc)

The symbol reader is a parameter, as for decision trees; `readDict` puts the entropy decoder there.  `size_t` and `ptrdiff_t` have 64 bits and all numbers
read have 32, so nothing here wraps around and plain numbers are used.  `none` is a refusal of the decoder; in the encoder it is an access outside an array
or the failed check that there is a patch.
-/
namespace Jxl.Patches
open Jxl.MaTree (Reader)

/-- `PatchBlending` (dec_patch_dictionary.h:85-89). -/
structure Blend where
  mode : Nat
  alpha : Nat
  clamp : Bool
deriving DecidableEq

/-- `PatchReferencePosition` (dec_patch_dictionary.h:92-94). -/
structure RefPos where
  ref : Nat
  x0 : Nat
  y0 : Nat
  xs : Nat
  ys : Nat
deriving DecidableEq

/-- `PatchPosition` (dec_patch_dictionary.h:96-100). -/
structure Pos where
  x : Nat
  y : Nat
  idx : Nat
deriving DecidableEq

/-- The members `positions_`, `ref_positions_`, `blendings_` and `blendings_stride_` (dec_patch_dictionary.h:139-142). -/
structure Dict where
  positions : List Pos
  refs : List RefPos
  blends : List Blend
  stride : Nat
deriving DecidableEq

/-- What is looked up in `reference_frames_`: the size of a saved frame and whether it was saved before the colour transform. -/
structure Frame where
  w : Nat
  h : Nat
  xyb : Bool

/-- `UsesAlpha` (dec_patch_dictionary.h:72-77). -/
def usesAlpha (m : Nat) : Bool := m == 4 || m == 5 || m == 6 || m == 7

/-- `UsesClamp` (dec_patch_dictionary.h:78-80). -/
def usesClamp (m : Nat) : Bool := usesAlpha m || m == 3

/-- `max_ref_patches` (dec_patch_dictionary.cc:54). -/
def maxRefs (xs ys : Nat) : Nat := 1024 + xs * ys / 4

/-- The source of some patches (dec_patch_dictionary.cc:65-86). -/
def readRef {ρ : Type} (R : Reader ρ) (frames : Nat → Frame) (r : ρ) : Option (RefPos × ρ) :=
  let a := R.read r 1
  if a.1 ≥ 4 then none
  else if (frames a.1).w = 0 then none
  else if !(frames a.1).xyb then none
  else
    let b := R.read a.2 3
    let c := R.read b.2 3
    let d := R.read c.2 2
    let e := R.read d.2 2
    if b.1 + (d.1 + 1) > (frames a.1).w then none
    else if c.1 + (e.1 + 1) > (frames a.1).h then none
    else some (⟨a.1, b.1, c.1, d.1 + 1, e.1 + 1⟩, e.2)

/-- A coordinate relative to the last one (dec_patch_dictionary.cc:114-120 and 121-127). -/
def moved (x v : Nat) : Option Nat :=
  let d := MaTree.unpack v
  if d < 0 ∧ (-d).toNat > x then none else some ((x : Int) + d).toNat

/-- The place of a patch (dec_patch_dictionary.cc:109-128); `prev` is the patch before it with the same source. -/
def readPlace {ρ : Type} (R : Reader ρ) (prev : Option Pos) (r : ρ) : Option ((Nat × Nat) × ρ) :=
  match prev with
  | none =>
    let a := R.read r 4
    let b := R.read a.2 4
    some ((a.1, b.1), b.2)
  | some p =>
    let a := R.read r 6
    (moved p.x a.1).bind fun x =>
      let b := R.read a.2 6
      (moved p.y b.1).bind fun y => some ((x, y), b.2)

/-- The blending of colour (`first`) or of one extra channel, and whether it involves extra channels (dec_patch_dictionary.cc:140-172). -/
def readBlend {ρ : Type} (R : Reader ρ) (nec : Nat) (first : Bool) (r : ρ) : Option ((Blend × Bool) × ρ) :=
  let m := R.read r 5
  if m.1 ≥ 8 then none
  else
    let a := if usesAlpha m.1 && decide (nec > 1) then R.read m.2 8 else (0, m.2)
    if usesAlpha m.1 && decide (nec > 1) && decide (a.1 ≥ nec) then none
    else
      let c := if usesClamp m.1 then R.read a.2 9 else (0, a.2)
      some ((⟨m.1, a.1, c.1 != 0⟩, usesAlpha m.1 || (m.1 != 0 && !first)), c.2)

/-- The remaining `k` blendings of a patch (dec_patch_dictionary.cc:139-173). -/
def readBlends {ρ : Type} (R : Reader ρ) (nec : Nat) : Nat → Bool → ρ → Option ((List Blend × Bool) × ρ)
  | 0, _, r => some (([], false), r)
  | k + 1, first, r =>
    (readBlend R nec first r).bind fun a => (readBlends R nec k false a.2).bind fun b => some ((a.1.1 :: b.1.1, a.1.2 || b.1.2), b.2)

/-- The remaining `k` patches with one source (dec_patch_dictionary.cc:106-175). -/
def readPatches {ρ : Type} (R : Reader ρ) (xs ys nec : Nat) (ref : RefPos) (idx : Nat) : Nat → Option Pos → ρ → Option ((List Pos × List Blend × Bool) × ρ)
  | 0, _, r => some (([], [], false), r)
  | k + 1, prev, r =>
    (readPlace R prev r).bind fun a =>
      if a.1.1 + ref.xs > xs then none
      else if a.1.2 + ref.ys > ys then none
      else
        (readBlends R nec (nec + 1) true a.2).bind fun b =>
          (readPatches R xs ys nec ref idx k (some ⟨a.1.1, a.1.2, idx⟩) b.2).bind fun c =>
            some ((⟨a.1.1, a.1.2, idx⟩ :: c.1.1, b.1.1 ++ c.1.2.1, b.1.2 || c.1.2.2), c.2)

/-- `next_size` after some patches (dec_patch_dictionary.cc:97-100). -/
def grow (maxPatches total next : Nat) : Nat := if next < total then min (next * 2) maxPatches else next

/-- The remaining `n` sources with their patches (dec_patch_dictionary.cc:64-177); `idx` is `ref_positions_.size()`. -/
def readSources {ρ : Type} (R : Reader ρ) (frames : Nat → Frame) (xs ys nec : Nat) : Nat → Nat → Nat → Nat → ρ → Option ((List Pos × List RefPos × List Blend × Bool) × ρ)
  | 0, _, _, _, r => some (([], [], [], false), r)
  | n + 1, idx, total, next, r =>
    (readRef R frames r).bind fun a =>
      let k := R.read a.2 7
      if k.1 > maxRefs xs ys * 4 then none
      else if total + (k.1 + 1) > maxRefs xs ys * 4 then none
      else if grow (maxRefs xs ys * 4) (total + (k.1 + 1)) next * (nec + 1) > maxRefs xs ys * 4 * 4 then none
      else
        (readPatches R xs ys nec a.1 idx (k.1 + 1) none k.2).bind fun b =>
          (readSources R frames xs ys nec n (idx + 1) (total + (k.1 + 1)) (grow (maxRefs xs ys * 4) (total + (k.1 + 1)) next) b.2).bind fun c =>
            some ((b.1.1 ++ c.1.1, a.1 :: c.1.2.1, b.1.2.1 ++ c.1.2.2.1, b.1.2.2 || c.1.2.2.2), c.2)

/-- `PatchDictionary::Decode` (dec_patch_dictionary.cc:31-180) into an object that held `old`: only `positions_` is cleared.  The flag is what is added to
`*uses_extra_channels`. -/
def decode {ρ : Type} (R : Reader ρ) (frames : Nat → Frame) (xs ys nec : Nat) (old : Dict) (r : ρ) : Option ((Dict × Bool) × ρ) :=
  let n := R.read r 0
  if n.1 > maxRefs xs ys then none
  else
    (readSources R frames xs ys nec n.1 old.refs.length 0 1 n.2).bind fun a =>
      some ((⟨a.1.1, old.refs ++ a.1.2.1, old.blends ++ a.1.2.2.1, nec + 1⟩, a.1.2.2.2), a.2)

/-- `GetReferences` (dec_patch_dictionary.cc:180-186). -/
def references (d : Dict) : Nat := d.refs.foldl (fun m r => m ||| 2 ^ r.ref) 0

/-- An object just constructed. -/
def fresh : Dict := ⟨[], [], [], 0⟩

/-- `Decode` on bits, with the position afterwards.  Bits missing at the end make the whole fail here. -/
def readDict (env : Stream.Env) (frames : Nat → Frame) (xs ys nec : Nat) (old : Dict) (s : List Bool) : Stream.Out ((Dict × Bool) × List Bool) :=
  (Stream.decodeHistograms env 10 s).bind fun (c, s) =>
    (Stream.start c.tables s).bind fun st =>
      match decode (TreeStream.contextReader c 0) frames xs ys nec old (.ok st) with
      | none => .bad
      | some (d, r) => r.bind fun st => if Stream.finalOk st then .ok (d, st.bits) else .bad

/-! ### The encoder -/

/-- The patches in runs with the same source, as both loops of the encoder walk them (enc_patch_dictionary.cc:66-73 and 79-86). -/
def runs : List Pos → List (List Pos)
  | [] => []
  | p :: ps =>
    match runs ps with
    | (q :: g) :: gs => if p.idx = q.idx then (p :: q :: g) :: gs else [p] :: (q :: g) :: gs
    | gs => [p] :: gs

/-- `static_cast<uint32_t>` (enc_patch_dictionary.cc:62-64). -/
def u32 (n : Nat) : Nat := n % 2 ^ 32

/-- The difference of two coordinates (enc_patch_dictionary.cc:101-104). -/
def delta (x y : Nat) : Nat := (packSigned (BitVec.ofInt 32 ((x : Int) - y))).toNat

/-- The tokens of a place (enc_patch_dictionary.cc:97-105). -/
def placeTokens (prev : Option Pos) (p : Pos) : List (Nat × Nat) :=
  match prev with
  | none => [(4, u32 p.x), (4, u32 p.y)]
  | some q => [(6, delta p.x q.x), (6, delta p.y q.y)]

/-- The tokens of a blending (enc_patch_dictionary.cc:107-114). -/
def blendTokens (choose : Bool) (b : Blend) : List (Nat × Nat) :=
  [(5, u32 b.mode)] ++ ((if usesAlpha b.mode && choose then [(8, u32 b.alpha)] else []) ++ (if usesClamp b.mode then [(9, if b.clamp then 1 else 0)] else []))

/-- The patches of a run (enc_patch_dictionary.cc:95-116), and the blendings left. -/
def runTokens (stride : Nat) : Option Pos → List Pos → List Blend → Option (List (Nat × Nat) × List Blend)
  | _, [], bs => some ([], bs)
  | prev, p :: ps, bs =>
    if bs.length < stride then none
    else
      (runTokens stride (some p) ps (bs.drop stride)).bind fun t =>
        some (placeTokens prev p ++ ((bs.take stride).flatMap (blendTokens (decide (stride > 2))) ++ t.1), t.2)

/-- The tokens of a source (enc_patch_dictionary.cc:89-94). -/
def refTokens (r : RefPos) (num : Nat) : List (Nat × Nat) :=
  [(1, u32 r.ref), (3, u32 r.x0), (3, u32 r.y0), (2, u32 (r.xs + (2 ^ 64 - 1))), (2, u32 (r.ys + (2 ^ 64 - 1))), (7, u32 (num - 1))]

/-- All runs (enc_patch_dictionary.cc:79-117). -/
def allTokens (refs : List RefPos) (stride : Nat) : List (List Pos) → List Blend → Option (List (Nat × Nat))
  | [], _ => some []
  | g :: gs, bs =>
    (g.head?).bind fun p => (refs[p.idx]?).bind fun r => (runTokens stride none g bs).bind fun t =>
      (allTokens refs stride gs t.2).bind fun u => some (refTokens r g.length ++ (t.1 ++ u))

/-- The tokens of `PatchDictionaryEncoder::Encode` (enc_patch_dictionary.cc:55-117). -/
def tokens (d : Dict) : Option (List (Nat × Nat)) :=
  if d.positions = [] then none
  else (allTokens d.refs d.stride (runs d.positions) d.blends).bind fun t => some ((0, u32 (runs d.positions).length) :: t)

/-- The stream of tokens (enc_patch_dictionary.cc:119-126); `toks` is what LZ77 made of them. -/
def writeDict (mem : Nat → List Alias.Entry) (layers : List Stream.Layer) (p : Stream.Plan) (toks : List Ans.Token) : Option (List Bool) :=
  (Stream.writeHeader mem layers p).bind fun h => (Stream.writeTokens p h.2 0 toks).bind fun t => some (h.1 ++ t)

end Jxl.Patches
