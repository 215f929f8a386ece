import Verif.Spec.MaTree
import Verif.Model.PackSigned
/-!
# Model of the decision tree decoder (lib/jxl/modular/encoding/dec_ma.cc)

The symbol reader (`ANSSymbolReader::ReadHybridUint` with its bit reader) is a parameter: any
stateful source of numbers.  In results of type `Option (Option α)` the outer `none` is undefined
behaviour or a loop that does not end, the inner `none` a refusal (`JXL_FAILURE`).
-/
namespace Jxl.MaTree

/-- `PropertyDecisionNode` (dec_ma.h:22-59). -/
structure Node where
  property : Int
  splitval : Int
  lchild : Nat
  rchild : Nat
  predictor : Nat
  offset : Int
  multiplier : Nat
deriving DecidableEq, Repr

/-- The symbol reader: `read r ctx` is `ReadHybridUint(ctx, ..)`, `ok r` is `AllReadsWithinBounds`. -/
structure Reader (ρ : Type) where
  read : ρ → Nat → Nat × ρ
  ok : ρ → Bool

/-- `MATreeContext` (ma_common.h:12-21). -/
def kSplitValContext : Nat := 0
def kPropertyContext : Nat := 1
def kPredictorContext : Nat := 2
def kOffsetContext : Nat := 3
def kMultiplierLogContext : Nat := 4
def kMultiplierBitsContext : Nat := 5

/-- `kNumModularPredictors` (modular/options.h:44-45). -/
def kNumModularPredictors : Nat := 14

/-- `kMaxTreeSize` (ma_common.h:23). -/
def kMaxTreeSize : Nat := 2 ^ 22

/-- `UnpackSigned` of a symbol, as a number. -/
def unpack (v : Nat) : Int := (unpackSigned (BitVec.ofNat 64 v)).toInt

/-- Leaf branch of the decoding loop (dec_ma.cc:124-150). -/
def readLeaf {ρ : Type} (R : Reader ρ) (r : ρ) (leafId : Nat) : Option (Node × ρ) :=
  let predictor := R.read r kPredictorContext
  if predictor.1 ≥ kNumModularPredictors then none
  else
    let off := R.read predictor.2 kOffsetContext
    let mulLog := R.read off.2 kMultiplierLogContext
    if mulLog.1 ≥ 31 then none
    else
      let mulBits := R.read mulLog.2 kMultiplierBitsContext
      if mulBits.1 ≥ 2 ^ (31 - mulLog.1) - 1 then none
      else some ({ property := -1, splitval := 0, lchild := leafId, rchild := 0, predictor := predictor.1, offset := unpack off.1, multiplier := (mulBits.1 + 1) * 2 ^ mulLog.1 }, mulBits.2)

/-- The decoding loop (dec_ma.cc:112-158).  Every iteration adds a node and the size is checked,
so `fuel = limit + 2` is enough (proved); running out of it is reported as not ending. -/
def decodeLoop {ρ : Type} (R : Reader ρ) (limit : Nat) : Nat → ρ → Nat → Nat → List Node → Option (Option (List Node × ρ))
  | 0, _, _, _, _ => none
  | fuel + 1, r, leafId, toDecode, tree =>
    if toDecode = 0 then some (some (tree, r))
    else if !R.ok r then some none
    else if tree.length > limit then some none
    else
      let prop1 := R.read r kPropertyContext
      if prop1.1 > 256 then some none
      else if prop1.1 = 0 then
        match readLeaf R prop1.2 leafId with
        | none => some none
        | some (n, r2) => decodeLoop R limit fuel r2 (leafId + 1) (toDecode - 1) (tree ++ [n])
      else
        let sv := R.read prop1.2 kSplitValContext
        let n : Node := { property := (prop1.1 : Int) - 1, splitval := unpack sv.1, lchild := tree.length + (toDecode - 1) + 1, rchild := tree.length + (toDecode - 1) + 2, predictor := 0, offset := 0, multiplier := 1 }
        decodeLoop R limit fuel sv.2 leafId (toDecode - 1 + 2) (tree ++ [n])

/-! ### ValidateTree -/

/-- `NextAction` (dec_ma.cc:30). -/
inductive Action where
  | checkAndGoLeft | goRight | pop
deriving DecidableEq, Repr

/-- `WorkItem` (dec_ma.cc:32-37). -/
structure Item where
  idx : Nat
  origL : Int
  origU : Int
  act : Action

/-- `stack` (top first) and `property_ranges`. -/
structure VSt where
  stack : List Item
  ranges : List (Int × Int)

inductive VOut where
  | ub
  | fail
  | ok
  | next (s : VSt)

/-- `kHeightLimit` (dec_ma.cc:57). -/
def kHeightLimit : Nat := 2048

/-- The `CHECK_AND_GO_LEFT` case (dec_ma.cc:68-89). -/
def vcheck (node : Node) (item : Item) (rest : List Item) (ranges : List (Int × Int)) : VOut :=
  if node.property = -1 then .next { stack := rest, ranges := ranges }
  else if node.property < 0 then .ub
  else
    match ranges[node.property.toNat]? with
    | none => .ub
    | some (l, u) =>
      if l > node.splitval || u ≤ node.splitval then .fail
      else if node.splitval + 1 > maxInt then .ub
      else .next { stack := { idx := node.lchild, origL := 0, origU := 0, act := .checkAndGoLeft } :: { item with origL := l, origU := u, act := .goRight } :: rest, ranges := ranges.set node.property.toNat (node.splitval + 1, u) }

/-- The `GO_RIGHT` case (dec_ma.cc:91-98). -/
def vright (node : Node) (item : Item) (rest : List Item) (ranges : List (Int × Int)) : VOut :=
  if node.property < 0 ∨ ranges.length ≤ node.property.toNat then .ub
  else .next { stack := { idx := node.rchild, origL := 0, origU := 0, act := .checkAndGoLeft } :: { item with act := .pop } :: rest, ranges := ranges.set node.property.toNat (item.origL, node.splitval) }

/-- The `POP` case (dec_ma.cc:100-103). -/
def vpop (node : Node) (item : Item) (rest : List Item) (ranges : List (Int × Int)) : VOut :=
  if node.property < 0 then .ub
  else
    match ranges[node.property.toNat]? with
    | none => .ub
    | some (l, _) => .next { stack := rest, ranges := ranges.set node.property.toNat (l, item.origU) }

/-- One iteration of the loop (dec_ma.cc:63-105). -/
def vstep (tree : List Node) (s : VSt) : VOut :=
  match s.stack with
  | [] => .ok
  | item :: rest =>
    if s.stack.length ≥ kHeightLimit then .fail
    else
      match tree[item.idx]? with
      | none => .ub
      | some node =>
        match item.act with
        | .checkAndGoLeft => vcheck node item rest s.ranges
        | .goRight => vright node item rest s.ranges
        | .pop => vpop node item rest s.ranges

/-- The loop: `none` if it has not ended after `fuel` iterations or is undefined. -/
def vrun (tree : List Node) : Nat → VSt → Option Bool
  | 0, _ => none
  | fuel + 1, s =>
    match vstep tree s with
    | .ub => none
    | .fail => some false
    | .ok => some true
    | .next s' => vrun tree fuel s'

/-- One iteration of the loop for `num_properties` (dec_ma.cc:44-48). -/
def maxProp (n : Nat) (node : Node) : Nat := if node.property ≥ (n : Int) then (node.property + 1).toNat else n

/-- `num_properties` (dec_ma.cc:43-48). -/
def numProperties (tree : List Node) : Nat := tree.foldl maxProp 0

/-- `ValidateTree` (dec_ma.cc:39-109).  Every node is visited at most three times. -/
def validateTree (tree : List Node) : Option Bool :=
  if tree.isEmpty then some true
  else vrun tree (3 * tree.length + 1) { stack := [{ idx := 0, origL := 0, origU := 0, act := .checkAndGoLeft }], ranges := List.replicate (numProperties tree) (minInt, maxInt) }

/-- `DecodeTree` (dec_ma.cc:111-160). -/
def decodeTree {ρ : Type} (R : Reader ρ) (r : ρ) (limit : Nat) : Option (Option (List Node × ρ)) :=
  match decodeLoop R limit (limit + 2) r 0 1 [] with
  | none => none
  | some none => some none
  | some (some (tree, r')) =>
    match validateTree tree with
    | none => none
    | some false => some none
    | some true => some (some (tree, r'))

/-! ### TokenizeTree -/

/-- `Num0BitsBelowLS1Bit_Nonzero` of a nonzero 32-bit number: index of its lowest set bit. -/
def lowBit (n : Nat) : Nat := ((List.range 32).find? (fun i => n.testBit i)).getD 0

/-- The tokens of one node (enc_ma.cc:1042-1052, 1067): pairs of context and value. -/
def nodeTokens (n : Node) : List (Nat × Nat) :=
  if n.property = -1 then
    [(kPropertyContext, 0), (kPredictorContext, n.predictor), (kOffsetContext, (packSigned (BitVec.ofInt 32 n.offset)).toNat),
     (kMultiplierLogContext, lowBit n.multiplier), (kMultiplierBitsContext, n.multiplier >>> lowBit n.multiplier - 1)]
  else [(kPropertyContext, (n.property + 1).toNat), (kSplitValContext, (packSigned (BitVec.ofInt 32 n.splitval)).toNat)]

/-- The breadth-first loop of `TokenizeTree` (enc_ma.cc:1039-1068). -/
def tokenizeLoop (tree : List Node) : Nat → List Nat → Nat → List Node → List (Nat × Nat) → Option (Option (List Node × List (Nat × Nat)))
  | 0, _, _, _, _ => none
  | _ + 1, [], _, out, toks => some (some (out, toks))
  | fuel + 1, cur :: q, leafId, out, toks =>
    match tree[cur]? with
    | none => none
    | some n =>
      if n.property < -1 then some none
      else if n.property = -1 then
        if n.predictor ≥ kNumModularPredictors then some none
        else tokenizeLoop tree fuel q (leafId + 1) (out ++ [{ property := -1, splitval := 0, lchild := leafId, rchild := 0, predictor := n.predictor, offset := n.offset, multiplier := n.multiplier }]) (toks ++ nodeTokens n)
      else
        tokenizeLoop tree fuel (q ++ [n.lchild, n.rchild]) leafId (out ++ [{ property := n.property, splitval := n.splitval, lchild := out.length + q.length + 1, rchild := out.length + q.length + 2, predictor := 0, offset := 0, multiplier := 1 }]) (toks ++ nodeTokens n)

end Jxl.MaTree
