import Verif.Model.MaTree
/-!
# Model of the specialised decision trees

`FilterTree` (modular/encoding/encoding.cc:42-145), `MATreeLookup::Lookup`
(modular/encoding/context_predict.h:351-371) and `TreeToLookupTable`
(modular/encoding/encoding.h:69-137).  `none` is an access outside an array or a loop that does not
end.
-/
namespace Jxl.MaTree

/-- `FlatDecisionNode` (context_predict.h:322-339).  The members share storage; which of them are
meaningful depends on `property0`, as the two constructors say.  `predictor_offset` and
`multiplier` are 32-bit here; by C22 nothing is lost in the conversion. -/
inductive FlatNode where
  | leaf (info : LeafInfo)
  | split (property0 : Nat) (splitval0 : Int) (propA : Nat) (valA : Int) (propB : Nat) (valB : Int) (child : Nat)
deriving DecidableEq, Repr

/-- `kNumStaticProperties` (modular/options.h:49). -/
def kNumStatic : Nat := 2
/-- `kNumNonrefProperties` (context_predict.h:378-379). -/
def kNumNonref : Nat := 16
/-- `kWPProp` (context_predict.h:381). -/
def kWPProp : Nat := 15
/-- `kGradientProp` (context_predict.h:382). -/
def kGradientProp : Nat := 9
def predGradient : Nat := 5
def predWeighted : Nat := 6

/-- The loop that jumps over nodes comparing a static property (encoding.cc:73-80, 104-112);
`sp` are the channel and the group. -/
def skipStatic (tree : List Node) (sp : Nat → Int) : Nat → Nat → Option (Nat × Node)
  | 0, _ => none
  | fuel + 1, cur =>
    match tree[cur]? with
    | none => none
    | some n =>
      if n.property < (kNumStatic : Int) ∧ n.property ≠ -1 then
        if n.property < 0 then none
        else if sp n.property.toNat > n.splitval then skipStatic tree sp fuel n.lchild
        else skipStatic tree sp fuel n.rchild
      else some (cur, n)

/-- One side of a flattened node (encoding.cc:100-127): property and threshold stored, and the two
nodes queued. -/
def flatSide (c : Nat) (n : Node) : Nat × Int × Nat × Nat :=
  if n.property = -1 then (0, 0, c, c) else (n.property.toNat, n.splitval, n.lchild, n.rchild)

/-- The breadth-first loop of `FilterTree` (encoding.cc:69-132). -/
def filterLoop (tree : List Node) (sp : Nat → Int) : Nat → List Nat → List FlatNode → Option (List FlatNode)
  | 0, _, _ => none
  | _ + 1, [], out => some out
  | fuel + 1, cur :: q, out =>
    match skipStatic tree sp (tree.length + 1) cur with
    | none => none
    | some (_, n) =>
      if n.property = -1 then
        filterLoop tree sp fuel q (out ++ [.leaf { ctx := n.lchild, predictor := n.predictor, offset := n.offset, multiplier := n.multiplier }])
      else
        match skipStatic tree sp (tree.length + 1) n.lchild, skipStatic tree sp (tree.length + 1) n.rchild with
        | some (ca, na), some (cb, nb) =>
          let a := flatSide ca na
          let b := flatSide cb nb
          filterLoop tree sp fuel (q ++ [a.2.2.1, a.2.2.2, b.2.2.1, b.2.2.2]) (out ++ [.split n.property.toNat n.splitval a.1 a.2.1 b.1 b.2.1 (out.length + q.length + 1)])
        | _, _ => none

/-- The locals `num_props`, `has_wp`, `has_non_wp`, `gradient_only`. -/
structure Flags where
  numProps : Nat
  hasWp : Bool
  hasNonWp : Bool
  gradientOnly : Bool

/-- `mark_property` (encoding.cc:50-59). -/
def markProperty (f : Flags) (p : Nat) : Flags :=
  { f with hasWp := f.hasWp || p == kWPProp, hasNonWp := f.hasNonWp || (p != kWPProp && decide (kNumStatic ≤ p)), gradientOnly := f.gradientOnly && !(decide (kNumStatic ≤ p) && p != kGradientProp) }

/-- `*num_props = max(p + 1, *num_props)` (encoding.cc:97, 125). -/
def countProperty (f : Flags) (p : Nat) : Flags := { f with numProps := max (p + 1) f.numProps }

/-- The effect of one output node on the flags (encoding.cc:88-90, 97, 125, 129-130).  A placeholder
has property 0, which changes neither of the flags. -/
def markNode (f : Flags) : FlatNode → Flags
  | .leaf i => { f with gradientOnly := f.gradientOnly && i.predictor == predGradient, hasWp := f.hasWp || i.predictor == predWeighted, hasNonWp := f.hasNonWp || i.predictor != predWeighted }
  | .split p0 _ pa _ pb _ _ => markProperty (markProperty (markProperty (countProperty (countProperty (countProperty f p0) pa) pb) pa) pb) p0

/-- `*num_props` rounded up (encoding.cc:133-140), `kExtraPropsPerChannel = 4`. -/
def roundProps (n : Nat) : Nat :=
  if n > kNumNonref then (n - kNumNonref + 3) / 4 * 4 + kNumNonref else kNumNonref

/-- What `FilterTree` returns. -/
structure Filtered where
  nodes : List FlatNode
  numProps : Nat
  useWp : Bool
  wpOnly : Bool
  gradientOnly : Bool

/-- `FilterTree` (encoding.cc:42-145); the flags do not influence the loop and are computed
afterwards from the nodes, in order. -/
def filterTree (tree : List Node) (sp : Nat → Int) (fuel : Nat) : Option Filtered :=
  (filterLoop tree sp fuel [0] []).map fun out =>
    let f := out.foldl markNode { numProps := 0, hasWp := false, hasNonWp := false, gradientOnly := true }
    { nodes := out, numProps := roundProps f.numProps, useWp := f.hasWp, wpOnly := f.hasWp && !f.hasNonWp, gradientOnly := f.gradientOnly }

/-- The decoder's replacement of a leaf's context by its cluster (encoding.cc:178-182); `none` is a
read outside the context map. -/
def clusterNode (cm : List Nat) : FlatNode → Option FlatNode
  | .leaf i => (cm[i.ctx]?).map fun c => .leaf { i with ctx := c }
  | .split p0 v0 pa va pb vb child => some (.split p0 v0 pa va pb vb child)

/-- The loop over the flattened tree (encoding.cc:178-182). -/
def clusterContexts (cm : List Nat) : List FlatNode → Option (List FlatNode)
  | [] => some []
  | n :: ns => (clusterNode cm n).bind fun n' => (clusterContexts cm ns).map fun ns' => n' :: ns'

/-- `MATreeLookup::Lookup` (context_predict.h:351-371). -/
def lookup (nodes : List FlatNode) (props : List Int) : Nat → Nat → Option LeafInfo
  | 0, _ => none
  | fuel + 1, pos =>
    match nodes[pos]? with
    | none => none
    | some (.leaf i) => some i
    | some (.split p0 v0 pa va pb vb child) =>
      match props[p0]?, props[pa]?, props[pb]? with
      | some x0, some xa, some xb =>
        let off0 := if xa ≤ va then 1 else 0
        let off1 := if xb ≤ vb then 3 else 2
        lookup nodes props fuel (child + if x0 ≤ v0 then off1 else off0)
      | _, _, _ => none

/-! ### The lookup table -/

/-- `kPropRangeFast` (encoding.h:30). -/
def kPropRangeFast : Int := 8192

/-- `TreeRange` (encoding.h:72-77): `begin` excluded, `end` included. -/
structure TreeRange where
  b : Int
  e : Int
  pos : Nat

/-- The ranges pushed for the side `> splitval0` (encoding.h:116-123), last pushed first. -/
def rangesA (v0 : Int) (pa : Nat) (va : Int) (child : Nat) (e : Int) : List TreeRange :=
  if kNumStatic ≤ pa then [{ b := v0, e := va, pos := child + 1 }, { b := va, e := e, pos := child }]
  else [{ b := v0, e := e, pos := child }]

/-- The ranges pushed for the side `<= splitval0` (encoding.h:124-133), last pushed first. -/
def rangesB (v0 : Int) (pb : Nat) (vb : Int) (child : Nat) (b : Int) : List TreeRange :=
  if kNumStatic ≤ pb then [{ b := b, e := vb, pos := child + 3 }, { b := vb, e := v0, pos := child + 2 }]
  else [{ b := b, e := v0, pos := child + 2 }]

/-- The table: `none` is an entry not written yet (left over from an earlier use). The index is the
property value; the array index is `kPropRangeFast` more. -/
abbrev Lut := Int → Option Nat

/-- The loop writing one leaf's context to `begin + 1 .. end` (encoding.h:105-113); `none` if an
index is outside the array. The entries have `w` bits. -/
def fill (w : Nat) (lut : Lut) (b e : Int) (ctx : Nat) : Option Lut :=
  if b < e ∧ (b + 1 + kPropRangeFast < 0 ∨ e + kPropRangeFast ≥ 2 * kPropRangeFast) then none
  else some (fun i => if b < i ∧ i ≤ e then some (ctx % 2 ^ w) else lut i)

/-- The leaf checks (encoding.h:89-104) for a table without offsets and multipliers, the only kind
used (encoding.cc:154, enc_encoding.cc:272). -/
def leafFits (i : LeafInfo) : Bool := i.offset == 0 && i.multiplier == 1

/-- `TreeToLookupTable` (encoding.h:69-137): `some none` is the answer `false`. -/
def toLut (w : Nat) (nodes : List FlatNode) : Nat → List TreeRange → Lut → Option (Option Lut)
  | 0, _, _ => none
  | _ + 1, [], lut => some (some lut)
  | fuel + 1, cur :: rest, lut =>
    if cur.b < -kPropRangeFast - 1 ∨ cur.b ≥ kPropRangeFast - 1 ∨ cur.e > kPropRangeFast - 1 then some none
    else
      match nodes[cur.pos]? with
      | none => none
      | some (.leaf i) =>
        if !leafFits i then some none
        else
          match fill w lut cur.b cur.e i.ctx with
          | none => none
          | some lut' => toLut w nodes fuel rest lut'
      | some (.split _ v0 pa va pb vb child) => toLut w nodes fuel (rangesB v0 pb vb child cur.b ++ rangesA v0 pa va child cur.e ++ rest) lut

/-- The whole call (encoding.h:78-79). -/
def treeToLookupTable (w : Nat) (nodes : List FlatNode) (fuel : Nat) (lut : Lut) : Option (Option Lut) :=
  toLut w nodes fuel [{ b := -kPropRangeFast - 1, e := kPropRangeFast - 1, pos := 0 }] lut

/-- The clamped property (encoding.cc:328-332, 361-363). -/
def clampProp (x : Int) : Int := min (max (-kPropRangeFast) x) (kPropRangeFast - 1)

end Jxl.MaTree
