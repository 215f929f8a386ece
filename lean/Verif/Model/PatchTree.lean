/-!
# The rows of patches (lib/jxl/dec_patch_dictionary.cc)

`ComputePatchTree` builds an interval tree over the rows of the patches, `GetPatchesForRow` looks a row up.  `std::sort` is any function that sorts;
what it does with equal keys is left open.  `none` is an access outside an array.
-/
namespace Jxl.Patches

/-- `PatchInterval` (dec_patch_dictionary.cc:188-191): patch `idx` covers rows `y0` to `y1 - 1`. -/
structure Interval where
  idx : Nat
  y0 : Nat
  y1 : Nat
deriving DecidableEq

/-- `PatchTreeNode` (dec_patch_dictionary.h:146-154); a child of -1 is `none`. -/
structure Node where
  left : Option Nat
  right : Option Nat
  center : Nat
  start : Nat
  num : Nat
deriving DecidableEq

/-- The sorting functions in use: of intervals by `y0`, by `y1`, and of numbers. -/
structure Sorts where
  y0 : List Interval → List Interval
  y1 : List Interval → List Interval
  num : List Nat → List Nat

/-- The members `patch_tree_`, `num_patches_`, `sorted_patches_y0_` and `sorted_patches_y1_` (dec_patch_dictionary.h:155-160). -/
structure Tree where
  nodes : List Node
  count : List Nat
  byY0 : List (Nat × Nat)
  byY1 : List (Nat × Nat)

/-- Elements `s` to `e - 1`. -/
def slice {α : Type} (s e : Nat) (l : List α) : List α := (l.take e).drop s

/-- `std::sort(data + s, data + e)` (dec_patch_dictionary.cc:211-222). -/
def sortSlice {α : Type} (f : List α → List α) (s e : Nat) (l : List α) : List α := l.take s ++ (f (slice s e l) ++ l.drop e)

/-- `num_patches_[y]++` (dec_patch_dictionary.cc:227). -/
def bump (c : List Nat) (y : Nat) : Option (List Nat) := (c[y]?).map fun k => c.set y (k + 1)

/-- One more for each row of an interval (dec_patch_dictionary.cc:227). -/
def bumpRows (c : List Nat) (iv : Interval) : Option (List Nat) := (List.range' iv.y0 (iv.y1 - iv.y0)).foldlM bump c

/-- The number of patches for each row (dec_patch_dictionary.cc:224-228), intervals sorted by their ends. -/
def counts (ivs : List Interval) : Option (List Nat) := (ivs.getLast?).bind fun b => ivs.foldlM bumpRows (List.replicate b.y1 0)

/-- The state of the loop: the intervals, the nodes, those before `next` done, and the sorted lists. -/
structure St where
  ivs : List Interval
  nodes : List Node
  next : Nat
  byY0 : List (Nat × Nat)
  byY1 : List (Nat × Nat)

/-- The body of the loop (dec_patch_dictionary.cc:235-283). -/
def step (f : Sorts) (st : St) : Option St := do
  let node ← st.nodes[st.next]?
  let s := node.start
  let e := node.start + node.num
  let ivs := sortSlice f.y0 s e st.ivs
  let m ← ivs[s + node.num / 2]?
  let c := m.y0
  let rs := s + node.num / 2 + ((slice (s + node.num / 2) e ivs).takeWhile fun i => i.y0 == c).length
  let ivs := sortSlice f.y1 s rs ivs
  let le := rs - ((slice s rs ivs).reverse.takeWhile fun i => decide (i.y1 > c)).length
  let by1 := st.byY1 ++ (slice le rs ivs).reverse.map fun i => (i.y1, i.idx)
  let ivs := sortSlice f.y0 le rs ivs
  let by0 := st.byY0 ++ (slice le rs ivs).map fun i => (i.y0, i.idx)
  let n := st.nodes.length
  let lefts : List Node := if le > s then [⟨none, none, 0, s, le - s⟩] else []
  let rights : List Node := if rs < e then [⟨none, none, 0, rs, e - rs⟩] else []
  let done : Node := ⟨if le > s then some n else none, if rs < e then some (n + lefts.length) else none, c, st.byY0.length, rs - le⟩
  some ⟨ivs, st.nodes.set st.next done ++ (lefts ++ rights), st.next + 1, by0, by1⟩

/-- The loop (dec_patch_dictionary.cc:234-285), with a bound on the number of steps. -/
def build (f : Sorts) : Nat → St → Option St
  | 0, _ => none
  | k + 1, st => if st.next < st.nodes.length then (step f st).bind (build f k) else some st

/-- `ComputePatchTree` (dec_patch_dictionary.cc:194-286) for the first row and number of rows of each patch. -/
def computeTree (f : Sorts) (rows : List (Nat × Nat)) : Option Tree :=
  if rows = [] then some ⟨[], [], [], []⟩
  else do
    let ivs := f.y1 (rows.mapIdx fun i r => ⟨i, r.1, r.1 + r.2⟩)
    let c ← counts ivs
    let st ← build f (ivs.length + 1) ⟨ivs, [⟨none, none, 0, 0, ivs.length⟩], 0, [], []⟩
    some ⟨st.nodes, c, st.byY0, st.byY1⟩

/-- The way down the tree (dec_patch_dictionary.cc:292-311), with a bound on the number of steps. -/
def walk (t : Tree) (y : Nat) : Nat → Option Nat → Option (List Nat)
  | _, none => some []
  | 0, some _ => none
  | k + 1, some i => do
    let node ← t.nodes[i]?
    if node.start + node.num > t.byY0.length ∨ node.start + node.num > t.byY1.length then none
    else if y ≤ node.center then
      let r ← walk t y k (if y < node.center then node.left else none)
      some (((slice node.start (node.start + node.num) t.byY0).takeWhile fun p => decide (p.1 ≤ y)).map (·.2) ++ r)
    else
      let r ← walk t y k node.right
      some (((slice node.start (node.start + node.num) t.byY1).takeWhile fun p => decide (y < p.1)).map (·.2) ++ r)

/-- `GetPatchesForRow` (dec_patch_dictionary.cc:288-319). -/
def patchesForRow (f : Sorts) (t : Tree) (y : Nat) : Option (List Nat) :=
  match t.count[y]? with
  | none => some []
  | some k => if k > 0 then (walk t y t.nodes.length (some 0)).map f.num else some []

end Jxl.Patches
