import Verif.Lemmas.FlatCluster
import Verif.Props.MaTree
/-!
# C21: the specialised decision trees agree with the decision tree
-/
namespace Jxl.Props
open Jxl.MaTree

/-- The array holds the tree `t`: children lie behind their parent, every leaf can be selected. -/
structure TreeWf (tree : List Node) (t : Dtree) : Prop where
  fwd : Forward tree
  rep : Represents tree 0 t
  live : t.Live (fun _ => True)

/-- Every tree the decoder accepts qualifies, and its contexts are below `(size + 1) / 2`. -/
theorem C21_decoded_trees_qualify {ρ : Type} {R : Reader ρ} {r r' : ρ} {limit : Nat} {tree : List Node} (h : decodeTree R r limit = some (some (tree, r'))) :
    ∃ t, TreeWf tree t ∧ ∀ (i : Nat) (n : Node), tree[i]? = some n → n.property = -1 → n.lchild < (tree.length + 1) / 2 := by
  obtain ⟨o, ho, hk⟩ := C22_decoded_tree R r limit
  rw [h] at ho
  obtain ⟨-, ⟨t, h1, -, -, h2⟩, h3, -⟩ := hk tree r' (Option.some.inj ho).symm
  refine ⟨t, ⟨?_, h1, h2⟩, ?_⟩
  · intro i n hn
    rcases h3 i n hn with h4 | h4
    · exact Or.inl h4.1
    · right; omega
  · intro i n hn hp
    rcases h3 i n hn with h4 | h4
    · exact h4.2.2.2.2.2.2
    · omega

theorem filterTree_total {tree : List Node} {t : Dtree} (hw : TreeWf tree t) (sp : Nat → Int) :
    ∃ F, filterTree tree sp (2 * t.size) = some F ∧ FlatRep F.nodes 0 (t.resolve sp) ∧ (∀ i, FlatNode.leaf i ∈ F.nodes → ∃ (c : Nat) (n : Node), tree[c]? = some n ∧ n.property = -1 ∧ i.ctx = n.lchild) ∧
      (∃ f : Flags, f = F.nodes.foldl markNode { numProps := 0, hasWp := false, hasNonWp := false, gradientOnly := true } ∧ F.numProps = roundProps f.numProps ∧ F.wpOnly = (f.hasWp && !f.hasNonWp) ∧ F.gradientOnly = f.gradientOnly) := by
  obtain ⟨out, ho⟩ := filter_total hw.fwd sp (2 * t.size) [0] [t] [] rfl (by
    intro j c u hj hu
    cases j with
    | zero => simp at hj hu; subst hj; subst hu; exact hw.rep
    | succ j => simp at hj) (by have := size_pos t; simp [weight]; omega)
  have h1 := (filter_out hw.fwd _ _ _ _ ho).2 0 0 t rfl hw.rep
  refine ⟨_, by unfold filterTree; rw [ho]; rfl, by simpa using h1, ?_, _, rfl, rfl, rfl, rfl⟩
  intro i hi
  rcases filter_leaves _ _ _ _ ho i hi with h | h
  · simp at h
  · exact h

theorem roundProps_ge (n : Nat) : n ≤ roundProps n ∧ 16 ≤ roundProps n := by
  unfold roundProps kNumNonref
  split <;> omega

/-- C21, flattened trees: for every channel and group (`sp`), filtering and flattening a well-formed
tree ends and stays inside the array; replacing contexts by clusters is defined if the context map
covers the contexts; and for every property vector of the announced length that starts with the
channel and the group, the two-level lookup ends, reads only existing properties and nodes, and
selects exactly the leaf (context, predictor, offset, multiplier) that walking the original tree
selects, with its context replaced by the cluster. -/
theorem C21_flattened {tree : List Node} {t : Dtree} (hw : TreeWf tree t) (sp : Nat → Int) :
    ∃ F, filterTree tree sp (2 * t.size) = some F ∧ 16 ≤ F.numProps ∧
      (∀ props : List Int, props.length = F.numProps → (∀ p, p < 2 → propAt props p = sp p) → lookup F.nodes props (t.height + 1) 0 = some (t.eval (propAt props))) ∧
      (∀ cm : List Nat, (∀ (i : Nat) (n : Node), tree[i]? = some n → n.property = -1 → n.lchild < cm.length) → ∃ nodes, clusterContexts cm F.nodes = some nodes ∧
        ∀ props : List Int, props.length = F.numProps → (∀ p, p < 2 → propAt props p = sp p) → lookup nodes props (t.height + 1) 0 = some { t.eval (propAt props) with ctx := cm.getD (t.eval (propAt props)).ctx 0 }) := by
  obtain ⟨F, h1, h2, h3, f, h4, h5, -, -⟩ := filterTree_total hw sp
  have hr := roundProps_ge f.numProps
  rw [← h5] at hr
  have hsp : (t.resolve sp).AllSplits (fun p _ => p < F.numProps) := by
    have := (flatRep_all (fold_num F.nodes { numProps := 0, hasWp := false, hasNonWp := false, gradientOnly := true }).2 h2).1
    rw [← h4] at this
    exact allSplits_mono (fun p _ h => by omega) this
  have hh := resolve_height sp t
  refine ⟨F, h1, hr.2, ?_, ?_⟩
  · intro props hl hs
    rw [lookup_eval h2 props (by omega) (by rw [hl]; exact hsp) _ (by omega), resolve_eval hs]
  · intro cm hcm
    obtain ⟨nodes, hn⟩ := clusterContexts_total (cm := cm) (ns := F.nodes) (by
      intro i hi
      obtain ⟨c, n, k1, k2, k3⟩ := h3 i hi
      rw [k3]; exact hcm c n k1 k2)
    refine ⟨nodes, hn, ?_⟩
    intro props hl hs
    rw [lookup_eval (flatRep_cluster hn h2) props (by omega) (by rw [hl]; exact cluster_allSplits cm hsp) _ (by rw [cluster_height]; omega), cluster_eval, resolve_eval hs]
    rfl

/-- C21, lookup table: for a tree that, for this channel and group, only uses the gradient property
(or only the weighted property) with the matching predictor, building the table ends and stays
inside it. If it succeeds, then the entry for the clamped property value is the cluster of the
context that walking the tree selects — the table entries have `w` bits — and the leaf has that
predictor, offset 0 and multiplier 1. What is missing from the full claim: property values below
-8192 when the tree has the threshold -8193; there the claim is false, see
`C21_lookup_table_boundary`. -/
theorem C21_lookup_table_partial {tree : List Node} {t : Dtree} (hw : TreeWf tree t) (sp : Nat → Int) (cm : List Nat) (w : Nat) (lut : Lut)
    (hcm : ∀ (i : Nat) (n : Node), tree[i]? = some n → n.property = -1 → n.lchild < cm.length) :
    ∃ F nodes o, filterTree tree sp (2 * t.size) = some F ∧ clusterContexts cm F.nodes = some nodes ∧ treeToLookupTable w nodes (t.size + 1) lut = some o ∧
      ∀ lut' P pred, o = some lut' → (F.gradientOnly = true ∧ P = 9 ∧ pred = 5) ∨ (F.wpOnly = true ∧ P = 15 ∧ pred = 6) →
        ∀ props : Nat → Int, (∀ p, p < 2 → props p = sp p) → (-8192 ≤ props P ∨ t.AllSplits (fun p v => p = P → v ≠ -8193)) →
          lut' (min (max (-8192) (props P)) 8191) = some (cm.getD (t.eval props).ctx 0 % 2 ^ w) ∧
          (t.eval props).predictor = pred ∧ (t.eval props).offset = 0 ∧ (t.eval props).multiplier = 1 := by
  obtain ⟨F, h1, h2, h3, f, h4, -, h5, h6⟩ := filterTree_total hw sp
  obtain ⟨nodes, hn⟩ := clusterContexts_total (cm := cm) (ns := F.nodes) (by
    intro i hi
    obtain ⟨c, n, k1, k2, k3⟩ := h3 i hi
    rw [k3]; exact hcm c n k1 k2)
  have hrep := flatRep_cluster hn h2
  obtain ⟨o, ho⟩ := toLut_total (w := w) (nodes := nodes) (t.size + 1) [{ b := -kPropRangeFast - 1, e := kPropRangeFast - 1, pos := 0 }] [(t.resolve sp).cluster cm] lut rfl (by
    intro j c u hj hu
    cases j with
    | zero => simp at hj hu; subst hj; subst hu; exact hrep
    | succ j => simp at hj) (by have := resolve_size sp t; simp [cluster_size]; omega)
  refine ⟨F, nodes, o, h1, hn, ho, ?_⟩
  intro lut' P pred e hcase props hs hx
  subst e
  have hP : kNumStatic ≤ P := by unfold kNumStatic; omega
  have hall : (t.resolve sp).AllSplits (fun p _ => p = P) ∧ (t.resolve sp).AllLeaves (fun i => i.predictor = pred) := by
    have hst := flatRep_static h2
    rcases hcase with ⟨hg, rfl, rfl⟩ | ⟨hg, rfl, rfl⟩
    · rw [h6, h4] at hg
      have := flatRep_all (fold_gradient F.nodes _ hg).2 h2
      exact ⟨allSplits_mono (fun p v h => h.2 h.1) (allSplits_and hst this.1), this.2⟩
    · rw [h5] at hg
      have hg' : f.hasNonWp = false := by
        revert hg; cases f.hasWp <;> cases f.hasNonWp <;> simp
      rw [h4] at hg'
      have := flatRep_all (fold_wp F.nodes _ hg').2 h2
      exact ⟨allSplits_mono (fun p v h => h.2 h.1) (allSplits_and hst this.1), this.2⟩
  have hchk := toLut_checked _ _ _ _ ho _ (List.mem_singleton.mpr rfl) _ hrep
  have hbd : Bounded ((t.resolve sp).cluster cm) := hchk.2.1
  have hsC := cluster_allSplits cm hall.1
  have hnest : Nest minInt maxInt ((t.resolve sp).cluster cm) := by
    refine nested_nest (P := P) (cluster_nested cm (nested_resolve hP (live_nested hw.live ?_))) hsC
    intro props h _
    exact h P
  have hval : ∀ i : Int, -8192 ≤ i → i ≤ 8191 → lut' i = some ((((t.resolve sp).cluster cm).evalAt i).ctx % 2 ^ w) := by
    intro i hi1 hi2
    refine toLut_pending _ _ _ _ ?_ ho i (Or.inl ⟨_, List.mem_singleton.mpr rfl, ?_⟩)
    · intro it hit
      rw [List.mem_singleton] at hit
      subst hit
      exact ⟨_, minInt, maxInt, hrep, hnest, hbd, Or.inr rfl, Or.inr rfl, fun _ _ _ => rfl⟩
    · simp only [kPropRangeFast]; omega
  have hev : (t.eval props).cluster cm = ((t.resolve sp).cluster cm).evalAt (props P) := by
    rw [← resolve_eval hs t, ← cluster_eval, eval_evalAt hsC]
  have hclamp : ((t.resolve sp).cluster cm).evalAt (min (max (-8192) (props P)) 8191) = ((t.resolve sp).cluster cm).evalAt (props P) := by
    by_cases c1 : props P > 8191
    · rw [show min (max (-8192) (props P)) 8191 = kPropRangeFast - 1 from by unfold kPropRangeFast; omega]
      exact (evalAt_high hbd (by unfold kPropRangeFast; omega)).symm
    · by_cases c2 : -8192 ≤ props P
      · rw [show min (max (-8192) (props P)) 8191 = props P from by omega]
      · have hx' : t.AllSplits (fun p v => p = P → v ≠ -8193) := by
          rcases hx with hx | hx
          · omega
          · exact hx
        have hlow : ((t.resolve sp).cluster cm).AllSplits (fun _ v => -kPropRangeFast ≤ v) := by
          refine allSplits_mono ?_ (allSplits_and (allSplits_and hsC hbd) (cluster_allSplits cm (resolve_allSplits sp hx')))
          intro p v h
          have := h.2 h.1.1
          have := h.1.2.1
          unfold kPropRangeFast at *
          omega
        rw [show min (max (-8192) (props P)) 8191 = -kPropRangeFast from by unfold kPropRangeFast; omega]
        exact (evalAt_low hlow (by unfold kPropRangeFast; omega)).symm
  have hfit := eval_leaf_prop hchk.2.2 props
  rw [eval_evalAt hsC props, ← hev] at hfit
  simp only [leafFits, LeafInfo.cluster, Bool.and_eq_true, beq_iff_eq] at hfit
  refine ⟨?_, ?_, hfit.1, hfit.2⟩
  · rw [hval _ (by omega) (by omega), hclamp, ← hev]; rfl
  · have := eval_leaf_prop hall.2 props
    rw [resolve_eval hs t] at this
    exact this

/-- A gradient-only tree with the threshold -8193. -/
def boundaryTree : List Node := [⟨9, -8193, 1, 2, 0, 0, 1⟩, ⟨-1, 0, 0, 0, 5, 0, 1⟩, ⟨-1, 0, 1, 0, 5, 0, 1⟩]

/-- The exception is real: the decoder accepts this tree, recognises it as gradient-only and
builds the table, but for the property value -9000 the tree selects context 1 and the table
context 0. -/
theorem C21_lookup_table_boundary :
    (decodeTree tokReader (some [(1, 10), (0, 16385), (1, 0), (2, 5), (3, 0), (4, 0), (5, 0), (1, 0), (2, 5), (3, 0), (4, 0), (5, 0)]) 10).map (·.map (·.1)) = some (some boundaryTree) ∧
    ∃ F nodes lut' t, filterTree boundaryTree (fun _ => 0) 6 = some F ∧ F.gradientOnly = true ∧ clusterContexts [0, 1] F.nodes = some nodes ∧
      treeToLookupTable 8 nodes 4 (fun _ => none) = some (some lut') ∧ Represents boundaryTree 0 t ∧
      (t.eval (fun p => if p = 9 then -9000 else 0)).ctx = 1 ∧ lut' (min (max (-8192) (-9000)) 8191) = some 0 := by
  refine ⟨by decide, _, _, _, .split 9 (-8193) (.leaf ⟨0, 5, 0, 1⟩) (.leaf ⟨1, 5, 0, 1⟩), rfl, rfl, rfl, rfl, ?_, by decide, by decide⟩
  exact Represents.split (n := ⟨9, -8193, 1, 2, 0, 0, 1⟩) rfl (by decide) (Represents.leaf (n := ⟨-1, 0, 0, 0, 5, 0, 1⟩) rfl rfl) (Represents.leaf (n := ⟨-1, 0, 1, 0, 5, 0, 1⟩) rfl rfl)

/-- A tree with a split on the channel above two gradient splits. -/
def flatExampleTree : List Node := [⟨0, 0, 1, 2, 0, 0, 1⟩, ⟨2, 7, 3, 4, 0, 0, 1⟩, ⟨9, 10, 5, 6, 0, 0, 1⟩, ⟨-1, 0, 0, 0, 0, 0, 1⟩, ⟨-1, 0, 1, 0, 6, 3, 2⟩, ⟨-1, 0, 2, 0, 5, 0, 1⟩, ⟨-1, 0, 3, 0, 5, 0, 1⟩]

/-- It is accepted by the decoder; for channel 0 it is gradient-only and the table is built, for
channel 1 the tree is used. -/
example : (decodeTree tokReader (some [(1, 1), (0, 0), (1, 3), (0, 14), (1, 10), (0, 20), (1, 0), (2, 0), (3, 0), (4, 0), (5, 0), (1, 0), (2, 6), (3, 6), (4, 1), (5, 0), (1, 0), (2, 5), (3, 0), (4, 0), (5, 0), (1, 0), (2, 5), (3, 0), (4, 0), (5, 0)]) 10).map (·.map (·.1)) = some (some flatExampleTree) := by decide

example : ((filterTree flatExampleTree (fun _ => 0) 14).bind fun F => (clusterContexts [1, 0, 2, 0] F.nodes).bind fun ns => (treeToLookupTable 8 ns 8 (fun _ => none)).map fun o => (F.gradientOnly, o.map fun l => (l (-8192), l 10, l 11, l 8191))) =
    some (true, some (some 0, some 0, some 2, some 2)) := by rfl

example : ((filterTree flatExampleTree (fun p => if p = 0 then 1 else 0) 14).map fun F => (F.gradientOnly, F.nodes.length, lookup F.nodes ([1, 0, 5] ++ List.replicate 13 0) 3 0)) =
    some (false, 5, some ⟨1, 6, 3, 2⟩) := by decide

end Jxl.Props
