import Verif.Lemmas.ModularPath
import Verif.Props.FlatFlags
/-!
# What the encoder and the decoder know about the tree of a channel
-/
namespace Jxl.Modular
open Jxl.MaTree Jxl.Props

theorem represents_eval {tree : List Node} {i : Nat} {t : Dtree} (h : Represents tree i t) (u : Nat → Int) : ∃ (c : Nat) (n : Node), tree[c]? = some n ∧ n.property = -1 ∧ t.eval u = n.info := by
  induction h with
  | leaf h1 h2 => exact ⟨_, _, h1, h2, rfl⟩
  | split h1 h2 _ _ ihl ihr =>
    simp only [Dtree.eval]
    split
    · exact ihl
    · exact ihr

theorem clusterContexts_range {N : Nat} : ∀ {ns : List FlatNode}, (∀ i, FlatNode.leaf i ∈ ns → i.ctx < N) → clusterContexts (List.range N) ns = some ns := by
  intro ns
  induction ns with
  | nil => intro _; rfl
  | cons a ns ih =>
    intro h
    have ha : clusterNode (List.range N) a = some a := by
      cases a with
      | leaf i =>
        have := h i (by simp)
        simp [clusterNode, this]
      | split _ _ _ _ _ _ _ => rfl
    simp only [clusterContexts, ha, ih (fun i hi => h i (by simp [hi])), Option.bind_some, Option.map_some]

theorem clusterContexts_length {cm : List Nat} : ∀ {ns ns' : List FlatNode}, clusterContexts cm ns = some ns' → ns'.length = ns.length := by
  intro ns
  induction ns with
  | nil => intro ns' h; simp [clusterContexts] at h; subst h; rfl
  | cons a ns ih =>
    intro ns' h
    simp only [clusterContexts, Option.bind_eq_some_iff, Option.map_eq_some_iff] at h
    obtain ⟨a', -, t', ht, rfl⟩ := h
    simp [ih ht]

/-- Whether the table can be built does not depend on the contexts or on the width of its entries. -/
theorem toLut_rel {cm : List Nat} {ns ns' : List FlatNode} (hc : clusterContexts cm ns = some ns') (w w' : Nat) :
    ∀ (fuel : Nat) (l : List TreeRange) (lut lut' : Lut), (toLut w ns fuel l lut).map Option.isSome = (toLut w' ns' fuel l lut').map Option.isSome := by
  intro fuel
  induction fuel with
  | zero => intro l lut lut'; rfl
  | succ fuel ih =>
    intro l lut lut'
    cases l with
    | nil => rfl
    | cons cur rest =>
      rw [toLut, toLut]
      split
      · rfl
      · cases hn : ns[cur.pos]? with
        | none =>
          have hlen := clusterContexts_length hc
          rw [List.getElem?_eq_none_iff] at hn
          rw [List.getElem?_eq_none_iff.mpr (show ns'.length ≤ cur.pos by omega)]
        | some n =>
          obtain ⟨n', k1, k2⟩ := clusterContexts_get hc _ _ hn
          rw [k2]
          cases n with
          | leaf i =>
            simp only [clusterNode, Option.map_eq_some_iff] at k1
            obtain ⟨c, -, rfl⟩ := k1
            dsimp only
            have e : leafFits { i with ctx := c } = leafFits i := rfl
            rw [e]
            split
            · rfl
            · by_cases hb : cur.b < cur.e ∧ (cur.b + 1 + kPropRangeFast < 0 ∨ cur.e + kPropRangeFast ≥ 2 * kPropRangeFast)
              · simp only [fill, if_pos hb]
              · simp only [fill, if_neg hb]
                exact ih _ _ _
          | split p0 v0 pa va pb vb child =>
            simp only [clusterNode, Option.some.injEq] at k1
            subst k1
            exact ih _ _ _

theorem single_cluster {cm : List Nat} {ns ns' : List FlatNode} (hc : clusterContexts cm ns = some ns') : single ns' = (single ns).map (LeafInfo.cluster cm) := by
  have hl := clusterContexts_length hc
  match ns, hc, hl with
  | [], hc, hl =>
    rw [List.length_nil, List.length_eq_zero_iff] at hl
    subst hl; rfl
  | [.leaf i], hc, hl =>
    simp only [clusterContexts, clusterNode, Option.map_some, Option.bind_eq_some_iff, Option.map_eq_some_iff, Option.some.injEq] at hc
    obtain ⟨a, ⟨c, hcc, rfl⟩, b, rfl, rfl⟩ := hc
    simp [single, LeafInfo.cluster, List.getD_eq_getElem?_getD, hcc]
  | [.split _ _ _ _ _ _ _], hc, hl =>
    simp only [clusterContexts, clusterNode, Option.bind_some, Option.map_some, Option.some.injEq] at hc
    subst hc; rfl
  | a :: b :: rest, hc, hl =>
    match ns', hl with
    | a' :: b' :: rest', _ => simp [single]

/-- A property vector with given values. -/
theorem propAt_range (u : Nat → Int) (N p : Nat) (h : p < N) : propAt ((List.range N).map u) p = u p := by
  unfold propAt
  rw [List.getD_eq_getElem?_getD, List.getElem?_map, List.getElem?_range h]; rfl

/-- What the leaves of a tree may contain: 32-bit numbers. -/
def LeavesOk (tree : List Node) : Prop :=
  ∀ (i : Nat) (n : Node), tree[i]? = some n → n.property = -1 → n.multiplier < 2147483648 ∧ n.offset.natAbs ≤ 2147483648

/-- A table agrees with the tree. -/
def LutOk (t : Dtree) (sp : Nat → Int) (P pred : Nat) (g : Nat → Nat) (lut : Lut) : Prop :=
  ∀ u : Nat → Int, (∀ p, p < 2 → u p = sp p) → (-8192 ≤ u P ∨ t.AllSplits (fun p v => p = P → v ≠ -8193)) →
    lut (clampProp (u P)) = some (g (t.eval u).ctx) ∧ (t.eval u).predictor = pred ∧ (t.eval u).offset = 0 ∧ (t.eval u).multiplier = 1

/-- The common knowledge. -/
structure Facts (tree : List Node) (t : Dtree) (sp : Nat → Int) (cm : List Nat) (F : Filtered) (nodes : List FlatNode) (wlE glE wlD glD : Option Lut) : Prop where
  hF : filterTree tree sp (2 * t.size) = some F
  hC : clusterContexts cm F.nodes = some nodes
  np : 16 ≤ F.numProps
  np4 : (F.numProps - 16) % 4 = 0
  look : ∀ props : List Int, props.length = F.numProps → (∀ p, p < 2 → propAt props p = sp p) → lookup F.nodes props (t.height + 1) 0 = some (t.eval (propAt props))
  lookD : ∀ props : List Int, props.length = F.numProps → (∀ p, p < 2 → propAt props p = sp p) → lookup nodes props (t.height + 1) 0 = some ((t.eval (propAt props)).cluster cm)
  noWp : F.useWp = false → ∀ u v : Nat → Int, (∀ p, p < 2 → u p = sp p) → (∀ p, p ≠ 15 → v p = u p) → (t.eval u).predictor ≠ 6 ∧ t.eval v = t.eval u
  one : ∀ i, single F.nodes = some i → ∀ u : Nat → Int, (∀ p, p < 2 → u p = sp p) → t.eval u = i
  oneD : single nodes = (single F.nodes).map (LeafInfo.cluster cm)
  eWl : lutIf F.wpOnly 16 F.nodes (t.size + 1) = some wlE
  eGl : lutIf F.gradientOnly 16 F.nodes (t.size + 1) = some glE
  dWl : lutIf F.wpOnly 8 nodes (t.size + 1) = some wlD
  dGl : lutIf F.gradientOnly 8 nodes (t.size + 1) = some glD
  sameWl : wlE.isSome = wlD.isSome
  sameGl : glE.isSome = glD.isSome
  okWlE : ∀ lut, wlE = some lut → LutOk t sp 15 6 id lut
  okGlE : ∀ lut, glE = some lut → LutOk t sp 9 5 id lut
  okWlD : ∀ lut, wlD = some lut → LutOk t sp 15 6 (fun c => cm.getD c 0) lut
  okGlD : ∀ lut, glD = some lut → LutOk t sp 9 5 (fun c => cm.getD c 0) lut
  wpUse : F.wpOnly = true → F.useWp = true
  leaves : ∀ u, ∃ (c : Nat) (n : Node), tree[c]? = some n ∧ n.property = -1 ∧ t.eval u = n.info

theorem clamp_def (x : Int) : clampProp x = min (max (-8192) x) 8191 := rfl

theorem lut_exists {tree : List Node} {t : Dtree} (hw : TreeWf tree t) (sp : Nat → Int) (cm : List Nat) (w : Nat)
    (hcm : ∀ (i : Nat) (n : Node), tree[i]? = some n → n.property = -1 → n.lchild < cm.length ∧ cm.getD n.lchild 0 < 2 ^ w) {F : Filtered} (hF : filterTree tree sp (2 * t.size) = some F)
    {nodes : List FlatNode} (hC : clusterContexts cm F.nodes = some nodes) :
    ∃ wl gl, lutIf F.wpOnly w nodes (t.size + 1) = some wl ∧ lutIf F.gradientOnly w nodes (t.size + 1) = some gl ∧
      (∀ lut, wl = some lut → LutOk t sp 15 6 (fun c => cm.getD c 0) lut) ∧ (∀ lut, gl = some lut → LutOk t sp 9 5 (fun c => cm.getD c 0) lut) := by
  obtain ⟨F', nodes', o, h1, h2, h3, h4⟩ := C21_lookup_table_partial hw sp cm w (fun _ => none) (fun i n h k => (hcm i n h k).1)
  rw [hF] at h1
  injection h1 with h1
  subst h1
  rw [hC] at h2
  injection h2 with h2
  subst h2
  have hmod : ∀ u : Nat → Int, cm.getD (t.eval u).ctx 0 % 2 ^ w = cm.getD (t.eval u).ctx 0 := by
    intro u
    obtain ⟨c, n, k1, k2, k3⟩ := represents_eval hw.rep u
    rw [k3]
    exact Nat.mod_eq_of_lt (hcm c n k1 k2).2
  refine ⟨if F.wpOnly then o else none, if F.gradientOnly then o else none, ?_, ?_, ?_, ?_⟩
  · unfold lutIf; split
    · exact h3
    · rfl
  · unfold lutIf; split
    · exact h3
    · rfl
  · intro lut hl u hu hx
    split at hl
    · rename_i c
      obtain ⟨k1, k2⟩ := h4 lut 15 6 hl (Or.inr ⟨c, rfl, rfl⟩) u hu hx
      rw [hmod] at k1
      exact ⟨k1, k2⟩
    · cases hl
  · intro lut hl u hu hx
    split at hl
    · rename_i c
      obtain ⟨k1, k2⟩ := h4 lut 9 5 hl (Or.inl ⟨c, rfl, rfl⟩) u hu hx
      rw [hmod] at k1
      exact ⟨k1, k2⟩
    · cases hl

theorem lutIf_rel {cm : List Nat} {ns ns' : List FlatNode} (hc : clusterContexts cm ns = some ns') (w w' fuel : Nat) (b : Bool) {o o' : Option Lut} (h : lutIf b w ns fuel = some o) (h' : lutIf b w' ns' fuel = some o') :
    o.isSome = o'.isSome := by
  unfold lutIf at h h'
  cases b with
  | false => simp at h h'; subst h; subst h'; rfl
  | true =>
    simp only [if_true] at h h'
    have := toLut_rel hc w w' fuel [{ b := -kPropRangeFast - 1, e := kPropRangeFast - 1, pos := 0 }] (fun _ => none) (fun _ => none)
    unfold treeToLookupTable at h h'
    rw [h, h', Option.map_some, Option.map_some] at this
    exact Option.some.inj this

theorem roundProps_mod (n : Nat) : (roundProps n - 16) % 4 = 0 := by
  unfold roundProps kNumNonref
  split <;> omega

/-- All of it holds for a well-formed tree. -/
theorem facts {tree : List Node} {t : Dtree} (hw : TreeWf tree t) (sp : Nat → Int) (cm : List Nat)
    (hcm : ∀ (i : Nat) (n : Node), tree[i]? = some n → n.property = -1 → n.lchild < cm.length ∧ n.lchild < 65536) (h8 : ∀ c ∈ cm, c < 256) :
    ∃ F nodes wlE glE wlD glD, Facts tree t sp cm F nodes wlE glE wlD glD := by
  obtain ⟨F, hF, hnp, hl1, hl2⟩ := C21_flattened hw sp
  obtain ⟨nodes, hC, hlD⟩ := hl2 cm (fun i n h k => (hcm i n h k).1)
  obtain ⟨F2, hF2, e1, e2, -, e4⟩ := C21_evaluator_choice hw sp
  obtain ⟨F3, hF3, -, e5, f, -, e6, -, -⟩ := filterTree_total hw sp
  rw [hF] at hF2 hF3
  injection hF2 with hF2
  subst hF2
  injection hF3 with hF3
  subst hF3
  have hleafE : ∀ i, FlatNode.leaf i ∈ F.nodes → i.ctx < 65536 := by
    intro i hi
    obtain ⟨c, n, k1, k2, k3⟩ := e5 i hi
    rw [k3]; exact (hcm c n k1 k2).2
  have hCE := clusterContexts_range hleafE
  have hget : ∀ k, k < 65536 → (List.range 65536).getD k 0 = k := by
    intro k hk
    rw [List.getD_eq_getElem?_getD, List.getElem?_range hk]; rfl
  obtain ⟨wlE, glE, a1, a2, a3, a4⟩ := lut_exists hw sp (List.range 65536) 16 (by
    intro i n h k
    have := (hcm i n h k).2
    rw [List.length_range, hget _ this]
    exact ⟨this, this⟩) hF hCE
  have hcm8 : ∀ k, k < cm.length → cm.getD k 0 < 256 := by
    intro k hk
    rw [List.getD_eq_getElem?_getD, List.getElem?_eq_getElem hk]
    exact h8 _ (List.getElem_mem hk)
  obtain ⟨wlD, glD, b1, b2, b3, b4⟩ := lut_exists hw sp cm 8 (fun i n h k => ⟨(hcm i n h k).1, hcm8 _ (hcm i n h k).1⟩) hF hC
  have hid : ∀ P pred lut, LutOk t sp P pred (fun c => (List.range 65536).getD c 0) lut → LutOk t sp P pred id lut := by
    intro P pred lut h u hu hx
    obtain ⟨k1, k2⟩ := h u hu hx
    refine ⟨?_, k2⟩
    obtain ⟨c, n, j1, j2, j3⟩ := represents_eval hw.rep u
    have hlt : (t.eval u).ctx < 65536 := by rw [j3]; exact (hcm c n j1 j2).2
    rw [k1]
    exact congrArg some (hget _ hlt)
  refine ⟨F, nodes, wlE, glE, wlD, glD, ?_⟩
  refine { hF := hF, hC := hC, np := hnp, np4 := by rw [e6]; exact roundProps_mod _, look := hl1, lookD := hlD, noWp := e1, one := ?_, oneD := single_cluster hC, eWl := a1, eGl := a2, dWl := b1, dGl := b2,
           sameWl := lutIf_rel hC 16 8 _ _ a1 b1, sameGl := lutIf_rel hC 16 8 _ _ a2 b2, okWlE := fun lut h => hid _ _ _ (a3 lut h), okGlE := fun lut h => hid _ _ _ (a4 lut h), okWlD := b3, okGlD := b4,
           wpUse := fun h => (e2 h).1, leaves := fun u => represents_eval hw.rep u }
  intro i hi u hu
  have hN : F.nodes = [.leaf i] := by
    revert hi
    unfold single
    split
    · intro h; injection h with h; subst h; assumption
    · intro h; cases h
  have k := hl1 ((List.range F.numProps).map u) (by simp) (fun p hp => by rw [propAt_range u _ p (by omega)]; exact hu p hp)
  rw [hN] at k
  have k2 : i = t.eval (propAt ((List.range F.numProps).map u)) := Option.some.inj k
  rw [k2]
  exact e4 _ _ (fun p hp => by rw [propAt_range u _ p (by omega)]; exact hu p hp) (fun p hp => by rw [propAt_range u _ p hp])

end Jxl.Modular
