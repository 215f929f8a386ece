import Verif.Lemmas.TreeLut
/-!
# Lemmas: contexts replaced by clusters, and trees restricted to a channel
-/
namespace Jxl.MaTree

/-- The leaf with its context replaced by its cluster. -/
def LeafInfo.cluster (cm : List Nat) (i : LeafInfo) : LeafInfo := { i with ctx := cm.getD i.ctx 0 }

def Dtree.cluster (cm : List Nat) : Dtree → Dtree
  | .leaf i => .leaf (i.cluster cm)
  | .split p v l r => .split p v (l.cluster cm) (r.cluster cm)

theorem cluster_eval (cm : List Nat) (t : Dtree) (props : Nat → Int) : (t.cluster cm).eval props = (t.eval props).cluster cm := by
  induction t with
  | leaf i => rfl
  | split p v l r ihl ihr =>
    simp only [Dtree.cluster, Dtree.eval]
    split
    · exact ihl
    · exact ihr

theorem cluster_size (cm : List Nat) (t : Dtree) : (t.cluster cm).size = t.size := by
  induction t with
  | leaf i => rfl
  | split p v l r ihl ihr => simp only [Dtree.cluster, Dtree.size, ihl, ihr]

theorem cluster_height (cm : List Nat) (t : Dtree) : (t.cluster cm).height = t.height := by
  induction t with
  | leaf i => rfl
  | split p v l r ihl ihr => simp only [Dtree.cluster, Dtree.height, ihl, ihr]

theorem cluster_allSplits (cm : List Nat) {f : Nat → Int → Prop} {t : Dtree} (h : t.AllSplits f) : (t.cluster cm).AllSplits f := by
  induction t with
  | leaf i => trivial
  | split p v l r ihl ihr => exact ⟨h.1, ihl h.2.1, ihr h.2.2⟩

theorem cluster_nested (cm : List Nat) {P : Nat} {t : Dtree} : ∀ {lo hi : Int}, Nested P lo hi t → Nested P lo hi (t.cluster cm) := by
  induction t with
  | leaf i => intros; trivial
  | split p v l r ihl ihr =>
    intro lo hi h
    simp only [Dtree.cluster, Nested] at h ⊢
    split
    · rename_i hp; rw [if_pos hp] at h; exact ⟨h.1, ihl h.2.1, ihr h.2.2⟩
    · rename_i hp; rw [if_neg hp] at h; exact ⟨ihl h.1, ihr h.2⟩

theorem resolve_size (sp : Nat → Int) (t : Dtree) : (t.resolve sp).size ≤ t.size := by
  induction t with
  | leaf i => exact Nat.le_refl _
  | split p v l r ihl ihr =>
    simp only [Dtree.resolve]
    split
    · split <;> simp only [Dtree.size] <;> omega
    · simp only [Dtree.size]; omega

theorem resolve_height (sp : Nat → Int) (t : Dtree) : (t.resolve sp).height ≤ t.height := by
  induction t with
  | leaf i => exact Nat.le_refl _
  | split p v l r ihl ihr =>
    simp only [Dtree.resolve]
    split
    · split <;> simp only [Dtree.height] <;> omega
    · simp only [Dtree.height]; omega

theorem resolve_allSplits (sp : Nat → Int) {f : Nat → Int → Prop} {t : Dtree} (h : t.AllSplits f) : (t.resolve sp).AllSplits f := by
  induction t with
  | leaf i => trivial
  | split p v l r ihl ihr =>
    simp only [Dtree.resolve]
    split
    · split
      · exact ihl h.2.1
      · exact ihr h.2.2
    · exact ⟨h.1, ihl h.2.1, ihr h.2.2⟩

theorem clusterContexts_get {cm : List Nat} : ∀ {ns ns' : List FlatNode}, clusterContexts cm ns = some ns' → ∀ (k : Nat) (n : FlatNode), ns[k]? = some n → ∃ n', clusterNode cm n = some n' ∧ ns'[k]? = some n' := by
  intro ns
  induction ns with
  | nil => intro ns' _ k n h; simp at h
  | cons a ns ih =>
    intro ns' h k n hk
    simp only [clusterContexts, Option.bind_eq_some_iff, Option.map_eq_some_iff] at h
    obtain ⟨a', ha, t', ht, rfl⟩ := h
    cases k with
    | zero => simp at hk; subst hk; exact ⟨a', ha, rfl⟩
    | succ k => simp at hk; simpa using ih ht k n hk

theorem clusterContexts_total {cm : List Nat} : ∀ {ns : List FlatNode}, (∀ i, FlatNode.leaf i ∈ ns → i.ctx < cm.length) → ∃ ns', clusterContexts cm ns = some ns' := by
  intro ns
  induction ns with
  | nil => intro _; exact ⟨_, rfl⟩
  | cons a ns ih =>
    intro h
    obtain ⟨t', ht⟩ := ih (fun i hi => h i (by simp [hi]))
    have : ∃ a', clusterNode cm a = some a' := by
      cases a with
      | leaf i => exact ⟨.leaf { i with ctx := cm[i.ctx]'(h i (by simp)) }, by simp [clusterNode, List.getElem?_eq_getElem (h i (by simp))]⟩
      | split => exact ⟨_, rfl⟩
    obtain ⟨a', ha⟩ := this
    exact ⟨a' :: t', by simp only [clusterContexts, ha, ht, Option.bind_some, Option.map_some]⟩

theorem side_cluster (cm : List Nat) {p : Nat} {v : Int} {a b L : Dtree} (h : Side p v a b L) : Side p v (a.cluster cm) (b.cluster cm) (L.cluster cm) := by
  cases h with
  | leaf i => exact Side.leaf _
  | split _ _ _ hp => exact Side.split _ _ _ hp

theorem flatRep_cluster {cm : List Nat} {ns ns' : List FlatNode} (hc : clusterContexts cm ns = some ns') {pos : Nat} {t : Dtree} (h : FlatRep ns pos t) : FlatRep ns' pos (t.cluster cm) := by
  induction h with
  | @leaf pos i h1 =>
    obtain ⟨n', k1, k2⟩ := clusterContexts_get hc _ _ h1
    simp only [clusterNode, Option.map_eq_some_iff] at k1
    obtain ⟨c, hcc, rfl⟩ := k1
    have : i.cluster cm = { i with ctx := c } := by simp [LeafInfo.cluster, List.getD_eq_getElem?_getD, hcc]
    simp only [Dtree.cluster, this]
    exact FlatRep.leaf k2
  | split h1 h2 sL sR _ _ _ _ iha ihb ihc ihd =>
    obtain ⟨n', k1, k2⟩ := clusterContexts_get hc _ _ h1
    simp only [clusterNode, Option.some.injEq] at k1
    subst k1
    exact FlatRep.split k2 h2 (side_cluster cm sL) (side_cluster cm sR) iha ihb ihc ihd

theorem skipStatic_get {tree : List Node} {sp : Nat → Int} : ∀ (fuel i c : Nat) (n : Node), skipStatic tree sp fuel i = some (c, n) → tree[c]? = some n := by
  intro fuel
  induction fuel with
  | zero => intro i c n h; simp [skipStatic] at h
  | succ fuel ih =>
    intro i c n h
    rw [skipStatic] at h
    split at h
    · cases h
    · rename_i m hm
      split at h
      · split at h
        · cases h
        · split at h
          · exact ih _ _ _ h
          · exact ih _ _ _ h
      · simp only [Option.some.injEq, Prod.mk.injEq] at h
        obtain ⟨rfl, rfl⟩ := h
        exact hm

/-- Every leaf of the flattened array is a leaf of the original one. -/
theorem filter_leaves {tree : List Node} {sp : Nat → Int} : ∀ (fuel : Nat) (q : List Nat) (out out' : List FlatNode), filterLoop tree sp fuel q out = some out' →
    ∀ i, FlatNode.leaf i ∈ out' → FlatNode.leaf i ∈ out ∨ ∃ (c : Nat) (n : Node), tree[c]? = some n ∧ n.property = -1 ∧ i.ctx = n.lchild := by
  intro fuel
  induction fuel with
  | zero => intro q out out' h; simp [filterLoop] at h
  | succ fuel ih =>
    intro q out out' h i hi
    cases q with
    | nil => simp only [filterLoop, Option.some.injEq] at h; subst h; exact Or.inl hi
    | cons cur q =>
      rw [filterLoop] at h
      split at h
      · cases h
      · rename_i c n hs
        split at h
        · rename_i hp
          rcases ih _ _ _ h i hi with h1 | h1
          · simp only [List.mem_append, List.mem_singleton, FlatNode.leaf.injEq] at h1
            rcases h1 with h1 | rfl
            · exact Or.inl h1
            · exact Or.inr ⟨c, n, skipStatic_get _ _ _ _ hs, hp, rfl⟩
          · exact Or.inr h1
        · split at h
          · rcases ih _ _ _ h i hi with h1 | h1
            · simp at h1; exact Or.inl h1
            · exact Or.inr h1
          · cases h

end Jxl.MaTree
