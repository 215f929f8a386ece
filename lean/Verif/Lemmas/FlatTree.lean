import Verif.Model.FlatTree
import Verif.Lemmas.MaTreeValidate
/-!
# Lemmas about the specialised decision trees
-/
namespace Jxl.MaTree

/-- The tree with the comparisons of static properties resolved. -/
def Dtree.resolve (sp : Nat → Int) : Dtree → Dtree
  | .leaf i => .leaf i
  | .split p v l r =>
    if p < kNumStatic then (if sp p > v then l.resolve sp else r.resolve sp)
    else .split p v (l.resolve sp) (r.resolve sp)

theorem resolve_eval {sp props : Nat → Int} (h : ∀ p, p < kNumStatic → props p = sp p) (t : Dtree) : (t.resolve sp).eval props = t.eval props := by
  induction t with
  | leaf i => rfl
  | split p v l r ihl ihr =>
    simp only [Dtree.resolve]
    split
    · rename_i hp
      simp only [Dtree.eval, h p hp]
      split <;> assumption
    · simp only [Dtree.eval, ihl, ihr]

/-- How one side of a flattened node relates to the abstract subtree: a leaf is entered twice
behind a placeholder, an inner node contributes its two children. -/
inductive Side : Nat → Int → Dtree → Dtree → Dtree → Prop where
  | leaf (i : LeafInfo) : Side 0 0 (.leaf i) (.leaf i) (.leaf i)
  | split {p : Nat} (v : Int) (a b : Dtree) : kNumStatic ≤ p → Side p v a b (.split p v a b)

/-- Entry `pos` of the flattened array stands for the tree. -/
inductive FlatRep (nodes : List FlatNode) : Nat → Dtree → Prop where
  | leaf {pos i} : nodes[pos]? = some (.leaf i) → FlatRep nodes pos (.leaf i)
  | split {pos p0 v0 pa va pb vb child a b c d L R} : nodes[pos]? = some (.split p0 v0 pa va pb vb child) → kNumStatic ≤ p0 →
      Side pa va a b L → Side pb vb c d R →
      FlatRep nodes child a → FlatRep nodes (child + 1) b → FlatRep nodes (child + 2) c → FlatRep nodes (child + 3) d →
      FlatRep nodes pos (.split p0 v0 L R)

theorem represents_forward_lt {tree : List Node} {i : Nat} {t : Dtree} (h : Represents tree i t) : i < tree.length := by
  cases h with
  | leaf h _ => exact (List.getElem?_eq_some_iff.mp h).1
  | split h _ _ _ => exact (List.getElem?_eq_some_iff.mp h).1

theorem skipStatic_spec {tree : List Node} (hF : Forward tree) (sp : Nat → Int) : ∀ (fuel i : Nat) (t : Dtree), Represents tree i t → tree.length < fuel + i + 1 →
    ∃ c n t', skipStatic tree sp fuel i = some (c, n) ∧ tree[c]? = some n ∧ Represents tree c t' ∧ t'.resolve sp = t.resolve sp ∧ (n.property = -1 ∨ (kNumStatic : Int) ≤ n.property) ∧ t'.size ≤ t.size := by
  intro fuel
  induction fuel with
  | zero => intro i t ht h; have := represents_forward_lt ht; omega
  | succ fuel ih =>
    intro i t ht h
    rw [skipStatic]
    cases ht with
    | @leaf _ n h1 h2 =>
      refine ⟨i, n, .leaf n.info, ?_, h1, .leaf h1 h2, rfl, Or.inl h2, Nat.le_refl _⟩
      rw [h1]; simp only
      rw [if_neg (by omega)]
    | @split _ n l r h1 h2 hl hr =>
      rw [h1]; simp only
      by_cases hs : n.property < (kNumStatic : Int)
      · rw [if_pos ⟨hs, by omega⟩, if_neg (by omega)]
        have hfw := hF i n h1
        have hpn : n.property.toNat < kNumStatic := by omega
        by_cases hc : sp n.property.toNat > n.splitval
        · rw [if_pos hc]
          obtain ⟨c, m, t', e1, e2, e3, e4, e5, e6⟩ := ih n.lchild l hl (by omega)
          refine ⟨c, m, t', e1, e2, e3, ?_, e5, by simp [Dtree.size]; omega⟩
          rw [e4]; simp [Dtree.resolve, hpn, hc]
        · rw [if_neg hc]
          obtain ⟨c, m, t', e1, e2, e3, e4, e5, e6⟩ := ih n.rchild r hr (by omega)
          refine ⟨c, m, t', e1, e2, e3, ?_, e5, by simp [Dtree.size]; omega⟩
          rw [e4]; simp [Dtree.resolve, hpn, hc]
      · rw [if_neg (by omega)]
        exact ⟨i, n, _, rfl, h1, .split h1 h2 hl hr, rfl, Or.inr (by omega), Nat.le_refl _⟩

/-- The side stored for a child, and the subtrees of the two nodes queued for it. -/
theorem flatSide_spec {tree : List Node} {sp : Nat → Int} {c : Nat} {n : Node} {t : Dtree} (h1 : tree[c]? = some n) (ht : Represents tree c t)
    (hp : n.property = -1 ∨ (kNumStatic : Int) ≤ n.property) :
    ∃ a b, Represents tree (flatSide c n).2.2.1 a ∧ Represents tree (flatSide c n).2.2.2 b ∧
      Side (flatSide c n).1 (flatSide c n).2.1 (a.resolve sp) (b.resolve sp) (t.resolve sp) ∧ a.size + b.size ≤ t.size + 1 := by
  cases ht with
  | @leaf _ m g1 g2 =>
    rw [h1] at g1; cases g1
    refine ⟨.leaf n.info, .leaf n.info, ?_, ?_, ?_, ?_⟩
    · simp only [flatSide, if_pos g2]; exact .leaf h1 g2
    · simp only [flatSide, if_pos g2]; exact .leaf h1 g2
    · simp only [flatSide, if_pos g2, Dtree.resolve]; exact .leaf _
    · simp [Dtree.size]
  | @split _ m l r g1 g2 gl gr =>
    rw [h1] at g1; cases g1
    have hne : n.property ≠ -1 := by omega
    refine ⟨l, r, ?_, ?_, ?_, ?_⟩
    · simp only [flatSide, if_neg hne]; exact gl
    · simp only [flatSide, if_neg hne]; exact gr
    · have hk : ¬ n.property.toNat < kNumStatic := by omega
      simp only [flatSide, if_neg hne, Dtree.resolve, if_neg hk]
      exact .split _ _ _ (by omega)
    · simp only [Dtree.size]; omega

/-- Upper bound for the number of steps spent on a subtree. -/
def weight (t : Dtree) : Nat := 2 * t.size - 1

theorem size_pos (t : Dtree) : 0 < t.size := by cases t <;> simp [Dtree.size] <;> omega

theorem filter_out {tree : List Node} (hF : Forward tree) {sp : Nat → Int} : ∀ (fuel : Nat) (q : List Nat) (out out' : List FlatNode),
    filterLoop tree sp fuel q out = some out' →
      out <+: out' ∧ ∀ (j c : Nat) (u : Dtree), q[j]? = some c → Represents tree c u → FlatRep out' (out.length + j) (u.resolve sp) := by
  intro fuel
  induction fuel with
  | zero => intro q out out' h; simp [filterLoop] at h
  | succ fuel ih =>
    intro q out out' h
    cases q with
    | nil =>
      simp only [filterLoop, Option.some.injEq] at h
      subst h
      exact ⟨List.prefix_refl _, by simp⟩
    | cons cur q =>
      rw [filterLoop] at h
      cases hc : skipStatic tree sp (tree.length + 1) cur with
      | none => rw [hc] at h; cases h
      | some cn =>
        obtain ⟨c1, n⟩ := cn
        rw [hc] at h
        simp only at h
        split at h
        · rename_i hp
          obtain ⟨h1, h2⟩ := ih _ _ _ h
          obtain ⟨suf, hsuf⟩ := h1
          refine ⟨⟨_, by rw [← hsuf, List.append_assoc]⟩, ?_⟩
          intro j c u hj hu
          cases j with
          | zero =>
            simp at hj; subst hj
            obtain ⟨c', n', t', e1, e2, e3, e4, e5, -⟩ := skipStatic_spec hF sp (tree.length + 1) cur u hu (by omega)
            rw [hc] at e1; cases e1
            rw [← e4]
            cases e3 with
            | leaf g1 g2 =>
              rw [e2] at g1; cases g1
              refine .leaf ?_
              rw [← hsuf]; simp [Node.info]
            | split g1 g2 _ _ => rw [e2] at g1; cases g1; omega
          | succ j =>
            have := h2 j c u (by simpa using hj) hu
            simp only [List.length_append, List.length_cons, List.length_nil] at this
            rwa [show out.length + (j + 1) = out.length + 1 + j from by omega]
        · rename_i hp
          cases hA : skipStatic tree sp (tree.length + 1) n.lchild with
          | none => rw [hA] at h; cases h
          | some A =>
          cases hB : skipStatic tree sp (tree.length + 1) n.rchild with
          | none => rw [hA, hB] at h; cases h
          | some Bx =>
          obtain ⟨ca, na⟩ := A
          obtain ⟨cb, nb⟩ := Bx
          rw [hA, hB] at h
          simp only at h
          obtain ⟨h1, h2⟩ := ih _ _ _ h
          obtain ⟨suf, hsuf⟩ := h1
          refine ⟨⟨_, by rw [← hsuf, List.append_assoc]⟩, ?_⟩
          intro j c u hj hu
          cases j with
          | zero =>
            simp at hj; subst hj
            obtain ⟨c', n', t', e1, e2, e3, e4, e5, -⟩ := skipStatic_spec hF sp (tree.length + 1) cur u hu (by omega)
            rw [hc] at e1; cases e1
            rw [← e4]
            cases e3 with
            | leaf g1 g2 => rw [e2] at g1; cases g1; omega
            | @split _ m l r g1 g2 gl gr =>
              rw [e2] at g1; cases g1
              have hk : ¬ n.property.toNat < kNumStatic := by omega
              obtain ⟨_, _, tA, a1, a2, a3, a4, a5, -⟩ := skipStatic_spec hF sp (tree.length + 1) n.lchild l gl (by omega)
              rw [hA] at a1; cases a1
              obtain ⟨_, _, tB, b1, b2, b3, b4, b5, -⟩ := skipStatic_spec hF sp (tree.length + 1) n.rchild r gr (by omega)
              rw [hB] at b1; cases b1
              obtain ⟨x, y, sx, sy, sside, -⟩ := flatSide_spec (sp := sp) a2 a3 a5
              obtain ⟨z, w, sz, sw, sside', -⟩ := flatSide_spec (sp := sp) b2 b3 b5
              have q0 := h2 q.length _ x (by simp) sx
              have q1 := h2 (q.length + 1) _ y (by simp) sy
              have q2 := h2 (q.length + 2) _ z (by simp) sz
              have q3 := h2 (q.length + 3) _ w (by simp) sw
              simp only [List.length_append, List.length_cons, List.length_nil] at q0 q1 q2 q3
              simp only [Dtree.resolve, if_neg hk]
              rw [← a4, ← b4]
              refine FlatRep.split (p0 := n.property.toNat) (v0 := n.splitval) (pa := (flatSide ca na).1) (va := (flatSide ca na).2.1) (pb := (flatSide cb nb).1) (vb := (flatSide cb nb).2.1) (child := out.length + q.length + 1) ?_ (by omega) sside sside' ?_ ?_ ?_ ?_
              · rw [← hsuf]; simp
              · rwa [show out.length + q.length + 1 = out.length + (0 + 1) + q.length from by omega]
              · rwa [show out.length + q.length + 1 + 1 = out.length + (0 + 1) + (q.length + 1) from by omega]
              · rwa [show out.length + q.length + 1 + 2 = out.length + (0 + 1) + (q.length + 2) from by omega]
              · rwa [show out.length + q.length + 1 + 3 = out.length + (0 + 1) + (q.length + 3) from by omega]
          | succ j =>
            have hjl : j < q.length := by
              have : q[j]? = some c := by simpa using hj
              exact (List.getElem?_eq_some_iff.mp this).1
            have := h2 j c u (by rw [List.getElem?_append_left hjl]; simpa using hj) hu
            simp only [List.length_append, List.length_cons, List.length_nil] at this
            rwa [show out.length + (j + 1) = out.length + 1 + j from by omega]

/-- The loop ends after at most `2 size - 1` nodes, and is defined. -/
theorem filter_total {tree : List Node} (hF : Forward tree) (sp : Nat → Int) : ∀ (fuel : Nat) (q : List Nat) (us : List Dtree) (out : List FlatNode),
    us.length = q.length → (∀ (j c : Nat) (u : Dtree), q[j]? = some c → us[j]? = some u → Represents tree c u) → (us.map weight).sum < fuel →
      ∃ out', filterLoop tree sp fuel q out = some out' := by
  intro fuel
  induction fuel with
  | zero => intro q us out _ _ h; omega
  | succ fuel ih =>
    intro q us out hl hrep hs
    match q, us, hl with
    | [], [], _ => exact ⟨out, rfl⟩
    | cur :: q, u :: us, hl =>
      have hu := hrep 0 cur u rfl rfl
      have hrest : ∀ (j c : Nat) (u : Dtree), q[j]? = some c → us[j]? = some u → Represents tree c u := fun j c u h1 h2 => hrep (j + 1) c u (by simpa using h1) (by simpa using h2)
      simp at hl
      simp only [List.map_cons, List.sum_cons] at hs
      obtain ⟨c', n, t', e1, e2, e3, e4, e5, e6⟩ := skipStatic_spec hF sp (tree.length + 1) cur u hu (by omega)
      have hup := size_pos u
      rw [filterLoop, e1]
      simp only
      cases e3 with
      | @leaf _ m g1 g2 =>
        rw [e2] at g1; cases g1
        rw [if_pos g2]
        simp only [weight] at hs
        exact ih q us _ hl hrest (by omega)
      | @split _ m l r g1 g2 gl gr =>
        rw [e2] at g1; cases g1
        rw [if_neg (by omega)]
        obtain ⟨ca, na, tA, a1, a2, a3, a4, a5, a6⟩ := skipStatic_spec hF sp (tree.length + 1) n.lchild l gl (by omega)
        obtain ⟨cb, nb, tB, b1, b2, b3, b4, b5, b6⟩ := skipStatic_spec hF sp (tree.length + 1) n.rchild r gr (by omega)
        rw [a1, b1]
        simp only
        obtain ⟨x, y, sx, sy, -, sz⟩ := flatSide_spec (sp := sp) a2 a3 a5
        obtain ⟨z, w, sx', sy', -, sz'⟩ := flatSide_spec (sp := sp) b2 b3 b5
        apply ih _ (us ++ [x, y, z, w])
        · simp; omega
        · intro j c v h1 h2
          by_cases hj : j < q.length
          · rw [List.getElem?_append_left hj] at h1
            rw [List.getElem?_append_left (by omega)] at h2
            exact hrest j c v h1 h2
          · rw [List.getElem?_append_right (by omega)] at h1
            rw [List.getElem?_append_right (by omega), hl] at h2
            rcases hd : j - q.length with _ | _ | _ | _ | k
            · rw [hd] at h1 h2; simp at h1 h2; subst h1; subst h2; exact sx
            · rw [hd] at h1 h2; simp at h1 h2; subst h1; subst h2; exact sy
            · rw [hd] at h1 h2; simp at h1 h2; subst h1; subst h2; exact sx'
            · rw [hd] at h1 h2; simp at h1 h2; subst h1; subst h2; exact sy'
            · rw [hd] at h1; simp at h1
        · have := size_pos x
          have := size_pos y
          have := size_pos z
          have := size_pos w
          simp only [Dtree.size] at e6
          simp only [List.map_append, List.sum_append, List.map_cons, List.map_nil, List.sum_cons, List.sum_nil, weight] at hs ⊢
          omega

/-! ### Lookup -/

def Dtree.AllSplits (f : Nat → Int → Prop) : Dtree → Prop
  | .leaf _ => True
  | .split p v l r => f p v ∧ l.AllSplits f ∧ r.AllSplits f

def Dtree.AllLeaves (f : LeafInfo → Prop) : Dtree → Prop
  | .leaf i => f i
  | .split _ _ l r => l.AllLeaves f ∧ r.AllLeaves f

theorem allSplits_mono {f g : Nat → Int → Prop} (h : ∀ p v, f p v → g p v) {t : Dtree} (ht : t.AllSplits f) : t.AllSplits g := by
  induction t with
  | leaf i => trivial
  | split p v l r ihl ihr => exact ⟨h _ _ ht.1, ihl ht.2.1, ihr ht.2.2⟩

theorem eval_leaf_prop {f : LeafInfo → Prop} {t : Dtree} (h : t.AllLeaves f) (props : Nat → Int) : f (t.eval props) := by
  induction t with
  | leaf i => exact h
  | split p v l r ihl ihr =>
    simp only [Dtree.eval]
    split
    · exact ihl h.1
    · exact ihr h.2

/-- Reading a property. -/
def propAt (props : List Int) (p : Nat) : Int := props.getD p 0

theorem side_lt {p : Nat} {v : Int} {a b L : Dtree} {n : Nat} (h : Side p v a b L) (hL : L.AllSplits (fun p _ => p < n)) (hn : 0 < n) : p < n := by
  cases h with
  | leaf i => exact hn
  | split _ _ _ _ => exact hL.1

theorem side_eval {p : Nat} {v : Int} {a b L : Dtree} (h : Side p v a b L) (props : Nat → Int) :
    L.eval props = if props p ≤ v then b.eval props else a.eval props := by
  cases h with
  | leaf i => simp [Dtree.eval]
  | split _ _ _ _ =>
    simp only [Dtree.eval]
    split <;> split <;> first | rfl | omega

theorem side_splits {f : Nat → Int → Prop} {p : Nat} {v : Int} {a b L : Dtree} (h : Side p v a b L) (hL : L.AllSplits f) : a.AllSplits f ∧ b.AllSplits f := by
  cases h with
  | leaf i => exact ⟨trivial, trivial⟩
  | split _ _ _ _ => exact hL.2

/-- Height in levels of the flattened array. -/
theorem lookup_eval {nodes : List FlatNode} {pos : Nat} {t : Dtree} (h : FlatRep nodes pos t) (props : List Int) (hn : 0 < props.length)
    (hp : t.AllSplits (fun p _ => p < props.length)) : ∀ fuel, t.height < fuel → lookup nodes props fuel pos = some (t.eval (propAt props)) := by
  induction h with
  | leaf h1 =>
    intro fuel hf
    cases fuel with
    | zero => omega
    | succ fuel => simp [lookup, h1, Dtree.eval]
  | @split pos p0 v0 pa va pb vb child a b c d L R h1 h2 sL sR _ _ _ _ iha ihb ihc ihd =>
    intro fuel hf
    cases fuel with
    | zero => omega
    | succ fuel =>
      obtain ⟨q0, qL, qR⟩ := hp
      have ha := side_lt sL qL hn
      have hb := side_lt sR qR hn
      obtain ⟨sa, sb⟩ := side_splits sL qL
      obtain ⟨sc, sd⟩ := side_splits sR qR
      have hg : ∀ p, p < props.length → props[p]? = some (propAt props p) := by
        intro p hp
        rw [propAt, List.getD_eq_getElem?_getD, List.getElem?_eq_getElem hp]; rfl
      have hha : a.height < fuel ∧ b.height < fuel := by
        simp only [Dtree.height] at hf
        cases sL <;> simp only [Dtree.height] at * <;> omega
      have hhc : c.height < fuel ∧ d.height < fuel := by
        simp only [Dtree.height] at hf
        cases sR <;> simp only [Dtree.height] at * <;> omega
      rw [lookup, h1]
      simp only [hg p0 q0, hg pa ha, hg pb hb, Dtree.eval, side_eval sL, side_eval sR]
      by_cases c0 : propAt props p0 ≤ v0
      · have c0' : ¬ propAt props p0 > v0 := by omega
        by_cases c1 : propAt props pb ≤ vb
        · simp only [c0, c0', c1, if_true, if_false]; exact ihd sd fuel hhc.2
        · simp only [c0, c0', c1, if_true, if_false]; exact ihc sc fuel hhc.1
      · have c0' : propAt props p0 > v0 := by omega
        by_cases c1 : propAt props pa ≤ va
        · simp only [c0, c0', c1, if_true, if_false]; exact ihb sb fuel hha.2
        · simp only [c0, c0', c1, if_true, if_false]; exact iha sa fuel hha.1

/-! ### Flags -/

def MemRep (nodes : List FlatNode) (f : Nat → Prop) (g : LeafInfo → Prop) : Prop :=
  ∀ n ∈ nodes, match n with
    | .leaf i => g i
    | .split p0 _ pa _ pb _ _ => f p0 ∧ (kNumStatic ≤ pa → f pa) ∧ (kNumStatic ≤ pb → f pb)

theorem flatRep_all {nodes : List FlatNode} {f : Nat → Prop} {g : LeafInfo → Prop} (hm : MemRep nodes f g) {pos : Nat} {t : Dtree} (h : FlatRep nodes pos t) :
    t.AllSplits (fun p _ => f p) ∧ t.AllLeaves g := by
  induction h with
  | leaf h1 => exact ⟨trivial, hm _ (List.mem_of_getElem? h1)⟩
  | split h1 h2 sL sR _ _ _ _ iha ihb ihc ihd =>
    have := hm _ (List.mem_of_getElem? h1)
    obtain ⟨k0, ka, kb⟩ := this
    refine ⟨⟨k0, ?_, ?_⟩, ?_, ?_⟩
    · cases sL with
      | leaf i => trivial
      | split v a b hp => exact ⟨ka hp, iha.1, ihb.1⟩
    · cases sR with
      | leaf i => trivial
      | split v a b hp => exact ⟨kb hp, ihc.1, ihd.1⟩
    · cases sL with
      | leaf i => exact iha.2
      | split v a b hp => exact ⟨iha.2, ihb.2⟩
    · cases sR with
      | leaf i => exact ihc.2
      | split v a b hp => exact ⟨ihc.2, ihd.2⟩

theorem markNode_num (f : Flags) (n : FlatNode) : f.numProps ≤ (markNode f n).numProps ∧
    (∀ p0 v0 pa va pb vb ch, n = .split p0 v0 pa va pb vb ch → p0 < (markNode f n).numProps ∧ pa < (markNode f n).numProps ∧ pb < (markNode f n).numProps) := by
  cases n with
  | leaf i => exact ⟨Nat.le_refl _, by intros; contradiction⟩
  | split p0 v0 pa va pb vb ch =>
    simp only [markNode, markProperty, countProperty]
    refine ⟨by omega, ?_⟩
    intro a b c d e f' g h
    cases h
    omega

theorem fold_num (l : List FlatNode) : ∀ f : Flags, f.numProps ≤ (l.foldl markNode f).numProps ∧
    MemRep l (fun p => p < (l.foldl markNode f).numProps) (fun _ => True) := by
  induction l with
  | nil => intro f; exact ⟨Nat.le_refl _, by intro n hn; simp at hn⟩
  | cons a l ih =>
    intro f
    simp only [List.foldl_cons]
    obtain ⟨h1, h2⟩ := ih (markNode f a)
    obtain ⟨g1, g2⟩ := markNode_num f a
    refine ⟨by omega, ?_⟩
    intro n hn
    rcases List.mem_cons.mp hn with rfl | hn
    · cases n with
      | leaf i => trivial
      | split p0 v0 pa va pb vb ch =>
        obtain ⟨k1, k2, k3⟩ := g2 _ _ _ _ _ _ _ rfl
        exact ⟨by omega, fun _ => by omega, fun _ => by omega⟩
    · exact h2 n hn

theorem fold_gradient (l : List FlatNode) : ∀ f : Flags, (l.foldl markNode f).gradientOnly = true →
    f.gradientOnly = true ∧ MemRep l (fun p => kNumStatic ≤ p → p = kGradientProp) (fun i => i.predictor = predGradient) := by
  induction l with
  | nil => intro f h; exact ⟨h, by intro n hn; simp at hn⟩
  | cons a l ih =>
    intro f h
    simp only [List.foldl_cons] at h
    obtain ⟨h1, h2⟩ := ih (markNode f a) h
    have key : f.gradientOnly = true ∧ MemRep [a] (fun p => kNumStatic ≤ p → p = kGradientProp) (fun i => i.predictor = predGradient) := by
      cases a with
      | leaf i =>
        simp only [markNode, Bool.and_eq_true, beq_iff_eq] at h1
        refine ⟨h1.1, ?_⟩
        intro n hn
        simp at hn; subst hn; exact h1.2
      | split p0 v0 pa va pb vb ch =>
        simp only [markNode, markProperty, countProperty, Bool.and_eq_true, Bool.not_eq_true', Bool.and_eq_false_imp, decide_eq_true_eq, bne_eq_false_iff_eq] at h1
        obtain ⟨⟨⟨h0, ha⟩, hb⟩, hp⟩ := h1
        refine ⟨h0, ?_⟩
        intro n hn
        simp at hn; subst hn
        exact ⟨hp, fun _ => ha, fun _ => hb⟩
    refine ⟨key.1, ?_⟩
    intro n hn
    rcases List.mem_cons.mp hn with rfl | hn
    · exact key.2 n (by simp)
    · exact h2 n hn

theorem fold_wp (l : List FlatNode) : ∀ f : Flags, (l.foldl markNode f).hasNonWp = false →
    f.hasNonWp = false ∧ MemRep l (fun p => kNumStatic ≤ p → p = kWPProp) (fun i => i.predictor = predWeighted) := by
  induction l with
  | nil => intro f h; exact ⟨h, by intro n hn; simp at hn⟩
  | cons a l ih =>
    intro f h
    simp only [List.foldl_cons] at h
    obtain ⟨h1, h2⟩ := ih (markNode f a) h
    have key : f.hasNonWp = false ∧ MemRep [a] (fun p => kNumStatic ≤ p → p = kWPProp) (fun i => i.predictor = predWeighted) := by
      cases a with
      | leaf i =>
        simp only [markNode, Bool.or_eq_false_iff, bne_eq_false_iff_eq] at h1
        refine ⟨h1.1, ?_⟩
        intro n hn
        simp at hn; subst hn; exact h1.2
      | split p0 v0 pa va pb vb ch =>
        simp only [markNode, markProperty, countProperty, Bool.or_eq_false_iff, Bool.and_eq_false_imp, bne_iff_ne, ne_eq, decide_eq_false_iff_not] at h1
        obtain ⟨⟨⟨h0, ha⟩, hb⟩, hp⟩ := h1
        have conv : ∀ p, (¬ p = kWPProp → ¬ kNumStatic ≤ p) → kNumStatic ≤ p → p = kWPProp := by
          intro p hq hk
          by_cases e : p = kWPProp
          · exact e
          · exact absurd hk (hq e)
        refine ⟨h0, ?_⟩
        intro n hn
        simp at hn; subst hn
        exact ⟨conv _ hp, fun _ => conv _ ha, fun _ => conv _ hb⟩
    refine ⟨key.1, ?_⟩
    intro n hn
    rcases List.mem_cons.mp hn with rfl | hn
    · exact key.2 n (by simp)
    · exact h2 n hn

theorem flatRep_static {nodes : List FlatNode} {pos : Nat} {t : Dtree} (h : FlatRep nodes pos t) : t.AllSplits (fun p _ => kNumStatic ≤ p) := by
  induction h with
  | leaf h1 => trivial
  | split h1 h2 sL sR _ _ _ _ iha ihb ihc ihd =>
    refine ⟨h2, ?_, ?_⟩
    · cases sL with
      | leaf i => trivial
      | split v a b hp => exact ⟨hp, iha, ihb⟩
    · cases sR with
      | leaf i => trivial
      | split v a b hp => exact ⟨hp, ihc, ihd⟩

theorem allSplits_and {f g : Nat → Int → Prop} {t : Dtree} (h1 : t.AllSplits f) (h2 : t.AllSplits g) : t.AllSplits (fun p v => f p v ∧ g p v) := by
  induction t with
  | leaf i => trivial
  | split p v l r ihl ihr => exact ⟨⟨h1.1, h2.1⟩, ihl h1.2.1 h2.2.1, ihr h1.2.2 h2.2.2⟩

end Jxl.MaTree
