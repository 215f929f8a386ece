import Verif.Lemmas.MaTree
/-!
# Lemmas about the tree validation loop
-/
namespace Jxl.MaTree

/-- The validation loop as a recursive function: `d` is the stack size when the node is looked at. -/
def check : Dtree → List (Int × Int) → Nat → Bool
  | .leaf _, _, d => decide (d < kHeightLimit)
  | .split p v l r, rs, d =>
    decide (d < kHeightLimit) && (decide ((rs.getD p (0, 0)).1 ≤ v) && decide (v < (rs.getD p (0, 0)).2)) &&
      (check l (rs.set p (v + 1, (rs.getD p (0, 0)).2)) (d + 1) && check r (rs.set p ((rs.getD p (0, 0)).1, v)) (d + 1))

/-- All properties of the tree are below `n`. -/
def Dtree.PropsBelow (n : Nat) : Dtree → Prop
  | .leaf _ => True
  | .split p _ l r => p < n ∧ l.PropsBelow n ∧ r.PropsBelow n

/-- Upper ends are 32-bit. -/
def UpperOk (rs : List (Int × Int)) : Prop := ∀ (p : Nat) (x : Int × Int), rs[p]? = some x → x.2 ≤ maxInt

theorem upperOk_set {rs : List (Int × Int)} (h : UpperOk rs) (p : Nat) {x : Int × Int} (hx : x.2 ≤ maxInt) : UpperOk (rs.set p x) := by
  intro q y hy
  rw [List.getElem?_set] at hy
  split at hy
  · split at hy
    · cases hy; exact hx
    · cases hy
  · exact h q y hy

theorem getD_of_lt {rs : List (Int × Int)} {p : Nat} (h : p < rs.length) : rs[p]? = some (rs.getD p (0, 0)) := by
  rw [List.getD_eq_getElem?_getD, List.getElem?_eq_getElem h]; rfl

theorem vrun_next {tree : List Node} {s s' : VSt} (h : vstep tree s = .next s') (fuel : Nat) : vrun tree (fuel + 1) s = vrun tree fuel s' := by
  simp [vrun, h]

theorem vrun_fail {tree : List Node} {s : VSt} (h : vstep tree s = .fail) (fuel : Nat) : vrun tree (fuel + 1) s = some false := by
  simp [vrun, h]

/-- The loop agrees with the recursive function: it either comes back to the state it started
from without the node, or fails. -/
theorem vrun_check {tree : List Node} {i : Nat} {t : Dtree} (ht : Represents tree i t) :
    ∀ (ol ou : Int) (rest : List Item) (rs : List (Int × Int)), t.PropsBelow rs.length → UpperOk rs →
      ∃ k, k ≤ 3 * t.size ∧ ∀ fuel, vrun tree (fuel + k) { stack := { idx := i, origL := ol, origU := ou, act := .checkAndGoLeft } :: rest, ranges := rs } =
        if check t rs (rest.length + 1) then vrun tree fuel { stack := rest, ranges := rs } else some false := by
  induction ht with
  | @leaf i n h1 h2 =>
    intro ol ou rest rs _ _
    refine ⟨1, by simp [Dtree.size], ?_⟩
    intro fuel
    by_cases hd : rest.length + 1 < kHeightLimit
    · have hs : vstep tree { stack := { idx := i, origL := ol, origU := ou, act := .checkAndGoLeft } :: rest, ranges := rs } = .next { stack := rest, ranges := rs } := by
        simp [vstep, h1, vcheck, h2]; omega
      rw [vrun_next hs]; simp [check, hd]
    · have hs : vstep tree { stack := { idx := i, origL := ol, origU := ou, act := .checkAndGoLeft } :: rest, ranges := rs } = .fail := by
        simp [vstep]; omega
      rw [vrun_fail hs]; simp [check, hd]
  | @split i n l r h1 h2 hl hr ihl ihr =>
    intro ol ou rest rs hp hu
    obtain ⟨hp0, hpl, hpr⟩ := hp
    have hx := getD_of_lt hp0
    have hnm : n.property ≠ -1 := by omega
    have hnn : ¬ n.property < 0 := by omega
    have hux := hu _ _ hx
    by_cases hd : rest.length + 1 < kHeightLimit
    case neg =>
      refine ⟨1, by simp [Dtree.size]; omega, ?_⟩
      intro fuel
      have hs : vstep tree { stack := { idx := i, origL := ol, origU := ou, act := .checkAndGoLeft } :: rest, ranges := rs } = .fail := by
        simp [vstep]; omega
      rw [vrun_fail hs]; simp [check, hd]
    have hd' : ¬ rest.length + 1 ≥ kHeightLimit := by omega
    generalize hlo : rs.getD n.property.toNat (0, 0) = x at *
    obtain ⟨lo, hi⟩ := x
    simp only at hux
    by_cases hv : lo ≤ n.splitval ∧ n.splitval < hi
    case neg =>
      refine ⟨1, by simp [Dtree.size]; omega, ?_⟩
      intro fuel
      have hs : vstep tree { stack := { idx := i, origL := ol, origU := ou, act := .checkAndGoLeft } :: rest, ranges := rs } = .fail := by
        simp only [vstep, List.length_cons, if_neg hd', h1, vcheck, if_neg hnm, if_neg hnn, hx]
        rw [if_pos]
        simp; omega
      rw [vrun_fail hs]
      have : check (.split n.property.toNat n.splitval l r) rs (rest.length + 1) = false := by
        simp only [check, hlo, Bool.and_eq_false_imp, Bool.and_eq_true, decide_eq_true_eq]
        intro hh; omega
      simp [this]
    -- step 1
    have hs1 : vstep tree { stack := { idx := i, origL := ol, origU := ou, act := .checkAndGoLeft } :: rest, ranges := rs } =
        .next { stack := { idx := n.lchild, origL := 0, origU := 0, act := .checkAndGoLeft } :: { idx := i, origL := lo, origU := hi, act := .goRight } :: rest, ranges := rs.set n.property.toNat (n.splitval + 1, hi) } := by
      simp only [vstep, List.length_cons, if_neg hd', h1, vcheck, if_neg hnm, if_neg hnn, hx]
      rw [if_neg (by simp; omega), if_neg (by omega)]
    obtain ⟨kl, hkl, hl'⟩ := ihl 0 0 ({ idx := i, origL := lo, origU := hi, act := .goRight } :: rest) (rs.set n.property.toNat (n.splitval + 1, hi)) (by simpa using hpl) (upperOk_set hu _ hux)
    by_cases hcl : check l (rs.set n.property.toNat (n.splitval + 1, hi)) (rest.length + 1 + 1) = true
    case neg =>
      refine ⟨kl + 1, by simp [Dtree.size]; omega, ?_⟩
      intro fuel
      rw [show fuel + (kl + 1) = (fuel + kl) + 1 from by omega, vrun_next hs1, hl' fuel]
      have : check (.split n.property.toNat n.splitval l r) rs (rest.length + 1) = false := by
        simp only [check, hlo, hcl]; simp
      simp only [List.length_cons, hcl, this]; simp
    have hs2 : vstep tree { stack := { idx := i, origL := lo, origU := hi, act := .goRight } :: rest, ranges := rs.set n.property.toNat (n.splitval + 1, hi) } =
        .next { stack := { idx := n.rchild, origL := 0, origU := 0, act := .checkAndGoLeft } :: { idx := i, origL := lo, origU := hi, act := .pop } :: rest, ranges := (rs.set n.property.toNat (n.splitval + 1, hi)).set n.property.toNat (lo, n.splitval) } := by
      simp only [vstep, List.length_cons, if_neg hd', h1, vright]
      rw [if_neg]
      simp; omega
    rw [List.set_set] at hs2
    obtain ⟨kr, hkr, hr'⟩ := ihr 0 0 ({ idx := i, origL := lo, origU := hi, act := .pop } :: rest) (rs.set n.property.toNat (lo, n.splitval)) (by simpa using hpr) (upperOk_set hu _ (by simp only; omega))
    by_cases hcr : check r (rs.set n.property.toNat (lo, n.splitval)) (rest.length + 1 + 1) = true
    case neg =>
      refine ⟨kr + 1 + kl + 1, by simp [Dtree.size]; omega, ?_⟩
      intro fuel
      rw [show fuel + (kr + 1 + kl + 1) = (fuel + kr + 1 + kl) + 1 from by omega, vrun_next hs1, hl' (fuel + kr + 1)]
      simp only [List.length_cons, hcl, if_true]
      rw [vrun_next hs2, hr' fuel]
      have : check (.split n.property.toNat n.splitval l r) rs (rest.length + 1) = false := by
        simp only [check, hlo, hcl, hcr]; simp
      simp only [List.length_cons, hcr, this]; simp
    have hs3 : vstep tree { stack := { idx := i, origL := lo, origU := hi, act := .pop } :: rest, ranges := rs.set n.property.toNat (lo, n.splitval) } =
        .next { stack := rest, ranges := rs } := by
      have hg : (rs.set n.property.toNat (lo, n.splitval))[n.property.toNat]? = some (lo, n.splitval) := List.getElem?_set_self hp0
      simp only [vstep, List.length_cons, if_neg hd', h1, vpop, if_neg hnn, hg]
      rw [List.set_set]
      have : rs.set n.property.toNat (lo, hi) = rs := by
        rw [← hlo]
        have : rs.getD n.property.toNat (0, 0) = rs[n.property.toNat] := by rw [List.getD_eq_getElem?_getD, List.getElem?_eq_getElem hp0]; rfl
        rw [this, List.set_getElem_self]
      rw [this]
    refine ⟨1 + kr + 1 + kl + 1, by simp [Dtree.size]; omega, ?_⟩
    intro fuel
    rw [show fuel + (1 + kr + 1 + kl + 1) = (fuel + 1 + kr + 1 + kl) + 1 from by omega, vrun_next hs1, hl' (fuel + 1 + kr + 1)]
    simp only [List.length_cons, hcl, if_true]
    rw [vrun_next hs2, hr' (fuel + 1)]
    simp only [List.length_cons, hcr, if_true]
    rw [vrun_next hs3]
    have : check (.split n.property.toNat n.splitval l r) rs (rest.length + 1) = true := by
      simp only [check, hlo, hcl, hcr, hd, hv]; simp
    simp [this]

/-! ### Meaning of the recursive function -/

/-- The properties allowed by the ranges. -/
def Box (rs : List (Int × Int)) (props : Nat → Int) : Prop := ∀ (p : Nat) (x : Int × Int), rs[p]? = some x → x.1 ≤ props p ∧ props p ≤ x.2

/-- Ranges are nonempty and 32-bit. -/
def RangesOk (rs : List (Int × Int)) : Prop := ∀ (p : Nat) (x : Int × Int), rs[p]? = some x → minInt ≤ x.1 ∧ x.1 ≤ x.2 ∧ x.2 ≤ maxInt

theorem live_sat {t : Dtree} : ∀ {C : (Nat → Int) → Prop}, t.Live C → ∃ props, PropsOk props ∧ C props := by
  induction t with
  | leaf i => intro C h; exact h
  | split p v l r ihl ihr =>
    intro C h
    obtain ⟨props, h1, h2⟩ := ihl h.1
    exact ⟨props, h1, h2.1⟩

theorem rangesOk_set {rs : List (Int × Int)} (h : RangesOk rs) (p : Nat) {x : Int × Int} (hx : minInt ≤ x.1 ∧ x.1 ≤ x.2 ∧ x.2 ≤ maxInt) : RangesOk (rs.set p x) := by
  intro q y hy
  rw [List.getElem?_set] at hy
  split at hy
  · split at hy
    · cases hy; exact hx
    · cases hy
  · exact h q y hy

theorem box_set {rs : List (Int × Int)} {p : Nat} (hp : p < rs.length) {x y : Int × Int} (hx : rs[p]? = some x) (props : Nat → Int) :
    Box (rs.set p y) props ↔ (∀ (q : Nat) (z : Int × Int), q ≠ p → rs[q]? = some z → z.1 ≤ props q ∧ props q ≤ z.2) ∧ y.1 ≤ props p ∧ props p ≤ y.2 := by
  constructor
  · intro h
    refine ⟨?_, h p y (List.getElem?_set_self hp)⟩
    intro q z hq hz
    apply h q z
    rw [List.getElem?_set_ne (by omega)]; exact hz
  · rintro ⟨h1, h2⟩ q z hz
    by_cases hq : q = p
    · subst hq
      rw [List.getElem?_set_self hp] at hz
      cases hz; exact h2
    · rw [List.getElem?_set_ne (by omega)] at hz
      exact h1 q z hq hz

theorem box_split {rs : List (Int × Int)} {p : Nat} {x : Int × Int} (hx : rs[p]? = some x) (props : Nat → Int) :
    Box rs props ↔ (∀ (q : Nat) (z : Int × Int), q ≠ p → rs[q]? = some z → z.1 ≤ props q ∧ props q ≤ z.2) ∧ x.1 ≤ props p ∧ props p ≤ x.2 := by
  constructor
  · intro h
    exact ⟨fun q z _ hz => h q z hz, h p x hx⟩
  · rintro ⟨h1, h2⟩ q z hz
    by_cases hq : q = p
    · subst hq; rw [hx] at hz; cases hz; exact h2
    · exact h1 q z hq hz

theorem check_live {t : Dtree} : ∀ (rs : List (Int × Int)) (d : Nat) (C : (Nat → Int) → Prop), t.PropsBelow rs.length → RangesOk rs →
    (∀ props, PropsOk props → (C props ↔ Box rs props)) → (check t rs d = true ↔ t.Live C ∧ d + t.height < kHeightLimit) := by
  induction t with
  | leaf i =>
    intro rs d C _ hr hC
    simp only [check, decide_eq_true_eq, Dtree.height, Nat.add_zero, Dtree.Live]
    constructor
    · intro h
      refine ⟨⟨fun p => match rs[p]? with | some x => x.1 | none => 0, ?_, ?_⟩, h⟩
      · intro p
        simp only
        split
        · rename_i x hx
          have := hr p x hx
          omega
        · unfold minInt maxInt; omega
      · rw [hC]
        · intro p x hx
          simp only [hx]
          have := hr p x hx
          omega
        · intro p
          simp only
          split
          · rename_i x hx
            have := hr p x hx
            omega
          · unfold minInt maxInt; omega
    · exact fun h => h.2
  | split p v l r ihl ihr =>
    intro rs d C hp hr hC
    obtain ⟨hp0, hpl, hpr⟩ := hp
    have hx := getD_of_lt hp0
    simp only [check]
    generalize rs.getD p (0, 0) = x at *
    obtain ⟨lo, hi⟩ := x
    have hrx := hr _ _ hx
    simp only at hrx
    by_cases hv : lo ≤ v ∧ v < hi
    · have el := ihl (rs.set p (v + 1, hi)) (d + 1) (fun props => C props ∧ props p > v) (by simpa using hpl) (rangesOk_set hr _ (by simp only; omega)) (by
        intro props hpo
        rw [hC props hpo, box_set hp0 hx, box_split hx]
        constructor
        · rintro ⟨⟨h1, h2⟩, h3⟩; exact ⟨h1, by simp only at *; omega⟩
        · rintro ⟨h1, h2⟩; exact ⟨⟨h1, by simp only at *; omega⟩, by simp only at *; omega⟩)
      have er := ihr (rs.set p (lo, v)) (d + 1) (fun props => C props ∧ props p ≤ v) (by simpa using hpr) (rangesOk_set hr _ (by simp only; omega)) (by
        intro props hpo
        rw [hC props hpo, box_set hp0 hx, box_split hx]
        constructor
        · rintro ⟨⟨h1, h2⟩, h3⟩; exact ⟨h1, by simp only at *; omega⟩
        · rintro ⟨h1, h2⟩; exact ⟨⟨h1, by simp only at *; omega⟩, by simp only at *; omega⟩)
      simp only [Bool.and_eq_true, decide_eq_true_eq, hv, and_self, and_true, el, er, Dtree.Live, Dtree.height]
      constructor
      · rintro ⟨h1, ⟨h2, h3⟩, h4, h5⟩; exact ⟨⟨h2, h4⟩, by omega⟩
      · rintro ⟨⟨h2, h4⟩, h5⟩; exact ⟨by omega, ⟨h2, by omega⟩, h4, by omega⟩
    · constructor
      · intro h
        simp only [Bool.and_eq_true, decide_eq_true_eq] at h
        exact absurd h.1.2 (by omega)
      · rintro ⟨⟨h1, h2⟩, _⟩
        exfalso
        obtain ⟨p1, ha, hb, hc⟩ := live_sat h1
        obtain ⟨p2, ha', hb', hc'⟩ := live_sat h2
        rw [hC _ ha, box_split hx] at hb
        rw [hC _ ha', box_split hx] at hb'
        have := hb.2
        have := hb'.2
        simp only at *
        omega

/-! ### ValidateTree -/

theorem numProperties_ge (tree : List Node) : ∀ (i : Nat) (n : Node), tree[i]? = some n → 0 ≤ n.property → n.property.toNat < numProperties tree := by
  intro i n hn h0
  have key : ∀ (l : List Node) (m : Nat), (m ≤ l.foldl maxProp m) ∧
      ∀ n ∈ l, 0 ≤ n.property → n.property.toNat < l.foldl maxProp m := by
    intro l
    induction l with
    | nil => intro m; exact ⟨Nat.le_refl _, by simp⟩
    | cons a l ih =>
      intro m
      simp only [List.foldl_cons]
      generalize hm : maxProp m a = m'
      have h1 : m ≤ m' := by rw [← hm]; unfold maxProp; split <;> omega
      have h2 : 0 ≤ a.property → a.property.toNat < m' := by intro h; rw [← hm]; unfold maxProp; split <;> omega
      obtain ⟨g1, g2⟩ := ih m'
      refine ⟨by omega, ?_⟩
      intro n hn hp
      rcases List.mem_cons.mp hn with rfl | hn
      · have := h2 hp; omega
      · exact g2 n hn hp
  exact (key tree 0).2 n (List.mem_of_getElem? hn) h0

theorem represents_propsBelow {tree : List Node} {i : Nat} {t : Dtree} (h : Represents tree i t) : t.PropsBelow (numProperties tree) := by
  induction h with
  | leaf _ _ => trivial
  | split h1 h2 _ _ ihl ihr => exact ⟨numProperties_ge tree _ _ h1 h2, ihl, ihr⟩

/-- `ValidateTree` on an array holding a tree of as many nodes: defined, and accepts exactly the
trees all of whose leaves can be reached and that are not too tall. -/
theorem validateTree_spec {tree : List Node} {t : Dtree} (ht : Represents tree 0 t) (hs : t.size = tree.length) :
    ∃ b, validateTree tree = some b ∧ (b = true ↔ t.Live (fun _ => True) ∧ t.height + 1 < kHeightLimit) := by
  have hne : tree.isEmpty = false := by
    cases tree with
    | nil => simp at hs; cases t <;> simp [Dtree.size] at hs <;> omega
    | cons _ _ => rfl
  have hR : ∀ (p : Nat) (x : Int × Int), (List.replicate (numProperties tree) (minInt, maxInt))[p]? = some x → x = (minInt, maxInt) := by
    intro p x hx
    rw [List.getElem?_replicate] at hx
    split at hx
    · exact (Option.some.inj hx).symm
    · cases hx
  obtain ⟨k, hk, hrun⟩ := vrun_check ht 0 0 [] (List.replicate (numProperties tree) (minInt, maxInt)) (by simpa using represents_propsBelow ht) (by
    intro p x hx
    rw [hR p x hx]; simp only; omega)
  have hc := check_live (t := t) (List.replicate (numProperties tree) (minInt, maxInt)) 1 (fun _ => True) (by simpa using represents_propsBelow ht) (by
    intro p x hx
    rw [hR p x hx]; simp only [minInt, maxInt]; omega) (by
    intro props hp
    simp only [true_iff]
    intro p x hx
    rw [hR p x hx]; exact hp p)
  refine ⟨check t (List.replicate (numProperties tree) (minInt, maxInt)) 1, ?_, by rw [hc, Nat.add_comm]⟩
  unfold validateTree
  rw [hne]
  simp only [Bool.false_eq_true, if_false]
  have := hrun (3 * tree.length + 1 - k)
  rw [show 3 * tree.length + 1 - k + k = 3 * tree.length + 1 from by omega] at this
  rw [this]
  simp only [List.length_nil, Nat.zero_add]
  split
  · rename_i h
    rw [h]
    rw [show 3 * tree.length + 1 - k = (3 * tree.length - k) + 1 from by omega]
    simp [vrun, vstep]
  · rename_i h
    simp at h
    rw [h]

end Jxl.MaTree
