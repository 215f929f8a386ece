import Verif.Lemmas.FlatTree
/-!
# Lemmas about the single-property lookup table
-/
namespace Jxl.MaTree

/-- Thresholds on property `P` split a nonempty interval. -/
def Nested (P : Nat) : Int → Int → Dtree → Prop
  | _, _, .leaf _ => True
  | lo, hi, .split p v l r =>
    if p = P then (lo ≤ v ∧ v < hi) ∧ Nested P (v + 1) hi l ∧ Nested P lo v r else Nested P lo hi l ∧ Nested P lo hi r

theorem live_nested {P : Nat} {t : Dtree} : ∀ {C : (Nat → Int) → Prop} {lo hi : Int}, t.Live C → (∀ props, PropsOk props → C props → lo ≤ props P ∧ props P ≤ hi) → Nested P lo hi t := by
  induction t with
  | leaf i => intros; trivial
  | split p v l r ihl ihr =>
    intro C lo hi h hC
    obtain ⟨hl, hr⟩ := h
    simp only [Nested]
    split
    · rename_i hp
      subst hp
      obtain ⟨p1, a1, b1, c1⟩ := live_sat hl
      obtain ⟨p2, a2, b2, c2⟩ := live_sat hr
      have k1 := hC _ a1 b1
      have k2 := hC _ a2 b2
      refine ⟨by omega, ihl hl ?_, ihr hr ?_⟩
      · intro props h1 h2
        have := hC props h1 h2.1
        have := h2.2
        omega
      · intro props h1 h2
        have := hC props h1 h2.1
        have := h2.2
        omega
    · exact ⟨ihl hl (fun props h1 h2 => hC props h1 h2.1), ihr hr (fun props h1 h2 => hC props h1 h2.1)⟩

theorem nested_resolve {P : Nat} (hP : kNumStatic ≤ P) {sp : Nat → Int} {t : Dtree} : ∀ {lo hi : Int}, Nested P lo hi t → Nested P lo hi (t.resolve sp) := by
  induction t with
  | leaf i => intro lo hi h; exact h
  | split p v l r ihl ihr =>
    intro lo hi h
    simp only [Dtree.resolve]
    split
    · have : p ≠ P := by omega
      simp only [Nested, if_neg this] at h
      split
      · exact ihl h.1
      · exact ihr h.2
    · simp only [Nested] at h ⊢
      split
      · rename_i hp
        rw [if_pos hp] at h
        exact ⟨h.1, ihl h.2.1, ihr h.2.2⟩
      · rename_i hp
        rw [if_neg hp] at h
        exact ⟨ihl h.1, ihr h.2⟩

/-- All thresholds split a nonempty interval. -/
def Nest : Int → Int → Dtree → Prop
  | _, _, .leaf _ => True
  | lo, hi, .split _ v l r => (lo ≤ v ∧ v < hi) ∧ Nest (v + 1) hi l ∧ Nest lo v r

theorem nested_nest {P : Nat} {t : Dtree} : ∀ {lo hi : Int}, Nested P lo hi t → t.AllSplits (fun p _ => p = P) → Nest lo hi t := by
  induction t with
  | leaf i => intros; trivial
  | split p v l r ihl ihr =>
    intro lo hi h hs
    obtain ⟨h0, h1, h2⟩ := hs
    simp only [Nested, if_pos h0] at h
    exact ⟨h.1, ihl h.2.1 h1, ihr h.2.2 h2⟩

/-- The value of the tree when the one property has value `i`. -/
def Dtree.evalAt (t : Dtree) (i : Int) : LeafInfo := t.eval (fun _ => i)

theorem eval_evalAt {P : Nat} {t : Dtree} (h : t.AllSplits (fun p _ => p = P)) (props : Nat → Int) : t.eval props = t.evalAt (props P) := by
  induction t with
  | leaf i => rfl
  | split p v l r ihl ihr =>
    obtain ⟨h0, h1, h2⟩ := h
    simp only [Dtree.evalAt, Dtree.eval] at *
    rw [ihl h1, ihr h2, h0]

/-- Thresholds that the table construction lets through. -/
def Bounded (t : Dtree) : Prop := t.AllSplits (fun _ v => -kPropRangeFast - 1 ≤ v ∧ v < kPropRangeFast - 1)

theorem side_cases {P : Nat} {v : Int} {a b L : Dtree} (h : Side P v a b L) :
    (¬ kNumStatic ≤ P ∧ ∃ i, L = .leaf i ∧ a = .leaf i ∧ b = .leaf i) ∨ (kNumStatic ≤ P ∧ L = .split P v a b) := by
  cases h with
  | leaf i => exact Or.inl ⟨by decide, i, rfl, rfl, rfl⟩
  | split _ _ _ hp => exact Or.inr ⟨hp, rfl⟩

/-- If the table is built then every threshold and every leaf below every pending range passed
the checks. -/
theorem toLut_checked {w : Nat} {nodes : List FlatNode} : ∀ (fuel : Nat) (stack : List TreeRange) (lut lut' : Lut), toLut w nodes fuel stack lut = some (some lut') →
    ∀ it ∈ stack, ∀ u, FlatRep nodes it.pos u →
      (-kPropRangeFast - 1 ≤ it.b ∧ it.b < kPropRangeFast - 1 ∧ it.e ≤ kPropRangeFast - 1) ∧ Bounded u ∧ u.AllLeaves (fun i => leafFits i = true) := by
  intro fuel
  induction fuel with
  | zero => intro stack lut lut' h; simp [toLut] at h
  | succ fuel ih =>
    intro stack lut lut' h
    cases stack with
    | nil => intro it hit; simp at hit
    | cons cur rest =>
      rw [toLut] at h
      split at h
      · cases h
      rename_i hchk
      cases hn : nodes[cur.pos]? with
      | none => rw [hn] at h; cases h
      | some nd =>
        rw [hn] at h
        cases nd with
        | leaf i =>
          simp only at h
          split at h
          · cases h
          rename_i hfit
          split at h
          · cases h
          rename_i lut2 hfill
          intro it hit u hu
          rcases List.mem_cons.mp hit with rfl | hit
          · cases hu with
            | leaf g1 =>
              rw [hn] at g1; cases g1
              exact ⟨by omega, trivial, by simpa [Dtree.AllLeaves] using hfit⟩
            | split g1 _ _ _ _ _ _ _ => rw [hn] at g1; cases g1
          · exact ih _ _ _ h it hit u hu
        | split p0 v0 pa va pb vb child =>
          simp only at h
          have hrec := ih _ _ _ h
          intro it hit u hu
          rcases List.mem_cons.mp hit with rfl | hit
          · cases hu with
            | leaf g1 => rw [hn] at g1; cases g1
            | @split _ _ _ _ _ _ _ _ a b c d L R g1 g2 sL sR fa fb fc fd =>
              rw [hn] at g1; cases g1
              refine ⟨by omega, ?_⟩
              have kA : (-kPropRangeFast - 1 ≤ v0 ∧ v0 < kPropRangeFast - 1) ∧ Bounded L ∧ L.AllLeaves (fun i => leafFits i = true) := by
                rcases side_cases sL with ⟨hp, i, rfl, rfl, rfl⟩ | ⟨hp, rfl⟩
                · have := hrec { b := v0, e := it.e, pos := child } (by simp [rangesA, hp]) _ fa
                  exact ⟨by simp only at this; omega, this.2⟩
                · have k1 := hrec { b := v0, e := va, pos := child + 1 } (by simp [rangesA, hp]) _ fb
                  have k2 := hrec { b := va, e := it.e, pos := child } (by simp [rangesA, hp]) _ fa
                  simp only at k1 k2
                  exact ⟨by omega, ⟨by omega, k2.2.1, k1.2.1⟩, ⟨k2.2.2, k1.2.2⟩⟩
              have kB : Bounded R ∧ R.AllLeaves (fun i => leafFits i = true) := by
                rcases side_cases sR with ⟨hp, i, rfl, rfl, rfl⟩ | ⟨hp, rfl⟩
                · have := hrec { b := it.b, e := v0, pos := child + 2 } (by simp [rangesB, hp]) _ fc
                  exact this.2
                · have k1 := hrec { b := it.b, e := vb, pos := child + 3 } (by simp [rangesB, hp]) _ fd
                  have k2 := hrec { b := vb, e := v0, pos := child + 2 } (by simp [rangesB, hp]) _ fc
                  simp only at k1 k2
                  exact ⟨⟨by omega, k2.2.1, k1.2.1⟩, ⟨k2.2.2, k1.2.2⟩⟩
              exact ⟨⟨kA.1, kA.2.1, kB.1⟩, ⟨kA.2.2, kB.2⟩⟩
          · exact hrec it (by simp [hit]) u hu

/-- A pending range: the subtree agrees with the whole tree on it. -/
def Pend (nodes : List FlatNode) (T : Dtree) (it : TreeRange) : Prop :=
  ∃ u lo hi, FlatRep nodes it.pos u ∧ Nest lo hi u ∧ Bounded u ∧ (it.b = lo - 1 ∨ it.b = -kPropRangeFast - 1) ∧ (it.e = hi ∨ it.e = kPropRangeFast - 1) ∧
    ∀ i, it.b < i → i ≤ it.e → u.evalAt i = T.evalAt i

theorem evalAt_split (p : Nat) (v : Int) (l r : Dtree) (i : Int) : (Dtree.split p v l r).evalAt i = if i > v then l.evalAt i else r.evalAt i := rfl

theorem toLut_pending {w : Nat} {nodes : List FlatNode} {T : Dtree} : ∀ (fuel : Nat) (stack : List TreeRange) (lut lut' : Lut), (∀ it ∈ stack, Pend nodes T it) →
    toLut w nodes fuel stack lut = some (some lut') → ∀ i : Int, ((∃ it ∈ stack, it.b < i ∧ i ≤ it.e) ∨ lut i = some ((T.evalAt i).ctx % 2 ^ w)) → lut' i = some ((T.evalAt i).ctx % 2 ^ w) := by
  intro fuel
  induction fuel with
  | zero => intro stack lut lut' _ h; simp [toLut] at h
  | succ fuel ih =>
    intro stack lut lut' hP h i hi
    cases stack with
    | nil =>
      simp only [toLut, Option.some.injEq] at h
      subst h
      rcases hi with ⟨it, hit, _⟩ | hi
      · simp at hit
      · exact hi
    | cons cur rest =>
      rw [toLut] at h
      split at h
      · cases h
      rename_i hchk
      obtain ⟨u, lo, hi', hrep, hnest, hbd, hb, he, hcons⟩ := hP cur (by simp)
      have hPr : ∀ it ∈ rest, Pend nodes T it := fun it hit => hP it (by simp [hit])
      cases hrep with
      | @leaf _ inf g1 =>
        rw [g1] at h
        simp only at h
        split at h
        · cases h
        split at h
        · cases h
        rename_i lut2 hfill
        apply ih rest lut2 lut' hPr h
        unfold fill at hfill
        split at hfill
        · cases hfill
        simp only [Option.some.injEq] at hfill
        subst hfill
        by_cases hin : cur.b < i ∧ i ≤ cur.e
        · right
          simp only [if_pos hin]
          rw [← hcons i hin.1 hin.2]; rfl
        · rcases hi with ⟨it, hit, h1⟩ | hi
          · rcases List.mem_cons.mp hit with rfl | hit
            · exact absurd h1 hin
            · exact Or.inl ⟨it, hit, h1⟩
          · right
            simp only [if_neg hin]; exact hi
      | @split _ p0 v0 pa va pb vb child a b c d L R g1 g2 sL sR fa fb fc fd =>
        rw [g1] at h
        simp only at h
        obtain ⟨hv, hnL, hnR⟩ := hnest
        obtain ⟨hb0, hbL, hbR⟩ := hbd
        have hA : ∀ it ∈ rangesA v0 pa va child cur.e, Pend nodes T it := by
          rcases side_cases sL with ⟨hp, j, rfl, rfl, rfl⟩ | ⟨hp, rfl⟩
          · intro it hit
            simp only [rangesA, if_neg hp, List.mem_singleton] at hit
            subst hit
            refine ⟨_, v0 + 1, hi', fa, trivial, trivial, Or.inl (by simp only; omega), he, ?_⟩
            intro k k1 k2
            simp only at k1 k2
            rw [← hcons k (by omega) k2, evalAt_split, if_pos (by omega)]
          · obtain ⟨hva, hna, hnb⟩ := hnL
            obtain ⟨hba, hbA, hbB⟩ := hbL
            intro it hit
            simp only [rangesA, if_pos hp, List.mem_cons, List.not_mem_nil, or_false] at hit
            rcases hit with rfl | rfl
            · refine ⟨_, v0 + 1, va, fb, hnb, hbB, Or.inl (by simp only; omega), Or.inl rfl, ?_⟩
              intro k k1 k2
              simp only at k1 k2
              rw [← hcons k (by omega) (by omega), evalAt_split, if_pos (by omega), evalAt_split, if_neg (by omega)]
            · refine ⟨_, va + 1, hi', fa, hna, hbA, Or.inl (by simp only; omega), he, ?_⟩
              intro k k1 k2
              simp only at k1 k2
              rw [← hcons k (by omega) k2, evalAt_split, if_pos (by omega), evalAt_split, if_pos (by omega)]
        have hB : ∀ it ∈ rangesB v0 pb vb child cur.b, Pend nodes T it := by
          rcases side_cases sR with ⟨hp, j, rfl, rfl, rfl⟩ | ⟨hp, rfl⟩
          · intro it hit
            simp only [rangesB, if_neg hp, List.mem_singleton] at hit
            subst hit
            refine ⟨_, lo, v0, fc, trivial, trivial, hb, Or.inl rfl, ?_⟩
            intro k k1 k2
            simp only at k1 k2
            rw [← hcons k k1 (by omega), evalAt_split, if_neg (by omega)]
          · obtain ⟨hva, hna, hnb⟩ := hnR
            obtain ⟨hba, hbA, hbB⟩ := hbR
            intro it hit
            simp only [rangesB, if_pos hp, List.mem_cons, List.not_mem_nil, or_false] at hit
            rcases hit with rfl | rfl
            · refine ⟨_, lo, vb, fd, hnb, hbB, hb, Or.inl rfl, ?_⟩
              intro k k1 k2
              simp only at k1 k2
              rw [← hcons k k1 (by omega), evalAt_split, if_neg (by omega), evalAt_split, if_neg (by omega)]
            · refine ⟨_, vb + 1, v0, fc, hna, hbA, Or.inl (by simp only; omega), Or.inl rfl, ?_⟩
              intro k k1 k2
              simp only at k1 k2
              rw [← hcons k (by omega) (by omega), evalAt_split, if_neg (by omega), evalAt_split, if_pos (by omega)]
        refine ih _ lut lut' ?_ h i ?_
        · intro it hit
          simp only [List.mem_append] at hit
          rcases hit with (hit | hit) | hit
          · exact hB it hit
          · exact hA it hit
          · exact hPr it hit
        · rcases hi with ⟨it, hit, h1⟩ | hi
          · left
            rcases List.mem_cons.mp hit with rfl | hit
            · by_cases hiv : i > v0
              · by_cases hp : kNumStatic ≤ pa
                · by_cases hia : i > va
                  · exact ⟨{ b := va, e := it.e, pos := child }, by simp [rangesA, hp], by simp only; omega⟩
                  · exact ⟨{ b := v0, e := va, pos := child + 1 }, by simp [rangesA, hp], by simp only; omega⟩
                · exact ⟨{ b := v0, e := it.e, pos := child }, by simp [rangesA, hp], by simp only; omega⟩
              · by_cases hp : kNumStatic ≤ pb
                · by_cases hia : i > vb
                  · exact ⟨{ b := vb, e := v0, pos := child + 2 }, by simp [rangesB, hp], by simp only; omega⟩
                  · exact ⟨{ b := it.b, e := vb, pos := child + 3 }, by simp [rangesB, hp], by simp only; omega⟩
                · exact ⟨{ b := it.b, e := v0, pos := child + 2 }, by simp [rangesB, hp], by simp only; omega⟩
            · exact ⟨it, by simp [hit], h1⟩
          · exact Or.inr hi

/-- The construction ends and stays inside the arrays. -/
theorem toLut_total {w : Nat} {nodes : List FlatNode} : ∀ (fuel : Nat) (stack : List TreeRange) (us : List Dtree) (lut : Lut), us.length = stack.length →
    (∀ (j : Nat) (it : TreeRange) (u : Dtree), stack[j]? = some it → us[j]? = some u → FlatRep nodes it.pos u) → (us.map Dtree.size).sum < fuel →
      ∃ o, toLut w nodes fuel stack lut = some o := by
  intro fuel
  induction fuel with
  | zero => intro stack us lut _ _ h; omega
  | succ fuel ih =>
    intro stack us lut hl hrep hs
    match stack, us, hl with
    | [], [], _ => exact ⟨_, rfl⟩
    | cur :: rest, u :: us, hl =>
      have hu := hrep 0 cur u rfl rfl
      have hrest : ∀ (j : Nat) (it : TreeRange) (u : Dtree), rest[j]? = some it → us[j]? = some u → FlatRep nodes it.pos u := fun j c u h1 h2 => hrep (j + 1) c u (by simpa using h1) (by simpa using h2)
      simp at hl
      simp only [List.map_cons, List.sum_cons] at hs
      rw [toLut]
      by_cases hchk : cur.b < -kPropRangeFast - 1 ∨ cur.b ≥ kPropRangeFast - 1 ∨ cur.e > kPropRangeFast - 1
      · rw [if_pos hchk]; exact ⟨_, rfl⟩
      rw [if_neg hchk]
      cases hu with
      | @leaf _ i g1 =>
        rw [g1]
        simp only
        by_cases hf : (!leafFits i) = true
        · rw [if_pos hf]; exact ⟨_, rfl⟩
        rw [if_neg hf]
        have : fill w lut cur.b cur.e i.ctx = some (fun j => if cur.b < j ∧ j ≤ cur.e then some (i.ctx % 2 ^ w) else lut j) := by
          unfold fill
          rw [if_neg (by omega)]
        rw [this]
        simp only [Dtree.size] at hs
        exact ih rest us _ hl hrest (by omega)
      | @split _ p0 v0 pa va pb vb child a b c d L R g1 g2 sL sR fa fb fc fd =>
        rw [g1]
        simp only
        have hA : ∃ ua : List Dtree, ua.length = (rangesA v0 pa va child cur.e).length ∧ (∀ (j : Nat) (it : TreeRange) (u : Dtree), (rangesA v0 pa va child cur.e)[j]? = some it → ua[j]? = some u → FlatRep nodes it.pos u) ∧ (ua.map Dtree.size).sum ≤ L.size := by
          rcases side_cases sL with ⟨hp, i, rfl, rfl, rfl⟩ | ⟨hp, rfl⟩
          · refine ⟨[.leaf i], by simp [rangesA, hp], ?_, by simp⟩
            intro j it u h1 h2
            simp only [rangesA, if_neg hp] at h1
            rcases j with _ | j
            · simp at h1 h2; subst h1; subst h2; exact fa
            · simp at h1
          · refine ⟨[b, a], by simp [rangesA, hp], ?_, by simp [Dtree.size]; omega⟩
            intro j it u h1 h2
            simp only [rangesA, if_pos hp] at h1
            rcases j with _ | _ | j
            · simp at h1 h2; subst h1; subst h2; exact fb
            · simp at h1 h2; subst h1; subst h2; exact fa
            · simp at h1
        have hB : ∃ ub : List Dtree, ub.length = (rangesB v0 pb vb child cur.b).length ∧ (∀ (j : Nat) (it : TreeRange) (u : Dtree), (rangesB v0 pb vb child cur.b)[j]? = some it → ub[j]? = some u → FlatRep nodes it.pos u) ∧ (ub.map Dtree.size).sum ≤ R.size := by
          rcases side_cases sR with ⟨hp, i, rfl, rfl, rfl⟩ | ⟨hp, rfl⟩
          · refine ⟨[.leaf i], by simp [rangesB, hp], ?_, by simp⟩
            intro j it u h1 h2
            simp only [rangesB, if_neg hp] at h1
            rcases j with _ | j
            · simp at h1 h2; subst h1; subst h2; exact fc
            · simp at h1
          · refine ⟨[d, c], by simp [rangesB, hp], ?_, by simp [Dtree.size]; omega⟩
            intro j it u h1 h2
            simp only [rangesB, if_pos hp] at h1
            rcases j with _ | _ | j
            · simp at h1 h2; subst h1; subst h2; exact fd
            · simp at h1 h2; subst h1; subst h2; exact fc
            · simp at h1
        obtain ⟨ua, a1, a2, a3⟩ := hA
        obtain ⟨ub, b1, b2, b3⟩ := hB
        simp only [Dtree.size] at hs
        have comb : ∀ (s1 s2 : List TreeRange) (u1 u2 : List Dtree), u1.length = s1.length →
            (∀ (j : Nat) (it : TreeRange) (u : Dtree), s1[j]? = some it → u1[j]? = some u → FlatRep nodes it.pos u) →
            (∀ (j : Nat) (it : TreeRange) (u : Dtree), s2[j]? = some it → u2[j]? = some u → FlatRep nodes it.pos u) →
            ∀ (j : Nat) (it : TreeRange) (u : Dtree), (s1 ++ s2)[j]? = some it → (u1 ++ u2)[j]? = some u → FlatRep nodes it.pos u := by
          intro s1 s2 u1 u2 e h1 h2 j it u k1 k2
          by_cases hj : j < s1.length
          · rw [List.getElem?_append_left hj] at k1
            rw [List.getElem?_append_left (by omega)] at k2
            exact h1 j it u k1 k2
          · rw [List.getElem?_append_right (by omega)] at k1
            rw [List.getElem?_append_right (by omega), e] at k2
            exact h2 _ it u k1 k2
        apply ih _ ((ub ++ ua) ++ us)
        · simp; omega
        · exact comb _ _ _ _ (by simp; omega) (comb _ _ _ _ b1 b2 a2) hrest
        · simp only [List.map_append, List.sum_append]
          omega

theorem evalAt_high {t : Dtree} (h : Bounded t) {x : Int} (hx : kPropRangeFast - 1 ≤ x) : t.evalAt x = t.evalAt (kPropRangeFast - 1) := by
  induction t with
  | leaf i => rfl
  | split p v l r ihl ihr =>
    obtain ⟨h0, h1, h2⟩ := h
    rw [evalAt_split, evalAt_split, if_pos (by omega), if_pos (by omega)]
    exact ihl h1

theorem evalAt_low {t : Dtree} (h : t.AllSplits (fun _ v => -kPropRangeFast ≤ v)) {x : Int} (hx : x ≤ -kPropRangeFast) : t.evalAt x = t.evalAt (-kPropRangeFast) := by
  induction t with
  | leaf i => rfl
  | split p v l r ihl ihr =>
    obtain ⟨h0, h1, h2⟩ := h
    rw [evalAt_split, evalAt_split, if_neg (by omega), if_neg (by omega)]
    exact ihr h2

end Jxl.MaTree
