import Verif.Model.MaTree
/-!
# Lemmas about the decision tree decoder
-/
namespace Jxl.MaTree

def isSplit (n : Node) : Bool := n.property != -1

/-- Number of inner nodes among the first `i` nodes. -/
def splitsBefore (tree : List Node) (i : Nat) : Nat := (tree.take i).countP isSplit

theorem splitsBefore_le (tree : List Node) (i : Nat) : splitsBefore tree i ≤ i := by
  unfold splitsBefore
  have h1 : (tree.take i).countP isSplit ≤ (tree.take i).length := List.countP_le_length
  rw [List.length_take] at h1
  omega

theorem splitsBefore_succ {tree : List Node} {i : Nat} {n : Node} (h : tree[i]? = some n) :
    splitsBefore tree (i + 1) = splitsBefore tree i + (if isSplit n then 1 else 0) := by
  unfold splitsBefore
  rw [List.take_add_one, h, List.countP_append]
  simp [List.countP_cons, List.countP_nil]

theorem splitsBefore_append {tree : List Node} {i : Nat} (h : i ≤ tree.length) (x : List Node) :
    splitsBefore (tree ++ x) i = splitsBefore tree i := by
  unfold splitsBefore
  rw [List.take_append_of_le_length h]

/-- A well-formed node at index `i`, with `s` inner nodes before it. -/
def NodeOk (s i : Nat) (n : Node) : Prop :=
  (n.property = -1 ∧ n.lchild = i - s ∧ n.predictor < kNumModularPredictors ∧ 0 < n.multiplier ∧ n.multiplier < 2 ^ 31 ∧ minInt ≤ n.offset ∧ n.offset ≤ maxInt) ∨
  (0 ≤ n.property ∧ n.property ≤ 255 ∧ minInt ≤ n.splitval ∧ n.splitval ≤ maxInt ∧ n.lchild = 2 * s + 1 ∧ n.rchild = 2 * s + 2 ∧ i ≤ 2 * s)

/-- A well-formed tree as an array in breadth-first order. -/
structure Bfs (tree : List Node) : Prop where
  nodes : ∀ i n, tree[i]? = some n → NodeOk (splitsBefore tree i) i n
  len : tree.length = 2 * splitsBefore tree tree.length + 1

theorem unpack_range (v : Nat) : minInt ≤ unpack v ∧ unpack v ≤ maxInt := by
  unfold unpack minInt maxInt
  have h1 := BitVec.le_toInt (unpackSigned (BitVec.ofNat 64 v))
  have h2 := BitVec.toInt_lt (x := unpackSigned (BitVec.ofNat 64 v))
  omega

theorem readLeaf_ok {ρ : Type} {R : Reader ρ} {r : ρ} {leafId s i : Nat} {n : Node} {r' : ρ} (hl : leafId = i - s)
    (h : readLeaf R r leafId = some (n, r')) : NodeOk s i n ∧ n.property = -1 := by
  unfold readLeaf at h
  simp only at h
  by_cases h1 : (R.read r kPredictorContext).1 ≥ kNumModularPredictors
  · rw [if_pos h1] at h; cases h
  rw [if_neg h1] at h
  split at h
  · cases h
  rename_i h2
  split at h
  · cases h
  rename_i h3
  simp only [Option.some.injEq, Prod.mk.injEq] at h
  obtain ⟨rfl, rfl⟩ := h
  refine ⟨Or.inl ⟨rfl, hl, by simp only; omega, ?_, ?_, (unpack_range _).1, (unpack_range _).2⟩, rfl⟩
  · exact Nat.mul_pos (by omega) (Nat.two_pow_pos _)
  · have e : (2 : Nat) ^ 31 = 2 ^ (31 - (R.read (R.read (R.read r kPredictorContext).2 kOffsetContext).2 kMultiplierLogContext).1) * 2 ^ (R.read (R.read (R.read r kPredictorContext).2 kOffsetContext).2 kMultiplierLogContext).1 := by
      rw [← Nat.pow_add]; congr 1; omega
    show _ * _ < 2 ^ 31
    rw [e]
    apply Nat.mul_lt_mul_of_pos_right _ (Nat.two_pow_pos _)
    have := Nat.two_pow_pos (31 - (R.read (R.read (R.read r kPredictorContext).2 kOffsetContext).2 kMultiplierLogContext).1)
    omega

/-- The state of the decoding loop between iterations. -/
structure DInv (limit : Nat) (leafId toDecode : Nat) (tree : List Node) : Prop where
  nodes : ∀ i n, tree[i]? = some n → NodeOk (splitsBefore tree i) i n
  cnt : tree.length + toDecode = 2 * splitsBefore tree tree.length + 1
  leaf : leafId = tree.length - splitsBefore tree tree.length
  lim : tree.length ≤ limit + 1

theorem dinv_append {limit leafId toDecode : Nat} {tree : List Node} (h : DInv limit leafId toDecode tree) (hl : tree.length ≤ limit) {n : Node}
    (hn : NodeOk (splitsBefore tree tree.length) tree.length n) {leafId' toDecode' : Nat}
    (ht : toDecode' + 1 = toDecode + if isSplit n then 2 else 0) (hf : leafId' = leafId + if isSplit n then 0 else 1) :
    DInv limit leafId' toDecode' (tree ++ [n]) := by
  have hs : splitsBefore (tree ++ [n]) (tree ++ [n]).length = splitsBefore tree tree.length + (if isSplit n then 1 else 0) := by
    rw [List.length_append, List.length_cons, List.length_nil]
    rw [splitsBefore_succ (n := n) (by simp), splitsBefore_append (Nat.le_refl _)]
  have hle := splitsBefore_le tree tree.length
  refine ⟨?_, ?_, ?_, ?_⟩
  · intro i m hm
    by_cases hi : i < tree.length
    · rw [List.getElem?_append_left hi] at hm
      rw [splitsBefore_append (by omega)]
      exact h.nodes i m hm
    · have hi2 : i = tree.length := by
        have := (List.getElem?_eq_some_iff.mp hm).1
        simp at this; omega
      subst hi2
      simp at hm
      subst hm
      rw [splitsBefore_append (Nat.le_refl _)]
      exact hn
  · rw [hs]
    have := h.cnt
    simp only [List.length_append, List.length_cons, List.length_nil]
    split at ht <;> rename_i hsp <;> simp [hsp] <;> omega
  · rw [hs]
    have := h.leaf
    simp only [List.length_append, List.length_cons, List.length_nil]
    split at hf <;> rename_i hsp <;> simp [hsp] <;> omega
  · simp; omega

theorem decodeLoop_inv {ρ : Type} (R : Reader ρ) (limit : Nat) :
    ∀ (fuel : Nat) (r : ρ) (leafId toDecode : Nat) (tree : List Node), DInv limit leafId toDecode tree → limit + 2 ≤ fuel + tree.length →
      ∃ o, decodeLoop R limit fuel r leafId toDecode tree = some o ∧ ∀ t r', o = some (t, r') → Bfs t ∧ t.length ≤ limit + 1 := by
  intro fuel
  induction fuel with
  | zero => intro r leafId toDecode tree h hf; have := h.lim; omega
  | succ fuel ih =>
    intro r leafId toDecode tree h hf
    rw [decodeLoop]
    by_cases h0 : toDecode = 0
    · rw [if_pos h0]
      refine ⟨_, rfl, ?_⟩
      intro t r' e
      simp only [Option.some.injEq, Prod.mk.injEq] at e
      obtain ⟨rfl, _⟩ := e
      refine ⟨⟨h.nodes, ?_⟩, h.lim⟩
      have := h.cnt; omega
    rw [if_neg h0]
    by_cases h1 : (!R.ok r) = true
    · rw [if_pos h1]; exact ⟨_, rfl, by simp⟩
    rw [if_neg h1]
    by_cases h2 : tree.length > limit
    · rw [if_pos h2]; exact ⟨_, rfl, by simp⟩
    rw [if_neg h2]
    simp only
    by_cases h3 : (R.read r kPropertyContext).1 > 256
    · rw [if_pos h3]; exact ⟨_, rfl, by simp⟩
    rw [if_neg h3]
    by_cases h4 : (R.read r kPropertyContext).1 = 0
    · rw [if_pos h4]
      cases hr : readLeaf R (R.read r kPropertyContext).2 leafId with
      | none => exact ⟨_, rfl, by simp⟩
      | some p =>
        obtain ⟨n, r2⟩ := p
        obtain ⟨hok, hp⟩ := readLeaf_ok h.leaf hr
        have hsp : isSplit n = false := by simp [isSplit, hp]
        apply ih
        · exact dinv_append h (by omega) hok (by simp [hsp]; omega) (by simp [hsp])
        · simp; omega
    · rw [if_neg h4]
      apply ih
      · apply dinv_append h (by omega)
        · refine Or.inr ⟨by simp only; omega, by simp only; omega, (unpack_range _).1, (unpack_range _).2, ?_, ?_, ?_⟩
          all_goals
            have := h.cnt
            try simp only
            omega
        · have hsp : isSplit { property := ((R.read r kPropertyContext).1 : Int) - 1, splitval := unpack (R.read (R.read r kPropertyContext).2 kSplitValContext).1, lchild := tree.length + (toDecode - 1) + 1, rchild := tree.length + (toDecode - 1) + 2, predictor := 0, offset := 0, multiplier := 1 } = true := by
            simp [isSplit]; omega
          rw [hsp]; simp; omega
        · have hsp : isSplit { property := ((R.read r kPropertyContext).1 : Int) - 1, splitval := unpack (R.read (R.read r kPropertyContext).2 kSplitValContext).1, lchild := tree.length + (toDecode - 1) + 1, rchild := tree.length + (toDecode - 1) + 2, predictor := 0, offset := 0, multiplier := 1 } = true := by
            simp [isSplit]; omega
          rw [hsp]; simp
      · simp; omega

/-! ### The abstract tree behind the array -/

/-- What a leaf node says. -/
def Node.info (n : Node) : LeafInfo := { ctx := n.lchild, predictor := n.predictor, offset := n.offset, multiplier := n.multiplier }

/-- Node `i` of the array is the root of `t`. -/
inductive Represents (tree : List Node) : Nat → Dtree → Prop where
  | leaf {i n} : tree[i]? = some n → n.property = -1 → Represents tree i (.leaf n.info)
  | split {i n l r} : tree[i]? = some n → 0 ≤ n.property → Represents tree n.lchild l → Represents tree n.rchild r →
      Represents tree i (.split n.property.toNat n.splitval l r)

/-- Children are inside the array and come after their parents. -/
def Forward (tree : List Node) : Prop :=
  ∀ (i : Nat) (n : Node), tree[i]? = some n → n.property = -1 ∨ (0 ≤ n.property ∧ i < n.lchild ∧ n.lchild < tree.length ∧ i < n.rchild ∧ n.rchild < tree.length)

theorem splitsBefore_mono (tree : List Node) {i j : Nat} (h : i ≤ j) : splitsBefore tree i ≤ splitsBefore tree j := by
  unfold splitsBefore
  apply List.Sublist.countP_le
  exact List.take_sublist_take_left h

theorem bfs_forward {tree : List Node} (h : Bfs tree) : Forward tree := by
  intro i n hn
  rcases h.nodes i n hn with h1 | h1
  · exact Or.inl h1.1
  · right
    obtain ⟨a, b, c, d, e, f, g⟩ := h1
    have hi := (List.getElem?_eq_some_iff.mp hn).1
    have h2 := splitsBefore_succ hn
    have hs : isSplit n = true := by simp [isSplit]; omega
    rw [hs] at h2
    simp at h2
    have h3 := splitsBefore_mono tree (show i + 1 ≤ tree.length by omega)
    have := h.len
    omega

theorem forward_represents {tree : List Node} (h : Forward tree) : ∀ (k i : Nat), tree.length - i = k → i < tree.length → ∃ t, Represents tree i t := by
  intro k
  induction k using Nat.strongRecOn with
  | ind k ih =>
    intro i hk hi
    have hn : tree[i]? = some tree[i] := List.getElem?_eq_getElem hi
    rcases h i _ hn with h1 | ⟨h0, h1, h2, h3, h4⟩
    · exact ⟨_, .leaf hn h1⟩
    · obtain ⟨l, hl⟩ := ih (tree.length - tree[i].lchild) (by omega) _ rfl h2
      obtain ⟨r, hr⟩ := ih (tree.length - tree[i].rchild) (by omega) _ rfl h4
      exact ⟨_, .split hn h0 hl hr⟩

theorem represents_unique {tree : List Node} {i : Nat} {t u : Dtree} (h : Represents tree i t) (h' : Represents tree i u) : t = u := by
  induction h generalizing u with
  | leaf h1 h2 =>
    cases h' with
    | leaf g1 g2 => rw [h1] at g1; cases g1; rfl
    | split g1 g2 _ _ => rw [h1] at g1; cases g1; omega
  | split h1 h2 _ _ ihl ihr =>
    cases h' with
    | leaf g1 g2 => rw [h1] at g1; cases g1; omega
    | split g1 g2 gl gr => rw [h1] at g1; cases g1; rw [ihl gl, ihr gr]

/-- Number of nodes. -/
def Dtree.size : Dtree → Nat
  | .leaf _ => 1
  | .split _ _ l r => 1 + l.size + r.size

/-- The nodes waiting in breadth-first order account for the rest of the array. -/
theorem bfs_frontier {tree : List Node} (h : Bfs tree) : ∀ (k i : Nat) (q : List Dtree), tree.length - i = k → i ≤ tree.length → i + q.length = 2 * splitsBefore tree i + 1 →
    (∀ (j : Nat) (t : Dtree), q[j]? = some t → Represents tree (i + j) t) → (q.map Dtree.size).sum = k := by
  intro k
  induction k with
  | zero =>
    intro i q hk hi hq _
    have : i = tree.length := by omega
    subst this
    have := h.len
    have : q.length = 0 := by omega
    rw [List.length_eq_zero_iff] at this
    subst this; rfl
  | succ k ih =>
    intro i q hk hi hq hrep
    have hlt : i < tree.length := by omega
    have hn : tree[i]? = some tree[i] := List.getElem?_eq_getElem hlt
    have hok := h.nodes i _ hn
    have hsucc := splitsBefore_succ hn
    match q, hq, hrep with
    | [], hq, hrep =>
      exfalso
      -- the frontier is never empty before the end
      have h1 := bfs_forward h
      have hlen := h.len
      simp at hq
      rcases hok with hok | hok
      · obtain ⟨hp, _⟩ := hok
        -- i = 2s+1: the remaining nodes are unreachable; use monotonicity at the end
        have hall : ∀ j, i ≤ j → j ≤ tree.length → splitsBefore tree j = splitsBefore tree i := by
          intro j hj
          induction j with
          | zero => intro _; have : i = 0 := by omega
                    subst this; rfl
          | succ j ihj =>
            intro hjl
            by_cases hij : i = j + 1
            · rw [hij]
            · have e1 := ihj (by omega) (by omega)
              have hj' : tree[j]? = some tree[j] := List.getElem?_eq_getElem (by omega)
              have e2 := splitsBefore_succ hj'
              rcases h.nodes j _ hj' with g | g
              · have : isSplit tree[j] = false := by simp [isSplit, g.1]
                rw [this] at e2; simp at e2; omega
              · have := g.2.2.2.2.2.2
                omega
        have := hall tree.length (by omega) (Nat.le_refl _)
        omega
      · have := hok.2.2.2.2.2.2
        omega
    | t :: q', hq, hrep =>
      have ht := hrep 0 t rfl
      simp only [Nat.add_zero] at ht
      rw [List.map_cons, List.sum_cons]
      cases ht with
      | leaf g1 g2 =>
        rw [hn] at g1; cases g1
        have hsp : isSplit tree[i] = false := by simp [isSplit, g2]
        rw [hsp] at hsucc
        simp at hsucc
        simp at hq
        have := ih (i + 1) q' (by omega) (by omega) (by omega) (by
          intro j u hj
          have := hrep (j + 1) u (by simpa using hj)
          rwa [show i + (j + 1) = i + 1 + j from by omega] at this)
        simp only [Dtree.size]
        omega
      | split g1 g2 gl gr =>
        rename_i n l r
        rw [hn] at g1; cases g1
        have hsp : isSplit tree[i] = true := by simp [isSplit]; omega
        rw [hsp] at hsucc
        simp at hsucc
        simp at hq
        rcases hok with hok | hok
        · omega
        obtain ⟨a, b, c, d, e, f, g⟩ := hok
        have := ih (i + 1) (q' ++ [l, r]) (by omega) (by omega) (by simp; omega) (by
          intro j u hj
          by_cases hjl : j < q'.length
          · rw [List.getElem?_append_left hjl] at hj
            have := hrep (j + 1) u (by simpa using hj)
            rwa [show i + (j + 1) = i + 1 + j from by omega] at this
          · rw [List.getElem?_append_right (by omega)] at hj
            rcases hd : j - q'.length with _ | _ | x
            · rw [hd] at hj; simp at hj; subst hj
              rw [show i + 1 + j = tree[i].lchild from by omega]; exact gl
            · rw [hd] at hj; simp at hj; subst hj
              rw [show i + 1 + j = tree[i].rchild from by omega]; exact gr
            · rw [hd] at hj; simp at hj)
        simp only [List.map_append, List.sum_append, List.map_cons, List.map_nil, List.sum_cons, List.sum_nil] at this
        simp only [Dtree.size]
        omega

theorem bfs_size {tree : List Node} (h : Bfs tree) {t : Dtree} (ht : Represents tree 0 t) : t.size = tree.length := by
  have := bfs_frontier h tree.length 0 [t] (by omega) (by omega) (by simp [splitsBefore]) (by
    intro j u hj
    cases j with
    | zero => simp at hj; subst hj; exact ht
    | succ j => simp at hj)
  simpa using this

end Jxl.MaTree
