import Verif.Lemmas.MaTreeTokens
/-!
# C22: a decoded decision tree is well formed; C44: a written decision tree is read back
-/
namespace Jxl.Props
open Jxl.MaTree

theorem splitsBefore_add (tree : List Node) (i k : Nat) : splitsBefore tree (i + k) ≤ splitsBefore tree i + k := by
  induction k with
  | zero => simp
  | succ k ih =>
    rw [show i + (k + 1) = (i + k) + 1 from by omega]
    by_cases h : i + k < tree.length
    · have := splitsBefore_succ (List.getElem?_eq_getElem h)
      split at this <;> omega
    · unfold splitsBefore at *
      rw [List.take_of_length_le (by omega : tree.length ≤ i + k + 1)]
      rw [List.take_of_length_le (by omega : tree.length ≤ i + k)] at ih
      omega

/-- C22: whatever the symbols, the tree decoder ends, performs no undefined operation, and if it
accepts then the array it returns
* is one tree that uses every entry, with at most one entry more than the size limit,
* has every child inside the array and behind its parent, in breadth-first order,
* has 32-bit thresholds and offsets, predictors and multipliers in the allowed ranges, and leaf
  contexts that are distinct and below the number of contexts `(size + 1) / 2` the caller provides,
* has height at most 2046, and every leaf is selected by some vector of 32-bit properties. -/
theorem C22_decoded_tree {ρ : Type} (R : Reader ρ) (r : ρ) (limit : Nat) :
    ∃ o, decodeTree R r limit = some o ∧ ∀ tree r', o = some (tree, r') →
      tree.length ≤ limit + 1 ∧
      (∃ t, Represents tree 0 t ∧ t.size = tree.length ∧ t.height ≤ 2046 ∧ t.Live (fun _ => True)) ∧
      (∀ (i : Nat) (n : Node), tree[i]? = some n →
        (n.property = -1 ∧ n.predictor < 14 ∧ 0 < n.multiplier ∧ n.multiplier < 2 ^ 31 ∧ minInt ≤ n.offset ∧ n.offset ≤ maxInt ∧ n.lchild < (tree.length + 1) / 2) ∨
        (0 ≤ n.property ∧ n.property ≤ 255 ∧ minInt ≤ n.splitval ∧ n.splitval ≤ maxInt ∧ i < n.lchild ∧ n.rchild = n.lchild + 1 ∧ n.rchild < tree.length)) ∧
      (∀ (i j : Nat) (n m : Node), tree[i]? = some n → tree[j]? = some m → n.property = -1 → m.property = -1 → n.lchild = m.lchild → i = j) := by
  have h0 : DInv limit 0 1 [] := ⟨by simp, by simp [splitsBefore], by simp, by simp⟩
  obtain ⟨o, ho, hB⟩ := decodeLoop_inv R limit (limit + 2) r 0 1 [] h0 (by simp)
  unfold decodeTree
  rw [ho]
  match o, hB with
  | none, _ => exact ⟨_, rfl, by simp⟩
  | some (tree, r'), hB =>
    obtain ⟨hb, hlen⟩ := hB tree r' rfl
    have hne : 0 < tree.length := by have := hb.len; omega
    obtain ⟨t, ht⟩ := forward_represents (bfs_forward hb) _ 0 rfl hne
    have hsize := bfs_size hb ht
    obtain ⟨b, hv, hbt⟩ := validateTree_spec ht hsize
    simp only [hv]
    cases b with
    | false => exact ⟨_, rfl, by simp⟩
    | true =>
      refine ⟨_, rfl, ?_⟩
      intro tree' r'' e
      simp only [Option.some.injEq, Prod.mk.injEq] at e
      obtain ⟨rfl, rfl⟩ := e
      obtain ⟨hlive, hheight⟩ := hbt.mp rfl
      have hleaf : ∀ (i : Nat) (n : Node), tree[i]? = some n → n.property = -1 → n.lchild = i - splitsBefore tree i := by
        intro i n hn hp
        rcases hb.nodes i n hn with h | h
        · exact h.2.1
        · have := h.1; omega
      have hmono : ∀ (i j : Nat) (n : Node), tree[i]? = some n → n.property = -1 → i < j → i - splitsBefore tree i < j - splitsBefore tree j := by
        intro i j n hn hp hij
        have h1 := splitsBefore_succ hn
        have h2 : isSplit n = false := by simp [isSplit, hp]
        rw [h2] at h1
        simp at h1
        have h3 := splitsBefore_add tree (i + 1) (j - (i + 1))
        rw [show i + 1 + (j - (i + 1)) = j from by omega] at h3
        have := splitsBefore_le tree i
        omega
      refine ⟨hlen, ⟨t, ht, hsize, by unfold kHeightLimit at hheight; omega, hlive⟩, ?_, ?_⟩
      · intro i n hn
        have hi := (List.getElem?_eq_some_iff.mp hn).1
        rcases hb.nodes i n hn with h | h
        · left
          obtain ⟨a, b, c, d, e, f, g⟩ := h
          refine ⟨a, c, d, e, f, g, ?_⟩
          have := hmono i tree.length n hn a hi
          have := hb.len
          omega
        · right
          have hfw := bfs_forward hb i n hn
          obtain ⟨a, b, c, d, e, f, g⟩ := h
          refine ⟨a, b, c, d, ?_, ?_, ?_⟩ <;> omega
      · intro i j n m hn hm hp hq e
        rw [hleaf i n hn hp, hleaf j m hm hq] at e
        rcases Nat.lt_trichotomy i j with h | h | h
        · have := hmono i j n hn hp h; omega
        · exact h
        · have := hmono j i m hm hq h; omega

/-- The size limit is checked before a node is added, not after: a tree may have one node more. -/
theorem C22_one_node_more : ∃ (toks : List (Nat × Nat)) (tree : List Node), (decodeTree tokReader (some toks) 2).map (·.map (·.1)) = some (some tree) ∧ tree.length = 2 + 1 := by
  refine ⟨[(1, 3), (0, 10), (1, 0), (2, 5), (3, 0), (4, 0), (5, 0), (1, 0), (2, 6), (3, 1), (4, 2), (5, 4)], _, rfl, by decide⟩

/-- A split on property 2 at 5 with two different leaves: accepted. -/
example : (decodeTree tokReader (some [(1, 3), (0, 10), (1, 0), (2, 5), (3, 0), (4, 0), (5, 0), (1, 0), (2, 6), (3, 1), (4, 2), (5, 4)]) 10).map (·.map (·.1)) =
    some (some [⟨2, 5, 1, 2, 0, 0, 1⟩, ⟨-1, 0, 0, 0, 5, 0, 1⟩, ⟨-1, 0, 1, 0, 6, -1, 20⟩]) := by decide

/-- A second split at the same threshold below the first is refused. -/
example : (decodeTree tokReader (some [(1, 3), (0, 10), (1, 3), (0, 10), (1, 0), (2, 6), (3, 1), (4, 2), (5, 4), (1, 0), (2, 5), (3, 0), (4, 0), (5, 0), (1, 0), (2, 5), (3, 0), (4, 0), (5, 0)]) 10).map (·.map (·.1)) =
    some none := by decide

/-- C44: every tree the encoder writes is read back. If the encoder's array holds the tree `t`
(each entry in the ranges of the format), writing it ends and is defined; the symbols written are
exactly consumed by the decoder, which returns the very array the encoder computed alongside, and
that array holds the same tree up to the numbering of the contexts — provided the tree is not
larger than the limit, no taller than 2046 and has no leaf that cannot be selected; exactly the
last two conditions are the ones the decoder checks. -/
theorem C44_tree_round_trip (tree : List Node) (t : Dtree) (ht : Represents tree 0 t) (hW : ∀ (i : Nat) (n : Node), tree[i]? = some n → Writable n)
    (limit : Nat) (hlim : t.size ≤ limit + 1) (extra : List (Nat × Nat)) :
    ∃ out toks, tokenizeLoop tree (t.size + 1) [0] 0 [] [] = some (some (out, toks)) ∧
      (∃ t', Represents out 0 t' ∧ t'.shape = t.shape) ∧ out.length = t.size ∧
      (t.height ≤ 2046 ∧ t.Live (fun _ => True) → decodeTree tokReader (some (toks ++ extra)) limit = some (some (out, some extra))) ∧
      (¬ (t.height ≤ 2046 ∧ t.Live (fun _ => True)) → decodeTree tokReader (some (toks ++ extra)) limit = some none) := by
  obtain ⟨out, toks, h1, h2⟩ := tokenize_total hW (t.size + 1) [0] [t] 0 [] [] rfl (by
    intro j c u hj hu
    cases j with
    | zero => simp at hj hu; subst hj; subst hu; exact ht
    | succ j => simp at hj) (by simp)
  simp at h2
  obtain ⟨t', k1, k2⟩ := (tokenize_out _ _ _ _ _ _ _ h1).2 0 0 t rfl ht
  simp only [List.length_nil, Nat.add_zero] at k1
  obtain ⟨suf, e1, e2⟩ := tokenize_decode hW limit _ _ _ _ _ _ _ h1 (by omega)
  rw [List.nil_append] at e1
  subst e1
  have hdec := e2 extra (limit + 2) (by simp; omega)
  have h0 : DInv limit 0 1 [] := ⟨by simp, by simp [splitsBefore], by simp, by simp⟩
  obtain ⟨o, ho, hB⟩ := decodeLoop_inv tokReader limit (limit + 2) (some (toks ++ extra)) 0 1 [] h0 (by simp)
  simp only [List.length_cons, List.length_nil] at hdec
  rw [hdec] at ho
  obtain ⟨hb, -⟩ := hB out (some extra) (Option.some.inj ho).symm
  obtain ⟨b, hv, hbt⟩ := validateTree_spec k1 (bfs_size hb k1)
  rw [shape_live k2, shape_height k2] at hbt
  have hk : (t.Live (fun _ => True) ∧ t.height + 1 < kHeightLimit) ↔ (t.height ≤ 2046 ∧ t.Live (fun _ => True)) := by
    unfold kHeightLimit
    constructor
    · rintro ⟨a, b⟩; exact ⟨by omega, a⟩
    · rintro ⟨a, b⟩; exact ⟨b, by omega⟩
  rw [hk] at hbt
  refine ⟨out, toks, h1, ⟨t', k1, k2⟩, h2, ?_, ?_⟩
  · intro h
    unfold decodeTree
    simp only [Nat.zero_add] at hdec
    rw [hdec]
    simp only [hv, hbt.mpr h]
  · intro h
    unfold decodeTree
    simp only [Nat.zero_add] at hdec
    rw [hdec]
    have : b = false := by
      cases b with
      | false => rfl
      | true => exact absurd (hbt.mp rfl) h
    simp only [hv, this]

/-- Two splits stored depth first; the decoder's array is breadth first. -/
example : tokenizeLoop [⟨2, 5, 1, 4, 0, 0, 1⟩, ⟨9, -3, 2, 3, 0, 0, 1⟩, ⟨-1, 0, 0, 0, 5, 0, 1⟩, ⟨-1, 0, 0, 0, 6, -1, 20⟩, ⟨-1, 0, 0, 0, 0, 7, 3⟩] 6 [0] 0 [] [] =
    some (some ([⟨2, 5, 1, 2, 0, 0, 1⟩, ⟨9, -3, 3, 4, 0, 0, 1⟩, ⟨-1, 0, 0, 0, 0, 7, 3⟩, ⟨-1, 0, 1, 0, 5, 0, 1⟩, ⟨-1, 0, 2, 0, 6, -1, 20⟩],
      [(1, 3), (0, 10), (1, 10), (0, 5), (1, 0), (2, 0), (3, 14), (4, 0), (5, 2), (1, 0), (2, 5), (3, 0), (4, 0), (5, 0), (1, 0), (2, 6), (3, 1), (4, 2), (5, 4)])) := by decide

end Jxl.Props
