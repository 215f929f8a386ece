import Verif.Model.HuffmanEnc
import Verif.Lemmas.HuffmanRead
/-! Lemmas for C54: the tree the encoder builds is a complete code of bounded depth. -/
namespace Jxl.Huffman

/-! ## Trees -/

def Tree.syms : Tree → List Nat
  | .leaf s => [s]
  | .node l r => l.syms ++ r.syms

def Tree.height : Tree → Nat
  | .leaf _ => 0
  | .node l r => max l.height r.height + 1

def Tree.depthIn : Tree → Nat → Nat
  | .leaf _, _ => 0
  | .node l r, i => (if i ∈ r.syms then r.depthIn i else l.depthIn i) + 1

def fib : Nat → Nat
  | 0 => 0
  | 1 => 1
  | n + 2 => fib n + fib (n + 1)

theorem fib_le_succ : ∀ n, fib n ≤ fib (n + 1)
  | 0 => by decide
  | 1 => by decide
  | n + 2 => by
    have h1 := fib_le_succ n
    have h2 : fib (n + 1) ≤ fib (n + 2) := fib_le_succ (n + 1)
    show fib n + fib (n + 1) ≤ fib (n + 1) + fib (n + 2)
    omega

theorem fib_mono {a b : Nat} (h : a ≤ b) : fib a ≤ fib b := by
  induction b with
  | zero => rw [Nat.le_zero.mp h]; exact Nat.le_refl _
  | succ b ih =>
    by_cases e : a = b + 1
    · rw [e]; exact Nat.le_refl _
    · exact Nat.le_trans (ih (by omega)) (fib_le_succ b)

theorem depthIn_le (t : Tree) (i : Nat) : t.depthIn i ≤ t.height := by
  induction t with
  | leaf s => exact Nat.zero_le _
  | node l r h1 h2 => simp only [Tree.depthIn, Tree.height]; split <;> omega

theorem setDepth_length (t : Tree) : ∀ (lvl : Nat) (d : List Nat), (setDepth t lvl d).length = d.length := by
  induction t with
  | leaf s => intro lvl d; simp [setDepth]
  | node l r h1 h2 => intro lvl d; rw [setDepth, h2, h1]

theorem setDepth_get (t : Tree) : ∀ (lvl : Nat) (d : List Nat) (i : Nat), i < d.length →
    (setDepth t lvl d).getD i 0 = if i ∈ t.syms then (lvl + t.depthIn i) % 256 else d.getD i 0 := by
  induction t with
  | leaf s =>
    intro lvl d i hi
    simp only [setDepth, Tree.syms, Tree.depthIn, List.mem_singleton, Nat.add_zero]
    rw [List.getD_eq_getElem?_getD]
    by_cases e : i = s
    · subst e; rw [List.getElem?_set_self hi, if_pos rfl]; rfl
    · rw [List.getElem?_set_ne (by omega), if_neg e, List.getD_eq_getElem?_getD]
  | node l r h1 h2 =>
    intro lvl d i hi
    rw [setDepth, h2 _ _ _ (by rw [setDepth_length]; exact hi), h1 _ _ _ hi]
    simp only [Tree.syms, Tree.depthIn, List.mem_append]
    by_cases a : i ∈ r.syms
    · rw [if_pos a, if_pos (Or.inr a), if_pos a]; congr 1; omega
    · rw [if_neg a, if_neg a]
      by_cases b : i ∈ l.syms
      · rw [if_pos b, if_pos (Or.inl b)]; congr 1; omega
      · rw [if_neg b, if_neg (by simp [a, b])]

theorem getElem?_zero_iff {d : List Nat} {i : Nat} (hi : i < d.length) : d[i]? = some 0 ↔ d.getD i 0 = 0 := by
  rw [List.getD_eq_getElem?_getD, List.getElem?_eq_getElem hi]; simp

theorem setDepth_weight (t : Tree) : ∀ (lvl : Nat) (d : List Nat), 1 ≤ lvl → lvl + t.height ≤ 15 → t.syms.Nodup →
    (∀ s ∈ t.syms, d[s]? = some 0) → Prefix.weight (setDepth t lvl d) = Prefix.weight d + 2 ^ (15 - lvl) := by
  induction t with
  | leaf s =>
    intro lvl d h1 h2 _ h3
    rw [setDepth, weight_set _ _ _ (h3 s (by simp [Tree.syms])), Nat.mod_eq_of_lt (by omega), if_pos (by omega)]
  | node l r ihl ihr =>
    intro lvl d h1 h2 h3 h4
    simp only [Tree.height] at h2
    simp only [Tree.syms, List.nodup_append] at h3
    obtain ⟨n1, n2, n3⟩ := h3
    have h4l : ∀ s ∈ l.syms, d[s]? = some 0 := fun s hs => h4 s (by simp [Tree.syms, hs])
    have h4r : ∀ s ∈ r.syms, d[s]? = some 0 := fun s hs => h4 s (by simp [Tree.syms, hs])
    rw [setDepth, ihr (lvl + 1) _ (by omega) (by omega) n2 ?_, ihl (lvl + 1) _ (by omega) (by omega) n1 h4l]
    · have : 2 ^ (15 - lvl) = 2 ^ (15 - (lvl + 1)) + 2 ^ (15 - (lvl + 1)) := by
        rw [show 15 - lvl = 15 - (lvl + 1) + 1 by omega, Nat.pow_succ]; omega
      omega
    · intro s hs
      have hlt : s < d.length := (List.getElem?_eq_some_iff.mp (h4r s hs)).1
      rw [getElem?_zero_iff (by rw [setDepth_length]; exact hlt), setDepth_get _ _ _ _ hlt, if_neg (fun h => n3 _ h _ hs rfl),
        ← getElem?_zero_iff hlt]
      exact h4r s hs

/-! ## Merging -/

/-- Sorted by count. -/
def Sorted (l : List Node) : Prop := l.Pairwise fun a b => a.count ≤ b.count

def total (l : List Node) : Nat := (l.map Node.count).sum
def allSyms (l : List Node) : List Nat := l.flatMap fun x => x.tree.syms

/-- Invariant of the merging loop: `e` is the last count taken, `m` the least count of a leaf. -/
structure Merging (m e : Nat) (ls inner : List Node) : Prop where
  sortedL : Sorted ls
  sortedI : Sorted inner
  above : ∀ x ∈ ls ++ inner, e ≤ x.count
  twice : ∀ x ∈ inner, x.count ≤ 2 * e
  fib2 : ∀ x ∈ ls ++ inner, m * fib (x.tree.height + 2) ≤ x.count
  fib1 : ∀ x ∈ ls ++ inner, m * fib (x.tree.height + 1) ≤ e
  fits : total (ls ++ inner) < sentinel

theorem total_cons (a : Node) (l : List Node) : total (a :: l) = a.count + total l := by simp [total]
theorem total_perm {a b : List Node} (h : a.Perm b) : total a = total b := by
  unfold total; exact (h.map _).sum_nat
theorem allSyms_perm {a b : List Node} (h : a.Perm b) : (allSyms a).Perm (allSyms b) := h.flatMap_right _

theorem count_le_total {a : Node} {l : List Node} (h : a ∈ l) : a.count ≤ total l := by
  induction l with
  | nil => exact absurd h List.not_mem_nil
  | cons b l ih =>
    rw [total_cons]
    rcases List.mem_cons.mp h with rfl | h
    · omega
    · have := ih h; omega

/-- The node taken is a least one. -/
theorem takeNode_ok {ls inner : List Node} (h1 : Sorted ls) (h2 : Sorted inner) (hne : ls ++ inner ≠ [])
    (hs : ∀ x ∈ ls ++ inner, x.count < sentinel) :
    ∃ a ls' inner', takeNode ls inner = some (a, ls', inner') ∧ (ls ++ inner).Perm (a :: (ls' ++ inner')) ∧
      (∀ x ∈ ls' ++ inner', a.count ≤ x.count) ∧ Sorted ls' ∧ Sorted inner' ∧ (∀ x ∈ inner', x ∈ inner) := by
  cases ls with
  | nil =>
    cases inner with
    | nil => exact absurd rfl hne
    | cons b inner =>
      have := hs b (by simp)
      rw [Sorted, List.pairwise_cons] at h2
      refine ⟨b, [], inner, ?_, ?_, ?_, h1, h2.2, fun x hx => by simp [hx]⟩
      · simp only [takeNode]; rw [if_neg (by omega)]
      · exact List.Perm.refl _
      · intro x hx; exact h2.1 x (by simpa using hx)
  | cons a ls =>
    have h1' := h1
    rw [Sorted, List.pairwise_cons] at h1
    cases inner with
    | nil =>
      refine ⟨a, ls, [], rfl, List.Perm.refl _, ?_, h1.2, h2, fun x hx => hx⟩
      intro x hx; exact h1.1 x (by simpa using hx)
    | cons b inner =>
      have h2' := h2
      rw [Sorted, List.pairwise_cons] at h2
      by_cases hc : a.count ≤ b.count
      · refine ⟨a, ls, b :: inner, ?_, List.Perm.refl _, ?_, h1.2, h2', fun x hx => hx⟩
        · simp only [takeNode]; rw [if_pos hc]
        · intro x hx
          rcases List.mem_append.mp hx with hx | hx
          · exact h1.1 x hx
          · rcases List.mem_cons.mp hx with rfl | hx
            · exact hc
            · exact Nat.le_trans hc (h2.1 x hx)
      · refine ⟨b, a :: ls, inner, ?_, ?_, ?_, h1', h2.2, fun x hx => by simp [hx]⟩
        · simp only [takeNode]; rw [if_neg hc]
        · exact List.perm_middle
        · intro x hx
          rcases List.mem_append.mp hx with hx | hx
          · rcases List.mem_cons.mp hx with rfl | hx
            · omega
            · have := h1.1 x hx; omega
          · exact h2.1 x hx

theorem mergeGo_ok (m : Nat) (k : Nat) : ∀ (e : Nat) (ls inner : List Node), Merging m e ls inner → (ls ++ inner).length = k + 1 →
    (k = 0 → inner ≠ []) →
    ∃ r, mergeGo k ls inner = some ([], [r]) ∧ m * fib (r.tree.height + 2) ≤ r.count ∧ r.count = total (ls ++ inner) ∧
      r.tree.syms.Perm (allSyms (ls ++ inner)) ∧ (0 < k → ∃ x y, r.tree = .node x y) := by
  induction k with
  | zero =>
    intro e ls inner h hl hi
    cases ls with
    | nil =>
      match inner, hl with
      | [r], _ =>
        refine ⟨r, rfl, h.fib2 r (by simp), by simp [total], by simp [allSyms], by omega⟩
    | cons a ls =>
      have hl' : ls ++ inner = [] := by simpa using hl
      rw [List.append_eq_nil_iff] at hl'
      exact absurd hl'.2 (hi rfl)
  | succ k ih =>
    intro e ls inner h hl _
    have hs : ∀ x ∈ ls ++ inner, x.count < sentinel := fun x hx => Nat.lt_of_le_of_lt (count_le_total hx) h.fits
    obtain ⟨a, ls1, in1, t1, p1, m1, s1, i1, q1⟩ := takeNode_ok h.sortedL h.sortedI (by intro e; rw [e] at hl; simp at hl) hs
    have hl1 : (ls1 ++ in1).length = k + 1 := by have := p1.length_eq; rw [hl] at this; simp only [List.length_cons] at this; omega
    have hs1 : ∀ x ∈ ls1 ++ in1, x.count < sentinel := fun x hx => hs x (p1.mem_iff.mpr (List.mem_cons_of_mem _ hx))
    obtain ⟨b, ls2, in2, t2, p2, m2, s2, i2, q2⟩ := takeNode_ok s1 i1 (by intro e; rw [e] at hl1; simp at hl1) hs1
    have hab := m1 b (p2.mem_iff.mpr (by simp))
    have pp : (ls ++ inner).Perm (a :: b :: (ls2 ++ in2)) := p1.trans (p2.cons a)
    have htot : total (ls ++ inner) = a.count + b.count + total (ls2 ++ in2) := by rw [total_perm pp, total_cons, total_cons]; omega
    have hfits := h.fits
    have hsent : sentinel = 2 ^ 32 - 1 := rfl
    have ham : a ∈ ls ++ inner := pp.mem_iff.mpr (by simp)
    have hbm : b ∈ ls ++ inner := pp.mem_iff.mpr (by simp)
    have hrest : ∀ x ∈ ls2 ++ in2, x ∈ ls ++ inner := fun x hx => pp.mem_iff.mpr (by simp [hx])
    have hmod : (a.count + b.count) % 2 ^ 32 = a.count + b.count := Nat.mod_eq_of_lt (by omega)
    have ea := h.above a ham
    have eb := h.above b hbm
    have hin2 : ∀ x ∈ in2, x ∈ inner := fun x hx => q1 x (q2 x hx)
    -- the new node
    have hnew2 : m * fib ((Tree.node a.tree b.tree).height + 2) ≤ a.count + b.count := by
      simp only [Tree.height]
      have fa2 := h.fib2 a ham
      have fb2 := h.fib2 b hbm
      have fa1 := h.fib1 a ham
      have fb1 := h.fib1 b hbm
      rcases Nat.le_total a.tree.height b.tree.height with hh | hh
      · rw [Nat.max_eq_right hh]
        have : fib (b.tree.height + 1 + 2) = fib (b.tree.height + 1) + fib (b.tree.height + 2) := rfl
        rw [this, Nat.mul_add]; omega
      · rw [Nat.max_eq_left hh]
        have : fib (a.tree.height + 1 + 2) = fib (a.tree.height + 1) + fib (a.tree.height + 2) := rfl
        rw [this, Nat.mul_add]; omega
    have hnew1 : m * fib ((Tree.node a.tree b.tree).height + 1) ≤ b.count := by
      simp only [Tree.height]
      have fa2 := h.fib2 a ham
      have fb2 := h.fib2 b hbm
      rcases Nat.le_total a.tree.height b.tree.height with hh | hh
      · rw [Nat.max_eq_right hh]; exact fb2
      · rw [Nat.max_eq_left hh]; exact Nat.le_trans fa2 hab
    have hperm : (ls2 ++ (in2 ++ [(⟨(a.count + b.count) % 2 ^ 32, .node a.tree b.tree⟩ : Node)])).Perm
        (⟨a.count + b.count, .node a.tree b.tree⟩ :: (ls2 ++ in2)) := by
      rw [hmod, ← List.append_assoc]; exact List.perm_append_singleton _ _
    have hmem : ∀ x ∈ ls2 ++ (in2 ++ [(⟨(a.count + b.count) % 2 ^ 32, .node a.tree b.tree⟩ : Node)]),
        x = ⟨a.count + b.count, .node a.tree b.tree⟩ ∨ x ∈ ls2 ++ in2 := fun x hx => List.mem_cons.mp (hperm.mem_iff.mp hx)
    have htot2 : total (ls2 ++ (in2 ++ [(⟨(a.count + b.count) % 2 ^ 32, .node a.tree b.tree⟩ : Node)])) = total (ls ++ inner) := by
      rw [total_perm hperm, total_cons, htot]
    have inv : Merging m b.count ls2 (in2 ++ [(⟨(a.count + b.count) % 2 ^ 32, .node a.tree b.tree⟩ : Node)]) := by
      refine ⟨s2, ?_, ?_, ?_, ?_, ?_, by rw [htot2]; exact hfits⟩
      · rw [Sorted, List.pairwise_append]
        refine ⟨i2, List.pairwise_singleton _ _, ?_⟩
        intro x hx y hy
        rw [List.mem_singleton.mp hy]
        dsimp only
        have := h.twice x (hin2 x hx)
        rw [hmod]; omega
      · intro x hx
        rcases hmem x hx with rfl | hx
        · dsimp only; omega
        · exact m2 x hx
      · intro x hx
        rcases List.mem_append.mp hx with hx | hx
        · have := h.twice x (hin2 x hx); omega
        · rw [List.mem_singleton.mp hx]; dsimp only; rw [hmod]; omega
      · intro x hx
        rcases hmem x hx with rfl | hx
        · exact hnew2
        · exact h.fib2 x (hrest x hx)
      · intro x hx
        rcases hmem x hx with rfl | hx
        · exact hnew1
        · exact Nat.le_trans (h.fib1 x (hrest x hx)) eb
    have hlen2 : (ls2 ++ (in2 ++ [(⟨(a.count + b.count) % 2 ^ 32, .node a.tree b.tree⟩ : Node)])).length = k + 1 := by
      have := pp.length_eq; rw [hl] at this
      rw [hperm.length_eq]; simp only [List.length_cons] at this ⊢; omega
    obtain ⟨r, r1, r2, r3, r4, r5⟩ := ih b.count ls2 _ inv hlen2 (fun _ => by simp)
    refine ⟨r, ?_, r2, r3.trans htot2, ?_, ?_⟩
    · rw [mergeGo, t1]; dsimp only [Option.bind_some]; rw [t2]; exact r1
    · refine r4.trans ((allSyms_perm hperm).trans ?_)
      refine List.Perm.trans ?_ (allSyms_perm pp).symm
      simp [allSyms, Tree.syms]
    · intro _
      cases k with
      | succ k => exact r5 (by omega)
      | zero =>
        have h0 : ls2 ++ in2 = [] := by
          have := hperm.length_eq; rw [hlen2] at this; simpa using this
        rw [List.append_eq_nil_iff] at h0
        rw [h0.1, h0.2, mergeGo] at r1
        simp only [List.nil_append, Option.some.injEq, Prod.mk.injEq, true_and, List.cons.injEq, and_true] at r1
        rw [← r1]; exact ⟨_, _, rfl⟩

/-! ## Sorting and leaves -/

theorem insertNode_perm (a : Node) (l : List Node) : (insertNode a l).Perm (a :: l) := by
  induction l with
  | nil => exact List.Perm.refl _
  | cons b l ih =>
    simp only [insertNode]
    split
    · exact (ih.cons b).trans (List.Perm.swap a b l)
    · exact List.Perm.refl _

theorem sortNodes_perm (l : List Node) : (sortNodes l).Perm l := by
  induction l with
  | nil => exact List.Perm.refl _
  | cons a l ih => exact (insertNode_perm a _).trans (ih.cons a)

theorem before_le {a b : Node} (h : before a b = true) : a.count ≤ b.count := by
  unfold before at h
  split at h
  · simp at h; omega
  · omega

theorem not_before_le {a b : Node} (h : ¬ before b a = true) : a.count ≤ b.count := by
  unfold before at h
  split at h
  · simp at h; omega
  · omega

theorem insertNode_sorted (a : Node) {l : List Node} (h : Sorted l) : Sorted (insertNode a l) := by
  induction l with
  | nil => simp [insertNode, Sorted]
  | cons b l ih =>
    have h' := h
    rw [Sorted, List.pairwise_cons] at h
    simp only [insertNode]
    split
    · rename_i hb
      rw [Sorted, List.pairwise_cons]
      refine ⟨?_, ih h.2⟩
      intro x hx
      rcases List.mem_cons.mp ((insertNode_perm a l).mem_iff.mp hx) with rfl | hx
      · exact before_le hb
      · exact h.1 x hx
    · rename_i hb
      rw [Sorted, List.pairwise_cons]
      refine ⟨?_, h'⟩
      intro x hx
      rcases List.mem_cons.mp hx with rfl | hx
      · exact not_before_le hb
      · exact Nat.le_trans (not_before_le hb) (h.1 x hx)

theorem sortNodes_sorted (l : List Node) : Sorted (sortNodes l) := by
  induction l with
  | nil => exact List.Pairwise.nil
  | cons a l ih => exact insertNode_sorted a ih

theorem allSyms_append (a b : List Node) : allSyms (a ++ b) = allSyms a ++ allSyms b := by simp [allSyms]
theorem total_append (a b : List Node) : total (a ++ b) = total a + total b := by simp [total]

theorem leaves_mem (lim : Nat) (ds : List Nat) : ∀ i s, s ∈ allSyms (leavesOf lim i ds) ↔ i ≤ s ∧ ds.getD (s - i) 0 ≠ 0 := by
  induction ds with
  | nil => intro i s; simp [leavesOf, allSyms]
  | cons d ds ih =>
    intro i s
    rw [leavesOf, allSyms_append, List.mem_append, ih]
    by_cases hs : s ≤ i
    · by_cases e : s = i
      · subst e
        by_cases hd : d = 0
        · simp [hd, allSyms]; omega
        · simp [hd, allSyms, Tree.syms]
      · have : ¬ i ≤ s := by omega
        by_cases hd : d = 0
        · simp [hd, allSyms]; omega
        · simp [hd, allSyms, Tree.syms]; omega
    · rw [show s - i = (s - (i + 1)) + 1 by omega, List.getD_cons_succ]
      by_cases hd : d = 0
      · simp [hd, allSyms]; omega
      · simp [hd, allSyms, Tree.syms]; omega

theorem leaves_nodup (lim : Nat) (ds : List Nat) : ∀ i, (allSyms (leavesOf lim i ds)).Nodup := by
  induction ds with
  | nil => intro i; simp [leavesOf, allSyms]
  | cons d ds ih =>
    intro i
    rw [leavesOf, allSyms_append, List.nodup_append]
    refine ⟨ih _, ?_, ?_⟩
    · by_cases hd : d = 0 <;> simp [hd, allSyms, Tree.syms]
    · intro a ha b hb
      rw [leaves_mem] at ha
      by_cases hd : d = 0
      · simp [hd, allSyms] at hb
      · simp [hd, allSyms, Tree.syms] at hb; omega

theorem leaves_leaf (lim : Nat) (ds : List Nat) : ∀ i, ∀ x ∈ leavesOf lim i ds, (∃ s, x.tree = .leaf s) ∧ 1 ≤ x.count ∧ lim ≤ x.count := by
  induction ds with
  | nil => intro i x hx; simp [leavesOf] at hx
  | cons d ds ih =>
    intro i x hx
    rw [leavesOf, List.mem_append] at hx
    rcases hx with hx | hx
    · exact ih _ x hx
    · split at hx
      · rw [List.mem_singleton.mp hx]; exact ⟨⟨i, rfl⟩, by dsimp only; omega, by dsimp only; omega⟩
      · exact absurd hx List.not_mem_nil

theorem leaves_length_eq {l : List Node} (h : ∀ x ∈ l, ∃ s, x.tree = .leaf s) : (allSyms l).length = l.length := by
  induction l with
  | nil => rfl
  | cons a l ih =>
    obtain ⟨s, hs⟩ := h a (by simp)
    have := ih fun x hx => h x (by simp [hx])
    simp only [allSyms, List.flatMap_cons, List.length_append, hs, Tree.syms, List.length_cons, List.length_nil] at this ⊢
    omega

theorem usedSyms_mem (data : List Nat) (s : Nat) : s ∈ usedSyms data ↔ data.getD s 0 ≠ 0 := by
  unfold usedSyms
  rw [List.mem_filter, List.mem_range]
  simp only [decide_eq_true_eq]
  refine ⟨fun h => h.2, fun h => ⟨?_, h⟩⟩
  refine Classical.byContradiction fun hc => h ?_
  rw [List.getD_eq_getElem?_getD, List.getElem?_eq_none (by omega)]; rfl

theorem usedSyms_nodup (data : List Nat) : (usedSyms data).Nodup := List.nodup_range.filter _

theorem leaves_perm (lim : Nat) (data : List Nat) : (allSyms (leavesOf lim 0 data)).Perm (usedSyms data) := by
  rw [List.perm_ext_iff_of_nodup (leaves_nodup _ _ _) (usedSyms_nodup _)]
  intro s
  rw [leaves_mem, usedSyms_mem]; simp

theorem leaves_length (lim : Nat) (data : List Nat) : (leavesOf lim 0 data).length = (usedSyms data).length := by
  rw [← leaves_length_eq fun x hx => (leaves_leaf lim data 0 x hx).1, (leaves_perm lim data).length_eq]

theorem leaves_total (lim : Nat) (ds : List Nat) : ∀ i, total (leavesOf lim i ds) ≤ ds.sum + (leavesOf lim i ds).length * lim := by
  induction ds with
  | nil => intro i; simp [leavesOf, total]
  | cons d ds ih =>
    intro i
    have := ih (i + 1)
    rw [leavesOf, total_append, List.length_append, List.sum_cons]
    by_cases hd : d = 0
    · rw [if_neg (by omega)]; simp only [total, List.map_nil, List.sum_nil, List.length_nil, Nat.add_zero]; simp only [total] at this; omega
    · rw [if_pos hd, total_cons, List.length_singleton, Nat.add_mul, Nat.one_mul]
      simp only [total, List.map_nil, List.sum_nil] at this ⊢; omega

/-! ## One round -/

/-- What a finished tree gives: positive depths for the symbols that occur, zeros elsewhere. -/
structure Depths (data depth : List Nat) : Prop where
  length : depth.length = data.length
  zero : ∀ s, s < data.length → data.getD s 0 = 0 → depth.getD s 0 = 0

theorem treeRound_single {data : List Nat} (hn : data.length ≤ 2 ^ 15) {lim : Nat} {depth : List Nat}
    (h1 : (usedSyms data).length = 1) : treeRound data lim depth = some (true, depth.set ((usedSyms data).getD 0 0) 1) := by
  have hl := leaves_length lim data
  rw [h1] at hl
  have hp := leaves_perm lim data
  unfold treeRound
  dsimp only
  rw [if_neg (by omega)]
  match hL : leavesOf lim 0 data, hl with
  | [a], _ =>
    obtain ⟨s, hs⟩ := (leaves_leaf lim data 0 a (by rw [hL]; simp)).1
    rw [hL] at hp
    simp only [allSyms, List.flatMap_cons, List.flatMap_nil, List.append_nil, hs, Tree.syms] at hp
    rw [← List.singleton_perm.mp hp]
    simp [hs, setDepth]

theorem treeRound_ok {data : List Nat} (hn : data.length ≤ 2 ^ 15) {lim : Nat} {depth : List Nat} (hd : Depths data depth)
    (h2 : 2 ≤ (usedSyms data).length) (h14 : (usedSyms data).length ≤ 2 ^ 14)
    (hfit : data.sum + (usedSyms data).length * lim < sentinel) :
    ∃ t : Tree, treeRound data lim depth = some (false, setDepth t 0 depth) ∧ t.syms.Perm (usedSyms data) ∧ (∃ x y, t = .node x y) ∧
      max 1 lim * fib (t.height + 2) ≤ data.sum + (usedSyms data).length * lim ∧ t.height < 256 := by
  have hl := leaves_length lim data
  have hp := leaves_perm lim data
  have ht := leaves_total lim data 0
  rw [hl] at ht
  have hlf := leaves_leaf lim data 0
  have hsp := sortNodes_perm (leavesOf lim 0 data)
  have hh : ∀ x ∈ sortNodes (leavesOf lim 0 data) ++ [], (∃ s, x.tree = .leaf s) ∧ max 1 lim ≤ x.count := by
    intro x hx
    rw [List.append_nil, hsp.mem_iff] at hx
    obtain ⟨a, b, c⟩ := hlf x hx
    exact ⟨a, by omega⟩
  have inv : Merging (max 1 lim) (max 1 lim) (sortNodes (leavesOf lim 0 data)) [] := by
    refine ⟨sortNodes_sorted _, List.Pairwise.nil, fun x hx => (hh x hx).2, by simp, ?_, ?_, ?_⟩
    · intro x hx
      obtain ⟨⟨s, hs⟩, h⟩ := hh x hx
      rw [hs]; simp only [Tree.height, fib]; omega
    · intro x hx
      obtain ⟨⟨s, hs⟩, h⟩ := hh x hx
      rw [hs]; simp only [Tree.height, fib]; omega
    · rw [List.append_nil, total_perm hsp]; omega
  obtain ⟨r, r1, r2, r3, r4, r5⟩ := mergeGo_ok (max 1 lim) ((usedSyms data).length - 1) _ _ _ inv
    (by rw [List.append_nil, hsp.length_eq, hl]; omega) (by omega)
  rw [List.append_nil, total_perm hsp] at r3
  have hfib : max 1 lim * fib (r.tree.height + 2) ≤ data.sum + (usedSyms data).length * lim := by omega
  refine ⟨r.tree, ?_, ?_, r5 (by omega), hfib, ?_⟩
  · unfold treeRound
    dsimp only
    rw [if_neg (by omega)]
    match hL : leavesOf lim 0 data, hl with
    | a :: b :: rest, hl =>
      rw [hL, ← hl] at r1
      dsimp only
      rw [r1]; rfl
    | [], hl => simp at hl; omega
    | [a], hl => simp at hl; omega
  · rw [List.append_nil] at r4
    exact r4.trans ((allSyms_perm hsp).trans hp)
  · refine Classical.byContradiction fun hc => ?_
    have h1 : fib 48 ≤ fib (r.tree.height + 2) := fib_mono (by omega)
    have h3 : fib (r.tree.height + 2) ≤ max 1 lim * fib (r.tree.height + 2) := Nat.le_mul_of_pos_left _ (by omega)
    have h4 : fib 48 = 4807526976 := by decide +kernel
    have h5 : sentinel = 4294967295 := rfl
    omega

/-! ## All rounds -/

theorem foldl_max_le (l : List Nat) : ∀ (a b : Nat), l.foldl max a ≤ b ↔ a ≤ b ∧ ∀ x ∈ l, x ≤ b := by
  induction l with
  | nil => intro a b; simp
  | cons x l ih =>
    intro a b
    rw [List.foldl_cons, ih]
    constructor
    · rintro ⟨h1, h2⟩
      refine ⟨by omega, fun y hy => ?_⟩
      rcases List.mem_cons.mp hy with rfl | hy
      · omega
      · exact h2 y hy
    · rintro ⟨h1, h2⟩
      exact ⟨by have := h2 x (by simp); omega, fun y hy => h2 y (by simp [hy])⟩

/-- A code for the symbols that occur. -/
structure Code (data : List Nat) (limit : Nat) (depth : List Nat) : Prop where
  length : depth.length = data.length
  used : ∀ s, s < data.length → (depth.getD s 0 ≠ 0 ↔ data.getD s 0 ≠ 0)
  small : ∀ l ∈ depth, l ≤ limit
  full : Prefix.weight depth = 2 ^ 15

theorem weight_zeros {l : List Nat} (h : ∀ x ∈ l, x = 0) : Prefix.weight l = 0 := by
  induction l with
  | nil => rfl
  | cons a l ih => rw [weight_cons, ih fun x hx => h x (by simp [hx]), h a (by simp)]; simp

theorem setDepth_depths {data depth : List Nat} (hd : Depths data depth) {t : Tree} (hp : t.syms.Perm (usedSyms data)) :
    Depths data (setDepth t 0 depth) := by
  refine ⟨by rw [setDepth_length, hd.length], fun s hs h0 => ?_⟩
  rw [setDepth_get _ _ _ _ (by rw [hd.length]; exact hs), if_neg]
  · exact hd.zero s hs h0
  · rw [hp.mem_iff, usedSyms_mem]; simpa using h0

theorem setDepth_code {data depth : List Nat} (hd : Depths data depth) {t : Tree} (hp : t.syms.Perm (usedSyms data)) (hn : ∃ x y, t = .node x y)
    {limit : Nat} (hl : limit ≤ 15) (h256 : t.height < 256) (hm : (setDepth t 0 depth).foldl max 0 ≤ limit) : Code data limit (setDepth t 0 depth) := by
  have hd' := setDepth_depths hd hp
  rw [foldl_max_le] at hm
  have hin : ∀ s ∈ t.syms, s < data.length ∧ data.getD s 0 ≠ 0 := by
    intro s hs
    have h := (usedSyms_mem data s).mp (hp.mem_iff.mp hs)
    refine ⟨?_, h⟩
    refine Classical.byContradiction fun hc => h ?_
    rw [List.getD_eq_getElem?_getD, List.getElem?_eq_none (by omega)]; rfl
  have hpos : ∀ s, 1 ≤ t.depthIn s := by
    obtain ⟨x, y, rfl⟩ := hn
    intro s; simp only [Tree.depthIn]; omega
  have hval : ∀ s ∈ t.syms, (setDepth t 0 depth).getD s 0 = t.depthIn s := by
    intro s hs
    rw [setDepth_get _ _ _ _ (by rw [hd.length]; exact (hin s hs).1), if_pos hs, Nat.zero_add, Nat.mod_eq_of_lt]
    have := depthIn_le t s; omega
  refine ⟨hd'.length, ?_, hm.2, ?_⟩
  · intro s hs
    constructor
    · intro h h0; exact h (hd'.zero s hs h0)
    · intro h
      have hm : s ∈ t.syms := hp.mem_iff.mpr ((usedSyms_mem data s).mpr h)
      rw [hval s hm]; have := hpos s; omega
  · -- the same as on zeros
    have hnd : t.syms.Nodup := hp.nodup_iff.mpr (usedSyms_nodup data)
    have hz : setDepth t 0 depth = setDepth t 0 (List.replicate data.length 0) := by
      refine List.ext_getElem (by simp [setDepth_length, hd.length]) fun i h1 h2 => ?_
      rw [setDepth_length, hd.length] at h1
      have e := fun d : List Nat => fun h : i < d.length => setDepth_get t 0 d i h
      have e1 := e depth (by rw [hd.length]; exact h1)
      have e2 := e (List.replicate data.length 0) (by simpa using h1)
      rw [List.getD_eq_getElem?_getD, List.getElem?_eq_getElem (by rw [setDepth_length, hd.length]; exact h1)] at e1
      rw [List.getD_eq_getElem?_getD, List.getElem?_eq_getElem h2] at e2
      simp only [Option.getD_some] at e1 e2
      rw [e1, e2]
      split
      · rfl
      · rename_i hns
        rw [hd.zero i h1]
        · rw [List.getD_eq_getElem?_getD, List.getElem?_replicate]; split <;> rfl
        · refine Classical.byContradiction fun hc => hns (hp.mem_iff.mpr ((usedSyms_mem data i).mpr hc))
    have hheight : t.height ≤ 15 := by
      have key : ∀ t : Tree, ∃ s ∈ t.syms, t.syms.Nodup → t.depthIn s = t.height := by
        intro t
        induction t with
        | leaf s => exact ⟨s, by simp [Tree.syms], fun _ => rfl⟩
        | node l r ihl ihr =>
          obtain ⟨a, ha, ha'⟩ := ihl
          obtain ⟨b, hb, hb'⟩ := ihr
          by_cases hlr : l.height ≤ r.height
          · refine ⟨b, by simp [Tree.syms, hb], fun hnd => ?_⟩
            simp only [Tree.syms, List.nodup_append] at hnd
            simp only [Tree.depthIn, Tree.height, if_pos hb, hb' hnd.2.1]; omega
          · refine ⟨a, by simp [Tree.syms, ha], fun hnd => ?_⟩
            simp only [Tree.syms, List.nodup_append] at hnd
            simp only [Tree.depthIn, Tree.height, if_neg (fun h => hnd.2.2 a ha a h rfl), ha' hnd.1]; omega
      obtain ⟨s, hs, hs'⟩ := key t
      have h1 := hval s hs
      have h2 : (setDepth t 0 depth).getD s 0 ∈ setDepth t 0 depth := by
        have : s < (setDepth t 0 depth).length := by rw [hd'.length]; exact (hin s hs).1
        rw [List.getD_eq_getElem?_getD, List.getElem?_eq_getElem this]
        exact List.getElem_mem this
      have h3 := hm.2 _ h2
      have := hs' hnd
      omega
    rw [hz]
    obtain ⟨x, y, rfl⟩ := hn
    simp only [Tree.height] at hheight
    simp only [Tree.syms, List.nodup_append] at hnd
    have hzero : ∀ s ∈ x.syms ++ y.syms, (List.replicate data.length 0)[s]? = some 0 := by
      intro s hs
      rw [List.getElem?_replicate, if_pos (hin s (by simpa [Tree.syms] using hs)).1]
    rw [setDepth, setDepth_weight y 1 _ (by omega) (by omega) hnd.2.1 ?_, setDepth_weight x 1 _ (by omega) (by omega) hnd.1
      (fun s hs => hzero s (by simp [hs])), weight_zeros fun a ha => List.eq_of_mem_replicate ha]
    intro s hs
    have hlt : s < data.length := (hin s (by simp [Tree.syms, hs])).1
    rw [getElem?_zero_iff (by simpa [setDepth_length] using hlt), setDepth_get _ _ _ _ (by simpa using hlt),
      if_neg (fun h => hnd.2.2 _ h _ hs rfl), ← getElem?_zero_iff (by simpa using hlt)]
    exact hzero s (by simp [hs])

theorem createGo_ok {data : List Nat} (hn : data.length ≤ 2 ^ 15) {limit : Nat} (hl : limit ≤ 15)
    (h2 : 2 ≤ (usedSyms data).length) (h14 : (usedSyms data).length ≤ 2 ^ 14) (hsum : data.sum ≤ 2 ^ 30)
    (hfit : ∀ lim, fib (limit + 3) * lim ≤ data.sum + (usedSyms data).length * lim →
      data.sum + (usedSyms data).length * (2 * lim + 1) < sentinel)
    (hstop : ∀ lim, fib (limit + 3) * lim ≤ data.sum + (usedSyms data).length * lim → lim ≤ 2 ^ 30) :
    ∀ f j depth, Depths data depth → f + j = 32 → 1 ≤ f → data.sum + (usedSyms data).length * (2 ^ j - 1) < sentinel →
      ∃ d, createGo data limit f (2 ^ j) depth = some d ∧ Code data limit d := by
  intro f
  induction f with
  | zero => intro j depth _ _ h; omega
  | succ f ih =>
    intro j depth hd hj _ hf
    obtain ⟨t, t1, t2, t3, t4, t5⟩ := treeRound_ok hn hd h2 h14 hf
    rw [createGo, t1]
    dsimp only [Option.bind_some]
    by_cases hm : (setDepth t 0 depth).foldl max 0 ≤ limit
    · rw [if_pos (Or.inr hm)]
      exact ⟨_, rfl, setDepth_code hd t2 t3 hl t5 hm⟩
    · rw [if_neg (by simpa using hm)]
      have hgt : limit < t.height := by
        refine Classical.byContradiction fun hc => hm ?_
        rw [foldl_max_le]
        refine ⟨Nat.zero_le _, fun x hx => ?_⟩
        obtain ⟨i, hi, rfl⟩ := List.mem_iff_getElem.mp hx
        have hi' : i < depth.length := by rw [setDepth_length] at hi; exact hi
        have e := setDepth_get t 0 depth i hi'
        rw [List.getD_eq_getElem?_getD, List.getElem?_eq_getElem hi, Option.getD_some] at e
        rw [e]
        have hdl := depthIn_le t i
        split
        · rw [Nat.zero_add]; have := Nat.mod_le (t.depthIn i) 256; omega
        · rename_i hns
          rw [hd.zero i (by rw [← hd.length]; exact hi')]
          · exact Nat.zero_le _
          · refine Classical.byContradiction fun hc => hns (t2.mem_iff.mpr ((usedSyms_mem data i).mpr hc))
      have hreach : fib (limit + 3) * (2 ^ j - 1) ≤ data.sum + (usedSyms data).length * (2 ^ j - 1) := by
        refine Nat.le_trans ?_ t4
        rw [Nat.mul_comm]
        exact Nat.mul_le_mul (Nat.le_max_right _ _) (fib_mono (by omega))
      have hpow : 2 ^ (j + 1) = 2 * 2 ^ j := by rw [Nat.pow_succ]; omega
      have hpos := Nat.two_pow_pos j
      rw [show 2 ^ j * 2 = 2 ^ (j + 1) by rw [hpow]; omega]
      refine ih (j + 1) _ (setDepth_depths hd t2) (by omega) ?_ ?_
      · refine Classical.byContradiction fun hc => ?_
        have hj31 : j = 31 := by omega
        have := hstop _ hreach
        rw [hj31] at this
        omega
      · have := hfit _ hreach
        rw [show 2 ^ (j + 1) - 1 = 2 * (2 ^ j - 1) + 1 by omega]
        exact this

/-- **Depth-limited trees.** -/
theorem createTree_ok {data : List Nat} (hn : data.length ≤ 2 ^ 15) {limit : Nat} (hl : limit ≤ 15)
    (h2 : 2 ≤ (usedSyms data).length) (h14 : (usedSyms data).length ≤ 2 ^ 14) (hsum : data.sum ≤ 2 ^ 30)
    (hfit : ∀ lim, fib (limit + 3) * lim ≤ data.sum + (usedSyms data).length * lim →
      data.sum + (usedSyms data).length * (2 * lim + 1) < sentinel)
    (hstop : ∀ lim, fib (limit + 3) * lim ≤ data.sum + (usedSyms data).length * lim → lim ≤ 2 ^ 30) :
    ∃ d, createTree data limit = some d ∧ Code data limit d := by
  have hz : Depths data (List.replicate data.length 0) :=
    ⟨by simp, fun s _ _ => by rw [List.getD_eq_getElem?_getD, List.getElem?_replicate]; split <;> rfl⟩
  refine createGo_ok hn hl h2 h14 hsum hfit hstop 32 0 _ hz rfl (by omega) ?_
  have : sentinel = 4294967295 := rfl
  simp; omega

end Jxl.Huffman
