import Verif.Lemmas.HuffmanStore
/-!
# Codes with two to four symbols
-/
namespace Jxl.Huffman

theorem weight_used {depth : List Nat} : ∀ {syms : List Nat}, syms.Nodup → (∀ i, depth.getD i 0 ≠ 0 ↔ i ∈ syms) →
    Prefix.weight depth = (syms.map fun s => 2 ^ (15 - depth.getD s 0)).sum := by
  intro syms hnd hmem
  have h1 : ∀ (l : List Nat) (k : Nat), Prefix.weight l = (((List.range l.length).filter fun i => l.getD i 0 ≠ 0).map fun i => 2 ^ (15 - l.getD i 0)).sum := by
    intro l _
    unfold Prefix.weight
    have : l = (List.range l.length).map fun i => l.getD i 0 := by
      refine List.ext_getElem (by simp) fun i h1 h2 => ?_
      rw [List.getElem_map, List.getElem_range, List.getD_eq_getElem?_getD, List.getElem?_eq_getElem h1]; rfl
    conv => lhs; rw [this]
    rw [List.filter_map, List.map_map]
    rfl
  rw [h1 depth 0]
  refine List.Perm.sum_nat (List.Perm.map _ ?_)
  rw [List.perm_ext_iff_of_nodup (List.nodup_range.filter _) hnd]
  intro i
  rw [List.mem_filter, List.mem_range, ← hmem]
  simp only [decide_eq_true_eq]
  exact ⟨fun h => h.2, fun h => ⟨getD_ne_lt h, h⟩⟩

theorem pow_cases {x : Nat} (h1 : 1 ≤ x) (h15 : x ≤ 15) : (x = 1 ∧ 2 ^ (15 - x) = 16384) ∨ (x = 2 ∧ 2 ^ (15 - x) = 8192) ∨ (x = 3 ∧ 2 ^ (15 - x) = 4096) ∨
    (4 ≤ x ∧ 2 ^ (15 - x) ≤ 2048 ∧ 1 ≤ 2 ^ (15 - x)) := by
  have h : ∀ x < 16, 1 ≤ x → (x = 1 ∧ 2 ^ (15 - x) = 16384) ∨ (x = 2 ∧ 2 ^ (15 - x) = 8192) ∨ (x = 3 ∧ 2 ^ (15 - x) = 4096) ∨
    (4 ≤ x ∧ 2 ^ (15 - x) ≤ 2048 ∧ 1 ≤ 2 ^ (15 - x)) := by decide
  exact h x (by omega) h1

theorem full2 {a b : Nat} (ha : 1 ≤ a ∧ a ≤ 15) (hb : 1 ≤ b ∧ b ≤ 15) (h : 2 ^ (15 - a) + 2 ^ (15 - b) = 2 ^ 15) : a = 1 ∧ b = 1 := by
  have h1 := pow_cases ha.1 ha.2
  have h2 := pow_cases hb.1 hb.2
  generalize 2 ^ (15 - a) = A at *
  generalize 2 ^ (15 - b) = B at *
  omega

theorem full3 {a b c : Nat} (ha : 1 ≤ a ∧ a ≤ 15) (hb : 1 ≤ b ∧ b ≤ 15) (hc : 1 ≤ c ∧ c ≤ 15) (hab : a ≤ b) (hbc : b ≤ c)
    (h : 2 ^ (15 - a) + 2 ^ (15 - b) + 2 ^ (15 - c) = 2 ^ 15) : a = 1 ∧ b = 2 ∧ c = 2 := by
  have h1 := pow_cases ha.1 ha.2
  have h2 := pow_cases hb.1 hb.2
  have h3 := pow_cases hc.1 hc.2
  generalize 2 ^ (15 - a) = A at *
  generalize 2 ^ (15 - b) = B at *
  generalize 2 ^ (15 - c) = C at *
  omega

theorem full4 {a b c d : Nat} (ha : 1 ≤ a ∧ a ≤ 15) (hb : 1 ≤ b ∧ b ≤ 15) (hc : 1 ≤ c ∧ c ≤ 15) (hd : 1 ≤ d ∧ d ≤ 15) (hab : a ≤ b) (hbc : b ≤ c)
    (hcd : c ≤ d) (h : 2 ^ (15 - a) + 2 ^ (15 - b) + 2 ^ (15 - c) + 2 ^ (15 - d) = 2 ^ 15) :
    (a = 1 ∧ b = 2 ∧ c = 3 ∧ d = 3) ∨ (a = 2 ∧ b = 2 ∧ c = 2 ∧ d = 2) := by
  have h1 := pow_cases ha.1 ha.2
  have h2 := pow_cases hb.1 hb.2
  have h3 := pow_cases hc.1 hc.2
  have h4 := pow_cases hd.1 hd.2
  generalize 2 ^ (15 - a) = A at *
  generalize 2 ^ (15 - b) = B at *
  generalize 2 ^ (15 - c) = C at *
  generalize 2 ^ (15 - d) = D at *
  omega

theorem sortStep_perm (depth : List Nat) (l : List Nat) (i j : Nat) (hi : i < l.length) (hj : j < l.length) (hij : i ≠ j) :
    (sortStep depth l (i, j)).Perm l ∧ (sortStep depth l (i, j)).length = l.length := by
  unfold sortStep
  dsimp only
  split
  · refine ⟨?_, by simp⟩
    rw [List.getD_eq_getElem?_getD, List.getD_eq_getElem?_getD, List.getElem?_eq_getElem hi, List.getElem?_eq_getElem hj]
    exact List.set_set_perm hj hi
  · exact ⟨List.Perm.refl _, rfl⟩

theorem sort2 (depth : List Nat) (a b : Nat) : ∃ a' b', [(0, 1)].foldl (sortStep depth) [a, b] = [a', b'] ∧ [a', b'].Perm [a, b] ∧
    depth.getD a' 0 ≤ depth.getD b' 0 := by
  have s01 : sortStep depth [a, b] (0, 1) = if depth.getD b 0 < depth.getD a 0 then [b, a] else [a, b] := rfl
  rw [List.foldl_cons, List.foldl_nil, s01]
  split
  · exact ⟨b, a, rfl, List.Perm.swap _ _ _, by omega⟩
  · exact ⟨a, b, rfl, List.Perm.refl _, by omega⟩

theorem sort3 (depth : List Nat) (a b c : Nat) : ∃ a' b' c', [(0, 1), (0, 2), (1, 2)].foldl (sortStep depth) [a, b, c] = [a', b', c'] ∧
    [a', b', c'].Perm [a, b, c] ∧ depth.getD a' 0 ≤ depth.getD b' 0 ∧ depth.getD b' 0 ≤ depth.getD c' 0 := by
  have s01 : ∀ a b c, sortStep depth [a, b, c] (0, 1) = if depth.getD b 0 < depth.getD a 0 then [b, a, c] else [a, b, c] := by intros; rfl
  have s02 : ∀ a b c, sortStep depth [a, b, c] (0, 2) = if depth.getD c 0 < depth.getD a 0 then [c, b, a] else [a, b, c] := by intros; rfl
  have s12 : ∀ a b c, sortStep depth [a, b, c] (1, 2) = if depth.getD c 0 < depth.getD b 0 then [a, c, b] else [a, b, c] := by intros; rfl
  have e1 : ∀ a b c, ∃ a' b' c', sortStep depth [a, b, c] (0, 1) = [a', b', c'] ∧ [a', b', c'].Perm [a, b, c] ∧ depth.getD a' 0 ≤ depth.getD b' 0 := by
    intro a b c; rw [s01]; split
    · exact ⟨b, a, c, rfl, List.Perm.swap _ _ _, by omega⟩
    · exact ⟨a, b, c, rfl, List.Perm.refl _, by omega⟩
  obtain ⟨a1, b1, c1, h1, p1, o1⟩ := e1 a b c
  have e2 : ∃ a' b' c', sortStep depth [a1, b1, c1] (0, 2) = [a', b', c'] ∧ [a', b', c'].Perm [a1, b1, c1] ∧ depth.getD a' 0 ≤ depth.getD b' 0 ∧
      depth.getD a' 0 ≤ depth.getD c' 0 := by
    rw [s02]; split
    · exact ⟨c1, b1, a1, rfl, by simpa using List.reverse_perm [a1, b1, c1], by omega, by omega⟩
    · exact ⟨a1, b1, c1, rfl, List.Perm.refl _, by omega, by omega⟩
  obtain ⟨a2, b2, c2, h2, p2, o2, o2'⟩ := e2
  have e3 : ∃ a' b' c', sortStep depth [a2, b2, c2] (1, 2) = [a', b', c'] ∧ [a', b', c'].Perm [a2, b2, c2] ∧ depth.getD a' 0 ≤ depth.getD b' 0 ∧
      depth.getD b' 0 ≤ depth.getD c' 0 := by
    rw [s12]; split
    · exact ⟨a2, c2, b2, rfl, (List.Perm.swap _ _ _).cons _, by omega, by omega⟩
    · exact ⟨a2, b2, c2, rfl, List.Perm.refl _, by omega, by omega⟩
  obtain ⟨a3, b3, c3, h3, p3, o3, o3'⟩ := e3
  exact ⟨a3, b3, c3, by simp only [List.foldl_cons, List.foldl_nil, h1, h2, h3], (p3.trans p2).trans p1, o3, o3'⟩

theorem sort4' (depth : List Nat) (a b c d : Nat) : ∃ a' b' c' d',
    [(0, 1), (0, 2), (0, 3), (1, 2), (1, 3), (2, 3)].foldl (sortStep depth) [a, b, c, d] = [a', b', c', d'] ∧
    [a', b', c', d'].Perm [a, b, c, d] ∧ depth.getD a' 0 ≤ depth.getD b' 0 ∧ depth.getD b' 0 ≤ depth.getD c' 0 ∧ depth.getD c' 0 ≤ depth.getD d' 0 := by
  have step : ∀ (a b c d : Nat) (i j : Nat), i < 4 → j < 4 → i ≠ j → ∃ a' b' c' d', sortStep depth [a, b, c, d] (i, j) = [a', b', c', d'] ∧
      [a', b', c', d'].Perm [a, b, c, d] := by
    intro a b c d i j hi hj hij
    obtain ⟨h1, h2⟩ := sortStep_perm depth [a, b, c, d] i j hi hj hij
    generalize sortStep depth [a, b, c, d] (i, j) = r at h1 h2
    match r, h2 with
    | [a', b', c', d'], _ => exact ⟨a', b', c', d', rfl, h1⟩
  have s01 : ∀ a b c d, sortStep depth [a, b, c, d] (0, 1) = if depth.getD b 0 < depth.getD a 0 then [b, a, c, d] else [a, b, c, d] := by intros; rfl
  have s02 : ∀ a b c d, sortStep depth [a, b, c, d] (0, 2) = if depth.getD c 0 < depth.getD a 0 then [c, b, a, d] else [a, b, c, d] := by intros; rfl
  have s03 : ∀ a b c d, sortStep depth [a, b, c, d] (0, 3) = if depth.getD d 0 < depth.getD a 0 then [d, b, c, a] else [a, b, c, d] := by intros; rfl
  have s12 : ∀ a b c d, sortStep depth [a, b, c, d] (1, 2) = if depth.getD c 0 < depth.getD b 0 then [a, c, b, d] else [a, b, c, d] := by intros; rfl
  have s13 : ∀ a b c d, sortStep depth [a, b, c, d] (1, 3) = if depth.getD d 0 < depth.getD b 0 then [a, d, c, b] else [a, b, c, d] := by intros; rfl
  have s23 : ∀ a b c d, sortStep depth [a, b, c, d] (2, 3) = if depth.getD d 0 < depth.getD c 0 then [a, b, d, c] else [a, b, c, d] := by intros; rfl
  have run : ∀ (P : Nat → Nat → Nat → Nat → Prop) (a b c d i j : Nat), i < 4 → j < 4 → i ≠ j →
      (∀ a' b' c' d', sortStep depth [a, b, c, d] (i, j) = [a', b', c', d'] → P a' b' c' d') →
      ∃ a' b' c' d', sortStep depth [a, b, c, d] (i, j) = [a', b', c', d'] ∧ [a', b', c', d'].Perm [a, b, c, d] ∧ P a' b' c' d' := by
    intro P a b c d i j hi hj hij h
    obtain ⟨a', b', c', d', h1, h2⟩ := step a b c d i j hi hj hij
    exact ⟨a', b', c', d', h1, h2, h a' b' c' d' h1⟩
  obtain ⟨a1, b1, c1, d1, h1, p1, o1⟩ := run (fun a b c d => depth.getD a 0 ≤ depth.getD b 0) a b c d 0 1 (by omega) (by omega) (by omega) (by
    intro a' b' c' d' h; rw [s01] at h; split at h <;> (cases h; omega))
  obtain ⟨a2, b2, c2, d2, h2, p2, o2⟩ := run (fun a b c d => depth.getD a 0 ≤ depth.getD b 0 ∧ depth.getD a 0 ≤ depth.getD c 0) a1 b1 c1 d1 0 2
    (by omega) (by omega) (by omega) (by
    intro a' b' c' d' h; rw [s02] at h; split at h <;> (cases h; omega))
  obtain ⟨a3, b3, c3, d3, h3, p3, o3⟩ := run (fun a b c d => depth.getD a 0 ≤ depth.getD b 0 ∧ depth.getD a 0 ≤ depth.getD c 0 ∧
    depth.getD a 0 ≤ depth.getD d 0) a2 b2 c2 d2 0 3 (by omega) (by omega) (by omega) (by
    intro a' b' c' d' h; rw [s03] at h; split at h <;> (cases h; omega))
  obtain ⟨a4, b4, c4, d4, h4, p4, o4⟩ := run (fun a b c d => depth.getD a 0 ≤ depth.getD b 0 ∧ depth.getD a 0 ≤ depth.getD c 0 ∧
    depth.getD a 0 ≤ depth.getD d 0 ∧ depth.getD b 0 ≤ depth.getD c 0) a3 b3 c3 d3 1 2 (by omega) (by omega) (by omega) (by
    intro a' b' c' d' h; rw [s12] at h; split at h <;> (cases h; omega))
  obtain ⟨a5, b5, c5, d5, h5, p5, o5⟩ := run (fun a b c d => depth.getD a 0 ≤ depth.getD b 0 ∧
    depth.getD b 0 ≤ depth.getD c 0 ∧ depth.getD b 0 ≤ depth.getD d 0) a4 b4 c4 d4 1 3 (by omega) (by omega) (by omega) (by
    intro a' b' c' d' h; rw [s13] at h; split at h <;> (cases h; omega))
  obtain ⟨a6, b6, c6, d6, h6, p6, o6⟩ := run (fun a b c d => depth.getD a 0 ≤ depth.getD b 0 ∧
    depth.getD b 0 ≤ depth.getD c 0 ∧ depth.getD c 0 ≤ depth.getD d 0) a5 b5 c5 d5 2 3 (by omega) (by omega) (by omega) (by
    intro a' b' c' d' h; rw [s23] at h; split at h <;> (cases h; omega))
  exact ⟨a6, b6, c6, d6, by simp only [List.foldl_cons, List.foldl_nil, h1, h2, h3, h4, h5, h6],
    ((((p6.trans p5).trans p4).trans p3).trans p2).trans p1, o6⟩

end Jxl.Huffman
