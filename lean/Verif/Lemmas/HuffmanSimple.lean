import Verif.Lemmas.HuffmanRead
/-! # Simple prefix codes: canonical words of codes given by their sorted symbols per length -/
namespace Jxl.Huffman

theorem countP_lt_succ (m : Nat) : ∀ A : List Nat, A.countP (fun y => decide (y < m + 1)) = A.countP (fun y => decide (y < m)) + A.count m
  | [] => rfl
  | a :: A => by
    rw [List.countP_cons, List.countP_cons, List.count_cons, countP_lt_succ m A]
    rcases Nat.lt_trichotomy a m with h | h | h
    · have h1 : a < m + 1 := by omega
      have h2 : ¬ a = m := by omega
      simp [h, h1, h2]; omega
    · subst h
      simp; omega
    · have h1 : ¬ a < m + 1 := by omega
      have h2 : ¬ a < m := by omega
      have h3 : ¬ a = m := by omega
      simp [h1, h2, h3]

theorem countP_range_mem (A : List Nat) (hA : A.Nodup) : ∀ m, (List.range m).countP (fun y => decide (y ∈ A)) = A.countP (fun y => decide (y < m))
  | 0 => by simp
  | m + 1 => by
    rw [List.range_succ, List.countP_append, countP_range_mem A hA m, countP_lt_succ]
    congr 1
    by_cases h : m ∈ A
    · rw [hA.count, if_pos h]; simp [h]
    · rw [List.count_eq_zero_of_not_mem h]; simp [h]

theorem sorted_countP : ∀ (A : List Nat), A.Pairwise (· < ·) → ∀ k y, A[k]? = some y → A.countP (fun z => decide (z < y)) = k
  | [], _, k, y, h => by simp at h
  | a :: A, hp, k, y, h => by
    rw [List.pairwise_cons] at hp
    cases k with
    | zero =>
      simp only [List.getElem?_cons_zero, Option.some.injEq] at h
      subst h
      rw [List.countP_cons]
      have : A.countP (fun z => decide (z < a)) = 0 := by
        rw [List.countP_eq_zero]
        intro z hz
        have := hp.1 z hz
        simp; omega
      rw [this]; simp
    | succ k =>
      rw [List.getElem?_cons_succ] at h
      rw [List.countP_cons, sorted_countP A hp.2 k y h]
      have := hp.1 y (List.mem_of_getElem? h)
      simp [this]

/-- Lengths of a code given by its symbols of length 1, 2 and 3. -/
def lens3 (n : Nat) (A B C : List Nat) : List Nat :=
  (List.range n).map fun y => if y ∈ A then 1 else if y ∈ B then 2 else if y ∈ C then 3 else 0

structure Lists (n : Nat) (A B C : List Nat) : Prop where
  a : A.Pairwise (· < ·)
  b : B.Pairwise (· < ·)
  c : C.Pairwise (· < ·)
  ab : ∀ y ∈ A, y ∉ B
  ac : ∀ y ∈ A, y ∉ C
  bc : ∀ y ∈ B, y ∉ C
  lt : ∀ y, y ∈ A ∨ y ∈ B ∨ y ∈ C → y < n

def ofLen (A B C : List Nat) : Nat → List Nat
  | 1 => A
  | 2 => B
  | 3 => C
  | _ => []

theorem lt_nodup {A : List Nat} (h : A.Pairwise (· < ·)) : A.Nodup := h.imp (fun h => by omega)

theorem len3_iff {n : Nat} {A B C : List Nat} (h : Lists n A B C) (y l : Nat) (hl : 1 ≤ l) :
    (if y ∈ A then 1 else if y ∈ B then 2 else if y ∈ C then 3 else 0) = l ↔ y ∈ ofLen A B C l := by
  have h1 := h.ab y
  have h2 := h.ac y
  have h3 := h.bc y
  match l, hl with
  | 1, _ =>
    show _ ↔ y ∈ A
    by_cases g1 : y ∈ A <;> by_cases g2 : y ∈ B <;> by_cases g3 : y ∈ C <;> simp_all
  | 2, _ =>
    show _ ↔ y ∈ B
    by_cases g1 : y ∈ A <;> by_cases g2 : y ∈ B <;> by_cases g3 : y ∈ C <;> simp_all
  | 3, _ =>
    show _ ↔ y ∈ C
    by_cases g1 : y ∈ A <;> by_cases g2 : y ∈ B <;> by_cases g3 : y ∈ C <;> simp_all
  | l + 4, _ =>
    show _ ↔ y ∈ []
    have g : (if y ∈ A then 1 else if y ∈ B then 2 else if y ∈ C then 3 else 0) ≤ 3 := by
      by_cases g1 : y ∈ A <;> by_cases g2 : y ∈ B <;> by_cases g3 : y ∈ C <;> simp_all
    simp only [List.not_mem_nil, iff_false]
    omega

theorem ofLen_sorted {n : Nat} {A B C : List Nat} (h : Lists n A B C) (l : Nat) : (ofLen A B C l).Pairwise (· < ·) := by
  unfold ofLen
  split
  · exact h.a
  · exact h.b
  · exact h.c
  · exact List.Pairwise.nil

theorem ofLen_lt {n : Nat} {A B C : List Nat} (h : Lists n A B C) {l y : Nat} (hy : y ∈ ofLen A B C l) : y < n := by
  unfold ofLen at hy
  split at hy
  · exact h.lt y (Or.inl hy)
  · exact h.lt y (Or.inr (Or.inl hy))
  · exact h.lt y (Or.inr (Or.inr hy))
  · cases hy

theorem lens3_count_take {n : Nat} {A B C : List Nat} (h : Lists n A B C) (l m : Nat) (hl : 1 ≤ l) (hm : m ≤ n) :
    ((lens3 n A B C).take m).count l = (ofLen A B C l).countP (fun y => decide (y < m)) := by
  rw [lens3, ← List.map_take, List.take_range, Nat.min_eq_left hm, List.count_eq_countP, List.countP_map, ← countP_range_mem _ (lt_nodup (ofLen_sorted h l))]
  apply List.countP_congr
  intro y _
  simp only [Function.comp_apply, beq_iff_eq, decide_eq_true_eq]
  exact len3_iff h y l hl

theorem lens3_hist {n : Nat} {A B C : List Nat} (h : Lists n A B C) (l : Nat) (hl : 1 ≤ l) :
    hist (lens3 n A B C) l = (ofLen A B C l).length := by
  have hlen : (lens3 n A B C).length = n := by simp [lens3]
  have := lens3_count_take h l n hl (Nat.le_refl _)
  rw [List.take_of_length_le (by omega)] at this
  rw [hist, this, List.countP_eq_length]
  intro y hy
  have := ofLen_lt h hy
  simpa using this

theorem lens3_get {n : Nat} {A B C : List Nat} (h : Lists n A B C) {l y : Nat} (hl : 1 ≤ l) (hy : y ∈ ofLen A B C l) :
    (lens3 n A B C)[y]? = some l := by
  rw [lens3, List.getElem?_map, List.getElem?_range (ofLen_lt h hy), Option.map_some, Option.some.injEq]
  exact (len3_iff h y l hl).mpr hy

theorem lens3_rank {n : Nat} {A B C : List Nat} (h : Lists n A B C) {l y k : Nat} (hl : 1 ≤ l) (hy : (ofLen A B C l)[k]? = some y) :
    ((lens3 n A B C).take y).count l = k := by
  have hm := List.mem_of_getElem? hy
  rw [lens3_count_take h l y hl (Nat.le_of_lt (ofLen_lt h hm))]
  exact sorted_countP _ (ofLen_sorted h l) k y hy

theorem lens3_complete {n : Nat} {A B C : List Nat} (h : Lists n A B C) (hw : 4 * A.length + 2 * B.length + C.length = 8) :
    Prefix.Complete (lens3 n A B C) := by
  have hle : ∀ l ∈ lens3 n A B C, l ≤ 15 := by
    intro l hl
    rw [lens3, List.mem_map] at hl
    obtain ⟨y, _, rfl⟩ := hl
    split
    · omega
    · split
      · omega
      · split <;> omega
  refine ⟨hle, ?_⟩
  have hb := base_eq_weight (lens3 n A B C) 16
  rw [List.filter_eq_self.mpr (fun l hl => by have := hle l hl; simp; omega)] at hb
  rw [← hb]
  have e : ∀ l, 1 ≤ l → hist (lens3 n A B C) l = (ofLen A B C l).length := fun l hl => lens3_hist h l hl
  simp only [base]
  simp [e, ofLen]
  omega

/-- Reading from a table that repeats `es`. -/
theorem simple_read {n : Nat} {A B C : List Nat} (h : Lists n A B C) (es : List Entry) (log : Nat) (hlog : log ≤ 3)
    (t : List Entry) (ht : ∀ i < 256, t[i]? = es[i % 2 ^ log]?)
    (hes : ∀ j < 2 ^ log, ∃ l k y, es[j]? = some ⟨l, y⟩ ∧ 1 ≤ l ∧ l ≤ log ∧ (ofLen A B C l)[k]? = some y ∧
      j % 2 ^ l = rev l (code (fun l => (ofLen A B C l).length) l k)) (s : List Bool) :
    ∃ y l, (lens3 n A B C)[y]? = some l ∧ 0 < l ∧ (s ++ List.replicate 15 false).take l = Prefix.word (lens3 n A B C) y ∧
      readSymbol t s = some (y, s.drop l) := by
  obtain ⟨l, k, y, h1, h2, h3, h4, h5⟩ := hes (ofBits s % 2 ^ log) (Nat.mod_lt _ (Nat.two_pow_pos _))
  have hg := lens3_get h h2 (List.mem_of_getElem? h4)
  refine ⟨y, l, hg, h2, ?_, ?_⟩
  · rw [starts_iff _ hg (by omega), lens3_rank h h2 h4]
    rw [Nat.mod_mod_of_dvd _ (Nat.pow_dvd_pow 2 h3)] at h5
    rw [h5]
    congr 1
    unfold code
    have : ∀ L, first (hist (lens3 n A B C)) L = first (fun l => (ofLen A B C l).length) L := by
      intro L
      induction L with
      | zero => rfl
      | succ L ih =>
        rw [first, first, ih]
        by_cases h0 : L = 0
        · simp [h0]
        · simp only [if_neg h0]
          rw [lens3_hist h L (by omega)]
    rw [this]
  · unfold readSymbol
    have hx : ofBits (s.take 8) = ofBits s % 2 ^ 8 := ofBits_take s 8
    have hlt : ofBits s % 2 ^ 8 < 256 := Nat.mod_lt _ (by omega)
    rw [hx, ht _ hlt, Nat.mod_mod_of_dvd _ (Nat.pow_dvd_pow 2 (by omega : log ≤ 8)), h1, Option.bind_some]
    rw [if_neg (by show ¬ l > 8; omega)]

end Jxl.Huffman
