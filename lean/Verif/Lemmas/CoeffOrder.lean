import Verif.Spec.CoeffOrder
import Verif.Lemmas.Lehmer
/-! # Natural coefficient orders -/
namespace Jxl.CoeffOrder

theorem mem_diagOne {i : Nat} {p : Nat × Nat} : p ∈ diagOne i ↔ p.1 + p.2 = i := by
  obtain ⟨x, y⟩ := p
  simp only [diagOne, List.mem_map, List.mem_range]
  constructor
  · rintro ⟨j, hj, h⟩
    split at h <;> cases h <;> omega
  · intro h
    by_cases hi : i % 2 ≠ 0
    · exact ⟨y, by omega, by rw [if_pos hi]; congr 1; omega⟩
    · exact ⟨x, by omega, by rw [if_neg hi]; congr 1; omega⟩

theorem mem_diagTwo {n i : Nat} (hn : i + 2 ≤ n) {p : Nat × Nat} :
    p ∈ diagTwo n i ↔ p.1 + p.2 = 2 * n - 2 - i ∧ p.1 < n ∧ p.2 < n := by
  obtain ⟨x, y⟩ := p
  simp only [diagTwo, List.mem_map, List.mem_range]
  constructor
  · rintro ⟨j, hj, h⟩
    split at h <;> cases h <;> omega
  · intro h
    by_cases hi : i % 2 ≠ 0
    · exact ⟨n - 1 - x, by omega, by rw [if_pos hi]; congr 1 <;> omega⟩
    · exact ⟨n - 1 - y, by omega, by rw [if_neg hi]; congr 1 <;> omega⟩

theorem diagOne_sorted (i : Nat) : (diagOne i).Pairwise Before := by
  unfold diagOne
  rw [List.pairwise_map]
  refine List.Pairwise.imp_of_mem ?_ List.pairwise_lt_range
  intro a b ha hb hab
  rw [List.mem_range] at ha hb
  unfold Before
  right
  by_cases hi : i % 2 ≠ 0
  · simp only [if_pos hi]
    rw [if_neg (by omega)]; omega
  · simp only [if_neg hi]
    rw [if_pos (by omega)]; omega

theorem diagTwo_sorted {n i : Nat} (hn : i + 2 ≤ n) : (diagTwo n i).Pairwise Before := by
  unfold diagTwo
  rw [List.pairwise_map]
  refine List.Pairwise.imp_of_mem ?_ List.pairwise_lt_range
  intro a b ha hb hab
  rw [List.mem_range] at ha hb
  unfold Before
  right
  by_cases hi : i % 2 ≠ 0
  · simp only [if_pos hi]
    rw [if_neg (by omega)]; omega
  · simp only [if_neg hi]
    rw [if_pos (by omega)]; omega

theorem mem_halfOne {n : Nat} {p : Nat × Nat} : p ∈ halfOne n ↔ p.1 + p.2 < n := by
  simp only [halfOne, List.mem_flatMap, List.mem_range, mem_diagOne]
  exact ⟨fun ⟨i, h, e⟩ => by omega, fun h => ⟨_, h, rfl⟩⟩

theorem mem_halfTwo {n : Nat} {p : Nat × Nat} : p ∈ halfTwo n ↔ n ≤ p.1 + p.2 ∧ p.1 < n ∧ p.2 < n := by
  simp only [halfTwo, List.mem_flatMap, List.mem_reverse, List.mem_range]
  constructor
  · rintro ⟨i, h, e⟩
    rw [mem_diagTwo (by omega)] at e
    omega
  · intro h
    refine ⟨2 * n - 2 - (p.1 + p.2), by omega, ?_⟩
    rw [mem_diagTwo (by omega)]
    omega

/-- The coordinates in the order of both halves. -/
def coords (n : Nat) : List (Nat × Nat) := halfOne n ++ halfTwo n

theorem mem_coords {n : Nat} {p : Nat × Nat} : p ∈ coords n ↔ p.1 < n ∧ p.2 < n := by
  rw [coords, List.mem_append, mem_halfOne, mem_halfTwo]; omega

theorem coords_sorted (n : Nat) : (coords n).Pairwise Before := by
  unfold coords
  rw [List.pairwise_append]
  refine ⟨?_, ?_, ?_⟩
  · unfold halfOne
    rw [List.pairwise_flatMap]
    refine ⟨fun i _ => diagOne_sorted i, List.pairwise_lt_range.imp ?_⟩
    intro a b hab p hp q hq
    rw [mem_diagOne] at hp hq
    left; omega
  · unfold halfTwo
    rw [List.pairwise_flatMap]
    refine ⟨fun i hi => ?_, ?_⟩
    · rw [List.mem_reverse, List.mem_range] at hi
      exact diagTwo_sorted (by omega)
    · rw [List.pairwise_reverse]
      refine List.Pairwise.imp_of_mem ?_ List.pairwise_lt_range
      intro a b ha hb hab p hp q hq
      rw [List.mem_range] at ha hb
      rw [mem_diagTwo (by omega)] at hp hq
      left; omega
  · intro p hp q hq
    rw [mem_halfOne] at hp
    rw [mem_halfTwo] at hq
    left; omega

theorem Before.irrefl (a : Nat × Nat) : ¬ Before a a := by
  unfold Before
  rintro (h | ⟨_, h⟩)
  · omega
  · split at h <;> omega

/-- Rows that are kept, renumbered. -/
def kept (xs : Nat) (cs : List (Nat × Nat)) : List (Nat × Nat) :=
  (cs.filter fun p => p.2 % xs = 0).map fun p => (p.1, p.2 / xs)

theorem kept_cons (xs x y : Nat) (cs : List (Nat × Nat)) :
    kept xs ((x, y) :: cs) = if y % xs = 0 then (x, y / xs) :: kept xs cs else kept xs cs := by
  unfold kept
  rw [List.filter_cons]
  by_cases h : y % xs = 0 <;> simp [h]

theorem mem_kept {xs : Nat} (hx : 0 < xs) {cs : List (Nat × Nat)} {p : Nat × Nat} :
    p ∈ kept xs cs ↔ (p.1, p.2 * xs) ∈ cs := by
  obtain ⟨x, y⟩ := p
  simp only [kept, List.mem_map, List.mem_filter, decide_eq_true_eq]
  constructor
  · rintro ⟨⟨a, b⟩, ⟨h1, h2⟩, h3⟩
    cases h3
    simp only at h2
    have : b / xs * xs = b := Nat.div_mul_cancel (Nat.dvd_of_mod_eq_zero h2)
    simp only [this]; exact h1
  · intro h
    exact ⟨(x, y * xs), ⟨h, Nat.mul_mod_left y xs⟩, by simp only [Nat.mul_div_cancel y hx]⟩

theorem kept_sorted {xs : Nat} {cs : List (Nat × Nat)} (h : cs.Pairwise Before) :
    (kept xs cs).Pairwise fun a b => Before (a.1, a.2 * xs) (b.1, b.2 * xs) := by
  unfold kept
  rw [List.pairwise_map]
  refine List.Pairwise.imp_of_mem ?_ (h.filter _)
  intro a b ha hb hab
  simp only [List.mem_filter, decide_eq_true_eq] at ha hb
  have h1 : a.2 / xs * xs = a.2 := Nat.div_mul_cancel (Nat.dvd_of_mod_eq_zero ha.2)
  have h2 : b.2 / xs * xs = b.2 := Nat.div_mul_cancel (Nat.dvd_of_mod_eq_zero hb.2)
  simp only [h1, h2]
  exact hab

/-- Positions of the coefficients that are not of low frequency, in the order they are met. -/
def others (cx cy xs : Nat) (cs : List (Nat × Nat)) : List Nat :=
  ((kept xs cs).filter fun p => ¬ (p.1 < cx ∧ p.2 < cy)).map fun p => p.2 * (8 * cx) + p.1

/-- Positions and values in the order they are met. -/
def assign (cx cy xs : Nat) : List (Nat × Nat) → Nat → List (Nat × Nat)
  | [], _ => []
  | (x, y) :: cs, cur =>
    if y < cy ∧ x < cx then (y * (8 * cx) + x, y * cx + x) :: assign cx cy xs cs cur
    else (y * (8 * cx) + x, cur) :: assign cx cy xs cs (cur + 1)

/-- Storing pairs. -/
def storeAll (lut : Bool) : List (Nat × Nat) → List Nat → Option (List Nat)
  | [], out => some out
  | (p, v) :: ps, out => (if lut then store out p v else store out v p).bind (storeAll lut ps)

theorem ceilLog2_pow (k : Nat) : Lehmer.ceilLog2 (2 ^ k) = k := by
  unfold Lehmer.ceilLog2
  rw [if_pos (by rw [Nat.and_two_pow_sub_one_eq_mod]; exact Nat.mod_self _)]
  exact Nat.log2_two_pow

theorem others_nil (cx cy xs : Nat) : others cx cy xs [] = [] := rfl

theorem orderLoop_eq (lut first : Bool) {cx cy k : Nat} (hcy : 0 < cy) (hcx : cx = cy * 2 ^ k) :
    ∀ (cs : List (Nat × Nat)) (out : List Nat) (cur : Nat),
    (first = true ∨ ∀ p ∈ kept (2 ^ k) cs, ¬ (p.1 < cx ∧ p.2 < cy)) →
    orderLoop lut first cx cy cs out cur =
      (storeAll lut (assign cx cy (2 ^ k) (kept (2 ^ k) cs) cur) out).map
        fun out => (out, cur + (others cx cy (2 ^ k) cs).length) := by
  have hdiv : cx / cy = 2 ^ k := by rw [hcx]; exact Nat.mul_div_cancel_left _ hcy
  intro cs
  induction cs with
  | nil => intro out cur _; rfl
  | cons p cs ih =>
    intro out cur hf
    obtain ⟨x, y⟩ := p
    rw [orderLoop, kept_cons]
    simp only [hdiv, Nat.and_two_pow_sub_one_eq_mod, ceilLog2_pow, Nat.shiftRight_eq_div_pow]
    unfold others
    rw [kept_cons]
    by_cases hy : y % 2 ^ k = 0
    · rw [kept_cons, if_pos hy] at hf
      simp only [hy, ne_eq, not_true_eq_false, if_false, if_true]
      have hf' : first = true ∨ ∀ p ∈ kept (2 ^ k) cs, ¬ (p.1 < cx ∧ p.2 < cy) := by
        rcases hf with hf | hf
        · exact Or.inl hf
        · exact Or.inr fun p hp => hf p (by simp [hp])
      have hpos : y / 2 ^ k * cx * 8 + x = y / 2 ^ k * (8 * cx) + x := by rw [Nat.mul_assoc, Nat.mul_comm cx 8]
      rw [assign, List.filter_cons, hpos]
      by_cases hl : x < cx ∧ y / 2 ^ k < cy
      · have hfirst : first = true := by
          rcases hf with hf | hf
          · exact hf
          · exact absurd hl (hf _ (List.mem_cons_self ..))
        subst hfirst
        simp only [hl, and_self, decide_true, Bool.and_self, if_true, not_true_eq_false, decide_false, Bool.false_eq_true, if_false]
        rw [storeAll]
        cases (if lut then store out (y / 2 ^ k * (8 * cx) + x) (y / 2 ^ k * cx + x)
          else store out (y / 2 ^ k * cx + x) (y / 2 ^ k * (8 * cx) + x)) with
        | none => rfl
        | some o => simp only [Option.bind_some]; rw [ih o cur hf']; rfl
      · have hl2 : ¬ (y / 2 ^ k < cy ∧ x < cx) := fun h => hl ⟨h.2, h.1⟩
        simp only [hl, hl2, decide_false, Bool.and_false, Bool.false_eq_true, if_false, not_false_eq_true, decide_true,
          if_true, List.map_cons, List.length_cons]
        rw [storeAll]
        cases (if lut then store out (y / 2 ^ k * (8 * cx) + x) cur
          else store out cur (y / 2 ^ k * (8 * cx) + x)) with
        | none => rfl
        | some o =>
          simp only [Option.bind_some]
          rw [ih o (cur + 1) hf']
          have : cur + 1 + (others cx cy (2 ^ k) cs).length = cur + ((others cx cy (2 ^ k) cs).length + 1) := by omega
          rw [this]; rfl
    · rw [kept_cons, if_neg hy] at hf
      simp only [hy, ne_eq, not_false_eq_true, if_false, if_true]
      exact ih out cur hf

theorem assign_append (cx cy xs : Nat) : ∀ (as bs : List (Nat × Nat)) (cur : Nat),
    assign cx cy xs (as ++ bs) cur = assign cx cy xs as cur ++
      assign cx cy xs bs (cur + (as.filter fun p => ¬ (p.1 < cx ∧ p.2 < cy)).length) := by
  intro as
  induction as with
  | nil => intro bs cur; rfl
  | cons a as ih =>
    intro bs cur
    obtain ⟨x, y⟩ := a
    rw [List.cons_append, assign, assign, List.filter_cons]
    by_cases h : y < cy ∧ x < cx
    · have h2 : x < cx ∧ y < cy := ⟨h.2, h.1⟩
      simp only [h, h2, and_self, if_true, not_true_eq_false, decide_false, Bool.false_eq_true, if_false]
      rw [ih]; rfl
    · have h2 : ¬ (x < cx ∧ y < cy) := fun h' => h ⟨h'.2, h'.1⟩
      simp only [h, h2, if_false, not_false_eq_true, decide_true, if_true, List.length_cons]
      rw [ih, List.cons_append]
      congr 3
      omega

theorem storeAll_append (lut : Bool) : ∀ (as bs : List (Nat × Nat)) (out : List Nat),
    storeAll lut (as ++ bs) out = (storeAll lut as out).bind (storeAll lut bs) := by
  intro as
  induction as with
  | nil => intro bs out; rfl
  | cons a as ih =>
    intro bs out
    obtain ⟨p, v⟩ := a
    rw [List.cons_append, storeAll, storeAll]
    cases (if lut then store out p v else store out v p) with
    | none => rfl
    | some o => exact ih bs o

theorem kept_append (xs : Nat) (as bs : List (Nat × Nat)) : kept xs (as ++ bs) = kept xs as ++ kept xs bs := by
  simp [kept]

/-- Both halves together. -/
theorem coeffOrderAndLut_eq (lut : Bool) {bx by' k : Nat} (hcy : 0 < min by' bx)
    (hcx : max by' bx = min by' bx * 2 ^ k) (out : List Nat) :
    coeffOrderAndLut lut bx by' out =
      storeAll lut (assign (max by' bx) (min by' bx) (2 ^ k) (kept (2 ^ k) (coords (max by' bx * 8)))
        (max by' bx * min by' bx)) out := by
  unfold coeffOrderAndLut
  simp only
  generalize hx : max by' bx = cx at *
  generalize hy : min by' bx = cy at *
  rw [orderLoop_eq lut true hcy hcx _ _ _ (Or.inl rfl)]
  rw [coords, kept_append, assign_append, storeAll_append]
  have hlen : (others cx cy (2 ^ k) (halfOne (cx * 8))).length =
      ((kept (2 ^ k) (halfOne (cx * 8))).filter fun p => ¬ (p.1 < cx ∧ p.2 < cy)).length := by
    unfold others; rw [List.length_map]
  cases storeAll lut (assign cx cy (2 ^ k) (kept (2 ^ k) (halfOne (cx * 8))) (cx * cy)) out with
  | none => rfl
  | some o =>
    simp only [Option.map_some, Option.bind_some]
    have hno : ∀ p ∈ kept (2 ^ k) (halfTwo (cx * 8)), ¬ (p.1 < cx ∧ p.2 < cy) := by
      intro p hp hc
      rw [mem_kept (Nat.two_pow_pos k), mem_halfTwo] at hp
      simp only at hp
      have h2 : p.2 * 2 ^ k < cx := by
        rw [hcx]; exact (Nat.mul_lt_mul_right (Nat.two_pow_pos k)).2 hc.2
      omega
    rw [orderLoop_eq lut false hcy hcx _ _ _ (Or.inr hno), hlen]
    cases storeAll lut (assign cx cy (2 ^ k) (kept (2 ^ k) (halfTwo (cx * 8))) _) o <;> rfl

/-- What the order will be. -/
def target (cx cy xs : Nat) : List Nat :=
  (List.range (cx * cy)).map (lowest cx) ++ others cx cy xs (coords (cx * 8))

theorem assign_mem (cx cy xs : Nat) : ∀ (ps : List (Nat × Nat)) (cur : Nat) (q : Nat × Nat),
    q ∈ assign cx cy xs ps cur →
    (∃ p ∈ ps, p.1 < cx ∧ p.2 < cy ∧ q = (p.2 * (8 * cx) + p.1, p.2 * cx + p.1)) ∨
      ∃ j, q.2 = cur + j ∧
        ((ps.filter fun p => ¬ (p.1 < cx ∧ p.2 < cy)).map fun p => p.2 * (8 * cx) + p.1)[j]? = some q.1 := by
  intro ps
  induction ps with
  | nil => intro cur q h; cases h
  | cons a ps ih =>
    intro cur q h
    obtain ⟨x, y⟩ := a
    rw [assign] at h
    rw [List.filter_cons]
    by_cases hl : y < cy ∧ x < cx
    · have h2 : x < cx ∧ y < cy := ⟨hl.2, hl.1⟩
      rw [if_pos hl] at h
      simp only [h2, and_self, not_true_eq_false, decide_false, Bool.false_eq_true, if_false]
      rcases List.mem_cons.1 h with h | h
      · exact Or.inl ⟨(x, y), by simp, h2.1, h2.2, h⟩
      · rcases ih cur q h with ⟨p, hp, r⟩ | r
        · exact Or.inl ⟨p, by simp [hp], r⟩
        · exact Or.inr r
    · have h2 : ¬ (x < cx ∧ y < cy) := fun h' => hl ⟨h'.2, h'.1⟩
      rw [if_neg hl] at h
      simp only [h2, not_false_eq_true, decide_true, if_true, List.map_cons]
      rcases List.mem_cons.1 h with h | h
      · exact Or.inr ⟨0, by rw [h]; rfl, by rw [h]; rfl⟩
      · rcases ih (cur + 1) q h with ⟨p, hp, r⟩ | ⟨j, r1, r2⟩
        · exact Or.inl ⟨p, by simp [hp], r⟩
        · exact Or.inr ⟨j + 1, by omega, by rw [List.getElem?_cons_succ]; exact r2⟩

theorem assign_fst (cx cy xs : Nat) : ∀ (ps : List (Nat × Nat)) (cur : Nat),
    (assign cx cy xs ps cur).map Prod.fst = ps.map fun p => p.2 * (8 * cx) + p.1 := by
  intro ps
  induction ps with
  | nil => intro cur; rfl
  | cons a ps ih =>
    intro cur
    obtain ⟨x, y⟩ := a
    rw [assign]
    split <;> simp [ih]

section
variable {cx cy k : Nat} (hcy : 0 < cy) (hcx : cx = cy * 2 ^ k)
include hcy hcx

theorem cx_pos : 0 < cx := by rw [hcx]; exact Nat.mul_pos hcy (Nat.two_pow_pos k)

/-- The coefficients that are visited: all of them. -/
theorem mem_visited {p : Nat × Nat} : p ∈ kept (2 ^ k) (coords (cx * 8)) ↔ p.1 < 8 * cx ∧ p.2 < 8 * cy := by
  rw [mem_kept (Nat.two_pow_pos k), mem_coords]
  simp only
  have : p.2 * 2 ^ k < cx * 8 ↔ p.2 < 8 * cy := by
    rw [hcx, show cy * 2 ^ k * 8 = 8 * cy * 2 ^ k by grind]
    exact Nat.mul_lt_mul_right (Nat.two_pow_pos k)
  rw [this, Nat.mul_comm cx 8]

theorem pos_lt {x y : Nat} (hx : x < 8 * cx) (hy : y < 8 * cy) : y * (8 * cx) + x < 64 * (cx * cy) := by
  have : (y + 1) * (8 * cx) ≤ 8 * cy * (8 * cx) := Nat.mul_le_mul_right _ hy
  rw [show 8 * cy * (8 * cx) = 64 * (cx * cy) by grind, Nat.add_mul] at this
  omega

theorem pos_div {x y : Nat} (hx : x < 8 * cx) : (y * (8 * cx) + x) / (8 * cx) = y ∧ (y * (8 * cx) + x) % (8 * cx) = x := by
  constructor
  · rw [Nat.mul_comm, Nat.mul_add_div (by omega), Nat.div_eq_of_lt hx, Nat.add_zero]
  · rw [Nat.mul_add_mod_self_right, Nat.mod_eq_of_lt hx]

theorem mem_others {p : Nat} : p ∈ others cx cy (2 ^ k) (coords (cx * 8)) ↔
    p < 64 * (cx * cy) ∧ ¬ (p % (8 * cx) < cx ∧ p / (8 * cx) < cy) := by
  have hc := cx_pos hcy hcx
  simp only [others, List.mem_map, List.mem_filter, decide_eq_true_eq, mem_visited hcy hcx]
  constructor
  · rintro ⟨⟨x, y⟩, ⟨⟨h1, h2⟩, h3⟩, rfl⟩
    simp only at h1 h2 h3 ⊢
    have := pos_div hcy hcx (y := y) h1
    rw [this.1, this.2]
    exact ⟨pos_lt hcy hcx h1 h2, h3⟩
  · rintro ⟨h1, h2⟩
    refine ⟨(p % (8 * cx), p / (8 * cx)), ⟨⟨Nat.mod_lt _ (by omega), ?_⟩, h2⟩, ?_⟩
    · rw [Nat.div_lt_iff_lt_mul (by omega)]
      rw [show 8 * cy * (8 * cx) = 64 * (cx * cy) by grind]; exact h1
    · simp only; rw [Nat.mul_comm]; exact Nat.div_add_mod p (8 * cx)

theorem others_sorted : (others cx cy (2 ^ k) (coords (cx * 8))).Pairwise
    fun p q => Before (place cx (2 ^ k) p) (place cx (2 ^ k) q) := by
  unfold others
  rw [List.pairwise_map]
  have h := (kept_sorted (xs := 2 ^ k) (coords_sorted (cx * 8))).filter fun p => ¬ (p.1 < cx ∧ p.2 < cy)
  refine List.Pairwise.imp_of_mem ?_ h
  intro a b ha hb hab
  have ha := (mem_visited hcy hcx).1 (List.mem_filter.1 ha).1
  have hb := (mem_visited hcy hcx).1 (List.mem_filter.1 hb).1
  unfold place
  rw [(pos_div hcy hcx ha.1).1, (pos_div hcy hcx ha.1).2, (pos_div hcy hcx hb.1).1, (pos_div hcy hcx hb.1).2]
  exact hab

theorem lowest_facts {j : Nat} (hj : j < cx * cy) : lowest cx j < 64 * (cx * cy) ∧
    lowest cx j % (8 * cx) = j % cx ∧ lowest cx j / (8 * cx) = j / cx ∧ j / cx < cy ∧ j % cx < cx := by
  have hc := cx_pos hcy hcx
  have h1 : j % cx < cx := Nat.mod_lt _ hc
  have h2 : j / cx < cy := by rw [Nat.div_lt_iff_lt_mul hc, Nat.mul_comm]; exact hj
  unfold lowest
  have := pos_div hcy hcx (x := j % cx) (y := j / cx) (by omega)
  exact ⟨pos_lt hcy hcx (by omega) (by omega), this.2, this.1, h2, h1⟩

theorem mem_target {p : Nat} : p ∈ target cx cy (2 ^ k) ↔ p < 64 * (cx * cy) := by
  have hc := cx_pos hcy hcx
  rw [target, List.mem_append, mem_others hcy hcx]
  simp only [List.mem_map, List.mem_range]
  constructor
  · rintro (⟨j, hj, rfl⟩ | h)
    · exact (lowest_facts hcy hcx hj).1
    · exact h.1
  · intro h
    by_cases hl : p % (8 * cx) < cx ∧ p / (8 * cx) < cy
    · left
      have hj : p / (8 * cx) * cx + p % (8 * cx) < cx * cy := by
        have : (p / (8 * cx) + 1) * cx ≤ cy * cx := Nat.mul_le_mul_right _ hl.2
        rw [Nat.add_mul, Nat.mul_comm cy] at this
        omega
      refine ⟨_, hj, ?_⟩
      unfold lowest
      have h1 : (p / (8 * cx) * cx + p % (8 * cx)) / cx = p / (8 * cx) := by
        rw [Nat.mul_comm, Nat.mul_add_div hc, Nat.div_eq_of_lt hl.1, Nat.add_zero]
      have h2 : (p / (8 * cx) * cx + p % (8 * cx)) % cx = p % (8 * cx) := by
        rw [Nat.mul_add_mod_self_right, Nat.mod_eq_of_lt hl.1]
      rw [h1, h2, Nat.mul_comm]
      exact Nat.div_add_mod p (8 * cx)
    · exact Or.inr ⟨h, hl⟩

theorem target_nodup : (target cx cy (2 ^ k)).Nodup := by
  have hc := cx_pos hcy hcx
  unfold target
  rw [List.nodup_append]
  refine ⟨?_, ?_, ?_⟩
  · unfold List.Nodup
    rw [List.pairwise_map]
    refine List.Pairwise.imp_of_mem ?_ List.nodup_range
    intro a b ha hb hab he
    rw [List.mem_range] at ha hb
    have h1 := lowest_facts hcy hcx ha
    have h2 := lowest_facts hcy hcx hb
    apply hab
    rw [← Nat.div_add_mod a cx, ← Nat.div_add_mod b cx, ← h1.2.1, ← h1.2.2.1, ← h2.2.1, ← h2.2.2.1, he]
  · refine (others_sorted hcy hcx).imp ?_
    intro a b hab he
    rw [he] at hab
    exact Before.irrefl _ hab
  · intro a ha b hb he
    subst he
    simp only [List.mem_map, List.mem_range] at ha
    obtain ⟨j, hj, rfl⟩ := ha
    have h1 := lowest_facts hcy hcx hj
    have h2 := (mem_others hcy hcx).1 hb
    rw [h1.2.1, h1.2.2.1] at h2
    exact h2.2 ⟨h1.2.2.2.2, h1.2.2.2.1⟩

theorem target_perm : (target cx cy (2 ^ k)).Perm (List.range (64 * (cx * cy))) :=
  (List.perm_ext_iff_of_nodup (target_nodup hcy hcx) List.nodup_range).2 fun a => by
    rw [mem_target hcy hcx, List.mem_range]

theorem target_length : (target cx cy (2 ^ k)).length = 64 * (cx * cy) := by
  rw [(target_perm hcy hcx).length_eq, List.length_range]

theorem target_natural : IsNatural cx cy (2 ^ k) (target cx cy (2 ^ k)) := by
  refine ⟨target_perm hcy hcx, ?_, ?_⟩
  · intro j hj
    unfold target
    rw [List.getElem?_append_left (by simp [hj]), List.getElem?_map, List.getElem?_range hj]
    rfl
  · unfold target
    rw [List.drop_left' (by simp)]
    exact others_sorted hcy hcx

/-- Every pair stored agrees with the target, and every place of the target is stored to. -/
theorem pairs_target {q : Nat × Nat}
    (h : q ∈ assign cx cy (2 ^ k) (kept (2 ^ k) (coords (cx * 8))) (cx * cy)) :
    (target cx cy (2 ^ k))[q.2]? = some q.1 := by
  have hc := cx_pos hcy hcx
  rcases assign_mem _ _ _ _ _ _ h with ⟨p, hp, h1, h2, rfl⟩ | ⟨j, h1, h2⟩
  · have hj : p.2 * cx + p.1 < cx * cy := by
      have : (p.2 + 1) * cx ≤ cy * cx := Nat.mul_le_mul_right _ h2
      rw [Nat.add_mul, Nat.mul_comm cy] at this
      omega
    show (target cx cy (2 ^ k))[p.2 * cx + p.1]? = _
    rw [(target_natural hcy hcx).low _ hj]
    unfold lowest
    rw [Nat.mul_comm p.2 cx, Nat.mul_add_div hc, Nat.div_eq_of_lt h1, Nat.add_zero, Nat.mul_comm cx p.2,
      Nat.mul_add_mod_self_right, Nat.mod_eq_of_lt h1]
  · rw [h1]
    unfold target
    rw [List.getElem?_append_right (by simp)]
    simp only [List.length_map, List.length_range, Nat.add_sub_cancel_left]
    exact h2

theorem pairs_cover {v : Nat} (hv : v < 64 * (cx * cy)) :
    ∃ q ∈ assign cx cy (2 ^ k) (kept (2 ^ k) (coords (cx * 8))) (cx * cy), q.1 = v := by
  have hc := cx_pos hcy hcx
  have hm : v ∈ (assign cx cy (2 ^ k) (kept (2 ^ k) (coords (cx * 8))) (cx * cy)).map Prod.fst := by
    rw [assign_fst, List.mem_map]
    refine ⟨(v % (8 * cx), v / (8 * cx)), ?_, by simp only; rw [Nat.mul_comm]; exact Nat.div_add_mod v (8 * cx)⟩
    rw [mem_visited hcy hcx]
    refine ⟨Nat.mod_lt _ (by omega), ?_⟩
    rw [Nat.div_lt_iff_lt_mul (by omega), show 8 * cy * (8 * cx) = 64 * (cx * cy) by grind]
    exact hv
  obtain ⟨q, h1, h2⟩ := List.mem_map.1 hm
  exact ⟨q, h1, h2⟩

end

/-- Stores that all agree with a function. -/
theorem storeAll_fun (lut : Bool) (f : Nat → Nat) : ∀ (ps : List (Nat × Nat)) (out : List Nat),
    (∀ q ∈ ps, (if lut then q.1 else q.2) < out.length ∧ f (if lut then q.1 else q.2) = if lut then q.2 else q.1) →
    ∃ out', storeAll lut ps out = some out' ∧ out'.length = out.length ∧
      ∀ i, i < out.length → out'[i]? = if i ∈ ps.map (fun q => if lut then q.1 else q.2) then some (f i) else out[i]? := by
  intro ps
  induction ps with
  | nil => intro out _; exact ⟨out, rfl, rfl, fun i _ => by simp⟩
  | cons q ps ih =>
    intro out h
    obtain ⟨p, v⟩ := q
    have hq := h (p, v) (List.mem_cons_self ..)
    have hst : (if lut then store out p v else store out v p) =
        some (out.set (if lut then p else v) (f (if lut then p else v))) := by
      cases lut
      · simp only [Bool.false_eq_true, if_false] at hq ⊢
        unfold store; rw [if_pos hq.1, hq.2]
      · simp only [if_true] at hq ⊢
        unfold store; rw [if_pos hq.1, hq.2]
    obtain ⟨out', e, hl, hg⟩ := ih (out.set (if lut then p else v) (f (if lut then p else v))) (by
      intro q' hq'
      rw [List.length_set]
      exact h q' (List.mem_cons_of_mem _ hq'))
    rw [List.length_set] at hl hg
    refine ⟨out', by rw [storeAll, hst]; exact e, hl, ?_⟩
    intro i hi
    rw [hg i hi, List.map_cons]
    simp only
    generalize (if lut = true then p else v) = key
    by_cases h1 : i ∈ ps.map (fun q => if lut then q.1 else q.2)
    · rw [if_pos h1, if_pos (List.mem_cons_of_mem _ h1)]
    · rw [if_neg h1]
      by_cases h2 : key = i
      · rw [if_pos (by simp [h2]), h2, List.getElem?_set_self (by omega)]
      · rw [if_neg (by
          intro hm
          rcases List.mem_cons.1 hm with hm | hm
          · exact h2 hm.symm
          · exact h1 hm), List.getElem?_set_ne h2]

/-- A list with a given beginning, and the rest of another. -/
theorem list_split {out' out t : List Nat} (hl : out'.length = out.length) (ht : t.length ≤ out.length)
    (h1 : ∀ i, i < t.length → out'[i]? = t[i]?) (h2 : ∀ i, t.length ≤ i → i < out.length → out'[i]? = out[i]?) :
    out' = t ++ out.drop t.length := by
  apply List.ext_getElem?
  intro i
  by_cases h : i < t.length
  · rw [List.getElem?_append_left h, h1 i h]
  · rw [List.getElem?_append_right (by omega), List.getElem?_drop]
    by_cases h' : i < out.length
    · rw [h2 i (by omega) h']; congr 1; omega
    · rw [List.getElem?_eq_none (by omega), List.getElem?_eq_none (by omega)]

theorem getElem?_inj_of_nodup {l : List Nat} (h : l.Nodup) {i j v : Nat} (hi : l[i]? = some v) (hj : l[j]? = some v) :
    i = j := by
  obtain ⟨hi', e1⟩ := List.getElem?_eq_some_iff.1 hi
  obtain ⟨hj', e2⟩ := List.getElem?_eq_some_iff.1 hj
  rcases Nat.lt_trichotomy i j with hlt | he | hgt
  · exact absurd (e1.trans e2.symm) ((List.pairwise_iff_getElem.1 h) i j hi' hj' hlt)
  · exact he
  · exact absurd (e2.trans e1.symm) ((List.pairwise_iff_getElem.1 h) j i hj' hi' hgt)

/-- The inverse table. -/
def inverse (t : List Nat) : List Nat := (List.range t.length).map fun p => t.idxOf p

theorem natural_order {bx by' k : Nat} (hcy : 0 < min by' bx) (hcx : max by' bx = min by' bx * 2 ^ k) (out : List Nat)
    (ho : 64 * (max by' bx * min by' bx) ≤ out.length) :
    coeffOrderAndLut false bx by' out = some (target (max by' bx) (min by' bx) (2 ^ k) ++
      out.drop (64 * (max by' bx * min by' bx))) := by
  rw [coeffOrderAndLut_eq false hcy hcx]
  generalize max by' bx = cx at *
  generalize min by' bx = cy at *
  have hlen := target_length hcy hcx
  have hp : ∀ q ∈ assign cx cy (2 ^ k) (kept (2 ^ k) (coords (cx * 8))) (cx * cy),
      (target cx cy (2 ^ k))[q.2]? = some q.1 := fun q hq => pairs_target hcy hcx hq
  obtain ⟨out', e, hl, hg⟩ := storeAll_fun false (fun v => (target cx cy (2 ^ k)).getD v 0)
    (assign cx cy (2 ^ k) (kept (2 ^ k) (coords (cx * 8))) (cx * cy)) out (by
      intro q hq
      have h1 := hp q hq
      have h2 := (List.getElem?_eq_some_iff.1 h1).1
      simp only [Bool.false_eq_true, if_false]
      exact ⟨by omega, by rw [List.getD_eq_getElem?_getD, h1]; rfl⟩)
  rw [e]
  simp only [Bool.false_eq_true, if_false] at hg
  have := list_split (t := target cx cy (2 ^ k)) hl (by omega) (by
    intro i hi
    rw [hg i (by omega), if_pos]
    · rw [List.getD_eq_getElem?_getD, List.getElem?_eq_getElem hi]; rfl
    · have hv : (target cx cy (2 ^ k))[i]? = some (target cx cy (2 ^ k))[i] := List.getElem?_eq_getElem hi
      obtain ⟨q, h1, h2⟩ := pairs_cover hcy hcx ((mem_target hcy hcx).1 (List.getElem_mem hi))
      have h3 := hp q h1
      rw [h2] at h3
      rw [List.mem_map]
      exact ⟨q, h1, getElem?_inj_of_nodup (target_nodup hcy hcx) h3 hv⟩) (by
    intro i h1 h2
    rw [hg i h2, if_neg]
    intro hm
    obtain ⟨q, h3, h4⟩ := List.mem_map.1 hm
    have := (List.getElem?_eq_some_iff.1 (hp q h3)).1
    omega)
  rw [this, hlen]

theorem natural_lut {bx by' k : Nat} (hcy : 0 < min by' bx) (hcx : max by' bx = min by' bx * 2 ^ k) (out : List Nat)
    (ho : 64 * (max by' bx * min by' bx) ≤ out.length) :
    coeffOrderAndLut true bx by' out = some (inverse (target (max by' bx) (min by' bx) (2 ^ k)) ++
      out.drop (64 * (max by' bx * min by' bx))) := by
  rw [coeffOrderAndLut_eq true hcy hcx]
  generalize max by' bx = cx at *
  generalize min by' bx = cy at *
  have hlen := target_length hcy hcx
  have hil : (inverse (target cx cy (2 ^ k))).length = 64 * (cx * cy) := by simp [inverse, hlen]
  have hp : ∀ q ∈ assign cx cy (2 ^ k) (kept (2 ^ k) (coords (cx * 8))) (cx * cy),
      (target cx cy (2 ^ k))[q.2]? = some q.1 := fun q hq => pairs_target hcy hcx hq
  have hmem : ∀ q ∈ assign cx cy (2 ^ k) (kept (2 ^ k) (coords (cx * 8))) (cx * cy), q.1 < 64 * (cx * cy) :=
    fun q hq => (mem_target hcy hcx).1 (List.mem_of_getElem? (hp q hq))
  obtain ⟨out', e, hl, hg⟩ := storeAll_fun true (fun p => (target cx cy (2 ^ k)).idxOf p)
    (assign cx cy (2 ^ k) (kept (2 ^ k) (coords (cx * 8))) (cx * cy)) out (by
      intro q hq
      have h1 := hp q hq
      have h2 := hmem q hq
      simp only [if_true]
      refine ⟨by omega, ?_⟩
      have h3 : q.1 ∈ target cx cy (2 ^ k) := List.mem_of_getElem? h1
      have h4 : (target cx cy (2 ^ k))[(target cx cy (2 ^ k)).idxOf q.1]? = some q.1 := by
        rw [List.getElem?_eq_getElem (List.idxOf_lt_length_of_mem h3)]
        exact congrArg some (List.getElem_idxOf _)
      exact getElem?_inj_of_nodup (target_nodup hcy hcx) h4 h1)
  rw [e]
  simp only [if_true] at hg
  have := list_split (t := inverse (target cx cy (2 ^ k))) hl (by omega) (by
    intro i hi
    rw [hg i (by omega), if_pos]
    · unfold inverse
      rw [List.getElem?_map, List.getElem?_range (by omega)]; rfl
    · obtain ⟨q, h1, h2⟩ := pairs_cover hcy hcx (v := i) (by omega)
      rw [List.mem_map]
      exact ⟨q, h1, h2⟩) (by
    intro i h1 h2
    rw [hg i h2, if_neg]
    intro hm
    obtain ⟨q, h3, h4⟩ := List.mem_map.1 hm
    have := hmem q h3
    omega)
  rw [this, hil]

theorem inverse_spec {t : List Nat} {n : Nat} (h : t.Perm (List.range n)) :
    (inverse t).length = n ∧ (∀ i p : Nat, t[i]? = some p → (inverse t)[p]? = some i) ∧
      (∀ p : Nat, p < n → ∃ i : Nat, (inverse t)[p]? = some i ∧ t[i]? = some p) := by
  obtain ⟨h1, h2, h3⟩ := Lehmer.perm_facts h
  have hidx : ∀ p, p < n → t[t.idxOf p]? = some p := by
    intro p hp
    have hm : p ∈ t := h.mem_iff.2 (List.mem_range.2 hp)
    rw [List.getElem?_eq_getElem (List.idxOf_lt_length_of_mem hm)]
    exact congrArg some (List.getElem_idxOf _)
  have hinv : ∀ p, p < n → (inverse t)[p]? = some (t.idxOf p) := by
    intro p hp
    unfold inverse
    rw [List.getElem?_map, List.getElem?_range (by omega)]; rfl
  refine ⟨by simp [inverse, h3], ?_, fun p hp => ⟨_, hinv p hp, hidx p hp⟩⟩
  intro i p hi
  have hp : p < n := h2 p (List.mem_of_getElem? hi)
  rw [hinv p hp]
  exact congrArg some (getElem?_inj_of_nodup h1 (hidx p hp) hi)

end Jxl.CoeffOrder
