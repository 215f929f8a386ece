import Verif.Model.Alias
namespace Jxl.Alias

/-! ### Sums and updates -/

def upd (f : Nat → Nat) (i v : Nat) : Nat → Nat := fun j => if j = i then v else f j

def sumTo (f : Nat → Nat) : Nat → Nat
  | 0 => 0
  | n + 1 => sumTo f n + f n

theorem sumTo_congr {f g : Nat → Nat} {n : Nat} (h : ∀ i, i < n → f i = g i) : sumTo f n = sumTo g n := by
  induction n with
  | zero => rfl
  | succ n ih => simp only [sumTo]; rw [ih (fun i hi => h i (by omega)), h n (by omega)]

theorem sumTo_upd_ge (f : Nat → Nat) (i v n : Nat) (h : n ≤ i) : sumTo (upd f i v) n = sumTo f n :=
  sumTo_congr fun j hj => by simp only [upd]; rw [if_neg (by omega)]

theorem sumTo_upd (f : Nat → Nat) (i v n : Nat) (h : i < n) : sumTo (upd f i v) n + f i = sumTo f n + v := by
  induction n with
  | zero => omega
  | succ n ih =>
    simp only [sumTo]
    by_cases hi : i = n
    · subst hi
      rw [sumTo_upd_ge f i v i (Nat.le_refl _)]; simp only [upd, if_true]; omega
    · have := ih (by omega)
      have h2 : upd f i v n = f n := by simp only [upd]; rw [if_neg (by omega)]
      omega

theorem sumTo_const_le {f : Nat → Nat} {n e : Nat} (h : ∀ i, i < n → e ≤ f i) : n * e ≤ sumTo f n := by
  induction n with
  | zero => simp [sumTo]
  | succ n ih =>
    have := ih (fun i hi => h i (by omega)); have := h n (by omega)
    simp only [sumTo, Nat.add_mul]; omega

/-- If all terms are at least `e`, one is more, the sum exceeds `n·e`. -/
theorem sumTo_lt {f : Nat → Nat} {n e i : Nat} (h : ∀ i, i < n → e ≤ f i) (hi : i < n) (h2 : e < f i) : n * e < sumTo f n := by
  have h3 := sumTo_upd f i e n hi
  have h4 : n * e ≤ sumTo (upd f i e) n := sumTo_const_le fun j hj => by
    simp only [upd]; split
    · exact Nat.le_refl _
    · exact h j hj
  omega

theorem sumTo_le_const {f : Nat → Nat} {n e : Nat} (h : ∀ i, i < n → f i ≤ e) : sumTo f n ≤ n * e := by
  induction n with
  | zero => simp [sumTo]
  | succ n ih =>
    have := ih (fun i hi => h i (by omega)); have := h n (by omega)
    simp only [sumTo, Nat.add_mul]; omega

theorem sumTo_gt {f : Nat → Nat} {n e i : Nat} (h : ∀ i, i < n → f i ≤ e) (hi : i < n) (h2 : f i < e) : sumTo f n < n * e := by
  have h3 := sumTo_upd f i e n hi
  have h4 : sumTo (upd f i e) n ≤ n * e := sumTo_le_const fun j hj => by
    simp only [upd]; split
    · exact Nat.le_refl _
    · exact h j hj
  omega

theorem le_sumTo (f : Nat → Nat) (i n : Nat) (h : i < n) : f i ≤ sumTo f n := by
  have := sumTo_upd f i 0 n h; omega

/-! ### The loop invariant, on functions -/

/-- An entry that has received its right part. -/
def Fin' (E : Nat) (c : Nat → Nat) (under : List Nat) (T i : Nat) : Prop := i < T ∧ c i < E ∧ i ∉ under

open Classical in
/-- Slots of the entry that are accounted for, or will be. -/
noncomputable def weight (E : Nat) (c : Nat → Nat) (under : List Nat) (i : Nat) : Nat :=
  if c i < E ∧ i ∉ under then E else c i

structure Inv (f : Nat → Nat) (T E : Nat) (c r o : Nat → Nat) (under over : List Nat) : Prop where
  ndU : under.Nodup
  ndO : over.Nodup
  over_spec : ∀ i ∈ over, i < T ∧ E < c i
  under_spec : ∀ i ∈ under, i < T ∧ c i < E
  over_all : ∀ i, i < T → E < c i → i ∈ over
  le_freq : ∀ i, c i ≤ f i
  sum : sumTo (weight E c under) T = T * E
  range : ∀ u, Fin' E c under T u → r u < T ∧ c (r u) ≤ o u ∧ o u + (E - c u) ≤ f (r u) ∧ c u ≤ o u
  cov : ∀ s x, s < T → c s ≤ x → x < f s → ∃ u, Fin' E c under T u ∧ r u = s ∧ o u ≤ x ∧ x < o u + (E - c u)
  disj : ∀ u v, Fin' E c under T u → Fin' E c under T v → u ≠ v → r u = r v → o u + (E - c u) ≤ o v ∨ o v + (E - c v) ≤ o u

theorem Inv.under_ne {f : Nat → Nat} {T E : Nat} {c r o : Nat → Nat} {under over : List Nat} (h : Inv f T E c r o under over)
    (ho : over ≠ []) : under ≠ [] := by
  intro hu
  obtain ⟨a, over', rfl⟩ := List.exists_cons_of_ne_nil ho
  subst hu
  obtain ⟨h1, h2⟩ := h.over_spec a (by simp)
  have := sumTo_lt (f := weight E c []) (n := T) (e := E) (i := a) (fun i hi => by
    simp only [weight]; split
    · exact Nat.le_refl _
    · rename_i hn; simp at hn; exact hn) h1 (by simp only [weight]; rw [if_neg (by omega)]; exact h2)
  rw [h.sum] at this; omega

theorem Inv.step {f : Nat → Nat} {T E : Nat} {c r o : Nat → Nat} {un ov : Nat} {under over : List Nat}
    (h : Inv f T E c r o (un :: under) (ov :: over)) (under' over' : List Nat)
    (hcase : (c ov - (E - c un) < E ∧ under' = ov :: under ∧ over' = over) ∨
      (c ov - (E - c un) > E ∧ under' = under ∧ over' = ov :: over) ∨ (c ov - (E - c un) = E ∧ under' = under ∧ over' = over)) :
    Inv f T E (upd c ov (c ov - (E - c un))) (upd r un ov) (upd o un (c ov - (E - c un))) under' over' := by
  obtain ⟨hovT, hovE⟩ := h.over_spec ov (by simp)
  obtain ⟨hunT, hunE⟩ := h.under_spec un (by simp)
  have hne : un ≠ ov := by intro e; subst e; omega
  have hndU := List.nodup_cons.mp h.ndU
  have hndO := List.nodup_cons.mp h.ndO
  have hovU : ov ∉ under := fun hm => by have := (h.under_spec ov (by simp [hm])).2; omega
  generalize hd : c ov - (E - c un) = d at *
  have hc' : ∀ i, i ≠ ov → upd c ov d i = c i := fun i hi => by simp only [upd, if_neg hi]
  have hcov : upd c ov d ov = d := by simp [upd]
  have hcun : upd c ov d un = c un := hc' un hne
  have hmemU : ∀ i, i ∈ under' ↔ (i ∈ under ∨ (i = ov ∧ d < E)) := by
    intro i
    rcases hcase with ⟨h1, rfl, _⟩ | ⟨h1, rfl, _⟩ | ⟨h1, rfl, _⟩
    · simp; constructor
      · rintro (rfl | h2)
        · right; exact ⟨rfl, h1⟩
        · left; exact h2
      · rintro (h2 | ⟨rfl, _⟩)
        · right; exact h2
        · left; rfl
    · constructor
      · intro h2; left; exact h2
      · rintro (h2 | ⟨_, h3⟩)
        · exact h2
        · omega
    · constructor
      · intro h2; left; exact h2
      · rintro (h2 | ⟨_, h3⟩)
        · exact h2
        · omega
  have hmemO : ∀ i, i ∈ over' ↔ (i ∈ over ∨ (i = ov ∧ d > E)) := by
    intro i
    rcases hcase with ⟨h1, _, rfl⟩ | ⟨h1, _, rfl⟩ | ⟨h1, _, rfl⟩
    · constructor
      · intro h2; left; exact h2
      · rintro (h2 | ⟨_, h3⟩)
        · exact h2
        · omega
    · simp; constructor
      · rintro (rfl | h2)
        · right; exact ⟨rfl, h1⟩
        · left; exact h2
      · rintro (h2 | ⟨rfl, _⟩)
        · right; exact h2
        · left; rfl
    · constructor
      · intro h2; left; exact h2
      · rintro (h2 | ⟨_, h3⟩)
        · exact h2
        · omega
  have hfin : ∀ i, Fin' E (upd c ov d) under' T i ↔ (i = un ∨ Fin' E c (un :: under) T i) := by
    intro i
    by_cases hi : i = ov
    · subst hi
      constructor
      · rintro ⟨_, h2, h3⟩
        rw [hcov] at h2
        exact absurd ((hmemU i).mpr (Or.inr ⟨rfl, h2⟩)) h3
      · rintro (h1 | ⟨_, h2, _⟩)
        · exact absurd h1.symm hne
        · omega
    · simp only [Fin', hc' i hi, hmemU, List.mem_cons, not_or, hi, false_and, not_false_eq_true, and_true]
      constructor
      · rintro ⟨h1, h2, h3⟩
        by_cases h4 : i = un
        · left; exact h4
        · right; exact ⟨h1, h2, h4, h3⟩
      · rintro (rfl | ⟨h1, h2, h3, h4⟩)
        · exact ⟨hunT, hunE, hndU.1⟩
        · exact ⟨h1, h2, h4⟩
  have hfne : ∀ i, Fin' E c (un :: under) T i → i ≠ un ∧ i ≠ ov := by
    rintro i ⟨_, h2, h3⟩
    simp only [List.mem_cons, not_or] at h3
    refine ⟨h3.1, ?_⟩
    rintro rfl; omega
  have hr : ∀ i, i ≠ un → upd r un ov i = r i := fun i hi => by simp only [upd, if_neg hi]
  have ho : ∀ i, i ≠ un → upd o un d i = o i := fun i hi => by simp only [upd, if_neg hi]
  have hrun : upd r un ov un = ov := by simp [upd]
  have houn : upd o un d un = d := by simp [upd]
  have hfov := h.le_freq ov
  constructor
  · rcases hcase with ⟨_, rfl, _⟩ | ⟨_, rfl, _⟩ | ⟨_, rfl, _⟩
    · exact List.nodup_cons.mpr ⟨hovU, hndU.2⟩
    · exact hndU.2
    · exact hndU.2
  · rcases hcase with ⟨_, _, rfl⟩ | ⟨_, _, rfl⟩ | ⟨_, _, rfl⟩
    · exact hndO.2
    · exact h.ndO
    · exact hndO.2
  · intro i hi
    rcases (hmemO i).mp hi with h1 | ⟨rfl, h1⟩
    · have h2 := h.over_spec i (by simp [h1])
      have : i ≠ ov := fun e => hndO.1 (e ▸ h1)
      rw [hc' i this]; exact h2
    · rw [hcov]; exact ⟨hovT, h1⟩
  · intro i hi
    rcases (hmemU i).mp hi with h1 | ⟨rfl, h1⟩
    · have h2 := h.under_spec i (by simp [h1])
      have : i ≠ ov := fun e => hovU (e ▸ h1)
      rw [hc' i this]; exact h2
    · rw [hcov]; exact ⟨hovT, h1⟩
  · intro i hi hE
    by_cases h1 : i = ov
    · subst h1; rw [hcov] at hE
      exact (hmemO i).mpr (Or.inr ⟨rfl, hE⟩)
    · rw [hc' i h1] at hE
      have := h.over_all i hi hE
      simp only [List.mem_cons] at this
      exact (hmemO i).mpr (Or.inl (this.resolve_left h1))
  · intro i
    by_cases h1 : i = ov
    · subst h1; rw [hcov]; omega
    · rw [hc' i h1]; exact h.le_freq i
  · -- the sum of the weights
    have hw : ∀ i, i < T → weight E (upd c ov d) under' i = upd (upd (weight E c (un :: under)) un E) ov d i := by
      intro i hi
      by_cases h1 : i = ov
      · subst h1
        simp only [weight, hcov, hmemU]
        rw [show upd (upd (weight E c (un :: under)) un E) i d i = d by simp [upd]]
        split
        · rename_i h2; exact absurd (Or.inr ⟨by trivial, h2.1⟩) h2.2
        · rfl
      · have e1 : upd (upd (weight E c (un :: under)) un E) ov d i = upd (weight E c (un :: under)) un E i := by
          simp only [upd, if_neg h1]
        rw [e1]
        by_cases h2 : i = un
        · subst h2
          rw [show upd (weight E c (i :: under)) i E i = E by simp [upd]]
          simp only [weight, hcun, hmemU]
          rw [if_pos ⟨hunE, by simp [hndU.1, h1]⟩]
        · rw [show upd (weight E c (un :: under)) un E i = weight E c (un :: under) i by simp only [upd, if_neg h2]]
          simp only [weight, hc' i h1, hmemU, List.mem_cons, h1, h2, false_and, or_false, false_or]
    rw [sumTo_congr hw]
    have s1 := sumTo_upd (upd (weight E c (un :: under)) un E) ov d T hovT
    have s2 := sumTo_upd (weight E c (un :: under)) un E T hunT
    have w1 : weight E c (un :: under) un = c un := by simp only [weight]; rw [if_neg (by simp)]
    have w2 : upd (weight E c (un :: under)) un E ov = c ov := by
      simp only [upd, if_neg (Ne.symm hne), weight]; rw [if_neg (by omega)]
    have := h.sum
    rw [w1] at s2; rw [w2] at s1
    omega
  · -- range
    intro u hu
    rcases (hfin u).mp hu with rfl | hf
    · rw [hrun, houn, hcov, hcun]
      refine ⟨hovT, Nat.le_refl _, by omega, by omega⟩
    · obtain ⟨n1, n2⟩ := hfne u hf
      obtain ⟨g1, g2, g3, g4⟩ := h.range u hf
      rw [hr u n1, ho u n1, hc' u n2]
      refine ⟨g1, ?_, g3, g4⟩
      by_cases h1 : r u = ov
      · rw [h1, hcov]; rw [h1] at g2; omega
      · rw [hc' _ h1]; exact g2
  · -- coverage
    intro s x hs hx1 hx2
    by_cases h1 : s = ov
    · subst h1
      rw [hcov] at hx1
      by_cases h2 : c s ≤ x
      · obtain ⟨u, hu, e1, e2, e3⟩ := h.cov s x hs h2 hx2
        obtain ⟨n1, n2⟩ := hfne u hu
        exact ⟨u, (hfin u).mpr (Or.inr hu), by rw [hr u n1]; exact e1, by rw [ho u n1]; exact e2, by rw [ho u n1, hc' u n2]; exact e3⟩
      · exact ⟨un, (hfin un).mpr (Or.inl rfl), hrun, by rw [houn]; exact hx1, by rw [houn, hcun]; omega⟩
    · rw [hc' s h1] at hx1
      obtain ⟨u, hu, e1, e2, e3⟩ := h.cov s x hs hx1 hx2
      obtain ⟨n1, n2⟩ := hfne u hu
      exact ⟨u, (hfin u).mpr (Or.inr hu), by rw [hr u n1]; exact e1, by rw [ho u n1]; exact e2, by rw [ho u n1, hc' u n2]; exact e3⟩
  · -- disjointness
    intro u v hu hv huv hrr
    rcases (hfin u).mp hu with rfl | hf <;> rcases (hfin v).mp hv with rfl | hg
    · exact absurd rfl huv
    · obtain ⟨n1, n2⟩ := hfne v hg
      rw [hrun, hr v n1] at hrr
      have g2 := (h.range v hg).2.1
      rw [← hrr] at g2
      rw [houn, hcun, ho v n1, hc' v n2]
      left; omega
    · obtain ⟨n1, n2⟩ := hfne u hf
      rw [hrun, hr u n1] at hrr
      have g2 := (h.range u hf).2.1
      rw [hrr] at g2
      rw [houn, hcun, ho u n1, hc' u n2]
      right; omega
    · obtain ⟨n1, n2⟩ := hfne u hf
      obtain ⟨m1, m2⟩ := hfne v hg
      rw [hr u n1, hr v m1] at hrr
      rw [ho u n1, ho v m1, hc' u n2, hc' v m2]
      exact h.disj u v hf hg huv hrr

/-- At the end every entry is full. -/
theorem Inv.final {f : Nat → Nat} {T E : Nat} {c r o : Nat → Nat} {under : List Nat} (h : Inv f T E c r o under []) :
    under = [] ∧ ∀ i, i < T → c i = E ∨ Fin' E c [] T i := by
  have hle : ∀ i, i < T → weight E c under i ≤ E := by
    intro i hi
    simp only [weight]; split
    · exact Nat.le_refl _
    · have : ¬ E < c i := fun hE => by simpa using h.over_all i hi hE
      omega
  have hu : under = [] := by
    apply Classical.byContradiction
    intro hne
    obtain ⟨a, under', rfl⟩ := List.exists_cons_of_ne_nil hne
    obtain ⟨h1, h2⟩ := h.under_spec a (by simp)
    have := sumTo_gt hle h1 (by simp only [weight]; rw [if_neg (by simp)]; exact h2)
    rw [h.sum] at this; omega
  subst hu
  refine ⟨rfl, fun i hi => ?_⟩
  have : ¬ E < c i := fun hE => by simpa using h.over_all i hi hE
  by_cases h1 : c i < E
  · right; exact ⟨hi, h1, by simp⟩
  · left; omega

/-- Where slot `pos` of entry `i` leads. -/
def slot (c r o : Nat → Nat) (i pos : Nat) : Nat × Nat :=
  if pos < c i then (i, pos) else (r i, o i - c i + pos)

theorem Inv.bijective {f : Nat → Nat} {T E : Nat} {c r o : Nat → Nat} (h : Inv f T E c r o [] [])
    (hf0 : ∀ s, T ≤ s → f s = 0) :
    (∀ i pos, i < T → pos < E → (slot c r o i pos).2 < f (slot c r o i pos).1 ∧ (slot c r o i pos).1 < T) ∧
    (∀ s x, x < f s → ∃ i pos, i < T ∧ pos < E ∧ slot c r o i pos = (s, x) ∧
      ∀ i' pos', i' < T → pos' < E → slot c r o i' pos' = (s, x) → i' = i ∧ pos' = pos) := by
  have hfin := h.final.2
  have hF : ∀ i pos, i < T → pos < E → ¬ pos < c i → Fin' E c [] T i := by
    intro i pos hi hp hn
    rcases hfin i hi with e | e
    · omega
    · exact e
  constructor
  · intro i pos hi hp
    unfold slot
    split
    · rename_i hlt
      have := h.le_freq i
      exact ⟨by simp only; omega, hi⟩
    · rename_i hlt
      obtain ⟨g1, g2, g3, g4⟩ := h.range i (hF i pos hi hp hlt)
      exact ⟨by simp only; omega, g1⟩
  · intro s x hx
    have hs : s < T := by
      apply Decidable.byContradiction; intro hn
      rw [hf0 s (by omega)] at hx; omega
    have huniq : ∀ i pos i' pos', i < T → pos < E → i' < T → pos' < E → slot c r o i pos = (s, x) →
        slot c r o i' pos' = (s, x) → i' = i ∧ pos' = pos := by
      intro i pos i' pos' hi hp hi' hp' e e'
      unfold slot at e e'
      split at e <;> split at e' <;> simp only [Prod.mk.injEq] at e e'
      · omega
      · rename_i l1 l2
        obtain ⟨g1, g2, g3, g4⟩ := h.range i' (hF i' pos' hi' hp' l2)
        rw [e'.1, ← e.1] at g2
        omega
      · rename_i l1 l2
        obtain ⟨g1, g2, g3, g4⟩ := h.range i (hF i pos hi hp l1)
        rw [e.1, ← e'.1] at g2
        omega
      · rename_i l1 l2
        have f1 := hF i pos hi hp l1
        have f2 := hF i' pos' hi' hp' l2
        obtain ⟨g1, g2, g3, g4⟩ := h.range i f1
        obtain ⟨g1', g2', g3', g4'⟩ := h.range i' f2
        by_cases hii : i' = i
        · subst hii; exact ⟨rfl, by omega⟩
        · have := h.disj i' i f2 f1 hii (by omega)
          omega
    by_cases hc : x < c s
    · have hce : c s ≤ E := by
        rcases hfin s hs with e | e
        · omega
        · have := e.2.1; omega
      have e : slot c r o s x = (s, x) := by unfold slot; rw [if_pos hc]
      exact ⟨s, x, hs, by omega, e, fun i' pos' h1 h2 h3 => huniq s x i' pos' hs (by omega) h1 h2 e h3⟩
    · obtain ⟨u, hu, e1, e2, e3⟩ := h.cov s x hs (by omega) hx
      obtain ⟨g1, g2, g3, g4⟩ := h.range u hu
      have hu1 := hu.1
      have hu2 := hu.2.1
      have hp : x - o u + c u < E := by omega
      have e : slot c r o u (x - o u + c u) = (s, x) := by
        unfold slot; rw [if_neg (by omega), e1]; simp only [Prod.mk.injEq, true_and]; omega
      exact ⟨u, _, hu1, hp, e, fun i' pos' h1 h2 h3 => huniq u _ i' pos' hu1 hp h1 h2 e h3⟩

/-! ### The arrays of the code -/

/-- Cutoffs as a function. -/
def cf (st : St) : Nat → Nat := fun i => st.cutoffs.getD i 0
def rf (st : St) : Nat → Nat := fun i => (st.a.getD i default).right
def off (st : St) : Nat → Nat := fun i => (st.a.getD i default).offsets1

theorem getD_set {α : Type} (l : List α) (i j : Nat) (v d : α) (hi : i < l.length) :
    (l.set i v).getD j d = if j = i then v else l.getD j d := by
  simp only [List.getD_eq_getElem?_getD]
  by_cases h : j = i
  · subst h; rw [if_pos rfl, List.getElem?_set_self hi]; rfl
  · rw [if_neg h, List.getElem?_set_ne (Ne.symm h)]

theorem sub32_eq {x y : Nat} (h1 : y ≤ x) (h2 : x < 2 ^ 32) : sub32 x y = x - y := by unfold sub32; omega
theorem u8_eq {x : Nat} (h : x < 256) : u8 x = x := Nat.mod_eq_of_lt h
theorem u16_eq {x : Nat} (h : x < 65536) : u16 x = x := Nat.mod_eq_of_lt h

theorem reassign_step (E fuel un ov cu co : Nat) (cutoffs under over : List Nat) (a : List Entry) (e : Entry)
    (hcu : cutoffs[un]? = some cu) (hco : cutoffs[ov]? = some co) (hau : a[un]? = some e)
    (h1 : E - cu ≤ co) (h2 : co ≤ 4096) (h3 : ov < 256) :
    reassign E (fuel + 1) ⟨cutoffs, un :: under, ov :: over, a⟩ =
      if co - (E - cu) < E then reassign E fuel ⟨cutoffs.set ov (co - (E - cu)), ov :: under, over,
        a.set un { e with right := ov, offsets1 := co - (E - cu) }⟩
      else if co - (E - cu) > E then reassign E fuel ⟨cutoffs.set ov (co - (E - cu)), under, ov :: over,
        a.set un { e with right := ov, offsets1 := co - (E - cu) }⟩
      else reassign E fuel ⟨cutoffs.set ov (co - (E - cu)), under, over,
        a.set un { e with right := ov, offsets1 := co - (E - cu) }⟩ := by
  have hco' : sub32 co (E - cu) = co - (E - cu) := sub32_eq h1 (by omega)
  rw [reassign]
  dsimp only
  rw [hcu, hco, hau]
  rw [Option.bind_eq_bind, Option.bind_some, Option.bind_eq_bind, Option.bind_some, Option.bind_some]
  rw [hco', u8_eq h3, u16_eq (x := co - (E - cu)) (by omega)]

theorem reassign_spec (f : Nat → Nat) (T E : Nat) (hT : T ≤ 256) (hf : ∀ i, f i ≤ 4096) (fuel : Nat) (st : St)
    (hl1 : st.cutoffs.length = T) (hl2 : st.a.length = T) (h : Inv f T E (cf st) (rf st) (off st) st.under st.over)
    (hfuel : st.under.length + st.over.length < fuel) :
    ∃ st', reassign E fuel st = some st' ∧ st'.cutoffs.length = T ∧ st'.a.length = T ∧
      Inv f T E (cf st') (rf st') (off st') [] [] ∧ st'.under = [] := by
  induction fuel generalizing st with
  | zero => omega
  | succ fuel ih =>
    obtain ⟨cutoffs, under, over, a⟩ := st
    simp only at hl1 hl2 h hfuel
    rcases over with _ | ⟨ov, over⟩
    · obtain ⟨h1, _⟩ := h.final
      subst h1
      exact ⟨_, rfl, hl1, hl2, h, rfl⟩
    · rcases under with _ | ⟨un, under⟩
      · exact absurd rfl (h.under_ne (by simp))
      · obtain ⟨hovT, hovE⟩ := h.over_spec ov (by simp)
        obtain ⟨hunT, hunE⟩ := h.under_spec un (by simp)
        have hcu : cutoffs[un]? = some (cf ⟨cutoffs, un :: under, ov :: over, a⟩ un) := by
          simp [cf, List.getD_eq_getElem?_getD, List.getElem?_eq_getElem (hl1 ▸ hunT : un < cutoffs.length)]
        have hco : cutoffs[ov]? = some (cf ⟨cutoffs, un :: under, ov :: over, a⟩ ov) := by
          simp [cf, List.getD_eq_getElem?_getD, List.getElem?_eq_getElem (hl1 ▸ hovT : ov < cutoffs.length)]
        have hau : a[un]? = some (a.getD un default) := by
          simp [List.getD_eq_getElem?_getD, List.getElem?_eq_getElem (hl2 ▸ hunT : un < a.length)]
        have hstep := fun u' o' => h.step u' o'
        have hfov := h.le_freq ov
        have hf' := hf ov
        generalize hcE : cf ⟨cutoffs, un :: under, ov :: over, a⟩ = c at *
        rw [reassign_step E fuel un ov _ _ cutoffs under over a _ hcu hco hau (by omega) (by omega) (by omega)]
        clear hcu hco hau
        generalize hd : c ov - (E - c un) = d at *
        have e1 : ∀ (u' o' : List Nat) (e : Entry), cf ⟨cutoffs.set ov d, u', o', a.set un e⟩ = upd c ov d := by
          intro u' o' e; funext j
          rw [← hcE]; simp only [cf, upd]; exact getD_set _ _ _ _ _ (by omega)
        have e2 : ∀ (u' o' : List Nat) (e : Entry), rf ⟨cutoffs.set ov d, u', o', a.set un e⟩ =
            upd (rf ⟨cutoffs, un :: under, ov :: over, a⟩) un e.right := by
          intro u' o' e; funext j
          simp only [rf, upd]; rw [getD_set _ _ _ _ _ (by omega)]; split <;> rfl
        have e3 : ∀ (u' o' : List Nat) (e : Entry), off ⟨cutoffs.set ov d, u', o', a.set un e⟩ =
            upd (off ⟨cutoffs, un :: under, ov :: over, a⟩) un e.offsets1 := by
          intro u' o' e; funext j
          simp only [off, upd]; rw [getD_set _ _ _ _ _ (by omega)]; split <;> rfl
        simp only [List.length_cons] at hfuel
        by_cases c1 : d < E
        · rw [if_pos c1]
          apply ih
          · simp [hl1]
          · simp [hl2]
          · rw [e1, e2, e3]; exact hstep _ _ (Or.inl ⟨c1, rfl, rfl⟩)
          · simp; omega
        · rw [if_neg c1]
          by_cases c2 : d > E
          · rw [if_pos c2]
            apply ih
            · simp [hl1]
            · simp [hl2]
            · rw [e1, e2, e3]; exact hstep _ _ (Or.inr (Or.inl ⟨c2, rfl, rfl⟩))
            · simp; omega
          · rw [if_neg c2]
            apply ih
            · simp [hl1]
            · simp [hl2]
            · rw [e1, e2, e3]; exact hstep _ _ (Or.inr (Or.inr ⟨by omega, rfl, rfl⟩))
            · simp; omega

/-! ### The initial state -/

theorem classify_spec (E : Nat) (ds : List Nat) (i : Nat) (u o : List Nat) :
    ∃ u' o', classify E ds i u o = (u' ++ u, o' ++ o) ∧ u'.Nodup ∧ o'.Nodup ∧
      (∀ j, j ∈ u' ↔ ∃ k, ∃ hk : k < ds.length, j = i + k ∧ ds[k] < E) ∧
      (∀ j, j ∈ o' ↔ ∃ k, ∃ hk : k < ds.length, j = i + k ∧ E < ds[k]) := by
  induction ds generalizing i u o with
  | nil => exact ⟨[], [], rfl, List.nodup_nil, List.nodup_nil, by simp, by simp⟩
  | cons c ds ih =>
    have shift : ∀ (P : Nat → Prop) (j : Nat), (∃ k, ∃ hk : k < (c :: ds).length, j = i + k ∧ P ((c :: ds)[k])) ↔
        ((j = i ∧ P c) ∨ ∃ k, ∃ hk : k < ds.length, j = i + 1 + k ∧ P ds[k]) := by
      intro P j
      constructor
      · rintro ⟨k, hk, e, hp⟩
        cases k with
        | zero => left; exact ⟨by omega, hp⟩
        | succ k => right; exact ⟨k, by simpa using hk, by omega, by simpa using hp⟩
      · rintro (⟨e, hp⟩ | ⟨k, hk, e, hp⟩)
        · exact ⟨0, by simp, by omega, hp⟩
        · exact ⟨k + 1, by simp; omega, by omega, by simpa using hp⟩
    simp only [classify]
    by_cases h1 : c > E
    · rw [if_pos h1]
      obtain ⟨u', o', e, n1, n2, m1, m2⟩ := ih (i + 1) u (i :: o)
      refine ⟨u', o' ++ [i], by rw [e]; simp, n1, ?_, ?_, ?_⟩
      · rw [List.nodup_append]
        refine ⟨n2, by simp, ?_⟩
        intro a ha b hb
        simp only [List.mem_singleton] at hb; subst hb
        obtain ⟨k, _, e, _⟩ := (m2 a).mp ha; omega
      · intro j; rw [shift (· < E), m1]
        constructor
        · intro h; right; exact h
        · rintro (⟨_, h⟩ | h)
          · omega
          · exact h
      · intro j; rw [shift (E < ·), List.mem_append, m2]; simp only [List.mem_singleton]
        constructor
        · rintro (h | h)
          · right; exact h
          · left; exact ⟨h, h1⟩
        · rintro (⟨h, _⟩ | h)
          · right; exact h
          · left; exact h
    · rw [if_neg h1]
      by_cases h2 : c < E
      · rw [if_pos h2]
        obtain ⟨u', o', e, n1, n2, m1, m2⟩ := ih (i + 1) (i :: u) o
        refine ⟨u' ++ [i], o', by rw [e]; simp, ?_, n2, ?_, ?_⟩
        · rw [List.nodup_append]
          refine ⟨n1, by simp, ?_⟩
          intro a ha b hb
          simp only [List.mem_singleton] at hb; subst hb
          obtain ⟨k, _, e, _⟩ := (m1 a).mp ha; omega
        · intro j; rw [shift (· < E), List.mem_append, m1]; simp only [List.mem_singleton]
          constructor
          · rintro (h | h)
            · right; exact h
            · left; exact ⟨h, h2⟩
          · rintro (⟨h, _⟩ | h)
            · right; exact h
            · left; exact h
        · intro j; rw [shift (E < ·), m2]
          constructor
          · intro h; right; exact h
          · rintro (⟨_, h⟩ | h)
            · omega
            · exact h
      · rw [if_neg h2]
        obtain ⟨u', o', e, n1, n2, m1, m2⟩ := ih (i + 1) u o
        refine ⟨u', o', e, n1, n2, ?_, ?_⟩
        · intro j; rw [shift (· < E), m1]
          constructor
          · intro h; right; exact h
          · rintro (⟨_, h⟩ | h)
            · omega
            · exact h
        · intro j; rw [shift (E < ·), m2]
          constructor
          · intro h; right; exact h
          · rintro (⟨_, h⟩ | h)
            · omega
            · exact h

theorem sumTo_shift (f : Nat → Nat) (n : Nat) : sumTo f (n + 1) = f 0 + sumTo (fun i => f (i + 1)) n := by
  induction n with
  | zero => simp [sumTo]
  | succ n ih => rw [sumTo, ih]; simp only [sumTo]; omega

theorem sum_eq_sumTo (l : List Nat) (T : Nat) (h : l.length ≤ T) : sumTo (fun i => l.getD i 0) T = l.sum := by
  induction l generalizing T with
  | nil =>
    have : ∀ n, sumTo (fun i => ([] : List Nat).getD i 0) n = 0 := by
      intro n; induction n with
      | zero => rfl
      | succ n ih => rw [sumTo, ih]; rfl
    rw [this]; rfl
  | cons a l ih =>
    cases T with
    | zero => simp at h
    | succ T =>
      rw [sumTo_shift]
      have := ih T (by simpa using h)
      simp only [List.sum_cons]
      rw [← this]; rfl

/-- The invariant holds at the start. -/
theorem init_inv (dist : List Nat) (T E : Nat) (hE : 0 < E) (hl : dist.length ≤ T) (hs : dist.sum = T * E) (u o : List Nat) (a : List Entry)
    (hcl : classify E dist 0 [] [] = (u, o)) :
    Inv (fun i => dist.getD i 0) T E (cf ⟨dist ++ List.replicate (T - dist.length) 0, u, o, a⟩)
      (rf ⟨dist ++ List.replicate (T - dist.length) 0, u, o, a⟩) (off ⟨dist ++ List.replicate (T - dist.length) 0, u, o, a⟩)
      (((List.range (T - dist.length)).map (· + dist.length)).reverse ++ u) o := by
  obtain ⟨u', o', e, n1, n2, m1, m2⟩ := classify_spec E dist 0 [] []
  rw [hcl] at e; simp only [List.append_nil, Prod.mk.injEq] at e
  obtain ⟨rfl, rfl⟩ := e
  simp only [Nat.zero_add] at m1 m2
  have hc : ∀ i, cf ⟨dist ++ List.replicate (T - dist.length) 0, u, o, a⟩ i = dist.getD i 0 := by
    intro i
    simp only [cf, List.getD_eq_getElem?_getD]
    by_cases hi : i < dist.length
    · rw [List.getElem?_append_left hi]
    · rw [List.getElem?_append_right (by omega), List.getElem?_eq_none (l := dist) (by omega), List.getElem?_replicate]
      split <;> rfl
  have hcfun : cf ⟨dist ++ List.replicate (T - dist.length) 0, u, o, a⟩ = fun i => dist.getD i 0 := funext hc
  rw [hcfun]
  have hget : ∀ i, ∀ hi : i < dist.length, dist.getD i 0 = dist[i] := by
    intro i hi; simp [List.getD_eq_getElem?_getD, List.getElem?_eq_getElem hi]
  have hget0 : ∀ i, dist.length ≤ i → dist.getD i 0 = 0 := by
    intro i hi; simp [List.getD_eq_getElem?_getD, List.getElem?_eq_none hi]
  have hmemU : ∀ i, i ∈ ((List.range (T - dist.length)).map (· + dist.length)).reverse ++ u ↔ i < T ∧ dist.getD i 0 < E := by
    intro i
    simp only [List.mem_append, List.mem_reverse, List.mem_map, List.mem_range, m1]
    constructor
    · rintro (⟨k, hk, rfl⟩ | ⟨k, hk, rfl, h⟩)
      · exact ⟨by omega, by rw [hget0 _ (by omega)]; exact hE⟩
      · exact ⟨by omega, by rw [hget _ hk]; exact h⟩
    · rintro ⟨h1, h2⟩
      by_cases hi : i < dist.length
      · right; exact ⟨i, hi, rfl, by rw [← hget i hi]; exact h2⟩
      · left; exact ⟨i - dist.length, by omega, by omega⟩
  have hmemO : ∀ i, i ∈ o ↔ i < T ∧ E < dist.getD i 0 := by
    intro i
    rw [m2]
    constructor
    · rintro ⟨k, hk, rfl, h⟩; exact ⟨by omega, by rw [hget _ hk]; exact h⟩
    · rintro ⟨h1, h2⟩
      by_cases hi : i < dist.length
      · exact ⟨i, hi, rfl, by rw [← hget i hi]; exact h2⟩
      · rw [hget0 i (by omega)] at h2; omega
  have hnofin : ∀ i, ¬ Fin' E (fun i => dist.getD i 0) (((List.range (T - dist.length)).map (· + dist.length)).reverse ++ u) T i := by
    rintro i ⟨h1, h2, h3⟩
    exact h3 ((hmemU i).mpr ⟨h1, h2⟩)
  constructor
  · rw [List.nodup_append]
    refine ⟨?_, n1, ?_⟩
    · rw [List.nodup_iff_pairwise_ne, List.pairwise_reverse, List.pairwise_map]
      exact List.Pairwise.imp (fun h => by omega) (List.nodup_iff_pairwise_ne.mp List.nodup_range)
    · intro x hx y hy
      simp only [List.mem_reverse, List.mem_map, List.mem_range] at hx
      obtain ⟨k, hk, rfl⟩ := hx
      obtain ⟨k', hk', rfl, _⟩ := (m1 y).mp hy
      omega
  · exact n2
  · exact fun i hi => (hmemO i).mp hi
  · exact fun i hi => (hmemU i).mp hi
  · exact fun i h1 h2 => (hmemO i).mpr ⟨h1, h2⟩
  · exact fun i => Nat.le_refl _
  · rw [← hs, ← sum_eq_sumTo dist T hl]
    apply sumTo_congr
    intro i hi
    simp only [weight]
    split
    · rename_i h; exact absurd ((hmemU i).mpr ⟨hi, h.1⟩) h.2
    · rfl
  · exact fun u hu => absurd hu (hnofin u)
  · intro s x h1 h2 h3; omega
  · exact fun u v hu => absurd hu (hnofin u)

theorem init_under (dist : List Nat) (T E : Nat) (u o : List Nat) (hcl : classify E dist 0 [] [] = (u, o)) (i : Nat) (hi : i < T)
    (hlt : (dist ++ List.replicate (T - dist.length) 0).getD i 0 < E) :
    i ∈ ((List.range (T - dist.length)).map (· + dist.length)).reverse ++ u := by
  obtain ⟨u', o', e, n1, n2, m1, m2⟩ := classify_spec E dist 0 [] []
  rw [hcl] at e; simp only [List.append_nil, Prod.mk.injEq] at e
  obtain ⟨rfl, rfl⟩ := e
  simp only [Nat.zero_add] at m1 m2
  simp only [List.mem_append, List.mem_reverse, List.mem_map, List.mem_range, m1]
  by_cases hd : i < dist.length
  · right
    simp only [List.getD_eq_getElem?_getD, List.getElem?_append_left hd, List.getElem?_eq_getElem hd, Option.getD_some] at hlt
    exact ⟨i, hd, rfl, hlt⟩
  · left; exact ⟨i - dist.length, by omega, by omega⟩

theorem finish_length (E : Nat) (dist cs : List Nat) (es : List Entry) (i : Nat) (h : cs.length = es.length) :
    (finish E dist cs es i).length = cs.length := by
  induction cs generalizing es i with
  | nil => simp [finish]
  | cons c cs ih => cases es with
    | nil => simp at h
    | cons e es => simp [finish, ih es (i + 1) (by simpa using h)]

theorem finish_get (E : Nat) (dist cs : List Nat) (es : List Entry) (i k : Nat) (hk : k < cs.length) (hk' : k < es.length) :
    (finish E dist cs es i)[k]? = some (finishEntry E dist (i + k) cs[k] es[k]) := by
  induction cs generalizing es i k with
  | nil => simp at hk
  | cons c cs ih => cases es with
    | nil => simp at hk'
    | cons e es =>
      cases k with
      | zero => simp [finish]
      | succ k =>
        simp only [finish, List.getElem?_cons_succ, List.getElem_cons_succ]
        rw [ih es (i + 1) k (by simpa using hk) (by simpa using hk')]
        congr 2; omega

theorem popZeros_getD (d : List Nat) (i : Nat) : (popZeros d).getD i 0 = d.getD i 0 := by
  unfold popZeros
  have key : ∀ l : List Nat, ∃ k, l = List.replicate k 0 ++ l.dropWhile (· == 0) := by
    intro l
    induction l with
    | nil => exact ⟨0, rfl⟩
    | cons a l ih =>
      by_cases h : a = 0
      · subst h
        obtain ⟨k, e⟩ := ih
        refine ⟨k + 1, ?_⟩
        rw [List.dropWhile_cons_of_pos (by simp), List.replicate_succ, List.cons_append, ← e]
      · exact ⟨0, by rw [List.dropWhile_cons_of_neg (by simpa using h)]; rfl⟩
  obtain ⟨k, e⟩ := key d.reverse
  have e2 : d = (d.reverse.dropWhile (· == 0)).reverse ++ List.replicate k 0 := by
    have := congrArg List.reverse e
    simpa using this
  conv => rhs; rw [e2]
  generalize (d.reverse.dropWhile (· == 0)).reverse = l
  simp only [List.getD_eq_getElem?_getD]
  by_cases hi : i < l.length
  · rw [List.getElem?_append_left hi]
  · rw [List.getElem?_append_right (by omega), List.getElem?_eq_none (by omega), List.getElem?_replicate]
    split <;> rfl

theorem popZeros_sum (d : List Nat) : (popZeros d).sum = d.sum := by
  have h1 : (popZeros d).length ≤ d.length := by
    unfold popZeros
    rw [List.length_reverse]
    exact Nat.le_trans (List.dropWhile_sublist _).length_le (by simp)
  rw [← sum_eq_sumTo (popZeros d) d.length h1, ← sum_eq_sumTo d d.length (Nat.le_refl _)]
  exact sumTo_congr fun i _ => popZeros_getD d i

theorem popZeros_length (d : List Nat) : (popZeros d).length ≤ d.length := by
  unfold popZeros
  rw [List.length_reverse]
  exact Nat.le_trans (List.dropWhile_sublist _).length_le (by simp)

theorem le_sum_of_mem {d : List Nat} {v : Nat} (h : v ∈ d) : v ≤ d.sum := by
  induction d with
  | nil => cases h
  | cons x d ih =>
    simp only [List.sum_cons]
    rcases List.mem_cons.1 h with rfl | h
    · omega
    · have := ih h; omega

/-! ### The initial contents of the table memory do not matter -/

/-- Finished entries of two tables agree in the fields that are already set. -/
def Agree (E : Nat) (c under : List Nat) (a1 a2 : List Entry) : Prop :=
  a1.length = a2.length ∧ ∀ i : Nat, c.getD i 0 < E → i ∉ under →
    (a1.getD i default).right = (a2.getD i default).right ∧ (a1.getD i default).offsets1 = (a2.getD i default).offsets1

theorem reassign_indep (E fuel : Nat) (c u o : List Nat) (a1 a2 : List Entry) (s1 : St) (h : Agree E c u a1 a2)
    (hr : reassign E fuel ⟨c, u, o, a1⟩ = some s1) :
    ∃ a2', reassign E fuel ⟨c, u, o, a2⟩ = some ⟨s1.cutoffs, s1.under, s1.over, a2'⟩ ∧ Agree E s1.cutoffs s1.under s1.a a2' := by
  induction fuel generalizing c u o a1 a2 with
  | zero => simp [reassign] at hr
  | succ fuel ih =>
    rcases o with _ | ⟨ov, o⟩
    · simp only [reassign, Option.some.injEq] at hr ⊢
      subst hr
      exact ⟨a2, rfl, h⟩
    · rcases u with _ | ⟨un, u⟩
      · simp [reassign] at hr
      · rw [reassign] at hr ⊢
        dsimp only at hr ⊢
        rcases hcu : c[un]? with _ | cu
        · rw [hcu] at hr; cases hr
        rcases hco : c[ov]? with _ | co
        · rw [hcu, hco] at hr; cases hr
        rcases hau : a1[un]? with _ | e
        · rw [hcu, hco, hau] at hr; cases hr
        have hul : un < a1.length := by
          rcases Nat.lt_or_ge un a1.length with h | h
          · exact h
          · rw [List.getElem?_eq_none h] at hau; cases hau
        have hov : ov < c.length := by
          rcases Nat.lt_or_ge ov c.length with h | h
          · exact h
          · rw [List.getElem?_eq_none h] at hco; cases hco
        have hul2 : un < a2.length := by rw [← h.1]; exact hul
        rw [hcu, hco, hau, Option.bind_eq_bind, Option.bind_some, Option.bind_eq_bind, Option.bind_some, Option.bind_some] at hr
        rw [List.getElem?_eq_getElem hul2, Option.bind_eq_bind, Option.bind_some, Option.bind_eq_bind, Option.bind_some, Option.bind_some]
        generalize sub32 co (E - cu) = co' at *
        have key : ∀ u' : List Nat, (∀ i, i ≠ ov → i ∉ u' → i = un ∨ i ∉ un :: u) → (co' < E → ov ∈ u') →
            Agree E (c.set ov co') u' (a1.set un { e with right := u8 ov, offsets1 := u16 co' })
              (a2.set un { a2[un] with right := u8 ov, offsets1 := u16 co' }) := by
          intro u' h1 h2
          refine ⟨by simp [h.1], fun i hi hu => ?_⟩
          rw [getD_set _ _ _ _ _ hul, getD_set _ _ _ _ _ hul2]
          by_cases hiu : i = un
          · rw [if_pos hiu, if_pos hiu]; exact ⟨rfl, rfl⟩
          · rw [if_neg hiu, if_neg hiu]
            rw [getD_set _ _ _ _ _ hov] at hi
            by_cases hio : i = ov
            · rw [if_pos hio] at hi
              subst hio
              exact absurd (h2 hi) hu
            · rw [if_neg hio] at hi
              apply h.2 i hi
              rcases h1 i hio hu with h | h
              · exact absurd h hiu
              · exact h
        have mem : ∀ i, i ∉ u → i = un ∨ i ∉ un :: u := by
          intro i hi
          by_cases h : i = un
          · exact Or.inl h
          · right; simp [h, hi]
        by_cases c1 : co' < E
        · rw [if_pos c1] at hr ⊢
          exact ih _ _ _ _ _ (key (ov :: u) (fun i hn hi => mem i (by simp at hi; exact hi.2)) (fun _ => by simp)) hr
        · rw [if_neg c1] at hr ⊢
          have hk := key u (fun i _ hi => mem i hi) (fun h => absurd h c1)
          by_cases c2 : co' > E
          · rw [if_pos c2] at hr ⊢
            exact ih _ _ _ _ _ hk hr
          · rw [if_neg c2] at hr ⊢
            exact ih _ _ _ _ _ hk hr

end Jxl.Alias
