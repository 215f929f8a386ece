import Verif.Model.Squeeze
/-! Lemmas about the squeeze transform: the loops, for any kind of element, and the pixel arithmetic. -/
namespace Jxl.Modular.Squeeze

/-! ## The loops -/

theorem fwdLoop_spec {α : Type} (o : FwdOps α) (p : List α) : ∀ (k x : Nat) (ms rs : List α),
    fwdLoop o p k x = some (ms, rs) → ms.length = k ∧ rs.length = k ∧
      ∀ i : Nat, i < k → ∃ m r, ms[i]? = some m ∧ rs[i]? = some r ∧ fwdStep o p (x + i) = some (m, r) := by
  intro k
  induction k with
  | zero =>
    intro x ms rs h
    simp only [fwdLoop, Option.some.injEq, Prod.mk.injEq] at h
    rw [← h.1, ← h.2]
    exact ⟨rfl, rfl, fun i hi => absurd hi (by omega)⟩
  | succ k ih =>
    intro x ms rs h
    simp only [fwdLoop, Option.bind_eq_bind, Option.bind_eq_some_iff, Prod.exists] at h
    obtain ⟨m, r, h1, ms', rs', h2, h3⟩ := h
    simp only [Option.some.injEq, Prod.mk.injEq] at h3
    obtain ⟨i1, i2, i3⟩ := ih _ _ _ h2
    rw [← h3.1, ← h3.2]
    refine ⟨by simp [i1], by simp [i2], ?_⟩
    intro i hi
    cases i with
    | zero => exact ⟨m, r, rfl, rfl, h1⟩
    | succ i =>
      obtain ⟨m', r', e1, e2, e3⟩ := i3 i (by omega)
      exact ⟨m', r', by simpa using e1, by simpa using e2, by rw [show x + (i + 1) = x + 1 + i by omega]; exact e3⟩

/-- Everything the forward loop guarantees about a pair. -/
theorem fwdStep_spec {α : Type} (o : FwdOps α) (p : List α) (x : Nat) (m r : α) (h : fwdStep o p x = some (m, r)) :
    ∃ A B n left, p[2 * x]? = some A ∧ p[2 * x + 1]? = some B ∧ o.avg A B = some m ∧
      (if x + 1 < p.length - (p.length + 1) / 2 then ∃ C D, p[2 * x + 2]? = some C ∧ p[2 * x + 3]? = some D ∧ o.avg C D = some n
        else if p.length % 2 = 1 then p[2 * x + 2]? = some n else n = m) ∧
      (if x > 0 then p[2 * x - 1]? = some left else left = m) ∧ o.res A B m n left = some r := by
  simp only [fwdStep, Option.bind_eq_bind, Option.bind_eq_some_iff] at h
  obtain ⟨A, hA, B, hB, m', hm, n, hn, left, hl, r', hr, he⟩ := h
  simp only [Option.some.injEq, Prod.mk.injEq] at he
  rw [he.1] at hm hn hl hr
  rw [he.2] at hr
  refine ⟨A, B, n, left, hA, hB, hm, ?_, ?_, hr⟩
  · unfold fwdNext at hn
    by_cases h1 : x + 1 < p.length - (p.length + 1) / 2
    · rw [if_pos h1] at hn ⊢
      split at hn
      · rename_i C D hC hD; exact ⟨C, D, hC, hD, hn⟩
      · exact absurd hn (by simp)
    · rw [if_neg h1] at hn ⊢
      by_cases h2 : p.length % 2 = 1
      · rw [if_pos h2] at hn ⊢; exact hn
      · rw [if_neg h2] at hn ⊢; exact ((Option.some.inj hn)).symm
  · unfold fwdLeft at hl
    by_cases h1 : x > 0
    · rw [if_pos h1] at hl ⊢; exact hl
    · rw [if_neg h1] at hl ⊢; exact ((Option.some.inj hl)).symm

/-- The averages and residuals of a squeezed sequence. -/
theorem fwdSeq_spec {α : Type} (o : FwdOps α) (p : List α) (a r : List α) (h : fwdSeq o p = some (a, r)) :
    a.length = (p.length + 1) / 2 ∧ r.length = p.length - (p.length + 1) / 2 ∧
    (∀ i : Nat, i < r.length → ∃ m s, a[i]? = some m ∧ r[i]? = some s ∧ fwdStep o p i = some (m, s)) ∧
    (p.length % 2 = 1 → a[r.length]? = p[2 * r.length]? ) := by
  simp only [fwdSeq, Option.bind_eq_bind, Option.bind_eq_some_iff, Prod.exists] at h
  obtain ⟨ms, rs, h1, h2⟩ := h
  obtain ⟨l1, l2, l3⟩ := fwdLoop_spec o p _ _ _ _ h1
  by_cases hodd : p.length % 2 = 1
  · rw [if_pos hodd] at h2
    simp only [Option.bind_eq_some_iff] at h2
    obtain ⟨l, h3, h4⟩ := h2
    simp only [Option.some.injEq, Prod.mk.injEq] at h4
    rw [← h4.1, ← h4.2]
    refine ⟨by simp [l1]; omega, l2, ?_, ?_⟩
    · intro i hi
      obtain ⟨m, s, e1, e2, e3⟩ := l3 i (by omega)
      refine ⟨m, s, ?_, e2, by simpa using e3⟩
      rw [List.getElem?_append_left (by omega)]; exact e1
    · intro _
      rw [l2, List.getElem?_append_right (by omega), l1, Nat.sub_self]
      rw [show 2 * (p.length - (p.length + 1) / 2) = 2 * ((p.length + 1) / 2 - 1) by omega, h3]; rfl
  · rw [if_neg hodd] at h2
    simp only [Option.some.injEq, Prod.mk.injEq] at h2
    rw [← h2.1, ← h2.2]
    refine ⟨by omega, l2, ?_, fun h => absurd h hodd⟩
    intro i hi
    obtain ⟨m, s, e1, e2, e3⟩ := l3 i (by omega)
    exact ⟨m, s, e1, e2, by simpa using e3⟩

theorem take_two {α : Type} (p : List α) (x : Nat) (A B : α) (hA : p[2 * x]? = some A) (hB : p[2 * x + 1]? = some B) :
    p.take (2 * (x + 1)) = p.take (2 * x) ++ [A, B] := by
  rw [show 2 * (x + 1) = 2 * x + 1 + 1 by omega, List.take_add_one, List.take_add_one, hA, hB]
  simp

/-- Left neighbour, next average and residual seen by the inverse are those the forward direction used, so every pair comes
back. -/
theorem invLoop_fwd {α : Type} (o : FwdOps α) (f : α → α → α → α → Option (α × α)) (P : α → α → α → α → α → Prop)
    (hf : ∀ A B m n l r, P A B m n l → o.avg A B = some m → o.res A B m n l = some r → f r m n l = some (A, B))
    (p a r : List α) (h : fwdSeq o p = some (a, r))
    (hP : ∀ (x : Nat) (A B m n l s : α), p[2 * x]? = some A → p[2 * x + 1]? = some B → o.avg A B = some m →
      a[x]? = some m → r[x]? = some s → (n = m ∨ a[x + 1]? = some n) → (l = m ∨ l ∈ p) → P A B m n l) :
    ∀ (k x : Nat), k + x = r.length → invLoop f a r k x (p.take (2 * x)) = some (p.take (2 * r.length)) := by
  obtain ⟨la, lr, hs, hodd⟩ := fwdSeq_spec o p a r h
  intro k
  induction k with
  | zero => intro x hx; simp only [invLoop]; rw [show x = r.length by omega]
  | succ k ih =>
    intro x hx
    obtain ⟨m, s, e1, e2, e3⟩ := hs x (by omega)
    obtain ⟨A, B, n, left, hA, hB, hm, hn, hl, hr⟩ := fwdStep_spec o p x m s e3
    have hn' : invNext a x m = some n := by
      unfold invNext
      by_cases h1 : x + 1 < p.length - (p.length + 1) / 2
      · rw [if_pos h1] at hn
        obtain ⟨C, D, hC, hD, hCD⟩ := hn
        rw [if_pos (by omega)]
        obtain ⟨m', s', e1', e2', e3'⟩ := hs (x + 1) (by omega)
        obtain ⟨A', B', _, _, hA', hB', hm', _⟩ := fwdStep_spec o p (x + 1) m' s' e3'
        rw [show 2 * (x + 1) = 2 * x + 2 by omega] at hA' hB'
        rw [hC] at hA'; rw [show 2 * x + 2 + 1 = 2 * x + 3 by omega, hD] at hB'
        rw [← Option.some.inj hA', ← Option.some.inj hB', hCD] at hm'
        rw [e1', hm']
      · rw [if_neg h1] at hn
        by_cases h2 : p.length % 2 = 1
        · rw [if_pos h2] at hn
          rw [if_pos (by omega)]
          have := hodd h2
          rw [show r.length = x + 1 by omega] at this
          rw [this, ← hn]; congr 1
        · rw [if_neg h2] at hn
          rw [if_neg (by omega), hn]
    have hl' : invLeft (p.take (2 * x)) x m = some left := by
      unfold invLeft
      by_cases h1 : x > 0
      · rw [if_pos h1] at hl
        rw [if_pos (by omega), List.getElem?_take, if_pos (by omega)]; exact hl
      · rw [if_neg h1] at hl
        rw [if_neg (by omega), hl]
    have hp : P A B m n left := by
      apply hP x A B m n left s hA hB hm e1 e2
      · unfold invNext at hn'
        by_cases h1 : x + 1 < a.length
        · rw [if_pos h1] at hn'; exact Or.inr hn'
        · rw [if_neg h1] at hn'; exact Or.inl (Option.some.inj hn').symm
      · by_cases h1 : x > 0
        · rw [if_pos h1] at hl; exact Or.inr (List.mem_of_getElem? hl)
        · rw [if_neg h1] at hl; exact Or.inl hl
    have := hf A B m n left s hp hm hr
    simp only [invLoop]
    rw [e1, e2]
    simp only [Option.bind_eq_bind, Option.bind_some]
    rw [hn', Option.bind_some, hl', Option.bind_some, this, Option.bind_some]
    simp only []
    rw [← take_two p x A B hA hB]
    exact ih (x + 1) (by omega)

theorem finish_fwd {α : Type} (o : FwdOps α) (p a r : List α) (h : fwdSeq o p = some (a, r)) :
    finish a r (p.take (2 * r.length)) = some p := by
  obtain ⟨la, lr, hs, hodd⟩ := fwdSeq_spec o p a r h
  unfold finish
  by_cases h2 : p.length % 2 = 1
  · rw [if_pos (by omega)]
    have := hodd h2
    rw [show r.length = a.length - 1 by omega] at this
    obtain ⟨l, hl⟩ : ∃ l, p[2 * (a.length - 1)]? = some l := by
      rw [List.getElem?_eq_getElem (by omega)]; exact ⟨_, rfl⟩
    rw [this, hl]
    simp only [Option.bind_eq_bind, Option.bind_some, Option.some.injEq]
    have h3 := List.take_add_one (i := 2 * r.length) (l := p)
    rw [show (2 * r.length) = 2 * (a.length - 1) by omega, hl, List.take_of_length_le (by omega)] at h3
    rw [show (2 * r.length) = 2 * (a.length - 1) by omega]
    exact h3.symm
  · rw [if_neg (by omega), List.take_of_length_le (by omega)]

theorem invSeq_fwdSeq {α : Type} (o : FwdOps α) (f : α → α → α → α → Option (α × α)) (P : α → α → α → α → α → Prop)
    (hf : ∀ A B m n l r, P A B m n l → o.avg A B = some m → o.res A B m n l = some r → f r m n l = some (A, B))
    (p a r : List α) (h : fwdSeq o p = some (a, r))
    (hP : ∀ (x : Nat) (A B m n l s : α), p[2 * x]? = some A → p[2 * x + 1]? = some B → o.avg A B = some m →
      a[x]? = some m → r[x]? = some s → (n = m ∨ a[x + 1]? = some n) → (l = m ∨ l ∈ p) → P A B m n l) :
    invSeq f a r = some p := by
  unfold invSeq
  have := invLoop_fwd o f P hf p a r h hP r.length 0 (by omega)
  simp only [Nat.mul_zero, List.take_zero] at this
  rw [this]
  exact finish_fwd o p a r h

/-! ## Pixels -/

theorem toInt_range (x : Px) : minPx ≤ x.toInt ∧ x.toInt ≤ maxPx := by
  have h1 := BitVec.le_toInt x
  have h2 := BitVec.toInt_lt (x := x)
  simp [minPx, maxPx] at *
  omega

theorem toInt_store (x : Int) (h1 : minPx ≤ x) (h2 : x ≤ maxPx) : (store x).toInt = x := by
  unfold store
  rw [BitVec.toInt_ofInt]
  simp [minPx, maxPx] at h1 h2
  exact Int.bmod_eq_of_le (by simp; omega) (by simp; omega)

theorem store_toInt (x : Px) : store x.toInt = x := BitVec.ofInt_toInt

theorem fit_some {x y : Int} (h : fit x = some y) : y = x ∧ minPx ≤ x ∧ x ≤ maxPx := by
  unfold fit at h
  split at h
  · rename_i h'; exact ⟨(Option.some.inj h).symm, h'⟩
  · exact absurd h (by simp)

theorem fit_of {x : Int} (h1 : minPx ≤ x) (h2 : x ≤ maxPx) : fit x = some x := if_pos ⟨h1, h2⟩

theorem average_spec {A B m : Px} (h : average A B = some m) :
    m.toInt = (A.toInt + B.toInt + if A.toInt > B.toInt then 1 else 0) / 2 := by
  simp only [average, Option.bind_eq_bind, Option.bind_eq_some_iff] at h
  obtain ⟨s, h1, t, h2, h3⟩ := h
  obtain ⟨rfl, _⟩ := fit_some h1
  obtain ⟨rfl, h4, h5⟩ := fit_some h2
  rw [← Option.some.inj h3, toInt_store]
  · simp [minPx, maxPx] at *; omega
  · simp [minPx, maxPx] at *; omega

/-- The tendency by magnitude, both monotone cases at once. -/
def mag (y z x : Int) : Int :=
  let d := (3 * x + y + 6) / 12
  let d := if d - d % 2 > 2 * y then 2 * y + 1 else d
  if d + d % 2 > 2 * z then 2 * z else d

theorem tendency_down (B a n : Int) (h1 : B ≥ a) (h2 : a ≥ n) : tendency B a n = mag (B - a) (a - n) (B - n) := by
  unfold tendency mag
  rw [if_pos ⟨h1, h2⟩]
  rw [Int.tdiv_eq_ediv_of_nonneg (by omega)]
  rw [show 4 * B - 3 * n - a + 6 = 3 * (B - n) + (B - a) + 6 by omega]

theorem tendency_up (B a n : Int) (h1 : B ≤ a) (h2 : a ≤ n) : tendency B a n = -mag (a - B) (n - a) (n - B) := by
  by_cases h : B ≥ a ∧ a ≥ n
  · have e1 : B = a := by omega
    have e2 : a = n := by omega
    subst e1; subst e2
    rw [tendency_down _ _ _ (by omega) (by omega)]
    simp [mag]
  · unfold tendency
    rw [if_neg h, if_pos ⟨h1, h2⟩]
    have : (4 * B - 3 * n - a - 6).tdiv 12 = -((3 * (n - B) + (a - B) + 6) / 12) := by
      rw [show 4 * B - 3 * n - a - 6 = -(3 * (n - B) + (a - B) + 6) by omega, Int.neg_tdiv,
        Int.tdiv_eq_ediv_of_nonneg (by omega)]
    rw [this]
    unfold mag
    generalize (3 * (n - B) + (a - B) + 6) / 12 = d
    dsimp only
    by_cases c1 : d - d % 2 > 2 * (a - B)
    · rw [if_pos (show -d + -d % 2 < 2 * (B - a) by omega), if_pos c1]
      by_cases c2 : 2 * (a - B) + 1 + (2 * (a - B) + 1) % 2 > 2 * (n - a)
      · rw [if_pos c2, if_pos (by omega)]; omega
      · rw [if_neg c2, if_neg (by omega)]; omega
    · rw [if_neg (show ¬ (-d + -d % 2 < 2 * (B - a)) by omega), if_neg c1]
      by_cases c2 : d + d % 2 > 2 * (n - a)
      · rw [if_pos c2, if_pos (by omega)]; omega
      · rw [if_neg c2, if_neg (by omega)]

theorem mag_bound (y z x : Int) (hy : 0 ≤ y) (hz : 0 ≤ z) (hx : x = y + z) : 0 ≤ mag y z x ∧ 12 * mag y z x ≤ 4 * x + 6 := by
  unfold mag
  generalize hd : (3 * x + y + 6) / 12 = d
  dsimp only
  split <;> split <;> omega

theorem tendency_cases (B a n : Int) : (∃ y z, 0 ≤ y ∧ 0 ≤ z ∧ B = a + y ∧ n = a - z ∧ tendency B a n = mag y z (y + z)) ∨
    (∃ y z, 0 ≤ y ∧ 0 ≤ z ∧ B = a - y ∧ n = a + z ∧ tendency B a n = -mag y z (y + z)) ∨
    ((B < a ∧ n < a ∨ B > a ∧ n > a) ∧ tendency B a n = 0) := by
  by_cases h1 : B ≥ a ∧ a ≥ n
  · refine Or.inl ⟨B - a, a - n, by omega, by omega, by omega, by omega, ?_⟩
    rw [tendency_down _ _ _ h1.1 h1.2]; congr 1; omega
  · by_cases h2 : B ≤ a ∧ a ≤ n
    · refine Or.inr (Or.inl ⟨a - B, n - a, by omega, by omega, by omega, by omega, ?_⟩)
      rw [tendency_up _ _ _ h2.1 h2.2]; congr 2; omega
    · refine Or.inr (Or.inr ⟨by omega, ?_⟩)
      unfold tendency; rw [if_neg h1, if_neg h2]

theorem tendency_bound (B a n : Int) : 12 * (tendency B a n).natAbs ≤ 4 * (B - n).natAbs + 6 := by
  rcases tendency_cases B a n with ⟨y, z, hy, hz, h1, h2, h3⟩ | ⟨y, z, hy, hz, h1, h2, h3⟩ | ⟨_, h3⟩
  · have := mag_bound y z (y + z) hy hz rfl
    rw [h3]; omega
  · have := mag_bound y z (y + z) hy hz rfl
    rw [h3]; omega
  · rw [h3]; omega

theorem store_tendency (B a n : Px) :
    (store (tendency B.toInt a.toInt n.toInt)).toInt = tendency B.toInt a.toInt n.toInt := by
  have h1 := toInt_range B
  have h2 := toInt_range n
  have := tendency_bound B.toInt a.toInt n.toInt
  simp [minPx, maxPx] at h1 h2
  apply toInt_store <;> simp [minPx, maxPx] <;> omega

theorem residual_spec {A B m n l r : Px} (h : residual A B m n l = some r) :
    r.toInt + tendency l.toInt m.toInt n.toInt = A.toInt - B.toInt := by
  simp only [residual, Option.bind_eq_bind, Option.bind_eq_some_iff] at h
  obtain ⟨d, h1, s, h2, h3⟩ := h
  obtain ⟨rfl, _⟩ := fit_some h1
  obtain ⟨rfl, h4, h5⟩ := fit_some h2
  rw [← Option.some.inj h3, toInt_store _ h4 h5, store_tendency]
  omega

theorem half_diff (a b : Int) : (a + b + if a > b then 1 else 0) / 2 + (a - b).tdiv 2 = a := by
  by_cases h : a > b
  · rw [if_pos h, Int.tdiv_eq_ediv_of_nonneg (by omega)]; omega
  · rw [if_neg h, show a - b = -(b - a) by omega, Int.neg_tdiv, Int.tdiv_eq_ediv_of_nonneg (by omega)]; omega

theorem unpair_spec {A B m n l r : Px} (h1 : average A B = some m) (h2 : residual A B m n l = some r) :
    unpair r m n l = (A, B) := by
  have e1 := average_spec h1
  have e2 := residual_spec h2
  unfold unpair
  dsimp only
  rw [e2, e1, half_diff, show A.toInt - (A.toInt - B.toInt) = B.toInt by omega, store_toInt, store_toInt]

end Jxl.Modular.Squeeze
