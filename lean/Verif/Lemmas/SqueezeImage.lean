import Verif.Lemmas.SqueezeVec
import Verif.Model.SqueezeImage
/-! Squeezed channels and images come back. -/
namespace Jxl.Modular.Squeeze

/-! ## Closed predicates on elements -/

theorem fwdSeq_closed {α : Type} (o : FwdOps α) (Q R : α → Prop) (hQ : ∀ A B m, Q A → Q B → o.avg A B = some m → Q m)
    (p a r : List α) (h : fwdSeq o p = some (a, r)) (hp : ∀ x ∈ p, Q x)
    (hR : ∀ A B m n l s, Q A → Q B → Q m → Q n → Q l → o.res A B m n l = some s → R s) :
    (∀ x ∈ a, Q x) ∧ ∀ x ∈ r, R x := by
  obtain ⟨la, lr, hs, hodd⟩ := fwdSeq_spec o p a r h
  constructor
  · intro x hx
    obtain ⟨i, hi⟩ := List.mem_iff_getElem?.mp hx
    obtain ⟨hlt, _⟩ := List.getElem?_eq_some_iff.mp hi
    by_cases h1 : i < r.length
    · obtain ⟨m, s, e1, e2, e3⟩ := hs i h1
      obtain ⟨A, B, n, left, hA, hB, hm, _⟩ := fwdStep_spec o p i m s e3
      rw [hi] at e1
      rw [Option.some.inj e1]
      exact hQ _ _ _ (hp _ (List.mem_of_getElem? hA)) (hp _ (List.mem_of_getElem? hB)) hm
    · have h2 : p.length % 2 = 1 := by omega
      have := hodd h2
      rw [show r.length = i by omega, hi] at this
      exact hp _ (List.mem_of_getElem? this.symm)
  · intro x hx
    obtain ⟨i, hi⟩ := List.mem_iff_getElem?.mp hx
    obtain ⟨hlt, _⟩ := List.getElem?_eq_some_iff.mp hi
    obtain ⟨m, s, e1, e2, e3⟩ := hs i hlt
    obtain ⟨A, B, n, left, hA, hB, hm, hn, hl, hr⟩ := fwdStep_spec o p i m s e3
    rw [hi] at e2
    rw [Option.some.inj e2]
    have qm := hQ _ _ _ (hp _ (List.mem_of_getElem? hA)) (hp _ (List.mem_of_getElem? hB)) hm
    refine hR _ _ _ _ _ _ (hp _ (List.mem_of_getElem? hA)) (hp _ (List.mem_of_getElem? hB)) qm ?_ ?_ hr
    · split at hn
      · obtain ⟨C, D, hC, hD, hCD⟩ := hn
        exact hQ _ _ _ (hp _ (List.mem_of_getElem? hC)) (hp _ (List.mem_of_getElem? hD)) hCD
      · split at hn
        · exact hp _ (List.mem_of_getElem? hn)
        · rw [hn]; exact qm
    · split at hl
      · exact hp _ (List.mem_of_getElem? hl)
      · rw [hl]; exact qm

theorem fwdLoop_defined {α : Type} (o : FwdOps α) (p : List α) (h : ∀ x : Nat, x < p.length - (p.length + 1) / 2 →
    ∃ m r, fwdStep o p x = some (m, r)) : ∀ k x : Nat, x + k ≤ p.length - (p.length + 1) / 2 →
    ∃ ms rs, fwdLoop o p k x = some (ms, rs) := by
  intro k
  induction k with
  | zero => intro x _; exact ⟨[], [], rfl⟩
  | succ k ih =>
    intro x hx
    obtain ⟨m, r, h1⟩ := h x (by omega)
    obtain ⟨ms, rs, h2⟩ := ih (x + 1) (by omega)
    refine ⟨m :: ms, r :: rs, ?_⟩
    simp only [fwdLoop, h1, Option.bind_eq_bind, Option.bind_some, h2]

/-- The forward transform is defined when the operations on its elements are. -/
theorem fwdSeq_defined {α : Type} (o : FwdOps α) (Q : α → Prop) (hQ : ∀ A B, Q A → Q B → ∃ m, o.avg A B = some m ∧ Q m)
    (hR : ∀ A B m n l, Q A → Q B → Q m → Q n → Q l → ∃ s, o.res A B m n l = some s) (p : List α) (hp : ∀ x ∈ p, Q x) :
    ∃ a r, fwdSeq o p = some (a, r) := by
  have get : ∀ i : Nat, i < p.length → ∃ x, p[i]? = some x ∧ Q x := by
    intro i hi
    exact ⟨p[i], List.getElem?_eq_getElem hi, hp _ (List.getElem_mem hi)⟩
  have hstep : ∀ x : Nat, x < p.length - (p.length + 1) / 2 → ∃ m r, fwdStep o p x = some (m, r) := by
    intro x hx
    obtain ⟨A, hA, qA⟩ := get (2 * x) (by omega)
    obtain ⟨B, hB, qB⟩ := get (2 * x + 1) (by omega)
    obtain ⟨m, hm, qm⟩ := hQ A B qA qB
    obtain ⟨n, hn, qn⟩ : ∃ n, fwdNext o p x m = some n ∧ Q n := by
      unfold fwdNext
      by_cases h1 : x + 1 < p.length - (p.length + 1) / 2
      · rw [if_pos h1]
        obtain ⟨C, hC, qC⟩ := get (2 * x + 2) (by omega)
        obtain ⟨D, hD, qD⟩ := get (2 * x + 3) (by omega)
        rw [hC, hD]
        exact hQ C D qC qD
      · rw [if_neg h1]
        by_cases h2 : p.length % 2 = 1
        · rw [if_pos h2]; exact get _ (by omega)
        · rw [if_neg h2]; exact ⟨m, rfl, qm⟩
    obtain ⟨l, hl, ql⟩ : ∃ l, fwdLeft p x m = some l ∧ Q l := by
      unfold fwdLeft
      by_cases h1 : x > 0
      · rw [if_pos h1]; exact get _ (by omega)
      · rw [if_neg h1]; exact ⟨m, rfl, qm⟩
    obtain ⟨s, hs⟩ := hR A B m n l qA qB qm qn ql
    refine ⟨m, s, ?_⟩
    simp only [fwdStep, hA, hB, hm, Option.bind_eq_bind, Option.bind_some, hn, hl, hs]
  obtain ⟨ms, rs, h1⟩ := fwdLoop_defined o p hstep (p.length - (p.length + 1) / 2) 0 (by omega)
  unfold fwdSeq
  rw [h1]
  simp only [Option.bind_eq_bind, Option.bind_some]
  by_cases h2 : p.length % 2 = 1
  · rw [if_pos h2]
    obtain ⟨l, hl, _⟩ := get (2 * ((p.length + 1) / 2 - 1)) (by omega)
    rw [hl]; exact ⟨_, _, rfl⟩
  · rw [if_neg h2]; exact ⟨_, _, rfl⟩

/-- A sequence of at most one element is its own average. -/
theorem fwdSeq_short {α : Type} (o : FwdOps α) (p a r : List α) (h : fwdSeq o p = some (a, r)) (hl : p.length ≤ 1) :
    a = p := by
  have := finish_fwd o p a r h
  obtain ⟨la, lr, hs, hodd⟩ := fwdSeq_spec o p a r h
  match p, hl with
  | [], _ => exact List.eq_nil_of_length_eq_zero (by simpa using la)
  | [x], _ =>
    have h1 := hodd rfl
    simp at lr la
    match a, la with
    | [y], _ => simpa [lr] using h1

/-! ## Bounded samples -/

/-- Magnitude below 2^29. -/
def Small (x : Px) : Prop := -536870912 < x.toInt ∧ x.toInt < 536870912

instance (x : Px) : Decidable (Small x) := by unfold Small; infer_instance

theorem average_small (A B : Px) (hA : Small A) (hB : Small B) : ∃ m, average A B = some m ∧ Small m := by
  unfold Small at *
  have e : ∃ m, average A B = some m := by
    unfold average
    rw [fit_of (by simp [minPx]; omega) (by simp [maxPx]; omega)]
    simp only [Option.bind_eq_bind, Option.bind_some]
    rw [fit_of (by simp only [minPx]; split <;> omega) (by simp only [maxPx]; split <;> omega)]
    exact ⟨_, rfl⟩
  obtain ⟨m, hm⟩ := e
  refine ⟨m, hm, ?_⟩
  have := average_spec hm
  split at this <;> omega

theorem residual_small (A B m n l : Px) (hA : Small A) (hB : Small B) (_ : Small m) (hn : Small n) (hl : Small l) :
    ∃ s, residual A B m n l = some s := by
  unfold Small at *
  have := tendency_bound l.toInt m.toInt n.toInt
  unfold residual
  rw [fit_of (by simp [minPx]; omega) (by simp [maxPx]; omega)]
  simp only [Option.bind_eq_bind, Option.bind_some, store_tendency]
  rw [fit_of (by simp [minPx]; omega) (by simp [maxPx]; omega)]
  exact ⟨_, rfl⟩

/-- The bounds under which `unpair` is safe for the vector code. -/
def SmallP (A B m n l : Px) : Prop := Small A ∧ Small B ∧ Small m ∧ Small n ∧ Small l

theorem checked_spec {A B m n l r : Px} (hs : SmallP A B m n l) (h1 : average A B = some m) (h2 : residual A B m n l = some r) :
    checked r m n l = some (A, B) := by
  unfold checked
  rw [if_pos, unpair_spec h1 h2]
  have := residual_spec h2
  unfold SmallP Small at hs
  refine ⟨by omega, by omega, by omega, ?_, ?_⟩ <;> rw [this]
  · simp only [minPx]; omega
  · simp only [maxPx]; omega

/-! ## Rows of pairs -/

theorem zipM2_average_len {a b m : List Px} : zipM2 average a b = some m → a.length = b.length ∧ m.length = a.length := by
  induction a generalizing b m with
  | nil =>
    intro h
    cases b with
    | nil => simp only [zipM2, Option.some.injEq] at h; rw [← h]; exact ⟨rfl, rfl⟩
    | cons y b => exact absurd h (by simp [zipM2])
  | cons x a ih =>
    intro h
    cases b with
    | nil => exact absurd h (by simp [zipM2])
    | cons y b =>
      simp only [zipM2, Option.bind_eq_bind, Option.bind_eq_some_iff] at h
      obtain ⟨c, h1, cs, h2, h3⟩ := h
      obtain ⟨i1, i2⟩ := ih h2
      rw [← Option.some.inj h3]
      exact ⟨by simp [i1], by simp [i2]⟩

theorem rowRes_len {a b m n l s : List Px} : rowRes a b m n l = some s → s.length = a.length := by
  induction a generalizing b m n l s with
  | nil =>
    intro h
    unfold rowRes at h
    split at h
    · rename_i heq; cases heq
    · rw [← Option.some.inj h]
    · exact absurd h (by simp)
  | cons x a ih =>
    intro h
    unfold rowRes at h
    split at h
    · rename_i heq
      cases heq
      simp only [Option.bind_eq_bind, Option.bind_eq_some_iff] at h
      obtain ⟨r, _, rs, h2, h3⟩ := h
      rw [← Option.some.inj h3]
      simp [ih h2]
    · rename_i heq; cases heq
    · exact absurd h (by simp)

theorem row_unpair {a b m n l s : List Px} : zipM2 average a b = some m → rowRes a b m n l = some s →
    rowStep unpairAll s m n l = some (a, b) := by
  induction a generalizing b m n l s with
  | nil =>
    intro h1 h2
    cases b with
    | nil =>
      unfold rowRes at h2
      split at h2
      · rename_i heq; cases heq
      · rw [← Option.some.inj h2]; rfl
      · exact absurd h2 (by simp)
    | cons y b => exact absurd h1 (by simp [zipM2])
  | cons x a ih =>
    intro h1 h2
    cases b with
    | nil => exact absurd h1 (by simp [zipM2])
    | cons y b =>
      simp only [zipM2, Option.bind_eq_bind, Option.bind_eq_some_iff] at h1
      obtain ⟨c, e1, cs, e2, e3⟩ := h1
      rw [← Option.some.inj e3] at h2 ⊢
      cases n with
      | nil => exact absurd h2 (by simp [rowRes])
      | cons v n =>
      cases l with
      | nil => exact absurd h2 (by simp [rowRes])
      | cons z l =>
        simp only [rowRes] at h2
        simp only [Option.bind_eq_bind, Option.bind_eq_some_iff] at h2
        obtain ⟨r, q1, rs, q2, q3⟩ := h2
        rw [← Option.some.inj q3]
        have := ih e2 q2
        simp only [rowStep, Option.bind_eq_bind, Option.bind_eq_some_iff] at this
        obtain ⟨t, t1, t2⟩ := this
        simp only [rowStep, zip4, Option.bind_eq_bind, t1, Option.bind_some]
        simp only [Option.some.injEq, Prod.mk.injEq] at t2 ⊢
        unfold unpairAll at *
        simp only [List.map_cons, unpair_spec e1 q1, t2.1, t2.2]
        exact ⟨trivial, trivial⟩

theorem row_average_small {a b : List Px} (hl : a.length = b.length) (ha : ∀ x ∈ a, Small x) (hb : ∀ x ∈ b, Small x) :
    ∃ m, zipM2 average a b = some m ∧ m.length = a.length ∧ ∀ x ∈ m, Small x := by
  induction a generalizing b with
  | nil =>
    cases b with
    | nil => exact ⟨[], rfl, rfl, by simp⟩
    | cons y b => exact absurd hl (by simp)
  | cons x a ih =>
    cases b with
    | nil => exact absurd hl (by simp)
    | cons y b =>
      obtain ⟨c, e1, e2⟩ := average_small x y (ha x (by simp)) (hb y (by simp))
      obtain ⟨cs, e3, e4, e5⟩ := ih (by simpa using hl) (fun z hz => ha z (by simp [hz])) (fun z hz => hb z (by simp [hz]))
      refine ⟨c :: cs, ?_, by simp [e4], ?_⟩
      · simp only [zipM2, e1, e3, Option.bind_eq_bind, Option.bind_some]
      · intro z hz
        rcases List.mem_cons.mp hz with rfl | hz
        · exact e2
        · exact e5 z hz

theorem row_res_small {a b m n l : List Px} (h1 : b.length = a.length) (h2 : m.length = a.length) (h3 : n.length = a.length)
    (h4 : l.length = a.length) (ha : ∀ x ∈ a, Small x) (hb : ∀ x ∈ b, Small x) (hm : ∀ x ∈ m, Small x) (hn : ∀ x ∈ n, Small x)
    (hl : ∀ x ∈ l, Small x) : ∃ s, rowRes a b m n l = some s := by
  induction a generalizing b m n l with
  | nil =>
    rw [List.eq_nil_of_length_eq_zero h1, List.eq_nil_of_length_eq_zero h2, List.eq_nil_of_length_eq_zero h3,
      List.eq_nil_of_length_eq_zero h4]
    exact ⟨[], rfl⟩
  | cons x a ih =>
    match b, m, n, l, h1, h2, h3, h4 with
    | y :: b, u :: m, v :: n, z :: l, h1, h2, h3, h4 =>
      simp only [List.length_cons, Nat.add_right_cancel_iff] at h1 h2 h3 h4
      simp only [List.mem_cons, forall_eq_or_imp] at ha hb hm hn hl
      obtain ⟨s, e1⟩ := residual_small x y u v z ha.1 hb.1 hm.1 hn.1 hl.1
      obtain ⟨ss, e2⟩ := ih h1 h2 h3 h4 ha.2 hb.2 hm.2 hn.2 hl.2
      refine ⟨s :: ss, ?_⟩
      simp only [rowRes, e1, e2, Option.bind_eq_bind, Option.bind_some]

theorem row_checked {a b m n l s : List Px} (ha : ∀ x ∈ a, Small x) (hb : ∀ x ∈ b, Small x) (hm : ∀ x ∈ m, Small x)
    (hn : ∀ x ∈ n, Small x) (hl : ∀ x ∈ l, Small x) : zipM2 average a b = some m → rowRes a b m n l = some s →
    checkedRow s m n l = some (a, b) := by
  intro h1 h2
  have h3 := row_unpair h1 h2
  simp only [rowStep, checkedRow, Option.bind_eq_bind, Option.bind_eq_some_iff] at h3 ⊢
  obtain ⟨t, t1, t2⟩ := h3
  refine ⟨t, t1, ?_⟩
  rw [if_pos ?_]; exact t2
  clear t2
  induction a generalizing b m n l s t with
  | nil =>
    cases b with
    | nil =>
      unfold rowRes at h2
      split at h2
      · rename_i heq; cases heq
      · rw [← Option.some.inj h2] at t1
        simp only [zip4, Option.some.injEq] at t1
        rw [← t1]; intro q hq; exact absurd hq (by simp)
      · exact absurd h2 (by simp)
    | cons y b => exact absurd h1 (by simp [zipM2])
  | cons x a ih =>
    cases b with
    | nil => exact absurd h1 (by simp [zipM2])
    | cons y b =>
      simp only [zipM2, Option.bind_eq_bind, Option.bind_eq_some_iff] at h1
      obtain ⟨c, e1, cs, e2, e3⟩ := h1
      have e3 := Option.some.inj e3
      subst e3
      cases n with
      | nil => exact absurd h2 (by simp [rowRes])
      | cons v n =>
      cases l with
      | nil => exact absurd h2 (by simp [rowRes])
      | cons z l =>
        simp only [rowRes] at h2
        simp only [Option.bind_eq_bind, Option.bind_eq_some_iff] at h2
        obtain ⟨r, q1, rs, q2, q3⟩ := h2
        rw [← Option.some.inj q3] at t1
        simp only [zip4, Option.bind_eq_bind, Option.bind_eq_some_iff] at t1
        obtain ⟨t', u1, u2⟩ := t1
        simp only [List.mem_cons, forall_eq_or_imp] at ha hb hm hn hl
        rw [← Option.some.inj u2]
        intro q hq
        rcases List.mem_cons.mp hq with rfl | hq
        · have := checked_spec ⟨ha.1, hb.1, hm.1, hn.1, hl.1⟩ e1 q1
          exact (checked_some _ _ _ _ _ this).1
        · exact ih ha.2 hb.2 hm.2 hn.2 hl.2 e2 q2 _ u1 q hq

end Jxl.Modular.Squeeze
