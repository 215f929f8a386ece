import Verif.Model.Icc
/-! # `Shuffle` undoes `Unshuffle` -/
namespace Jxl.Icc

@[simp] theorem bind_ok {α β : Type} (a : α) (f : α → R β) : (R.ok a >>= f) = f a := rfl
@[simp] theorem bind_fail {α β : Type} (f : α → R β) : (R.fail >>= f) = R.fail := rfl
@[simp] theorem bind_ub {α β : Type} (f : α → R β) : (R.ub >>= f) = R.ub := rfl
@[simp] theorem pure_ok {α : Type} (a : α) : (pure a : R α) = R.ok a := rfl

theorem rd_ok {l : Bytes} {i : Nat} (h : i < l.length) : rd l i = .ok l[i] := by
  unfold rd; rw [List.getElem?_eq_getElem h]

theorem rd_some {l : Bytes} {i : Nat} {x : UInt8} (h : l[i]? = some x) : rd l i = .ok x := by
  unfold rd; rw [h]

/-- Index pair before step `i`. -/
def idx (n h : Nat) : Nat → Nat × Nat
  | 0 => (0, 0)
  | i + 1 => nxt n h (idx n h i)

def ShInv (n h i : Nat) (p : Nat × Nat) : Prop :=
  p.2 < n ∧ p.1 < h ∧ ∃ k, p.2 = p.1 + k * h ∧ i = p.1 * (n / h) + min p.1 (n % h) + k

theorem shInv_step (n h i : Nat) (p : Nat × Nat) (h0 : 0 < h) (hi : i + 1 < n) (hp : ShInv n h i p) :
    ShInv n h (i + 1) (nxt n h p) := by
  obtain ⟨h1, h2, k, h3, h4⟩ := hp
  obtain ⟨s, j⟩ := p
  dsimp only at h1 h2 h3 h4
  have hn : n = h * (n / h) + n % h := (Nat.div_add_mod n h).symm
  have hr := Nat.mod_lt n h0
  generalize hq : n / h = q at *
  generalize hrr : n % h = r at *
  unfold nxt
  dsimp only
  by_cases hc : j + h ≥ n
  · rw [if_pos hc]
    have hk : i + 1 = (s + 1) * q + min (s + 1) r := by
      rw [Nat.add_mul, Nat.one_mul]
      by_cases hs : s < r
      · have hk1 : k = q := by
          have a1 : q * h < (k + 1) * h := by
            rw [Nat.add_mul, Nat.one_mul, Nat.mul_comm q h]; omega
          have a2 : k * h < (q + 1) * h := by
            rw [Nat.add_mul, Nat.one_mul, Nat.mul_comm q h]; omega
          have := Nat.lt_of_mul_lt_mul_right a1
          have := Nat.lt_of_mul_lt_mul_right a2
          omega
        subst hk1; omega
      · have hk1 : k + 1 = q := by
          have a1 : q * h < (k + 2) * h := by
            rw [Nat.add_mul, Nat.mul_comm q h]; omega
          have a2 : k * h < q * h := by
            rw [Nat.mul_comm q h]; omega
          have := Nat.lt_of_mul_lt_mul_right a1
          have := Nat.lt_of_mul_lt_mul_right a2
          omega
        omega
    have hs : s + 1 < h := by
      apply Classical.byContradiction; intro hcon
      have : h * q ≤ (s + 1) * q := Nat.mul_le_mul_right q (by omega)
      omega
    have hhn : s + 1 < n := by
      rcases Nat.lt_or_ge n h with hcon | hcon
      · have h5 : q = 0 := by rw [← hq]; exact Nat.div_eq_of_lt hcon
        rw [h5, Nat.mul_zero] at hn hk
        rcases Nat.lt_or_ge (s + 1) r with h6 | h6
        · omega
        · rw [Nat.min_eq_right h6] at hk; omega
      · omega
    exact ⟨by dsimp only; omega, hs, 0, by simp, by rw [hq, hrr]; simpa using hk⟩
  · rw [if_neg hc]
    refine ⟨by dsimp only; omega, h2, k + 1, ?_, ?_⟩
    · dsimp only; rw [Nat.add_mul, Nat.one_mul]; omega
    · dsimp only; rw [hq, hrr]; omega

theorem idx_inv (n h : Nat) (h0 : 0 < h) : ∀ i, i < n → ShInv n h i (idx n h i)
  | 0, hi => ⟨hi, h0, 0, by simp [idx], by simp [idx]⟩
  | i + 1, hi => shInv_step n h i _ h0 hi (idx_inv n h h0 i (by omega))

theorem idx_inj (n h : Nat) (h0 : 0 < h) (i i' : Nat) (hi : i < n) (hi' : i' < n)
    (e : (idx n h i).2 = (idx n h i').2) : i = i' := by
  obtain ⟨-, a2, k, a3, a4⟩ := idx_inv n h h0 i hi
  obtain ⟨-, b2, m, b3, b4⟩ := idx_inv n h h0 i' hi'
  generalize (idx n h i) = p at *
  generalize (idx n h i') = q at *
  have e1 : p.1 = q.1 := by
    have c1 : p.2 % h = p.1 := by rw [a3, Nat.add_mul_mod_self_right]; exact Nat.mod_eq_of_lt a2
    have c2 : q.2 % h = q.1 := by rw [b3, Nat.add_mul_mod_self_right]; exact Nat.mod_eq_of_lt b2
    rw [← c1, ← c2, e]
  have e2 : k * h = m * h := by omega
  have e3 : k = m := Nat.eq_of_mul_eq_mul_right h0 e2
  rw [a4, b4, e1, e3]

theorem unshuffleLoop_ok (n h : Nat) (h0 : 0 < h) (d : Bytes) (hd : d.length = n) :
    ∀ (xs : Bytes) (i : Nat) (buf : Bytes), xs = d.drop i → buf.length = n →
      (∀ i', i' < i → i' < n → buf[(idx n h i').2]? = d[i']?) →
      ∃ u, unshuffleLoop n h xs (idx n h i) buf = .ok u ∧ u.length = n ∧ ∀ i', i' < n → u[(idx n h i').2]? = d[i']?
  | [], i, buf, hx, hb, hpre => by
    refine ⟨buf, rfl, hb, fun i' hi' => hpre i' ?_ hi'⟩
    have := congrArg List.length hx
    rw [List.length_drop] at this
    simp at this; omega
  | x :: xs, i, buf, hx, hb, hpre => by
    have hl := congrArg List.length hx
    rw [List.length_drop, List.length_cons] at hl
    have hi : i < n := by omega
    have hlt : (idx n h i).2 < n := (idx_inv n h h0 i hi).1
    rw [unshuffleLoop, if_pos (by omega)]
    have hxd : d[i]? = some x := by
      have := congrArg (fun l => l[0]?) hx
      simpa using this.symm
    refine unshuffleLoop_ok n h h0 d hd xs (i + 1) _ ?_ (by rw [List.length_set, hb]) ?_
    · have := congrArg (List.drop 1) hx
      simpa using this
    · intro i' hi1 hi2
      by_cases he : i' = i
      · subst he
        rw [List.getElem?_set_self (by omega), hxd]
      · rw [List.getElem?_set_ne]
        · exact hpre i' (by omega) hi2
        · intro e; exact he (idx_inj n h h0 i i' hi hi2 e).symm

theorem shuffleLoop_ok (n h : Nat) (h0 : 0 < h) (u d : Bytes) (hd : d.length = n)
    (hu : ∀ i', i' < n → u[(idx n h i').2]? = d[i']?) :
    ∀ (m i : Nat), i + m = n → shuffleLoop u n h m (idx n h i) = .ok (d.drop i)
  | 0, i, hi => by rw [shuffleLoop, List.drop_eq_nil_of_le (by omega)]
  | m + 1, i, hi => by
    rw [shuffleLoop]
    have hlt : i < d.length := by omega
    have h1 := hu i (by omega)
    rw [List.getElem?_eq_getElem hlt] at h1
    rw [rd_some h1, bind_ok]
    have := shuffleLoop_ok n h h0 u d hd hu m (i + 1) (by omega)
    rw [idx] at this
    rw [this, bind_ok, List.drop_eq_getElem_cons hlt]

theorem height_pos (n w : Nat) (hw : 0 < w) (hn : 0 < n) : 0 < (n + w - 1) / w :=
  Nat.div_pos (by omega) hw

theorem unshuffle_ok (d : Bytes) (w : Nat) (hw : 0 < w) :
    ∃ u, unshuffle d w = .ok u ∧ u.length = d.length ∧ shuffle u w = .ok d := by
  by_cases hn : d.length = 0
  · have : d = [] := List.eq_nil_of_length_eq_zero hn
    subst this
    exact ⟨[], rfl, rfl, rfl⟩
  have h0 := height_pos d.length w hw (by omega)
  obtain ⟨u, h1, h2, h3⟩ := unshuffleLoop_ok d.length ((d.length + w - 1) / w) h0 d rfl d 0 (List.replicate d.length 0) (by simp)
    (by simp) (by intro i' h; omega)
  refine ⟨u, h1, h2, ?_⟩
  unfold shuffle
  rw [h2]
  exact shuffleLoop_ok d.length _ h0 u d rfl h3 d.length 0 (by omega)

theorem shuffleLoop_len (n h : Nat) (h0 : 0 < h) (u : Bytes) (hu : u.length = n) :
    ∀ (m i : Nat), i + m = n → ∃ r, shuffleLoop u n h m (idx n h i) = .ok r ∧ r.length = m
  | 0, i, hi => ⟨[], rfl, rfl⟩
  | m + 1, i, hi => by
    rw [shuffleLoop]
    have hlt : (idx n h i).2 < u.length := by rw [hu]; exact (idx_inv n h h0 i (by omega)).1
    rw [rd_ok hlt, bind_ok]
    obtain ⟨r, h1, h2⟩ := shuffleLoop_len n h h0 u hu m (i + 1) (by omega)
    rw [idx] at h1
    rw [h1, bind_ok]
    exact ⟨_, rfl, by simp [h2]⟩

theorem shuffle_len (u : Bytes) (w : Nat) (hw : 0 < w) : ∃ r, shuffle u w = .ok r ∧ r.length = u.length := by
  by_cases hn : u.length = 0
  · have : u = [] := List.eq_nil_of_length_eq_zero hn
    subst this
    exact ⟨[], rfl, rfl⟩
  exact shuffleLoop_len u.length _ (height_pos u.length w hw (by omega)) u rfl u.length 0 (by omega)

end Jxl.Icc
