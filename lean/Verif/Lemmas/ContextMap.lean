import Verif.Model.ContextMap
namespace Jxl.CtxMap

/-- Moving an element to the front, abstractly. -/
def front (v : List Nat) (i : Nat) : List Nat := v.getD i 0 :: v.eraseIdx i

theorem front_get (v : List Nat) (i j : Nat) (hi : i < v.length) :
    (front v i)[j]? = if j = 0 then v[i]? else if j ≤ i then v[j - 1]? else v[j]? := by
  unfold front
  cases j with
  | zero => simp [hi]
  | succ j =>
    rw [List.getElem?_cons_succ, List.getElem?_eraseIdx, if_neg (Nat.succ_ne_zero j)]
    by_cases h : j < i
    · rw [if_pos h, if_pos (by omega)]; rfl
    · rw [if_neg h, if_neg (by omega)]

theorem front_length (v : List Nat) (i : Nat) (hi : i < v.length) : (front v i).length = v.length := by
  unfold front
  rw [List.length_cons, List.length_eraseIdx, if_pos hi]; omega

theorem shiftDown_length (v : List Nat) (i : Nat) : (shiftDown v i).length = v.length := by
  induction i generalizing v with
  | zero => rfl
  | succ i ih => rw [shiftDown, ih, List.length_set]

theorem shiftDown_get (v : List Nat) (i j : Nat) (hi : i < v.length) :
    (shiftDown v i)[j]? = if 0 < j ∧ j ≤ i then v[j - 1]? else v[j]? := by
  induction i generalizing v with
  | zero => rw [shiftDown, if_neg (by omega)]
  | succ i ih =>
    rw [shiftDown, ih _ (by rw [List.length_set]; omega)]
    by_cases h : 0 < j ∧ j ≤ i
    · rw [if_pos h, if_pos (by omega), List.getElem?_set_ne (by omega)]
    · rw [if_neg h]
      by_cases h2 : j = i + 1
      · subst h2
        rw [if_pos (by omega), List.getElem?_set_self (by omega)]
        rw [List.getD_eq_getElem?_getD, Nat.add_sub_cancel, List.getElem?_eq_getElem (by omega)]; rfl
      · rw [List.getElem?_set_ne (by omega), if_neg (by omega)]

theorem moveToFront_eq (v : List Nat) (i : Nat) (hi : i < v.length) : moveToFront v i = some (front v i) := by
  unfold moveToFront
  rw [List.getElem?_eq_getElem hi, Option.map_some]
  congr 1
  apply List.ext_getElem?
  intro j
  rw [front_get v i j hi]
  by_cases h : j = 0
  · subst h
    rw [List.getElem?_set_self (by rw [shiftDown_length]; omega), if_pos rfl, List.getElem?_eq_getElem hi]
  · rw [List.getElem?_set_ne (by omega), if_neg h, shiftDown_get v i j hi]
    by_cases h2 : j ≤ i
    · rw [if_pos ⟨by omega, h2⟩, if_pos h2]
    · rw [if_neg (by omega), if_neg h2]

theorem loadV_spec (L : Nat) (v : List Nat) (i : Nat) (h : i + L ≤ v.length) :
    ∃ d, loadV L v i = some d ∧ d.length = L ∧ ∀ k < L, d[k]? = v[i + k]? := by
  refine ⟨_, by rw [loadV, if_pos h], ?_, ?_⟩
  · rw [List.length_take, List.length_drop]; omega
  · intro k hk
    rw [List.getElem?_take_of_lt hk, List.getElem?_drop]

theorem storeV_spec (v : List Nat) (i : Nat) (d : List Nat) (h : i + d.length ≤ v.length) :
    ∃ u, storeV v i d = some u ∧ u.length = v.length ∧ ∀ j, u[j]? = if i ≤ j ∧ j < i + d.length then d[j - i]? else v[j]? := by
  refine ⟨_, by rw [storeV, if_pos h], ?_, ?_⟩
  · simp only [List.length_append, List.length_take, List.length_drop]; omega
  · intro j
    by_cases h1 : j < i
    · rw [if_neg (by omega), List.append_assoc, List.getElem?_append_left (by rw [List.length_take]; omega), List.getElem?_take_of_lt h1]
    · rw [List.append_assoc, List.getElem?_append_right (by rw [List.length_take]; omega), List.length_take, Nat.min_eq_left (by omega)]
      by_cases h2 : j < i + d.length
      · rw [if_pos (by omega), List.getElem?_append_left (by omega)]
      · rw [if_neg (by omega), List.getElem?_append_right (by omega), List.getElem?_drop]
        congr 1; omega

/-- The block loop shifts everything below `i` up by one. -/
theorem blockLoop_spec (L : Nat) (hL : 0 < L) (q : Nat) : ∀ (fuel : Nat) (v : List Nat), q ≤ fuel → q * L < v.length →
    ∃ u, blockLoop L fuel v (q * L) = some u ∧ u.length = v.length ∧ ∀ j, u[j]? = if 0 < j ∧ j ≤ q * L then v[j - 1]? else v[j]? := by
  induction q with
  | zero =>
    intro fuel v _ _
    refine ⟨v, ?_, rfl, ?_⟩
    · cases fuel <;> simp [blockLoop]
    · intro j; rw [if_neg (by omega)]
  | succ q ih =>
    intro fuel v hf hv
    obtain ⟨fuel, rfl⟩ : ∃ f, fuel = f + 1 := ⟨fuel - 1, by omega⟩
    have e : (q + 1) * L = q * L + L := by rw [Nat.add_mul, Nat.one_mul]
    rw [e] at hv ⊢
    obtain ⟨vec, h1, h2, h3⟩ := loadV_spec L v (q * L) (by omega)
    obtain ⟨u, g1, g2, g3⟩ := storeV_spec v (q * L + 1) vec (by omega)
    obtain ⟨w, f1, f2, f3⟩ := ih fuel u (by omega) (by omega)
    refine ⟨w, ?_, by omega, ?_⟩
    · rw [blockLoop, if_neg (by omega), Nat.add_sub_cancel, h1]
      simp only [Option.bind_eq_bind, Option.bind_some]
      rw [g1]
      simp only [Option.bind_some]
      exact f1
    · intro j
      rw [f3]
      by_cases c1 : 0 < j ∧ j ≤ q * L
      · rw [if_pos c1, if_pos (by omega), g3, if_neg (by omega)]
      · rw [if_neg c1, g3]
        by_cases c2 : q * L + 1 ≤ j ∧ j < q * L + 1 + vec.length
        · rw [if_pos c2, if_pos (by omega), h3 _ (by omega)]
          congr 1; omega
        · rw [if_neg c2, if_neg (by omega)]

theorem tailBlock_spec (L : Nat) (v : List Nat) (i tail : Nat) (ht : tail < L) (hi : tail ≤ i) (hv : i - tail + 1 + L ≤ v.length) :
    ∃ u, tailBlock L v i tail = some u ∧ u.length = v.length ∧ ∀ j, u[j]? = if i - tail < j ∧ j ≤ i then v[j - 1]? else v[j]? := by
  unfold tailBlock
  by_cases h0 : tail = 0
  · refine ⟨v, by rw [if_pos h0], rfl, ?_⟩
    intro j; rw [if_neg (by omega)]
  · rw [if_neg h0]
    obtain ⟨vec, h1, h2, h3⟩ := loadV_spec L v (i - tail) (by omega)
    obtain ⟨prev, p1, p2, p3⟩ := loadV_spec L v (i - tail + 1) (by omega)
    have hl : (vec.take tail ++ prev.drop tail).length = L := by simp; omega
    obtain ⟨u, g1, g2, g3⟩ := storeV_spec v (i - tail + 1) (vec.take tail ++ prev.drop tail) (by omega)
    refine ⟨u, ?_, g2, ?_⟩
    · rw [h1, p1]
      simp only [Option.bind_eq_bind, Option.bind_some]
      exact g1
    · intro j
      rw [g3, hl]
      by_cases c : i - tail + 1 ≤ j ∧ j < i - tail + 1 + L
      · rw [if_pos c]
        by_cases c2 : j ≤ i
        · rw [if_pos (by omega), List.getElem?_append_left (by rw [List.length_take]; omega), List.getElem?_take_of_lt (by omega), h3 _ (by omega)]
          congr 1; omega
        · rw [if_neg (by omega), List.getElem?_append_right (by rw [List.length_take]; omega), List.length_take, Nat.min_eq_left (by omega),
            List.getElem?_drop, p3 _ (by omega)]
          congr 1; omega
      · rw [if_neg c, if_neg (by omega)]

/-- The vector version does the same as the loop, for every power-of-two vector length up to 64. -/
theorem moveToFrontVec_eq (k : Nat) (hk : k ≤ 6) (v : List Nat) (hv : v.length = 320) (i : Nat) (hi : i < 256) :
    moveToFrontVec (2 ^ k) v i = some (front v i) := by
  unfold moveToFrontVec
  by_cases h4 : i < 4
  · rw [if_pos h4, moveToFront_eq v i (by omega)]
  · rw [if_neg h4, List.getElem?_eq_getElem (by omega)]
    simp only [Option.bind_eq_bind, Option.bind_some]
    rw [Nat.and_two_pow_sub_one_eq_mod]
    have hL : 0 < 2 ^ k := Nat.two_pow_pos k
    have hL64 : 2 ^ k ≤ 64 := Nat.pow_le_pow_right (by omega) hk
    have ht := Nat.mod_lt i hL
    have hdm := Nat.div_add_mod i (2 ^ k)
    have hmul : i - i % 2 ^ k = i / 2 ^ k * 2 ^ k := by rw [Nat.mul_comm] at hdm; omega
    have hq : i / 2 ^ k ≤ 256 := Nat.le_trans (Nat.div_le_self _ _) (by omega)
    obtain ⟨u, h1, h2, h3⟩ := tailBlock_spec (2 ^ k) v i (i % 2 ^ k) ht (Nat.mod_le _ _) (by omega)
    rw [h1]
    simp only [Option.bind_some]
    rw [hmul]
    obtain ⟨w, g1, g2, g3⟩ := blockLoop_spec (2 ^ k) hL (i / 2 ^ k) 256 u hq (by omega)
    rw [g1]
    simp only [Option.bind_some, Option.some.injEq]
    apply List.ext_getElem?
    intro j
    rw [front_get v i j (by omega)]
    by_cases hj : j = 0
    · subst hj
      rw [List.getElem?_set_self (by omega), if_pos rfl, List.getElem?_eq_getElem (by omega)]
    · rw [List.getElem?_set_ne (by omega), if_neg hj, g3]
      by_cases c1 : 0 < j ∧ j ≤ i / 2 ^ k * 2 ^ k
      · rw [if_pos c1, h3, if_neg (by omega), if_pos (by omega)]
      · rw [if_neg c1, h3]
        by_cases c2 : j ≤ i
        · rw [if_pos (by omega), if_pos c2]
        · rw [if_neg (by omega), if_neg c2]

theorem front_zero (v : List Nat) (h : v ≠ []) : front v 0 = v := by
  cases v with
  | nil => exact absurd rfl h
  | cons a t => rfl

theorem moveUnlessFirst_eq (k : Nat) (hk : k ≤ 6) (v : List Nat) (hv : v.length = 320) (i : Nat) (hi : i < 256) :
    moveUnlessFirst (2 ^ k) v i = some (front v i) := by
  unfold moveUnlessFirst
  by_cases h : i = 0
  · subst h
    rw [if_neg (by omega), front_zero v (by intro e; rw [e] at hv; cases hv)]
  · rw [if_pos h, moveToFrontVec_eq k hk v hv i hi]

theorem front_append (a b : List Nat) (i : Nat) (hi : i < a.length) : front (a ++ b) i = front a i ++ b := by
  unfold front
  rw [List.getD_eq_getElem?_getD, List.getD_eq_getElem?_getD, List.getElem?_append_left hi, List.eraseIdx_append_of_lt_length hi,
    List.cons_append]

theorem mem_front (v : List Nat) (i x : Nat) (hi : i < v.length) : x ∈ front v i ↔ x ∈ v := by
  simp only [List.mem_iff_getElem?]
  constructor
  · rintro ⟨j, hj⟩
    rw [front_get v i j hi] at hj
    split at hj
    · exact ⟨i, hj⟩
    · split at hj
      · exact ⟨_, hj⟩
      · exact ⟨_, hj⟩
  · rintro ⟨j, hj⟩
    by_cases h1 : j = i
    · exact ⟨0, by rw [front_get v i 0 hi, if_pos rfl, ← h1, hj]⟩
    · by_cases h2 : j < i
      · exact ⟨j + 1, by rw [front_get v i _ hi, if_neg (by omega), if_pos (by omega), Nat.add_sub_cancel, hj]⟩
      · exact ⟨j, by rw [front_get v i _ hi, if_neg (by omega), if_neg (by omega), hj]⟩

theorem mtfLoop_spec (k : Nat) (hk : k ≤ 6) (xs : List Nat) : ∀ (mtf rest : List Nat), mtf.length ≤ 256 → (mtf ++ rest).length = 320 →
    (∀ x ∈ xs, x ∈ mtf) →
    ∃ r, mtfLoop mtf xs = some r ∧ r.length = xs.length ∧ (∀ y ∈ r, y < mtf.length) ∧ invLoop (2 ^ k) (mtf ++ rest) r = some xs := by
  induction xs with
  | nil => intro mtf rest _ _ _; exact ⟨[], rfl, rfl, by simp, rfl⟩
  | cons x xs ih =>
    intro mtf rest hm hl hx
    have hx0 := hx x List.mem_cons_self
    have hi : indexOf mtf x < mtf.length := List.findIdx_lt_length_of_exists ⟨x, hx0, by simp⟩
    have hget : mtf[indexOf mtf x]? = some x := by
      rw [List.getElem?_eq_getElem hi]
      have := List.findIdx_getElem (p := (· == x)) (xs := mtf) (w := hi)
      rw [beq_iff_eq] at this
      exact congrArg some this
    obtain ⟨r, h1, h2, h3, h4⟩ := ih (front mtf (indexOf mtf x)) rest (by rw [front_length _ _ hi]; exact hm)
      (by rw [List.length_append, front_length _ _ hi, ← List.length_append]; exact hl)
      (fun y hy => (mem_front _ _ _ hi).2 (hx y (List.mem_cons_of_mem _ hy)))
    rw [front_length _ _ hi] at h3
    refine ⟨indexOf mtf x % 256 :: r, ?_, by simp [h2], ?_, ?_⟩
    · rw [mtfLoop]
      simp only [if_pos hi, moveToFront_eq _ _ hi, Option.bind_eq_bind, Option.bind_some, h1]
    · intro y hy
      rcases List.mem_cons.1 hy with rfl | hy
      · rw [Nat.mod_eq_of_lt (by omega)]; exact hi
      · exact h3 y hy
    · rw [Nat.mod_eq_of_lt (by omega), invLoop, List.getElem?_append_left hi, hget]
      simp only [Option.bind_eq_bind, Option.bind_some]
      rw [moveUnlessFirst_eq k hk _ hl _ (by omega)]
      simp only [Option.bind_some]
      rw [front_append _ _ _ hi, h4]
      simp only [Option.bind_some]

theorem foldl_max_ge (v : List Nat) (m : Nat) : m ≤ v.foldl max m ∧ ∀ x ∈ v, x ≤ v.foldl max m := by
  induction v generalizing m with
  | nil => simp
  | cons a t ih =>
    have := ih (max m a)
    simp only [List.foldl_cons, List.mem_cons]
    refine ⟨by omega, ?_⟩
    rintro x (rfl | hx)
    · omega
    · exact this.2 x hx

theorem le_maxElem (v : List Nat) (x : Nat) (h : x ∈ v) : x ≤ maxElem v := (foldl_max_ge v 0).2 x h

theorem foldl_max_mem (v : List Nat) (m : Nat) : v.foldl max m = m ∨ v.foldl max m ∈ v := by
  induction v generalizing m with
  | nil => exact .inl rfl
  | cons a t ih =>
    simp only [List.foldl_cons, List.mem_cons]
    rcases ih (max m a) with h | h
    · rw [h]; by_cases hc : m ≤ a
      · right; left; omega
      · left; omega
    · right; right; exact h

theorem maxElem_lt (v : List Nat) (n : Nat) (hn : 0 < n) (h : ∀ x ∈ v, x < n) : maxElem v < n := by
  rcases foldl_max_mem v 0 with e | e
  · unfold maxElem; omega
  · exact h _ e

/-- What the verification loop establishes. -/
theorem verifyLoop_spec (n : Nat) (map : List Nat) : ∀ (hv : List Bool) (found r : Nat), hv.length = n → found = hv.count true →
    verifyLoop n hv found map = some r →
    ∃ hv' : List Bool, hv'.length = n ∧ r = hv'.count true ∧ (∀ x ∈ map, x < n) ∧ ∀ k < n, hv'[k]? = some true → hv[k]? = some true ∨ k ∈ map := by
  induction map with
  | nil =>
    intro hv found r hl hf h
    cases h
    exact ⟨hv, hl, hf, by simp, fun k _ hk => .inl hk⟩
  | cons a t ih =>
    intro hv found r hl hf h
    rw [verifyLoop] at h
    by_cases h1 : a ≥ n
    · rw [if_pos h1] at h; cases h
    · rw [if_neg h1] at h
      by_cases h2 : hv.getD a false = true
      · rw [if_pos h2] at h
        obtain ⟨hv', g1, g2, g3, g4⟩ := ih hv found r hl hf h
        refine ⟨hv', g1, g2, ?_, ?_⟩
        · intro x hx
          rcases List.mem_cons.1 hx with rfl | hx
          · omega
          · exact g3 x hx
        · intro k hk hk'
          rcases g4 k hk hk' with c | c
          · exact .inl c
          · exact .inr (List.mem_cons_of_mem _ c)
      · rw [if_neg h2] at h
        have hcount : (hv.set a true).count true = hv.count true + 1 := by
          rw [List.count_set (by omega)]
          have : hv[a] = false := by
            rw [List.getD_eq_getElem?_getD, List.getElem?_eq_getElem (by omega)] at h2
            simpa using h2
          simp [this]
        obtain ⟨hv', g1, g2, g3, g4⟩ := ih (hv.set a true) (found + 1) r (by rw [List.length_set]; exact hl) (by omega) h
        refine ⟨hv', g1, g2, ?_, ?_⟩
        · intro x hx
          rcases List.mem_cons.1 hx with rfl | hx
          · omega
          · exact g3 x hx
        · intro k hk hk'
          rcases g4 k hk hk' with c | c
          · by_cases e : a = k
            · subst e; exact .inr List.mem_cons_self
            · rw [List.getElem?_set_ne e] at c; exact .inl c
          · exact .inr (List.mem_cons_of_mem _ c)

theorem verify_sound (map : List Nat) (n : Nat) (h : verify map n = true) : (∀ x ∈ map, x < n) ∧ ∀ k < n, k ∈ map := by
  have h' : verifyLoop n (List.replicate n false) 0 map = some n := by simpa [verify] using h
  obtain ⟨hv', g1, g2, g3, g4⟩ := verifyLoop_spec n map _ 0 n (by simp) (by simp [List.count_replicate]) h'
  refine ⟨g3, fun k hk => ?_⟩
  have hall : ∀ b ∈ hv', true = b := by
    have : hv'.count true = hv'.length := by omega
    exact List.count_eq_length.1 this
  have hk' : hv'[k]? = some true := by
    rw [List.getElem?_eq_getElem (by omega)]
    rw [← hall _ (List.getElem_mem _)]
  rcases g4 k hk hk' with c | c
  · rw [List.getElem?_replicate] at c
    rw [if_pos hk] at c
    cases c
  · exact c

/-- The verification accepts every complete map. -/
theorem verifyLoop_complete (n : Nat) (map : List Nat) : ∀ (hv : List Bool), hv.length = n → (∀ x ∈ map, x < n) →
    ∃ hv' : List Bool, hv'.length = n ∧ verifyLoop n hv (hv.count true) map = some (hv'.count true) ∧ (∀ k : Nat, hv[k]? = some true → hv'[k]? = some true) ∧
      ∀ k ∈ map, hv'[k]? = some true := by
  induction map with
  | nil => intro hv hl _; exact ⟨hv, hl, rfl, fun _ h => h, by simp⟩
  | cons a t ih =>
    intro hv hl hm
    have ha := hm a List.mem_cons_self
    rw [verifyLoop, if_neg (by omega)]
    by_cases h2 : hv.getD a false = true
    · rw [if_pos h2]
      obtain ⟨hv', g1, g2, g3, g4⟩ := ih hv hl fun x hx => hm x (List.mem_cons_of_mem _ hx)
      refine ⟨hv', g1, g2, g3, ?_⟩
      intro k hk
      rcases List.mem_cons.1 hk with rfl | hk
      · apply g3
        rw [List.getD_eq_getElem?_getD, List.getElem?_eq_getElem (by omega)] at h2
        rw [List.getElem?_eq_getElem (by omega)]
        simpa using h2
      · exact g4 k hk
    · rw [if_neg h2]
      have hcount : hv.count true + 1 = (hv.set a true).count true := by
        rw [List.count_set (by omega)]
        have : hv[a] = false := by
          rw [List.getD_eq_getElem?_getD, List.getElem?_eq_getElem (by omega)] at h2
          simpa using h2
        simp [this]
      rw [hcount]
      obtain ⟨hv', g1, g2, g3, g4⟩ := ih (hv.set a true) (by rw [List.length_set]; exact hl) fun x hx => hm x (List.mem_cons_of_mem _ hx)
      have hmono : ∀ k : Nat, hv[k]? = some true → hv'[k]? = some true := by
        intro k hk
        apply g3
        rw [List.getElem?_set]
        split
        · rw [if_pos (by omega)]
        · exact hk
      refine ⟨hv', g1, g2, hmono, ?_⟩
      intro k hk
      rcases List.mem_cons.1 hk with rfl | hk
      · exact g3 _ (List.getElem?_set_self (by omega))
      · exact g4 k hk

theorem verify_complete (map : List Nat) (n : Nat) (h1 : ∀ x ∈ map, x < n) (h2 : ∀ k < n, k ∈ map) : verify map n = true := by
  obtain ⟨hv', g1, g2, _, g4⟩ := verifyLoop_complete n map (List.replicate n false) (by simp) h1
  have : hv'.count true = hv'.length := by
    rw [List.count_eq_length]
    intro b hb
    obtain ⟨k, hk, rfl⟩ := List.mem_iff_getElem.1 hb
    have := g4 k (h2 k (by omega))
    rw [List.getElem?_eq_getElem hk] at this
    simpa using this.symm
  have c0 : (List.replicate n false).count true = 0 := by simp [List.count_replicate]
  rw [c0] at g2
  simp only [verify, g2, this, g1, beq_self_eq_true]

theorem readEntries_write (k : Nat) (map : List Nat) (h : ∀ x ∈ map, x < 2 ^ k) (rest : List Bool) :
    readEntries k map.length (map.flatMap (bitsOf k) ++ rest) = some (map, rest) := by
  induction map with
  | nil => rfl
  | cons a t ih =>
    rw [List.length_cons, readEntries, List.flatMap_cons, List.append_assoc, rdBits_append (h a List.mem_cons_self)]
    simp only [Option.bind_eq_bind, Option.bind_some]
    rw [ih fun x hx => h x (List.mem_cons_of_mem _ hx)]
    simp only [Option.bind_some]

end Jxl.CtxMap
