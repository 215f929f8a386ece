import Verif.Lemmas.Squeeze
/-! The vector code of the inverse squeeze computes what the scalar code computes. -/
namespace Jxl.Modular.Squeeze

/-- The 32-bit operations of the vector code do not overflow: the three differences have magnitude below 2^30, the
reconstructed difference is representable. -/
def Safe (r m n l : Px) : Prop :=
  (l.toInt - m.toInt).natAbs < 1073741824 ∧ (m.toInt - n.toInt).natAbs < 1073741824 ∧ (l.toInt - n.toInt).natAbs < 1073741824 ∧
    minPx ≤ r.toInt + tendency l.toInt m.toInt n.toInt ∧ r.toInt + tendency l.toInt m.toInt n.toInt ≤ maxPx

instance (r m n l : Px) : Decidable (Safe r m n l) := by unfold Safe; infer_instance

/-- The scalar step with the overflow check. -/
def checked (r m n l : Px) : Option (Px × Px) := if Safe r m n l then some (unpair r m n l) else none

theorem w32_id (x : Int) (h1 : -2147483648 ≤ x) (h2 : x < 2147483648) : w32 x = x := by unfold w32; omega

theorem third_eq (x : Int) (h1 : 0 ≤ x) (h2 : x < 2147483648) : third x = x / 3 := by unfold third; omega

theorem mag_lane (y z : Int) :
    (let d := (y / 3 + (y + z + 2)) / 4
     let d' := if d > 2 * y + d % 2 then 2 * y + 1 else d
     if d' + d' % 2 > 2 * z then 2 * z else d') = mag y z (y + z) := by
  unfold mag
  have : (y / 3 + (y + z + 2)) / 4 = (3 * (y + z) + y + 6) / 12 := by omega
  rw [this]
  generalize (3 * (y + z) + y + 6) / 12 = d
  dsimp only
  by_cases h : d > 2 * y + d % 2
  · rw [if_pos h, if_pos (show d - d % 2 > 2 * y by omega)]
  · rw [if_neg h, if_neg (show ¬ (d - d % 2 > 2 * y) by omega)]

theorem msb_ofInt (x : Int) (h1 : -2147483648 ≤ x) (h2 : x < 2147483648) : (BitVec.ofInt 32 x).msb = decide (x < 0) := by
  rw [BitVec.msb_eq_toInt]
  have := toInt_store x (by simp [minPx]; omega) (by simp [maxPx]; omega)
  unfold store at this
  rw [this]

theorem laneTendency_eq (B a n : Int) (h1 : (B - a).natAbs < 1073741824) (h2 : (a - n).natAbs < 1073741824)
    (h3 : (B - n).natAbs < 1073741824) : laneTendency B a n = tendency B a n := by
  have q1 : w32 (B - a) = B - a := w32_id _ (by omega) (by omega)
  have q2 : w32 (a - n) = a - n := w32_id _ (by omega) (by omega)
  have q3 : w32 (B - n) = B - n := w32_id _ (by omega) (by omega)
  unfold laneTendency
  dsimp only
  rw [q1, q2, q3, w32_id ((B - a).natAbs : Int) (by omega) (by omega), w32_id ((a - n).natAbs : Int) (by omega) (by omega),
    w32_id ((B - n).natAbs : Int) (by omega) (by omega), third_eq _ (by omega) (by omega),
    BitVec.msb_xor, msb_ofInt _ (by omega) (by omega), msb_ofInt _ (by omega) (by omega)]
  rw [w32_id (((B - n).natAbs : Int) + 2) (by omega) (by omega),
    w32_id (((B - a).natAbs : Int) / 3 + (((B - n).natAbs : Int) + 2)) (by omega) (by omega),
    w32_id (2 * ((B - a).natAbs : Int)) (by omega) (by omega), w32_id (2 * ((a - n).natAbs : Int)) (by omega) (by omega),
    w32_id (2 * ((B - a).natAbs : Int) + 1) (by omega) (by omega)]
  unfold one
  rw [w32_id (2 * ((B - a).natAbs : Int) + ((((B - a).natAbs : Int) / 3 + (((B - n).natAbs : Int) + 2)) / 4) % 2)
    (by omega) (by omega)]
  rcases tendency_cases B a n with ⟨y, z, hy, hz, e1, e2, e3⟩ | ⟨y, z, hy, hz, e1, e2, e3⟩ | ⟨hmono, e3⟩
  · rw [e3, ← mag_lane]
    rw [show ((B - a).natAbs : Int) = y by omega, show ((a - n).natAbs : Int) = z by omega,
      show ((B - n).natAbs : Int) = y + z by omega]
    rw [if_neg (by simp only [decide_eq_false (show ¬ (B - a < 0) by omega), decide_eq_false (show ¬ (a - n < 0) by omega)]; simp)]
    rw [if_neg (show ¬ (B < n) by omega)]
    dsimp only
    generalize hd : (y / 3 + (y + z + 2)) / 4 = d
    rw [w32_id _ (by split <;> omega) (by split <;> omega)]
  · rw [e3, ← mag_lane]
    rw [show ((B - a).natAbs : Int) = y by omega, show ((a - n).natAbs : Int) = z by omega,
      show ((B - n).natAbs : Int) = y + z by omega]
    have hsk : ¬ (B - a ≠ 0 ∧ a - n ≠ 0 ∧ (decide (B - a < 0) ^^ decide (a - n < 0)) = true) := by
      rintro ⟨u, v, w⟩
      rw [decide_eq_true (show B - a < 0 by omega), decide_eq_true (show a - n < 0 by omega)] at w
      exact absurd w (by decide)
    rw [if_neg hsk]
    dsimp only
    generalize hd : (y / 3 + (y + z + 2)) / 4 = d
    rw [w32_id ((if d > 2 * y + d % 2 then 2 * y + 1 else d) + (if d > 2 * y + d % 2 then 2 * y + 1 else d) % 2)
      (by split <;> omega) (by split <;> omega)]
    by_cases hlt : B < n
    · rw [if_pos hlt, w32_id _ (by split <;> split <;> omega) (by split <;> split <;> omega)]
    · rw [if_neg hlt]
      have hy0 : y = 0 := by omega
      have hz0 : z = 0 := by omega
      subst hy0; subst hz0
      split <;> split <;> omega
  · have hsk : (B - a ≠ 0 ∧ a - n ≠ 0 ∧ (decide (B - a < 0) ^^ decide (a - n < 0)) = true) := by
      refine ⟨by omega, by omega, ?_⟩
      rcases hmono with h | h
      · rw [decide_eq_true (show B - a < 0 by omega), decide_eq_false (show ¬ (a - n < 0) by omega)]; rfl
      · rw [decide_eq_false (show ¬ (B - a < 0) by omega), decide_eq_true (show a - n < 0 by omega)]; rfl
    rw [if_pos hsk, e3]

theorem store_w32 (x : Int) : store (w32 x) = store x := by
  unfold store
  apply BitVec.eq_of_toInt_eq
  rw [BitVec.toInt_ofInt, BitVec.toInt_ofInt]
  unfold w32
  rw [show (x + 2147483648) % 4294967296 - 2147483648 = x + (2 ^ 32 : Nat) * (-((x + 2147483648) / 4294967296)) by simp; omega]
  exact Int.add_mul_bmod_self_left ..

theorem store_sub_w32 (x y : Int) : store (w32 x - y) = store (x - y) := by
  rw [← store_w32 (w32 x - y), ← store_w32 (x - y)]
  congr 1
  unfold w32; omega

theorem lane_eq (r m n l : Px) (h : Safe r m n l) : lane r m n l = unpair r m n l := by
  obtain ⟨h1, h2, h3, h4, h5⟩ := h
  unfold lane unpair
  rw [laneTendency_eq _ _ _ h1 h2 h3]
  dsimp only
  generalize r.toInt + tendency l.toInt m.toInt n.toInt = d at *
  simp only [minPx, maxPx] at h4 h5
  rw [w32_id d (by omega) (by omega)]
  have hh : w32 (d + if d < 0 then 1 else 0) / 2 = d.tdiv 2 := by
    rw [w32_id _ (by split <;> omega) (by split <;> omega)]
    by_cases hd : d < 0
    · rw [if_pos hd]
      have : d.tdiv 2 = -((-d) / 2) := by
        rw [show d = -(-d) by omega, Int.neg_tdiv, Int.tdiv_eq_ediv_of_nonneg (by omega)]
        simp
      omega
    · rw [if_neg hd, Int.tdiv_eq_ediv_of_nonneg (by omega)]; omega
  rw [hh, store_w32, store_sub_w32]

/-! ## Loops -/

/-- A step that succeeds less often changes nothing when the loop succeeds. -/
theorem invLoop_mono {α : Type} (f g : α → α → α → α → Option (α × α))
    (h : ∀ r m n l o, f r m n l = some o → g r m n l = some o) (avg res : List α) :
    ∀ (k x : Nat) (out o : List α), invLoop f avg res k x out = some o → invLoop g avg res k x out = some o := by
  intro k
  induction k with
  | zero => intro x out o ho; exact ho
  | succ k ih =>
    intro x out o ho
    simp only [invLoop, Option.bind_eq_bind, Option.bind_eq_some_iff, Prod.exists] at ho ⊢
    obtain ⟨r, h1, m, h2, n, h3, l, h4, A, B, h5, h6⟩ := ho
    exact ⟨r, h1, m, h2, n, h3, l, h4, A, B, h _ _ _ _ _ h5, ih _ _ _ h6⟩

theorem invSeq_mono {α : Type} (f g : α → α → α → α → Option (α × α))
    (h : ∀ r m n l o, f r m n l = some o → g r m n l = some o) (avg res p : List α)
    (hp : invSeq f avg res = some p) : invSeq g avg res = some p := by
  simp only [invSeq, Option.bind_eq_bind, Option.bind_eq_some_iff] at hp ⊢
  obtain ⟨o, h1, h2⟩ := hp
  exact ⟨o, invLoop_mono f g h avg res _ _ _ _ h1, h2⟩

theorem checked_some (r m n l : Px) (o : Px × Px) (h : checked r m n l = some o) : Safe r m n l ∧ unpair r m n l = o := by
  unfold checked at h
  split at h
  · rename_i hs; exact ⟨hs, Option.some.inj h⟩
  · exact absurd h (by simp)

theorem invLoop_add {α : Type} (f : α → α → α → α → Option (α × α)) (avg res : List α) : ∀ (k k' x : Nat) (out : List α),
    invLoop f avg res (k + k') x out = (invLoop f avg res k x out).bind (fun o => invLoop f avg res k' (x + k) o) := by
  intro k
  induction k with
  | zero => intro k' x out; simp [invLoop]
  | succ k ih =>
    intro k' x out
    rw [show k + 1 + k' = (k + k') + 1 by omega]
    simp only [invLoop, Option.bind_eq_bind, Option.bind_assoc]
    congr 1; funext r
    congr 1; funext m
    congr 1; funext n
    congr 1; funext l
    congr 1; funext AB
    rw [ih]
    rw [show x + 1 + k = x + (k + 1) by omega]

/-- A block of the vector code, one row: the ring of odd samples holds the left neighbour. -/
theorem blockLoop_eq (avg res : List Px) (x : Nat) (hx : x % 8 = 0) : ∀ (k i : Nat) (odd out o : List Px),
    invLoop checked avg res k (x + i) out = some o → i + k ≤ 8 → out.length = 2 * (x + i) → odd.length = 8 →
    (x + i ≠ 0 → odd[(x + i - 1) % 8]? = out[2 * (x + i) - 1]?) → x + i + k < avg.length →
    ∃ odd', blockLoop avg res x k i odd out = some (odd', o) ∧ odd'.length = 8 ∧ o.length = 2 * (x + i + k) ∧
      (x + i + k ≠ 0 → odd'[(x + i + k - 1) % 8]? = o[2 * (x + i + k) - 1]?) := by
  intro k
  induction k with
  | zero =>
    intro i odd out o h _ h2 h3 h4 _
    simp only [invLoop, Option.some.injEq] at h
    subst h
    exact ⟨odd, rfl, h3, h2, h4⟩
  | succ k ih =>
    intro i odd out o h h1 h2 h3 h4 h5
    simp only [invLoop, Option.bind_eq_bind, Option.bind_eq_some_iff, Prod.exists] at h
    obtain ⟨r, e1, m, e2, n, e3, l, e4, A, B, e5, e6⟩ := h
    obtain ⟨hs, hu⟩ := checked_some _ _ _ _ _ e5
    have hlane := lane_eq r m n l hs
    rw [hu] at hlane
    have e3' : avg[x + i + 1]? = some n := by
      unfold invNext at e3; rw [if_pos (by omega)] at e3; exact e3
    have e4' : blockLeft odd (x + i) m = some l := by
      unfold invLeft at e4; unfold blockLeft
      by_cases h0 : x + i ≠ 0
      · rw [if_pos h0] at e4 ⊢; rw [h4 h0]; exact e4
      · rw [if_neg h0] at e4 ⊢; exact e4
    rw [show x + i + 1 = x + (i + 1) by omega] at e6
    obtain ⟨odd', q1, q2, q3, q4⟩ := ih (i + 1) (odd.set i B) (out ++ [A, B]) o e6 (by omega) (by simp [h2]; omega) (by simp [h3])
      (by
        intro _
        rw [show (x + (i + 1) - 1) % 8 = i by omega, List.getElem?_set_self (by omega)]
        rw [List.getElem?_append_right (by omega), h2]
        rw [show 2 * (x + (i + 1)) - 1 - 2 * (x + i) = 1 by omega]; rfl) (by omega)
    refine ⟨odd', ?_, q2, by rw [q3]; omega, by rw [show x + i + (k + 1) = x + (i + 1) + k by omega]; exact q4⟩
    simp only [blockLoop, e1, e2, e3', Option.bind_eq_bind, Option.bind_some]
    rw [e4', Option.bind_some, hlane]
    exact q1

theorem blocks_eq (avg res : List Px) (hl : res.length ≤ avg.length) : ∀ (fuel x : Nat) (odd out o : List Px),
    invLoop checked avg res (res.length - x) x out = some o → x % 8 = 0 → out.length = 2 * x → odd.length = 8 →
    (x ≠ 0 → odd[(x - 1) % 8]? = out[2 * x - 1]?) →
    ∃ x' out', blocks avg res fuel x odd out = some (x', out') ∧ invLoop checked avg res (res.length - x') x' out' = some o := by
  intro fuel
  induction fuel with
  | zero => intro x odd out o h _ _ _ _; exact ⟨x, out, rfl, h⟩
  | succ fuel ih =>
    intro x odd out o h h1 h2 h3 h4
    by_cases hx : x < res.length - 9
    · rw [show res.length - x = 8 + (res.length - (x + 8)) by omega, invLoop_add] at h
      simp only [Option.bind_eq_some_iff] at h
      obtain ⟨o1, e1, e2⟩ := h
      obtain ⟨odd', q1, q2, q3, q4⟩ := blockLoop_eq avg res x h1 8 0 odd out o1 e1 (by omega) (by simpa using h2) h3
        (by simpa using h4) (by omega)
      simp only [Nat.add_zero] at q3 q4
      obtain ⟨x', out', p1, p2⟩ := ih (x + 8) odd' o1 o e2 (by omega) q3 q2 q4
      refine ⟨x', out', ?_, p2⟩
      simp only [blocks]
      rw [if_pos hx, q1]
      exact p1
    · refine ⟨x, out, ?_, h⟩
      simp only [blocks]
      rw [if_neg hx]

theorem invLoop_len {α : Type} (f : α → α → α → α → Option (α × α)) (avg res : List α) : ∀ (k x : Nat) (out o : List α),
    invLoop f avg res k x out = some o → k = 0 ∨ x + k ≤ avg.length := by
  intro k
  induction k with
  | zero => intro x out o _; exact Or.inl rfl
  | succ k ih =>
    intro x out o h
    simp only [invLoop, Option.bind_eq_bind, Option.bind_eq_some_iff, Prod.exists] at h
    obtain ⟨r, e1, m, e2, n, e3, l, e4, A, B, e5, e6⟩ := h
    obtain ⟨hlt, _⟩ := List.getElem?_eq_some_iff.mp e2
    rcases ih _ _ _ e6 with h | h
    · subst h; exact Or.inr (by omega)
    · exact Or.inr (by omega)

/-- A row: whatever the mixture of vector and scalar code, the result is that of the scalar code. -/
theorem invRowVec_eq (full : Bool) (odd0 avg res p : List Px) (ho : odd0.length = 8)
    (h : invSeq checked avg res = some p) : invRowVec full odd0 avg res = some p := by
  simp only [invSeq, Option.bind_eq_bind, Option.bind_eq_some_iff] at h
  obtain ⟨o, h1, h2⟩ := h
  have hl : res.length ≤ avg.length := by
    rcases invLoop_len _ _ _ _ _ _ _ h1 with h | h <;> omega
  have hm : ∀ r m n l o, checked r m n l = some o → (some (unpair r m n l)) = some o := by
    intro r m n l o h; rw [(checked_some _ _ _ _ _ h).2]
  unfold invRowVec
  obtain ⟨x', out', p1, p2⟩ : ∃ x' out', vecPart full odd0 avg res = some (x', out') ∧
      invLoop checked avg res (res.length - x') x' out' = some o := by
    unfold vecPart
    by_cases hc : full = true ∧ res.length > 16
    · rw [if_pos hc]
      exact blocks_eq avg res hl res.length 0 odd0 [] o (by simpa using h1) rfl rfl ho (fun h => absurd rfl h)
    · rw [if_neg hc]
      exact ⟨0, [], rfl, by simpa using h1⟩
  rw [p1]
  simp only [Option.bind_eq_bind, Option.bind_some]
  rw [invLoop_mono checked _ hm avg res _ _ _ _ p2]
  exact h2

/-! ## Columns -/

def SafeT (t : Px × Px × Px × Px) : Prop := Safe t.1 t.2.1 t.2.2.1 t.2.2.2

instance (t : Px × Px × Px × Px) : Decidable (SafeT t) := by unfold SafeT; infer_instance

theorem map_lane (l : List (Px × Px × Px × Px)) (h : ∀ t ∈ l, SafeT t) :
    (l.map fun (r, m, n, t) => lane r m n t) = unpairAll l := by
  unfold unpairAll
  apply List.map_congr_left
  intro t ht
  exact lane_eq _ _ _ _ (h t ht)

theorem unpairAll_append (a b : List (Px × Px × Px × Px)) : unpairAll a ++ unpairAll b = unpairAll (a ++ b) := by
  simp [unpairAll]

theorem slice_eq : ∀ (fuel : Nat) (l : List (Px × Px × Px × Px)), (∀ t ∈ l, SafeT t) → slice l fuel = unpairAll l := by
  intro fuel
  induction fuel with
  | zero => intro l _; rfl
  | succ fuel ih =>
    intro l h
    simp only [slice]
    split
    · rw [map_lane _ (fun t ht => h t (List.mem_of_mem_take ht)), ih _ (fun t ht => h t (List.mem_of_mem_drop ht)),
        unpairAll_append, List.take_append_drop]
    · rfl

theorem slices_eq : ∀ (fuel : Nat) (l : List (Px × Px × Px × Px)), (∀ t ∈ l, SafeT t) → l.length ≤ fuel →
    slices l fuel = unpairAll l := by
  intro fuel
  induction fuel with
  | zero => intro l _ hl; rw [List.eq_nil_of_length_eq_zero (l := l) (by omega)]; rfl
  | succ fuel ih =>
    intro l h hl
    simp only [slices]
    by_cases h0 : l = []
    · rw [if_pos h0, h0]; rfl
    · rw [if_neg h0, slice_eq _ _ (fun t ht => h t (List.mem_of_mem_take ht)),
        ih _ (fun t ht => h t (List.mem_of_mem_drop ht)) (by
          rw [List.length_drop]
          have := List.length_pos_iff.mpr h0
          omega),
        unpairAll_append, List.take_append_drop]

theorem colsVec_eq (l : List (Px × Px × Px × Px)) (h : ∀ t ∈ l, SafeT t) : colsVec l = unpairAll l :=
  slices_eq _ _ h (Nat.le_refl _)

/-- The scalar step on a row of pairs with the overflow check. -/
def checkedRow (r m n l : List Px) : Option (List Px × List Px) := do
  let t ← zip4 r m n l
  if ∀ q ∈ t, SafeT q then some ((unpairAll t).map (·.1), (unpairAll t).map (·.2)) else none

theorem checkedRow_scalar (r m n l : List Px) (o : List Px × List Px) (h : checkedRow r m n l = some o) :
    rowStep unpairAll r m n l = some o := by
  simp only [checkedRow, rowStep, Option.bind_eq_bind, Option.bind_eq_some_iff] at h ⊢
  obtain ⟨t, h1, h2⟩ := h
  split at h2
  · exact ⟨t, h1, h2⟩
  · exact absurd h2 (by simp)

theorem checkedRow_vec (r m n l : List Px) (o : List Px × List Px) (h : checkedRow r m n l = some o) :
    rowStep colsVec r m n l = some o := by
  simp only [checkedRow, rowStep, Option.bind_eq_bind, Option.bind_eq_some_iff] at h ⊢
  obtain ⟨t, h1, h2⟩ := h
  split at h2
  · rename_i hs
    exact ⟨t, h1, by rw [colsVec_eq t hs]; exact h2⟩
  · exact absurd h2 (by simp)

end Jxl.Modular.Squeeze
