import Verif.Model.Lehmer
namespace Jxl.Lehmer

/-! ### lowest bit -/

theorem and_split (a b : Nat) : a &&& b = 2 * (a / 2 &&& b / 2) + (a % 2) * (b % 2) := by
  have h1 := Nat.and_div_two (a := a) (b := b)
  have h2 : (a &&& b) % 2 = (a % 2) * (b % 2) := by
    have := Nat.and_mod_two_pow (a := a) (b := b) (n := 1)
    simp only [Nat.pow_one] at this
    rw [this]
    rcases Nat.mod_two_eq_zero_or_one a with h | h <;> rcases Nat.mod_two_eq_zero_or_one b with h' | h' <;> rw [h, h'] <;> rfl
  omega

theorem low_rep (i : Nat) (hi : 1 ≤ i) : ∃ k m, i = 2 ^ k * (2 * m + 1) ∧ i &&& (i - 1) = 2 ^ k * (2 * m) := by
  induction i using Nat.strongRecOn with
  | _ i ih =>
    by_cases h : i % 2 = 1
    · refine ⟨0, i / 2, by omega, ?_⟩
      rw [and_split]
      have : (i - 1) / 2 = i / 2 := by omega
      rw [this, Nat.and_self]
      have : (i - 1) % 2 = 0 := by omega
      rw [this]; omega
    · obtain ⟨k, m, h1, h2⟩ := ih (i / 2) (by omega) (by omega)
      refine ⟨k + 1, m, ?_, ?_⟩
      · rw [Nat.pow_succ, Nat.mul_assoc, Nat.mul_comm 2, ← Nat.mul_assoc, ← h1]; omega
      · rw [and_split]
        have : (i - 1) / 2 = i / 2 - 1 := by omega
        rw [this, h2, show i % 2 = 0 by omega, Nat.zero_mul, Nat.add_zero, Nat.pow_succ, Nat.mul_comm (2 ^ k) 2, Nat.mul_assoc]

theorem and_compl_odd (w m : Nat) (hm : 2 * m + 1 < 2 ^ w) : (2 * m + 1) &&& (2 ^ w - (2 * m + 1)) = 1 := by
  rcases w with _ | w
  · simp at hm
  have e : 2 ^ (w + 1) - (2 * m + 1) = 2 * (2 ^ w - 1 - m) + 1 := by rw [Nat.pow_succ] at *; omega
  rw [and_split, e, show (2 * m + 1) / 2 = m by omega, show (2 * (2 ^ w - 1 - m) + 1) / 2 = 2 ^ w - 1 - m by omega]
  have hmw : m < 2 ^ w := by rw [Nat.pow_succ] at hm; omega
  have : m &&& (2 ^ w - 1 - m) = 0 := by
    apply Nat.eq_of_testBit_eq
    intro j
    rw [Nat.testBit_and, Nat.zero_testBit, show 2 ^ w - 1 - m = 2 ^ w - (m + 1) by omega, Nat.testBit_two_pow_sub_succ hmw]
    cases m.testBit j <;> simp
  rw [this, show (2 * m + 1) % 2 = 1 by omega, show (2 * (2 ^ w - 1 - m) + 1) % 2 = 1 by omega]

theorem lowest1_eq (w k m : Nat) (h : 2 ^ k * (2 * m + 1) < 2 ^ w) : lowest1 w (2 ^ k * (2 * m + 1)) = 2 ^ k := by
  have hpos : 0 < 2 ^ k * (2 * m + 1) := Nat.mul_pos (Nat.two_pow_pos k) (by omega)
  rw [lowest1, Nat.mod_eq_of_lt (by omega)]
  clear hpos
  induction k generalizing w with
  | zero => simp only [Nat.pow_zero, Nat.one_mul] at *; exact and_compl_odd w m h
  | succ k ih =>
    rcases w with _ | w
    · have : 0 < 2 ^ (k + 1) * (2 * m + 1) := Nat.mul_pos (Nat.two_pow_pos _) (by omega)
      simp at h; omega
    have e1 : 2 ^ (k + 1) * (2 * m + 1) = 2 * (2 ^ k * (2 * m + 1)) := by rw [Nat.pow_succ, Nat.mul_comm (2 ^ k) 2, Nat.mul_assoc]
    rw [e1, Nat.pow_succ, Nat.mul_comm (2 ^ w) 2] at h
    rw [e1, Nat.pow_succ 2 w, Nat.pow_succ 2 k, Nat.mul_comm (2 ^ w) 2, ← Nat.mul_sub, and_split]
    rw [show 2 * (2 ^ k * (2 * m + 1)) / 2 = 2 ^ k * (2 * m + 1) by omega,
      show 2 * (2 ^ w - 2 ^ k * (2 * m + 1)) / 2 = 2 ^ w - 2 ^ k * (2 * m + 1) by omega, ih w (by omega), show 2 * (2 ^ k * (2 * m + 1)) % 2 = 0 by omega]
    omega

/-- The lowest set bit. -/
def low (i : Nat) : Nat := i - (i &&& (i - 1))

theorem low_spec (i : Nat) (hi : 1 ≤ i) : ∃ k m, i = 2 ^ k * (2 * m + 1) ∧ low i = 2 ^ k ∧ i - low i = 2 ^ k * (2 * m) ∧
    i &&& (i - 1) = i - low i := by
  obtain ⟨k, m, h1, h2⟩ := low_rep i hi
  have : low i = 2 ^ k := by
    rw [low, h2]; conv => lhs; lhs; rw [h1]
    rw [Nat.mul_add]; omega
  refine ⟨k, m, h1, this, ?_, ?_⟩
  · rw [this]; conv => lhs; lhs; rw [h1]
    rw [Nat.mul_add]; omega
  · rw [this, h2]; conv => rhs; lhs; rw [h1]
    rw [Nat.mul_add]; omega

theorem low_le (i : Nat) : low i ≤ i := Nat.sub_le _ _

theorem low_pos (i : Nat) (hi : 1 ≤ i) : 1 ≤ low i := by
  obtain ⟨k, m, _, h, _⟩ := low_spec i hi
  rw [h]; exact Nat.two_pow_pos k

theorem rep_unique (k m k' m' : Nat) (h : 2 ^ k * (2 * m + 1) = 2 ^ k' * (2 * m' + 1)) : k = k' := by
  rcases Nat.lt_trichotomy k k' with hl | hl | hl
  · exfalso
    obtain ⟨d, rfl⟩ : ∃ d, k' = k + (d + 1) := ⟨k' - k - 1, by omega⟩
    rw [Nat.pow_add, Nat.mul_assoc] at h
    have := Nat.eq_of_mul_eq_mul_left (Nat.two_pow_pos k) h
    rw [Nat.pow_succ, Nat.mul_assoc, Nat.mul_left_comm] at this
    omega
  · exact hl
  · exfalso
    obtain ⟨d, rfl⟩ : ∃ d, k = k' + (d + 1) := ⟨k - k' - 1, by omega⟩
    rw [Nat.pow_add, Nat.mul_assoc] at h
    have := Nat.eq_of_mul_eq_mul_left (Nat.two_pow_pos k') h
    rw [Nat.pow_succ, Nat.mul_assoc, Nat.mul_left_comm] at this
    omega

theorem low_mul (k m : Nat) : low (2 ^ k * (2 * m + 1)) = 2 ^ k := by
  have hpos : 0 < 2 ^ k * (2 * m + 1) := Nat.mul_pos (Nat.two_pow_pos k) (by omega)
  obtain ⟨k', m', h1, h2, _⟩ := low_spec _ hpos
  rw [h2, rep_unique _ _ _ _ h1]

theorem lowest1_low (w i : Nat) (hi : 1 ≤ i) (hw : i < 2 ^ w) : lowest1 w i = low i := by
  obtain ⟨k, m, h1, h2, _⟩ := low_spec i hi
  rw [h2]
  rw [h1] at hw
  conv => lhs; rw [h1]
  exact lowest1_eq w k m hw

/-- Node `j` of the Fenwick tree covers position `p`. -/
def Covers (j p : Nat) : Prop := j - low j < p ∧ p ≤ j

instance (j p : Nat) : Decidable (Covers j p) := inferInstanceAs (Decidable (_ ∧ _))

theorem mul_between {q a n : Nat} (h1 : q * (2 * n) < q * a) (h2 : q * a ≤ q * (2 * n + 1))  : a = 2 * n + 1 := by
  have h1 := Nat.lt_of_mul_lt_mul_left h1
  have hq : 0 < q := by
    rcases Nat.eq_zero_or_pos q with h | h
    · subst h; simp at *
    · exact h
  have h2 := Nat.le_of_mul_le_mul_left h2 hq
  omega

theorem covers_step (j i : Nat) (hi : 1 ≤ i) (hj : 1 ≤ j) : Covers j i ↔ j = i ∨ Covers j (i + low i) := by
  obtain ⟨a, m, ei, li, _⟩ := low_spec i hi
  obtain ⟨b, n, ej, lj, sj, _⟩ := low_spec j hj
  unfold Covers
  rw [sj, li]
  have pa := Nat.two_pow_pos a
  constructor
  · rintro ⟨h1, h2⟩
    by_cases hij : j = i
    · left; exact hij
    right
    refine ⟨by omega, ?_⟩
    by_cases hab : b ≤ a
    · exfalso
      obtain ⟨d, rfl⟩ : ∃ d, a = b + d := ⟨a - b, by omega⟩
      have e : i = 2 ^ b * (2 ^ d * (2 * m + 1)) := by rw [ei, Nat.pow_add, Nat.mul_assoc]
      rw [e] at h1 h2
      rw [ej] at h2
      have := mul_between h1 h2
      rw [this] at e
      exact hij (by rw [e, ej])
    · obtain ⟨d, rfl⟩ : ∃ d, b = a + d := ⟨b - a, by omega⟩
      have e : j = 2 ^ a * (2 ^ d * (2 * n + 1)) := by rw [ej, Nat.pow_add, Nat.mul_assoc]
      have hlt : i < j := by omega
      rw [ei, e] at hlt
      have := Nat.lt_of_mul_lt_mul_left hlt
      have := Nat.mul_le_mul_left (2 ^ a) (show 2 * m + 1 + 1 ≤ 2 ^ d * (2 * n + 1) by omega)
      rw [Nat.mul_add _ _ 1, ← ei, ← e] at this
      omega
  · rintro (h | ⟨h1, h2⟩)
    · subst h
      refine ⟨?_, Nat.le_refl _⟩
      conv => rhs; rw [ej]
      rw [Nat.mul_add]; have := Nat.two_pow_pos b; omega
    · refine ⟨?_, by omega⟩
      by_cases hab : b ≤ a
      · exfalso
        obtain ⟨d, rfl⟩ : ∃ d, a = b + d := ⟨a - b, by omega⟩
        have e : i + 2 ^ (b + d) = 2 ^ b * (2 ^ d * (2 * m + 2)) := by
          rw [← Nat.mul_assoc, ← Nat.pow_add, show 2 * m + 2 = (2 * m + 1) + 1 by omega, Nat.mul_add _ _ 1, ← ei]; omega
        rw [e] at h1 h2
        rw [ej] at h2
        have := mul_between h1 h2
        have h2 : 2 ^ d * (2 * m + 2) = 2 * (2 ^ d * (m + 1)) := by
          rw [show 2 * m + 2 = 2 * (m + 1) by omega, Nat.mul_left_comm]
        omega
      · obtain ⟨d, rfl⟩ : ∃ d, b = a + (d + 1) := ⟨b - a - 1, by omega⟩
        have e : 2 ^ (a + (d + 1)) * (2 * n) = 2 ^ a * (2 * (2 ^ d * (2 * n))) := by
          rw [Nat.pow_add, Nat.mul_assoc, Nat.pow_succ, Nat.mul_assoc, Nat.mul_left_comm (2 ^ d) 2]
        have e2 : i + 2 ^ a = 2 ^ a * (2 * m + 2) := by
          rw [show 2 * m + 2 = (2 * m + 1) + 1 by omega, Nat.mul_add _ _ 1, ← ei]; omega
        rw [e, e2] at h1
        have := Nat.lt_of_mul_lt_mul_left h1
        have := Nat.mul_lt_mul_of_pos_left (show 2 * (2 ^ d * (2 * n)) < 2 * m + 1 by omega) pa
        rw [← ei] at this
        rw [e]; exact this

theorem covers_excl (i : Nat) (hi : 1 ≤ i) : ¬ Covers i (i + low i) := by
  have := low_pos i hi
  unfold Covers; omega

/-! ### counting -/

/-- How many values below `k` are in the list. -/
def cnt (us : List Nat) : Nat → Nat
  | 0 => 0
  | k + 1 => cnt us k + if k ∈ us then 1 else 0

theorem cnt_le (us : List Nat) (k : Nat) : cnt us k ≤ k := by
  induction k with
  | zero => exact Nat.le_refl _
  | succ k ih => simp only [cnt]; split <;> omega

theorem cnt_mono (us : List Nat) (a b : Nat) (h : a ≤ b) : cnt us a ≤ cnt us b ∧ cnt us b - cnt us a ≤ b - a := by
  induction b with
  | zero => have : a = 0 := by omega
            subst this; simp
  | succ b ih =>
    by_cases hab : a = b + 1
    · subst hab; simp
    · have := ih (by omega)
      simp only [cnt]; split <;> omega

theorem cnt_cons (s : Nat) (us : List Nat) (k : Nat) (hs : s ∉ us) :
    cnt (s :: us) k = cnt us k + if s < k then 1 else 0 := by
  induction k with
  | zero => simp [cnt]
  | succ k ih =>
    simp only [cnt, ih, List.mem_cons]
    by_cases hk : k = s
    · subst hk; simp [hs]
    · by_cases h : s < k
      · simp [hk, h, show s < k + 1 by omega]; omega
      · simp [hk, h, show ¬ s < k + 1 by omega]

theorem cnt_nil (k : Nat) : cnt [] k = 0 := by
  induction k with
  | zero => rfl
  | succ k ih => simp [cnt, ih]

/-- When all listed values are distinct and below `n`, the count is their number. -/
theorem cnt_total (us : List Nat) (n : Nat) (hn : us.Nodup) (hlt : ∀ u ∈ us, u < n) : cnt us n = us.length := by
  induction us with
  | nil => simp [cnt_nil]
  | cons s us ih =>
    rw [List.nodup_cons] at hn
    rw [cnt_cons s us n hn.1, ih hn.2 (fun u hu => hlt u (by simp [hu]))]
    simp [hlt s (by simp)]

/-- Number of unused values below `k` determines an unused value. -/
theorem unused_inj (us : List Nat) (a b : Nat) (ha : a ∉ us) (hb : b ∉ us) (h : a - cnt us a = b - cnt us b) : a = b := by
  have key : ∀ a b, a ∉ us → a < b → a - cnt us a < b - cnt us b := by
    intro a b ha hab
    have h1 := cnt_mono us (a + 1) b hab
    have h2 : cnt us (a + 1) = cnt us a := by simp [cnt, ha]
    have := cnt_le us a
    have := cnt_le us b
    omega
  rcases Nat.lt_trichotomy a b with hl | hl | hl
  · have := key a b ha hl; omega
  · exact hl
  · have := key b a hb hl; omega

/-! ### the encoder's tree -/

def EncInv (us : List Nat) (n : Nat) (t : List Nat) : Prop :=
  t.length = n + 1 ∧ ∀ j, 1 ≤ j → j ≤ n → t[j]? = some (cnt us j - cnt us (j - low j))

theorem fenSum_spec (us : List Nat) (n : Nat) (t : List Nat) (h : EncInv us n t) (fuel i acc : Nat) (hf : i < fuel) (hi : i ≤ n) :
    fenSum fuel t i acc = some (acc + cnt us i) := by
  induction fuel generalizing i acc with
  | zero => omega
  | succ fuel ih =>
    simp only [fenSum]
    by_cases h0 : i = 0
    · subst h0; simp [cnt]
    · rw [if_pos h0, h.2 i (by omega) hi, Option.bind_some]
      obtain ⟨_, _, _, _, _, e⟩ := low_spec i (by omega)
      have hp := low_pos i (by omega)
      have hl := low_le i
      rw [e, ih _ _ (by omega) (by omega)]
      have := (cnt_mono us (i - low i) i (by omega)).1
      congr 1; omega

theorem fenAdd_spec (n fuel : Nat) (t : List Nat) (i : Nat) (hl : t.length = n + 1) (hi : 1 ≤ i) (hf : n + 1 < fuel + i) (hf0 : 1 ≤ fuel)
    (hn : n + 1 < 2 ^ 31) :
    ∃ t', fenAdd n fuel t i = some t' ∧ t'.length = n + 1 ∧
      ∀ j, 1 ≤ j → j ≤ n → t'[j]? = t[j]?.map (· + if Covers j i then 1 else 0) := by
  induction fuel generalizing t i with
  | zero => omega
  | succ fuel ih =>
    simp only [fenAdd]
    by_cases h : i < n + 1
    · rw [if_pos h, List.getElem?_eq_getElem (by omega), Option.bind_some, lowest1_low 32 i hi (by omega)]
      have hp := low_pos i hi
      obtain ⟨t', h1, h2, h3⟩ := ih (t.set i (t[i] + 1)) (i + low i) (by simpa using hl) (by omega) (by omega) (by omega)
      refine ⟨t', h1, h2, fun j hj hjn => ?_⟩
      rw [h3 j hj hjn]
      have hc := covers_step j i hi hj
      by_cases hij : j = i
      · subst hij
        have h4 := covers_excl j hj
        have h5 : Covers j j := hc.mpr (Or.inl rfl)
        rw [List.getElem?_set_self (by omega), if_neg h4, if_pos h5, List.getElem?_eq_getElem (by omega)]
        rfl
      · rw [List.getElem?_set_ne (by omega)]
        have : Covers j i ↔ Covers j (i + low i) := by rw [hc]; simp [hij]
        simp only [this]
    · rw [if_neg h]
      refine ⟨t, rfl, hl, fun j hj hjn => ?_⟩
      have : ¬ Covers j i := by unfold Covers; omega
      simp [this]

theorem EncInv_add (us : List Nat) (n : Nat) (t t' : List Nat) (s : Nat) (hs : s ∉ us) (h : EncInv us n t)
    (hl : t'.length = n + 1) (ht : ∀ j, 1 ≤ j → j ≤ n → t'[j]? = t[j]?.map (· + if Covers j (s + 1) then 1 else 0)) :
    EncInv (s :: us) n t' := by
  refine ⟨hl, fun j hj hjn => ?_⟩
  rw [ht j hj hjn, h.2 j hj hjn, Option.map_some, cnt_cons s us _ hs, cnt_cons s us _ hs]
  have := (cnt_mono us (j - low j) j (Nat.sub_le _ _)).1
  have hcv : Covers j (s + 1) ↔ s < j ∧ ¬ s < j - low j := by unfold Covers; omega
  have hll := low_le j
  have hb := (cnt_mono us (j - low j) j (Nat.sub_le _ _)).2
  congr 1
  by_cases a1 : s < j <;> by_cases a2 : s < j - low j <;> simp only [hcv, a1, a2, not_true_eq_false, not_false_eq_true, and_self, and_false, false_and, if_true, if_false] <;> omega

/-- Each code is the number of smaller values not used before. -/
def lehmerSpec : List Nat → List Nat → List Nat
  | _, [] => []
  | us, s :: ps => (s - cnt us s) :: lehmerSpec (s :: us) ps

theorem computeLoop_spec (n : Nat) (hn : n + 1 < 2 ^ 31) (t us ps : List Nat) (h : EncInv us n t) (hps : ∀ s ∈ ps, s < n)
    (hnd : (us.reverse ++ ps).Nodup) : computeLoop n t ps = some (lehmerSpec us ps) := by
  induction ps generalizing t us with
  | nil => rfl
  | cons s ps ih =>
    have hs : s < n := hps s (by simp)
    have hsu : s ∉ us := by
      intro hm
      rw [List.nodup_append] at hnd
      exact hnd.2.2 s (by simpa using hm) s (by simp) rfl
    simp only [computeLoop, lehmerSpec, Option.bind_eq_bind]
    rw [fenSum_spec us n t h (s + 2) (s + 1) 0 (by omega) (by omega)]
    have hc : cnt us (s + 1) = cnt us s := by simp [cnt, hsu]
    simp only [Option.bind_some, Nat.zero_add, hc]
    have := cnt_le us s
    rw [if_pos (by omega)]
    obtain ⟨t', h1, h2, h3⟩ := fenAdd_spec n (n + 2) t (s + 1) h.1 (by omega) (by omega) (by omega) hn
    rw [h1, Option.bind_some, ih t' (s :: us) (EncInv_add us n t t' s hsu h h2 h3) (fun u hu => hps u (by simp [hu])) (by simpa using hnd)]
    rfl

theorem computeLehmer_spec (p : List Nat) (hn : p.length + 1 < 2 ^ 31) (hlt : ∀ s ∈ p, s < p.length) (hnd : p.Nodup) :
    computeLehmer p = some (lehmerSpec [] p) := by
  refine computeLoop_spec p.length hn _ [] p ⟨by simp, fun j hj hjn => ?_⟩ hlt (by simpa using hnd)
  rw [List.getElem?_replicate, if_pos (by omega), cnt_nil, cnt_nil]

/-! ### the decoder's tree -/

def DecInv (us : List Nat) (N : Nat) (t : List Nat) : Prop :=
  t.length = N ∧ ∀ j, 1 ≤ j → j ≤ N → t[j - 1]? = some (low j - (cnt us j - cnt us (j - low j)))

theorem search_spec (us : List Nat) (N : Nat) (t : List Nat) (h : DecInv us N t) (R : Nat) (m next rank : Nat)
    (hm : 2 ^ (m + 1) ∣ next) (hR : (next - cnt us next) + rank = R) (hr : 1 ≤ rank) (hN : next + 2 ^ (m + 1) ≤ N)
    (hle : R ≤ next + 2 ^ (m + 1) - cnt us (next + 2 ^ (m + 1))) :
    ∃ r, search t (m + 1) (2 ^ m) next rank = some r ∧ r < N ∧ r - cnt us r < R ∧ R ≤ (r + 1) - cnt us (r + 1) := by
  induction m generalizing next rank with
  | zero =>
    simp only [search, Nat.pow_zero, Nat.zero_add, Nat.pow_one] at *
    rw [if_pos (by omega)]
    rw [h.2 (next + 1) (by omega) (by omega), Option.bind_some]
    have hl : low (next + 1) = 1 := by
      obtain ⟨q, rfl⟩ := hm
      have := low_mul 0 q
      simpa using this
    rw [hl]
    have h1 := cnt_mono us next (next + 1) (by omega)
    have h2 := cnt_le us (next + 1)
    have h3 := cnt_le us next
    have h4 := cnt_mono us (next + 1) (next + 2) (by omega)
    simp only [Nat.add_sub_cancel]
    split
    · refine ⟨next + 1, rfl, by omega, by omega, ?_⟩
      exact hle
    · refine ⟨next, rfl, by omega, by omega, by omega⟩
  | succ m ih =>
    rw [search]
    have p2 := Nat.two_pow_pos (m + 1)
    have e2 : 2 ^ (m + 1 + 1) = 2 * 2 ^ (m + 1) := by rw [Nat.pow_succ 2 (m + 1)]; omega
    rw [if_pos (by omega), h.2 (next + 2 ^ (m + 1)) (by omega) (by omega), Option.bind_some]
    have hl : low (next + 2 ^ (m + 1)) = 2 ^ (m + 1) := by
      obtain ⟨q, rfl⟩ := hm
      have := low_mul (m + 1) q
      rw [Nat.mul_add, Nat.mul_one, ← Nat.mul_assoc, Nat.mul_comm (2 ^ (m + 1)) 2, ← e2] at this
      exact this
    rw [hl, Nat.add_sub_cancel, show 2 ^ (m + 1) / 2 = 2 ^ m by rw [Nat.pow_succ]; omega]
    have hd : 2 ^ (m + 1) ∣ next := Nat.dvd_trans ⟨2, by rw [Nat.mul_comm]; exact e2⟩ hm
    have h1 := cnt_mono us next (next + 2 ^ (m + 1)) (by omega)
    have h2 := cnt_le us (next + 2 ^ (m + 1))
    have h3 := cnt_le us next
    split
    · refine ih (next + 2 ^ (m + 1)) _ ((Nat.dvd_add_iff_right hd).mp (Nat.dvd_refl _)) (by omega) (by omega) (by omega) ?_
      rw [Nat.add_assoc, show 2 ^ (m + 1) + 2 ^ (m + 1) = 2 ^ (m + 1 + 1) by omega]; exact hle
    · exact ih next rank hd hR hr (by omega) (by omega)

theorem markUsed_spec (N fuel : Nat) (t : List Nat) (i : Nat) (hl : t.length = N) (hi : 1 ≤ i) (hf : N + 1 < fuel + i) (hf0 : 1 ≤ fuel)
    (hN : N < 2 ^ 62) (hi2 : i < 2 ^ 63) (hpos : ∀ j, 1 ≤ j → j ≤ N → Covers j i → ∃ v, t[j - 1]? = some v ∧ 1 ≤ v ∧ v < 2 ^ 32) :
    ∃ t', markUsed N fuel t i = some t' ∧ t'.length = N ∧
      ∀ j, 1 ≤ j → j ≤ N → t'[j - 1]? = t[j - 1]?.map (· - if Covers j i then 1 else 0) := by
  induction fuel generalizing t i with
  | zero => omega
  | succ fuel ih =>
    simp only [markUsed]
    by_cases h : i ≤ N
    · obtain ⟨v, hv, hv1, hv2⟩ := hpos i hi h ((covers_step i i hi hi).mpr (Or.inl rfl))
      rw [if_pos h, hv, Option.bind_some, lowest1_low 64 i hi (by omega)]
      have hp := low_pos i hi
      have hle := low_le i
      have ev : (v + 2 ^ 32 - 1) % 2 ^ 32 = v - 1 := by omega
      rw [ev]
      obtain ⟨t', h1, h2, h3⟩ := ih (t.set (i - 1) (v - 1)) (i + low i) (by simpa using hl) (by omega) (by omega) (by omega) (by omega) (by
        intro j hj hjn hc
        have hne : j ≠ i := by rintro rfl; exact covers_excl j hj hc
        rw [List.getElem?_set_ne (by omega)]
        exact hpos j hj hjn ((covers_step j i hi hj).mpr (Or.inr hc)))
      refine ⟨t', h1, h2, fun j hj hjn => ?_⟩
      rw [h3 j hj hjn]
      have hc := covers_step j i hi hj
      by_cases hij : j = i
      · subst hij
        have h4 := covers_excl j hj
        have h5 : Covers j j := hc.mpr (Or.inl rfl)
        rw [List.getElem?_set_self (by omega), if_neg h4, if_pos h5, hv]
        rfl
      · rw [List.getElem?_set_ne (by omega)]
        have : Covers j i ↔ Covers j (i + low i) := by rw [hc]; simp [hij]
        simp only [this]
    · rw [if_neg h]
      refine ⟨t, rfl, hl, fun j hj hjn => ?_⟩
      have : ¬ Covers j i := by unfold Covers; omega
      simp [this]

theorem DecInv_mark (us : List Nat) (N : Nat) (t t' : List Nat) (s : Nat) (hs : s ∉ us) (h : DecInv us N t)
    (hl : t'.length = N) (ht : ∀ j, 1 ≤ j → j ≤ N → t'[j - 1]? = t[j - 1]?.map (· - if Covers j (s + 1) then 1 else 0)) :
    DecInv (s :: us) N t' := by
  refine ⟨hl, fun j hj hjn => ?_⟩
  rw [ht j hj hjn, h.2 j hj hjn, Option.map_some, cnt_cons s us _ hs, cnt_cons s us _ hs]
  have := (cnt_mono us (j - low j) j (Nat.sub_le _ _)).1
  have hcv : Covers j (s + 1) ↔ s < j ∧ ¬ s < j - low j := by unfold Covers; omega
  have hll := low_le j
  have hb := (cnt_mono us (j - low j) j (Nat.sub_le _ _)).2
  congr 1
  by_cases a1 : s < j <;> by_cases a2 : s < j - low j <;> simp only [hcv, a1, a2, not_true_eq_false, not_false_eq_true, and_self, and_false, false_and, if_true, if_false] <;> omega

theorem DecInv_pos (us : List Nat) (N : Nat) (t : List Nat) (s : Nat) (hs : s ∉ us) (h : DecInv us N t) (hN : N < 2 ^ 32)
    (j : Nat) (hj : 1 ≤ j) (hjn : j ≤ N) (hc : Covers j (s + 1)) : ∃ v, t[j - 1]? = some v ∧ 1 ≤ v ∧ v < 2 ^ 32 := by
  refine ⟨_, h.2 j hj hjn, ?_, by have := low_le j; omega⟩
  unfold Covers at hc
  have h1 := cnt_mono us (j - low j) s (by omega)
  have h2 : cnt us (s + 1) = cnt us s := by simp [cnt, hs]
  have h3 := cnt_mono us (s + 1) j (by omega)
  have h4 := low_le j
  omega

/-- The abstract decoder: each code picks the unused value with that many smaller unused values. -/
def Decodes (n : Nat) : List Nat → List Nat → List Nat → Prop
  | _, [], out => out = []
  | us, c :: cs, out => ∃ s rest, out = s :: rest ∧ s ∉ us ∧ s < n ∧ s - cnt us s = c ∧ Decodes n (s :: us) cs rest

theorem decodeLoop_spec (n L : Nat) (hn : n ≤ 2 ^ L) (hL : 2 ^ L ≤ 2 ^ 30) (t us cs : List Nat) (i : Nat)
    (h : DecInv us (2 ^ L) t) (hi : us.length = i) (hlen : i + cs.length = n) (hnd : us.Nodup) (hlt : ∀ u ∈ us, u < n)
    (hcs : ∀ k (hk : k < cs.length), cs[k] + (i + k) < n) :
    ∃ out, decodeLoop n L t i cs = some out ∧ Decodes n us cs out := by
  induction cs generalizing t us i with
  | nil => exact ⟨[], rfl, rfl⟩
  | cons c cs ih =>
    have hc : c + i < n := by have := hcs 0 (by simp); rw [List.getElem_cons_zero] at this; omega
    simp only [decodeLoop, Option.bind_eq_bind]
    rw [if_pos hc]
    have hP : cnt us (2 ^ L) = i := by
      rw [cnt_total us (2 ^ L) hnd (fun u hu => Nat.lt_of_lt_of_le (hlt u hu) hn), hi]
    have hPn : cnt us n = i := by rw [cnt_total us n hnd hlt, hi]
    -- the first candidate is the root, never taken
    have hroot : search t (L + 1) (2 ^ L) 0 (c + 1) = search t L (2 ^ L / 2) 0 (c + 1) := by
      rw [search]
      have p2 := Nat.two_pow_pos L
      rw [if_pos (by omega), Nat.zero_add, h.2 (2 ^ L) (by omega) (by omega), Option.bind_some]
      have hl : low (2 ^ L) = 2 ^ L := by have := low_mul L 0; simpa using this
      rw [hl, Nat.sub_self, cnt, hP, Nat.sub_zero, if_neg (by omega)]
    obtain ⟨s, hs, hsN, hs1, hs2⟩ : ∃ r, search t (L + 1) (2 ^ L) 0 (c + 1) = some r ∧ r < 2 ^ L ∧ r - cnt us r < c + 1 ∧
        c + 1 ≤ (r + 1) - cnt us (r + 1) := by
      rw [hroot]
      rcases L with _ | m
      · refine ⟨0, by simp [search], by simp, by simp [cnt], ?_⟩
        have hn' : n ≤ 1 := by simpa using hn
        have hi0 : i = 0 := by omega
        have e : cnt us (0 + 1) = 0 := by rw [hi0] at hP; simpa using hP
        omega
      · rw [show 2 ^ (m + 1) / 2 = 2 ^ m by rw [Nat.pow_succ]; omega]
        exact search_spec us (2 ^ (m + 1)) t h (c + 1) m 0 (c + 1) ⟨0, by simp⟩ (by simp [cnt]) (by omega) (by simp)
          (by rw [Nat.zero_add, hP]; omega)
    rw [hs, Option.bind_some]
    have hsu : s ∉ us := by
      intro hm
      have h1 : cnt us (s + 1) = cnt us s + 1 := by simp [cnt, hm]
      omega
    have hcs' : cnt us (s + 1) = cnt us s := by simp [cnt, hsu]
    have hcl := cnt_le us s
    have hsc : s - cnt us s = c := by omega
    have hsn : s < n := by
      apply Decidable.byContradiction
      intro hge
      have := cnt_mono us n s (by omega)
      have := cnt_le us n
      omega
    obtain ⟨t', h1, h2, h3⟩ := markUsed_spec (2 ^ L) (2 ^ L + 2) t (s + 1) h.1 (by omega) (by omega) (by omega) (by omega) (by omega)
      (fun j hj hjn hc => DecInv_pos us (2 ^ L) t s hsu h (by omega) j hj hjn hc)
    rw [h1, Option.bind_some]
    obtain ⟨out, h4, h5⟩ := ih t' (s :: us) (i + 1) (DecInv_mark us _ t t' s hsu h h2 h3) (by simp [hi]) (by simp at hlen ⊢; omega)
      (List.nodup_cons.mpr ⟨hsu, hnd⟩) (by
        intro u hu
        rcases List.mem_cons.mp hu with rfl | hu
        · exact hsn
        · exact hlt u hu) (fun k hk => by
        have := hcs (k + 1) (by simpa using hk)
        simp at this ⊢; omega)
    rw [h4]
    exact ⟨s :: out, rfl, s, out, rfl, hsu, hsn, hsc, h5⟩

theorem ceilLog2_spec (n : Nat) (hn : 1 ≤ n) : n ≤ 2 ^ ceilLog2 n ∧ (ceilLog2 n = 0 ∨ 2 ^ ceilLog2 n < 2 * n) := by
  have h1 := Nat.log2_self_le (n := n) (by omega)
  have h2 := Nat.lt_log2_self (n := n)
  unfold ceilLog2
  split
  · rename_i h
    refine ⟨?_, Or.inr (by omega)⟩
    obtain ⟨k, m, e1, e2⟩ := low_rep n hn
    rw [h] at e2
    have hm : m = 0 := by
      rcases Nat.eq_zero_or_pos m with h | h
      · exact h
      · have := Nat.mul_pos (Nat.two_pow_pos k) (show 0 < 2 * m by omega); omega
    subst hm
    simp at e1
    rw [e1, Nat.log2_two_pow]; exact Nat.le_refl _
  · rename_i h
    refine ⟨by omega, Or.inr ?_⟩
    rw [Nat.pow_succ]
    have : 2 ^ n.log2 ≠ n := by
      intro he
      apply h
      have hpos := Nat.two_pow_pos n.log2
      rw [← he]
      rw [Nat.and_two_pow_sub_one_eq_mod, Nat.mod_self]
    omega

theorem perm_range {n : Nat} {p : List Nat} (hnd : p.Nodup) (hlt : ∀ x ∈ p, x < n) (hl : p.length = n) : p.Perm (List.range n) := by
  have hc := cnt_total p n hnd hlt
  have hall : ∀ k, k < n → k ∈ p := by
    intro k hk
    apply Decidable.byContradiction
    intro hkp
    have h1 : cnt p (k + 1) = cnt p k := by simp [cnt, hkp]
    have h2 := cnt_mono p (k + 1) n hk
    have h3 := cnt_le p k
    omega
  rw [List.perm_iff_count]
  intro a
  rw [hnd.count, List.nodup_range.count]
  have : a ∈ p ↔ a ∈ List.range n := ⟨fun h => by simpa using hlt a h, fun h => hall a (by simpa using h)⟩
  simp only [this]

theorem perm_facts {n : Nat} {p : List Nat} (h : p.Perm (List.range n)) : p.Nodup ∧ (∀ x ∈ p, x < n) ∧ p.length = n :=
  ⟨h.nodup_iff.mpr List.nodup_range, fun x hx => by simpa using h.mem_iff.mp hx, by simpa using h.length_eq⟩

theorem Decodes.facts {n : Nat} {us cs out : List Nat} (h : Decodes n us cs out) :
    out.length = cs.length ∧ (∀ x ∈ out, x < n ∧ x ∉ us) ∧ out.Nodup ∧ lehmerSpec us out = cs := by
  induction cs generalizing us out with
  | nil => simp only [Decodes] at h; subst h; simp [lehmerSpec]
  | cons c cs ih =>
    obtain ⟨s, rest, rfl, h1, h2, h3, h4⟩ := h
    obtain ⟨g1, g2, g3, g4⟩ := ih h4
    refine ⟨by simp [g1], ?_, ?_, ?_⟩
    · intro x hx
      rcases List.mem_cons.mp hx with rfl | hx
      · exact ⟨h2, h1⟩
      · exact ⟨(g2 x hx).1, fun hm => (g2 x hx).2 (by simp [hm])⟩
    · exact List.nodup_cons.mpr ⟨fun hm => (g2 s hm).2 (by simp), g3⟩
    · simp only [lehmerSpec, g4, h3]

theorem Decodes.unique {n : Nat} {us out ps : List Nat} (h : Decodes n us (lehmerSpec us ps) out)
    (hps : ∀ x ∈ ps, x ∉ us) (hnd : ps.Nodup) : out = ps := by
  induction ps generalizing us out with
  | nil => simpa [lehmerSpec, Decodes] using h
  | cons p ps ih =>
    obtain ⟨s, rest, rfl, h1, h2, h3, h4⟩ := h
    have e := unused_inj us s p h1 (hps p (by simp)) h3
    subst e
    rw [List.nodup_cons] at hnd
    rw [ih h4 (by
      intro x hx hm
      rcases List.mem_cons.mp hm with rfl | hm
      · exact hnd.1 hx
      · exact hps x (by simp [hx]) hm) hnd.2]

theorem lehmerSpec_length (us ps : List Nat) : (lehmerSpec us ps).length = ps.length := by
  induction ps generalizing us with
  | nil => rfl
  | cons p ps ih => simp [lehmerSpec, ih]

theorem lehmerSpec_bound (n : Nat) (us ps : List Nat) (hps : ∀ x ∈ ps, x < n ∧ x ∉ us) (hnd : ps.Nodup) (hus : us.Nodup)
    (hlt : ∀ u ∈ us, u < n) (k : Nat) (hk : k < (lehmerSpec us ps).length) : (lehmerSpec us ps)[k] + (us.length + k) < n := by
  induction ps generalizing us k with
  | nil => simp [lehmerSpec] at hk
  | cons p ps ih =>
    rw [List.nodup_cons] at hnd
    have hp := hps p (by simp)
    cases k with
    | zero =>
      simp only [lehmerSpec, List.getElem_cons_zero]
      have h1 := cnt_mono us (p + 1) n hp.1
      have h2 : cnt us (p + 1) = cnt us p := by simp [cnt, hp.2]
      have h3 := cnt_le us p
      have h4 := cnt_total us n hus hlt
      omega
    | succ k =>
      simp only [lehmerSpec, List.getElem_cons_succ]
      have := ih (p :: us) (by
        intro x hx
        refine ⟨(hps x (by simp [hx])).1, fun hm => ?_⟩
        rcases List.mem_cons.mp hm with rfl | hm
        · exact hnd.1 hx
        · exact (hps x (by simp [hx])).2 hm) hnd.2 (List.nodup_cons.mpr ⟨hp.2, hus⟩) (by
        intro u hu
        rcases List.mem_cons.mp hu with rfl | hu
        · exact hp.1
        · exact hlt u hu) k (by simpa [lehmerSpec] using hk)
      simp only [List.length_cons] at this
      omega

theorem decodeLehmer_spec (code : List Nat) (h1 : 1 ≤ code.length) (h2 : code.length ≤ 2 ^ 30)
    (hc : ∀ k (hk : k < code.length), code[k] + k < code.length) :
    ∃ out, decodeLehmer code = some out ∧ Decodes code.length [] code out := by
  simp only [decodeLehmer]
  rw [if_pos (by omega)]
  obtain ⟨g1, g2⟩ := ceilLog2_spec code.length h1
  have hL : 2 ^ ceilLog2 code.length ≤ 2 ^ 30 := by
    rcases g2 with g | g
    · rw [g]; decide
    · apply Nat.pow_le_pow_right (by decide)
      have : 2 ^ ceilLog2 code.length < 2 ^ 31 := by omega
      have := (Nat.pow_lt_pow_iff_right (by decide : 1 < 2)).mp this
      omega
  refine decodeLoop_spec code.length _ g1 hL _ [] code 0 ⟨by simp, ?_⟩ rfl (by simp) List.nodup_nil (by simp) (fun k hk => by
    have := hc k hk; omega)
  intro j hj hjn
  rw [List.getElem?_map, List.getElem?_range (by omega), cnt_nil, cnt_nil, Option.map_some, show j - 1 + 1 = j by omega,
    lowest1_low 32 j hj (by omega)]
  rfl

theorem decodeLoop_some {n L : Nat} {t : List Nat} {i : Nat} {cs out : List Nat} (h : decodeLoop n L t i cs = some out)
    (k : Nat) (hk : k < cs.length) : cs[k] + (i + k) < n := by
  induction cs generalizing t i k out with
  | nil => simp at hk
  | cons c cs ih =>
    simp only [decodeLoop, Option.bind_eq_bind] at h
    split at h
    · rename_i hc
      obtain ⟨nx, _, h⟩ := Option.bind_eq_some_iff.mp h
      obtain ⟨t', _, h⟩ := Option.bind_eq_some_iff.mp h
      obtain ⟨rest, h, _⟩ := Option.bind_eq_some_iff.mp h
      cases k with
      | zero => simpa using hc
      | succ k => have := ih h k (by simpa using hk); simp only [List.getElem_cons_succ]; omega
    · cases h

/-- The decoder accepts exactly the codes in range, and then realises the abstract decoder. -/
theorem decodeLehmer_iff (code : List Nat) (h2 : code.length ≤ 2 ^ 30) :
    (∃ out, decodeLehmer code = some out) ↔ (code ≠ [] ∧ ∀ k (hk : k < code.length), code[k] + k < code.length) := by
  constructor
  · rintro ⟨out, h⟩
    simp only [decodeLehmer] at h
    split at h
    · rename_i h0
      exact ⟨fun he => h0 (by simp [he]), fun k hk => by have := decodeLoop_some h k hk; omega⟩
    · cases h
  · rintro ⟨h0, hc⟩
    obtain ⟨out, h, _⟩ := decodeLehmer_spec code (List.length_pos_iff.mpr h0) h2 hc
    exact ⟨out, h⟩

end Jxl.Lehmer

namespace Jxl.Lehmer

theorem trimEnd_spec (lehmer : List Nat) (skip n : Nat) (hs : skip ≤ n) :
    skip ≤ trimEnd lehmer skip n ∧ trimEnd lehmer skip n ≤ n ∧
    ∀ j, trimEnd lehmer skip n ≤ j → j < n → lehmer[j]? = some 0 := by
  induction n with
  | zero => simp [trimEnd]; omega
  | succ n ih =>
    simp only [trimEnd]
    split
    · rename_i h
      obtain ⟨h1, h2, h3⟩ := ih (by omega)
      refine ⟨h1, by omega, fun j hj hjn => ?_⟩
      by_cases hjn' : j = n
      · subst hjn'; exact h.2
      · exact h3 j hj (by omega)
    · exact ⟨hs, Nat.le_refl _, fun j h1 h2 => by omega⟩

theorem cnt_range (a k : Nat) (h : k ≤ a) (us : List Nat) (hu : ∀ x, x < a → x ∈ us) : cnt us k = k := by
  induction k with
  | zero => rfl
  | succ k ih => simp [cnt, ih (by omega), hu k (by omega)]

theorem lehmerSpec_id (us ps : List Nat) (a d : Nat) (hu : ∀ x, x < a → x ∈ us) (hp : ∀ k, k < d → ps[k]? = some (a + k)) (k : Nat) (hk : k < d) :
    (lehmerSpec us ps)[k]? = some 0 := by
  induction ps generalizing us a d k with
  | nil => have := hp k hk; simp at this
  | cons p ps ih =>
    have h0 : p = a := by simpa using hp 0 (by omega)
    subst h0
    cases k with
    | zero => simp [lehmerSpec, cnt_range p p (Nat.le_refl _) us hu]
    | succ k =>
      simp only [lehmerSpec, List.getElem?_cons_succ]
      refine ih (p :: us) (p + 1) (d - 1) ?_ ?_ k (by omega)
      · intro x hx
        by_cases h : x = p
        · simp [h]
        · exact List.mem_cons_of_mem _ (hu x (by omega))
      · intro j hj
        have := hp (j + 1) (by omega)
        rw [List.getElem?_cons_succ] at this
        rw [this]; congr 1; omega

theorem readCodes_spec (size : Nat) (cs rest : List Nat) (i : Nat) (h : ∀ k (hk : k < cs.length), cs[k] + (i + k) < size) :
    readCodes size cs.length i (cs ++ rest) = some (cs, rest) := by
  induction cs generalizing i with
  | nil => simp [readCodes]
  | cons c cs ih =>
    simp only [List.length_cons, List.cons_append, readCodes]
    have h0 := h 0 (by simp)
    rw [List.getElem_cons_zero] at h0
    rw [if_neg (by omega), ih (i + 1) (fun k hk => by
      have := h (k + 1) (by simpa using hk)
      rw [List.getElem_cons_succ] at this; omega)]
    rfl

theorem readCodes_length {size n i : Nat} {ts cs rest : List Nat} (h : readCodes size n i ts = some (cs, rest)) : cs.length = n := by
  induction n generalizing i ts cs rest with
  | zero => simp only [readCodes, Option.some.injEq, Prod.mk.injEq] at h; simp [← h.1]
  | succ n ih =>
    cases ts with
    | nil => simp [readCodes] at h
    | cons c ts =>
      simp only [readCodes] at h
      split at h
      · cases h
      · obtain ⟨⟨cs', r'⟩, h1, h2⟩ := Option.map_eq_some_iff.mp h
        simp only [Prod.mk.injEq] at h2
        rw [← h2.1, List.length_cons, ih h1]

theorem list_zero_ends (l : List Nat) (skip e : Nat) (h1 : skip ≤ e) (h2 : e ≤ l.length)
    (hz : ∀ k, k < skip → l[k]? = some 0) (hz' : ∀ k, e ≤ k → k < l.length → l[k]? = some 0) :
    List.replicate skip 0 ++ (l.take e).drop skip ++ List.replicate (l.length - skip - ((l.take e).drop skip).length) 0 = l := by
  apply List.ext_getElem?
  intro k
  have hlen : ((l.take e).drop skip).length = e - skip := by simp; omega
  by_cases hk1 : k < skip
  · rw [List.append_assoc, List.getElem?_append_left (by simpa using hk1), List.getElem?_replicate, if_pos hk1, hz k hk1]
  · by_cases hk2 : k < e
    · rw [List.getElem?_append_left (by simp; omega), List.getElem?_append_right (by simp; omega), List.getElem?_drop,
        List.getElem?_take, if_pos (by simp; omega)]
      congr 1; simp; omega
    · rw [List.getElem?_append_right (by simp; omega), List.getElem?_replicate]
      by_cases hk3 : k < l.length
      · rw [if_pos (by simp; omega), hz' k (by omega) hk3]
      · rw [if_neg (by simp; omega), List.getElem?_eq_none (by omega)]

end Jxl.Lehmer
