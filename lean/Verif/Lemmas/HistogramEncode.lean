import Verif.Lemmas.Histogram
/-! Lemmas for C13: the decoder reads back what the encoder wrote. -/
namespace Jxl.Histo

/-! ## The width code -/

theorem huff_table : ∀ idx < 128, ∀ w < 14, idx % 2 ^ widthLengths.getD w 0 = widthSymbols.getD w 0 →
    huff.getD idx (0, 0) = (widthLengths.getD w 0, w) := by decide +kernel

theorem width_small : ∀ w < 14, widthLengths.getD w 0 ≤ 7 ∧ widthSymbols.getD w 0 < 2 ^ widthLengths.getD w 0 := by decide +kernel

theorem huff_width {w : Nat} (hw : w < 14) (s : List Bool) :
    huff.getD (rd 7 (widthBits w ++ s)).1 (0, 0) = (widthLengths.getD w 0, w) ∧ (widthBits w ++ s).drop (widthLengths.getD w 0) = s := by
  obtain ⟨h1, h2⟩ := width_small w hw
  constructor
  · refine huff_table _ (rd_lt 7 _) w hw ?_
    unfold rd
    dsimp only
    rw [ofBits_take, Nat.mod_mod_of_dvd _ (Nat.pow_dvd_pow 2 h1)]
    unfold widthBits
    rw [ofBits_append, bitsOf_length, ofBits_bitsOf_lt h2, Nat.add_mul_mod_self_left, Nat.mod_eq_of_lt h2]
  · exact List.drop_left' (bitsOf_length _ _)

/-! ## The runs -/

/-- Every stored run is a run of equal counts inside the alphabet, away from the omitted symbol. -/
def RunsOk (h : Hist) (same : List Nat) : Prop :=
  ∀ i, i < h.size → 5 ≤ same.getD i 0 → i + same.getD i 0 ≤ h.size ∧
    (∀ j, i ≤ j → j < i + same.getD i 0 → h.counts.getD j 0 = h.counts.getD i 0) ∧ (h.omitPos < i ∨ i + same.getD i 0 ≤ h.omitPos)

theorem sameLoop_ok (h : Hist) (hs : h.size ≤ 256) (k : Nat) : ∀ (i last : Nat) (same : List Nat), i + k = h.size + 1 → last < i →
    same.length = 256 → RunsOk h same → (∀ j, last ≤ j → j < i → h.counts.getD j 0 = h.counts.getD last 0) →
    (h.omitPos < last ∨ i ≤ h.omitPos ∨ (h.omitPos = last ∧ i = last + 1)) →
    RunsOk h (sameLoop h.counts h.size h.omitPos k i last same) := by
  induction k with
  | zero => intro i last same _ _ _ h3 _ _; exact h3
  | succ k ih =>
    intro i last same hk hl hn hr he ho
    rw [sameLoop]
    by_cases hc : i = h.size ∨ i = h.omitPos ∨ i = h.omitPos + 1 ∨ h.counts.getD i 0 ≠ h.counts.getD last 0
    · rw [if_pos hc]
      refine ih (i + 1) i _ (by omega) (by omega) (by simpa using hn) ?_ ?_ (by omega)
      · intro a ha h5
        rw [getD_set_eq (by omega)] at h5 ⊢
        by_cases hla : last = a
        · rw [if_pos hla] at h5 ⊢
          have e : (i - last) % 256 = i - last := by omega
          rw [e] at h5 ⊢
          subst hla
          refine ⟨by omega, fun j h1 h2 => he j h1 (by omega), by omega⟩
        · rw [if_neg hla] at h5 ⊢
          exact hr a ha h5
      · intro j h1 h2; rw [show j = i by omega]
    · rw [if_neg hc]
      have hceq : h.counts.getD i 0 = h.counts.getD last 0 := Decidable.byContradiction fun hne => hc (.inr (.inr (.inr hne)))
      refine ih (i + 1) last same (by omega) (by omega) hn hr ?_ (by omega)
      intro j h1 h2
      by_cases hji : j = i
      · rw [hji, hceq]
      · exact he j h1 (by omega)

theorem sameOf_ok (h : Hist) (hs : h.size ≤ 256) : RunsOk h (sameOf h) := by
  refine sameLoop_ok h hs h.size 1 0 _ (by omega) (by omega) List.length_replicate ?_ ?_ (by omega)
  · intro i _ h5; rw [getD_replicate_zero] at h5; omega
  · intro j h1 h2; rw [show j = 0 by omega]

/-! ## The operations the encoder writes -/

def encOps (h : Hist) (same : List Nat) : Nat → Nat → List Op
  | 0, _ => []
  | k + 1, i =>
    if i < h.size then
      if same.getD i 0 ≥ 5 then .lit (widthAt h i) :: .run (same.getD i 0) :: encOps h same k (i + same.getD i 0)
      else .lit (widthAt h i) :: encOps h same k (i + 1)
    else []

theorem parse_enc (h : Hist) (same : List Nat) (hr : RunsOk h same) (hs : h.size ≤ 256) (hw : ∀ i, i < h.size → widthAt h i ≤ 12) (rest : List Bool) (ke : Nat) :
    ∀ (i kp : Nat), h.size ≤ i + ke → h.size ≤ i + kp →
      parseOps h.size kp i (writeWidths h same ke i ++ rest) = (encOps h same ke i, rest) := by
  induction ke with
  | zero =>
    intro i kp h1 h2
    cases kp with
    | zero => rfl
    | succ kp => rw [parseOps, if_neg (by omega)]; rfl
  | succ ke ih =>
    intro i kp h1 h2
    rw [writeWidths, encOps]
    by_cases hi : i < h.size
    · rw [if_pos hi, if_pos hi]
      obtain ⟨kp, rfl⟩ : ∃ k', kp = k' + 1 := ⟨kp - 1, by omega⟩
      have hwi := hw i hi
      by_cases h5 : same.getD i 0 ≥ 5
      · rw [if_pos h5, if_pos h5]
        obtain ⟨r1, _, r3⟩ := hr i hi h5
        obtain ⟨kp, rfl⟩ : ∃ k', kp = k' + 1 := ⟨kp - 1, by omega⟩
        rw [parseOps, if_pos hi, List.append_assoc, (huff_width (by omega) _).1]
        dsimp only
        rw [if_neg (by omega), (huff_width (by omega) _).2]
        have e : parseOps h.size (kp + 1) (i + 1) (widthBits 13 ++ (storeVarLen8 (same.getD i 0 - 5) ++ writeWidths h same ke (i + same.getD i 0)) ++ rest) =
            (.run (same.getD i 0) :: encOps h same ke (i + same.getD i 0), rest) := by
          rw [parseOps, if_pos (by omega), List.append_assoc, (huff_width (by omega) _).1]
          dsimp only
          rw [if_pos rfl, (huff_width (by omega) _).2, List.append_assoc, readVarLen8_store (by omega)]
          dsimp only
          rw [show i + 1 + (same.getD i 0 - 5) + 4 = i + same.getD i 0 by omega, ih _ _ (by omega) (by omega),
            show same.getD i 0 - 5 + 5 = same.getD i 0 by omega]
        rw [e]
      · rw [if_neg h5, if_neg h5]
        rw [parseOps, if_pos hi, List.append_assoc, (huff_width (by omega) _).1]
        dsimp only
        rw [if_neg (by omega), (huff_width (by omega) _).2, ih _ _ (by omega) (by omega)]
    · rw [if_neg hi, if_neg hi]
      cases kp with
      | zero => rfl
      | succ kp => rw [parseOps, if_neg hi]; rfl

/-! ## The omitted position -/

theorem foldl_max_ge {l : List Nat} (f : Nat → Nat → Nat) (hf : ∀ w i, w ≤ f w i) : ∀ w, w ≤ l.foldl f w := by
  induction l with
  | nil => intro w; exact Nat.le_refl _
  | cons x l ih => intro w; exact Nat.le_trans (hf w x) (ih _)

theorem foldl_max_mem {l : List Nat} (f : Nat → Nat → Nat) (g : Nat → Nat) (hf : ∀ w i, w ≤ f w i) {i : Nat} (hg : ∀ w, g i ≤ f w i) (hi : i ∈ l) :
    ∀ w, g i ≤ l.foldl f w := by
  induction l with
  | nil => simp at hi
  | cons x l ih =>
    intro w
    simp only [List.foldl_cons]
    rcases List.mem_cons.1 hi with rfl | hi
    · exact Nat.le_trans (hg w) (foldl_max_ge f hf _)
    · exact ih hi _

theorem foldl_max_le {l : List Nat} (f : Nat → Nat → Nat) (b : Nat) (hf : ∀ w i, i ∈ l → w ≤ b → f w i ≤ b) : ∀ w, w ≤ b → l.foldl f w ≤ b := by
  induction l with
  | nil => intro w h; exact h
  | cons x l ih =>
    intro w h
    simp only [List.foldl_cons]
    exact ih (fun w i hi => hf w i (List.mem_cons_of_mem _ hi)) _ (hf w x (by simp) h)

theorem omitWidth_ge (h : Hist) {i : Nat} (hi : i < h.size) (ho : i ≠ h.omitPos) :
    bitWidth (h.counts.getD i 0) + (if i < h.omitPos then 1 else 0) ≤ omitWidth h := by
  unfold omitWidth
  by_cases hc : h.counts.getD i 0 > 0
  · refine foldl_max_mem _ (fun i => bitWidth (h.counts.getD i 0) + (if i < h.omitPos then 1 else 0)) ?_ ?_ (List.mem_range.2 hi) 10
    · intro w j; split <;> omega
    · intro w; rw [if_pos (c := _ ∧ _) ⟨ho, hc⟩]; exact Nat.le_max_right _ _
  · have : 10 ≤ (List.range h.size).foldl (fun w i =>
        if i ≠ h.omitPos ∧ h.counts.getD i 0 > 0 then max w (bitWidth (h.counts.getD i 0) + if i < h.omitPos then 1 else 0) else w) 10 := by
      refine foldl_max_ge _ ?_ 10
      intro w j; split <;> omega
    have e : bitWidth (h.counts.getD i 0) = 0 := by unfold bitWidth; rw [if_neg hc]
    rw [e]
    split <;> omega

theorem bitWidth_le {c k : Nat} (h : c < 2 ^ k) : bitWidth c ≤ k := by
  unfold bitWidth
  split
  · have := (Nat.log2_lt (k := k) (by omega)).2 h; omega
  · omega

theorem omitWidth_le (h : Hist) (h1 : ∀ i, i < h.omitPos → h.counts.getD i 0 < 2048) (h2 : ∀ i, i ≠ h.omitPos → h.counts.getD i 0 < 4096) : omitWidth h ≤ 12 := by
  unfold omitWidth
  refine foldl_max_le _ 12 ?_ 10 (by omega)
  intro w i _ hw
  split
  · rename_i hc
    by_cases hi : i < h.omitPos
    · have := bitWidth_le (k := 11) (h1 i hi); rw [if_pos hi]; omega
    · have := bitWidth_le (k := 12) (h2 i hc.1); rw [if_neg hi]; omega
  · exact hw

theorem omit_enc (h : Hist) (same : List Nat) (hr : RunsOk h same) (hom : h.omitPos < h.size) (ke : Nat) : ∀ (i : Nat) (m : Nat × Option Nat),
    h.size ≤ i + ke →
    (h.omitPos < i → m = (omitWidth h, some h.omitPos)) → (i ≤ h.omitPos → m.1 < omitWidth h) →
    omitOf (encOps h same ke i) i m = (omitWidth h, some h.omitPos) := by
  induction ke with
  | zero => intro i m h1 h2 h3; exact h2 (by omega)
  | succ ke ih =>
    intro i m h1 h2 h3
    rw [encOps]
    by_cases hi : i < h.size
    · rw [if_pos hi]
      have step : ∀ m', m' = (if widthAt h i > m.1 then (widthAt h i, some i) else m) →
          (h.omitPos < i + 1 → m' = (omitWidth h, some h.omitPos)) ∧ (i + 1 ≤ h.omitPos → m'.1 < omitWidth h) := by
        rintro m' rfl
        by_cases hio : i = h.omitPos
        · have e : widthAt h i = omitWidth h := by unfold widthAt; rw [if_pos hio]
          rw [e, if_pos (h3 (by omega)), hio]
          exact ⟨fun _ => rfl, fun hh => by omega⟩
        · have e : widthAt h i = bitWidth (h.counts.getD i 0) := by unfold widthAt; rw [if_neg hio]
          have hge := omitWidth_ge h hi hio
          rw [e]
          constructor
          · intro ho
            have hm := h2 (by omega)
            rw [if_neg (by omega)] at hge
            rw [hm, if_neg (by dsimp only; omega)]
          · intro ho
            have := h3 (by omega)
            rw [if_pos (by omega)] at hge
            split
            · dsimp only; omega
            · exact this
      obtain ⟨s1, s2⟩ := step _ rfl
      by_cases h5 : same.getD i 0 ≥ 5
      · rw [if_pos h5, omitOf, omitOf]
        obtain ⟨_, _, r3⟩ := hr i hi h5
        rw [show i + 1 + same.getD i 0 - 1 = i + same.getD i 0 by omega]
        exact ih _ _ (by omega) (fun ho => s1 (by omega)) (fun ho => s2 (by omega))
      · rw [if_neg h5, omitOf]
        exact ih _ _ (by omega) s1 s2
    · rw [if_neg hi]; exact h2 (by omega)

/-- The position after the omitted one holds a width. -/
theorem after_omit {L : Logs} (h : Hist) (same : List Nat) (hr : RunsOk h same) (ke : Nat) : ∀ (i : Nat), h.size ≤ i + ke →
    Desc L h.size i (encOps h same ke i) → i ≤ h.omitPos + 1 → h.omitPos + 1 < h.size → L.logs.getD (h.omitPos + 1) 0 = widthAt h (h.omitPos + 1) := by
  induction ke with
  | zero => intro i h1 _ _ _; omega
  | succ ke ih =>
    intro i h1 hd h2 h3
    rw [encOps, if_pos (by omega)] at hd
    by_cases h5 : same.getD i 0 ≥ 5
    · rw [if_pos h5] at hd
      obtain ⟨r1, _, r3⟩ := hr i (by omega) h5
      cases hd with
      | lit _ _ hl hd =>
        by_cases he : i = h.omitPos + 1
        · rw [← he]; exact hl
        · cases hd with
          | run _ _ _ _ hd =>
            rw [show i + 1 + same.getD i 0 - 1 = i + same.getD i 0 by omega] at hd
            exact ih _ (by omega) hd (by omega) h3
    · rw [if_neg h5] at hd
      cases hd with
      | lit _ _ hl hd =>
        by_cases he : i = h.omitPos + 1
        · rw [← he]; exact hl
        · exact ih _ (by omega) hd (by omega) h3

/-! ## The counts -/

/-- Every stored count is representable at the precision of the shift. -/
def PrecOk (h : Hist) (shift : Nat) : Prop :=
  ∀ i, i < h.size → i ≠ h.omitPos → 0 < h.counts.getD i 0 →
    2 ^ ((h.counts.getD i 0).log2 - precision (h.counts.getD i 0).log2 shift) ∣ h.counts.getD i 0

theorem precision_le (l s : Nat) : precision l s ≤ l := by unfold precision; omega

theorem precision_zero {l : Nat} : precision l 0 = 0 := by unfold precision; omega

theorem prec_arith {c b : Nat} (hc : 0 < c) (hb : b ≤ c.log2) (hd : 2 ^ (c.log2 - b) ∣ c) :
    c / 2 ^ (c.log2 - b) - 2 ^ b < 2 ^ b ∧ 2 ^ c.log2 + (c / 2 ^ (c.log2 - b) - 2 ^ b) * 2 ^ (c.log2 - b) = c := by
  obtain ⟨q, hq⟩ := hd
  have h1 := Nat.log2_self_le (n := c) (by omega)
  have h2 := Nat.lt_log2_self (n := c)
  have hp : 2 ^ c.log2 = 2 ^ (c.log2 - b) * 2 ^ b := by rw [← Nat.pow_add]; congr 1; omega
  have hpos : 0 < 2 ^ (c.log2 - b) := Nat.pow_pos (by omega)
  have hdiv : c / 2 ^ (c.log2 - b) = q := by
    conv => lhs; lhs; rw [hq]
    exact Nat.mul_div_cancel_left _ hpos
  rw [hdiv]
  rw [Nat.pow_succ, hp] at h2
  rw [hp] at h1 ⊢
  generalize 2 ^ (c.log2 - b) = P at *
  generalize 2 ^ b = Q at *
  rw [hq] at h1 h2
  have g1 : Q ≤ q := Nat.le_of_mul_le_mul_left h1 hpos
  have g2 : q < Q * 2 := Nat.lt_of_mul_lt_mul_left (a := P) (by rw [← Nat.mul_assoc]; exact h2)
  refine ⟨by omega, ?_⟩
  rw [Nat.mul_comm (q - Q) P, Nat.mul_sub, ← hq]
  rw [← hq] at h1; omega

/-- The extra bits of one position, when there are any. -/
def extraOf (h : Hist) (shift i : Nat) : List Bool := if shift ≠ 0 then extraBits h shift i else []

theorem litStep_enc (h : Hist) (shift : Nat) (hp : PrecOk h shift) {i : Nat} (hi : i < h.size) {a : List Nat × Nat} (hl : i < a.1.length)
    (hz : a.1.getD i 0 = 0) (s : List Bool) :
    (litStep shift h.omitPos i (widthAt h i) a (extraOf h shift i ++ s)).2 = s ∧
    (litStep shift h.omitPos i (widthAt h i) a (extraOf h shift i ++ s)).1.1.getD i 0 = if i = h.omitPos then 0 else h.counts.getD i 0 := by
  unfold litStep extraOf extraBits
  by_cases ho : i = h.omitPos
  · rw [if_pos (.inl ho), if_pos ho, if_neg (c := _ ∧ _) (by intro hh; exact hh.2 ho)]
    refine ⟨?_, hz⟩
    split <;> rfl
  · have e : widthAt h i = bitWidth (h.counts.getD i 0) := by unfold widthAt; rw [if_neg ho]
    rw [e, if_neg ho]
    by_cases hc : h.counts.getD i 0 > 0
    · have e2 : bitWidth (h.counts.getD i 0) = (h.counts.getD i 0).log2 + 1 := by unfold bitWidth; rw [if_pos hc]
      rw [e2, if_neg (by omega)]
      have hd := hp i hi ho hc
      generalize h.counts.getD i 0 = c at *
      rw [Nat.add_sub_cancel]
      have hpl := precision_le c.log2 shift
      obtain ⟨p1, p2⟩ := prec_arith hc hpl hd
      by_cases hs : shift = 0
      · rw [if_pos (.inl hs), if_neg (by omega)]
        refine ⟨rfl, ?_⟩
        rw [getD_set_self hl]
        rw [hs, precision_zero] at p1 p2
        simp only [Nat.sub_zero, Nat.pow_zero] at p1 p2
        rw [show c / 2 ^ c.log2 - 1 = 0 by omega] at p2
        omega
      · by_cases hz1 : c.log2 = 0
        · rw [if_pos (.inr (by omega)), if_pos hs, if_neg (by omega)]
          refine ⟨rfl, ?_⟩
          rw [getD_set_self hl]
          rw [hz1] at p1 p2 ⊢
          have : precision 0 shift = 0 := by unfold precision; omega
          rw [this] at p1 p2
          simp only [Nat.sub_zero, Nat.pow_zero, Nat.mul_one] at p1 p2 ⊢
          omega
        · rw [if_neg (by omega), if_pos hs, if_pos ⟨by omega, ho⟩, rd_append p1]
          dsimp only
          refine ⟨rfl, ?_⟩
          rw [getD_set_self hl]; exact p2
    · have e2 : bitWidth (h.counts.getD i 0) = 0 := by unfold bitWidth; rw [if_neg hc]
      rw [e2, if_pos (.inr rfl), if_neg (c := _ ∧ _) (by omega)]
      refine ⟨by split <;> rfl, ?_⟩
      rw [hz]; omega

theorem writeExtra_extraOf (h : Hist) (shift : Nat) (same : List Nat) (k i : Nat) (hi : i < h.size) :
    (if shift ≠ 0 then writeExtra h shift same (k + 1) i else []) = extraOf h shift i ++
      (if shift ≠ 0 then (if same.getD i 0 ≥ 5 then writeExtra h shift same k (i + same.getD i 0) else writeExtra h shift same k (i + 1)) else []) := by
  unfold extraOf
  by_cases hs : shift ≠ 0
  · rw [if_pos hs, if_pos hs, if_pos hs, writeExtra, if_pos hi]
  · rw [if_neg hs, if_neg hs, if_neg hs]; rfl

theorem fill_enc (h : Hist) (shift : Nat) (same : List Nat) (hr : RunsOk h same) (hp : PrecOk h shift) (rest : List Bool) (ke : Nat) :
    ∀ (i : Nat) (a : List Nat × Nat), h.size ≤ i + ke → i ≤ h.size → a.1.length = h.size → a.2 = a.1.sum →
      (∀ j, a.1.getD j 0 = if j < i ∧ j ≠ h.omitPos then h.counts.getD j 0 else 0) →
      ∃ c, fillOps shift h.omitPos h.size (encOps h same ke i) i a ((if shift ≠ 0 then writeExtra h shift same ke i else []) ++ rest) = ((c, c.sum), rest) ∧
        c.length = h.size ∧ ∀ j, c.getD j 0 = if j < h.size ∧ j ≠ h.omitPos then h.counts.getD j 0 else 0 := by
  induction ke with
  | zero =>
    intro i a h1 h2 h3 h4 h5
    have : i = h.size := by omega
    subst this
    refine ⟨a.1, ?_, h3, h5⟩
    rw [encOps, fillOps, ← h4]
    simp [writeExtra]
  | succ ke ih =>
    intro i a h1 h2 h3 h4 h5
    by_cases hi : i < h.size
    · rw [writeExtra_extraOf h shift same ke i hi, encOps, if_pos hi]
      have hzi : a.1.getD i 0 = 0 := by rw [h5, if_neg (by omega)]
      have hz : ∀ j, i ≤ j → a.1.getD j 0 = 0 := by intro j hj; rw [h5, if_neg (by omega)]
      obtain ⟨q1, q2, q3, _⟩ := litStep_spec (shift := shift) (om := h.omitPos) (v := widthAt h i)
        (s := extraOf h shift i ++ ((if shift ≠ 0 then (if same.getD i 0 ≥ 5 then writeExtra h shift same ke (i + same.getD i 0) else writeExtra h shift same ke (i + 1)) else []) ++ rest))
        (by omega) hz h4
      obtain ⟨q4, q5⟩ := litStep_enc h shift hp hi (a := a) (by omega) hzi
        ((if shift ≠ 0 then (if same.getD i 0 ≥ 5 then writeExtra h shift same ke (i + same.getD i 0) else writeExtra h shift same ke (i + 1)) else []) ++ rest)
      rw [List.append_assoc]
      generalize hls : litStep shift h.omitPos i (widthAt h i) a (extraOf h shift i ++
        ((if shift ≠ 0 then (if same.getD i 0 ≥ 5 then writeExtra h shift same ke (i + same.getD i 0) else writeExtra h shift same ke (i + 1)) else []) ++ rest)) = ls at q1 q2 q3 q4 q5
      obtain ⟨b, s1⟩ := ls
      dsimp only at q1 q2 q3 q4 q5
      have hb : ∀ j, b.1.getD j 0 = if j < i + 1 ∧ j ≠ h.omitPos then h.counts.getD j 0 else 0 := by
        intro j
        by_cases hj : j = i
        · subst hj
          rw [q5]
          by_cases ho : j = h.omitPos
          · rw [if_pos ho, if_neg (by omega)]
          · rw [if_neg ho, if_pos (by omega)]
        · rw [q3 j hj, h5]
          by_cases hc : j < i ∧ j ≠ h.omitPos
          · rw [if_pos hc, if_pos (by omega)]
          · rw [if_neg hc, if_neg (by omega)]
      by_cases hs5 : same.getD i 0 ≥ 5
      · rw [if_pos hs5] at q4 hls ⊢
        rw [if_pos hs5, fillOps, hls, fillOps]
        dsimp only
        obtain ⟨r1, r2, r3⟩ := hr i hi hs5
        rw [if_pos (by omega), Nat.add_sub_cancel, show min (same.getD i 0 - 1) (h.size - (i + 1)) = same.getD i 0 - 1 by omega, q4,
          show i + 1 + same.getD i 0 - 1 = i + same.getD i 0 by omega]
        have hbi : b.1.getD i 0 = h.counts.getD i 0 := by rw [hb, if_pos (by omega)]
        rw [hbi]
        obtain ⟨p1, p2, p3⟩ := runPut_spec (same.getD i 0 - 1) (i + 1) (h.counts.getD i 0) b (by omega)
          (by intro j hj; rw [hb, if_neg (by omega)]) q1
        refine ih (i + same.getD i 0) _ (by omega) (by omega) (by omega) p1 ?_
        intro j
        rw [p3 j]
        by_cases hj : i + 1 ≤ j ∧ j < i + 1 + (same.getD i 0 - 1)
        · rw [if_pos hj, if_pos (by omega), r2 j (by omega) (by omega)]
        · rw [if_neg hj, hb]
          by_cases hc : j < i + 1 ∧ j ≠ h.omitPos
          · rw [if_pos hc, if_pos (by omega)]
          · rw [if_neg hc, if_neg (by omega)]
      · rw [if_neg hs5] at q4 hls ⊢
        rw [if_neg hs5, fillOps, hls]
        dsimp only
        rw [q4]
        exact ih (i + 1) b (by omega) (by omega) (by omega) q1 hb
    · have : i = h.size := by omega
      subst this
      refine ⟨a.1, ?_, h3, h5⟩
      rw [encOps, if_neg hi, fillOps, ← h4]
      by_cases hs : shift ≠ 0
      · rw [if_pos hs, writeExtra, if_neg hi]; rfl
      · rw [if_neg hs]; rfl

/-! ## The general histogram -/

theorem sum_congr_getD : ∀ (a b : List Nat), (∀ j, a.getD j 0 = b.getD j 0) → a.sum = b.sum := by
  intro a
  induction a with
  | nil =>
    intro b
    induction b with
    | nil => intro _; rfl
    | cons y b ih =>
      intro h
      have h0 := h 0
      have := ih (fun j => by have := h (j + 1); simpa using this)
      simp at h0 this ⊢
      omega
  | cons x a ih =>
    intro b h
    cases b with
    | nil =>
      have h0 := h 0
      have := ih [] (fun j => by have := h (j + 1); simpa using this)
      simp at h0 this ⊢
      omega
    | cons y b =>
      have h0 := h 0
      have := ih b (fun j => by have := h (j + 1); simpa using this)
      simp at h0 ⊢
      omega

theorem readShift_write {m : Nat} (h1 : 1 ≤ m) (h2 : m ≤ 12) (s : List Bool) : readShift (writeMethod m ++ s) = some (m - 1, s) := by
  have : m = 1 ∨ m = 2 ∨ m = 3 ∨ m = 4 ∨ m = 5 ∨ m = 6 ∨ m = 7 ∨ m = 8 ∨ m = 9 ∨ m = 10 ∨ m = 11 ∨ m = 12 := by omega
  rcases this with h | h | h | h | h | h | h | h | h | h | h | h <;> subst h
  · rw [show writeMethod 1 = [false] by decide +kernel]; simp [readShift, readLog, rd, ofBits]
  · rw [show writeMethod 2 = [true, false, false] by decide +kernel]; simp [readShift, readLog, rd, ofBits]
  · rw [show writeMethod 3 = [true, false, true] by decide +kernel]; simp [readShift, readLog, rd, ofBits]
  · rw [show writeMethod 4 = [true, true, false, false, false] by decide +kernel]; simp [readShift, readLog, rd, ofBits]
  · rw [show writeMethod 5 = [true, true, false, true, false] by decide +kernel]; simp [readShift, readLog, rd, ofBits]
  · rw [show writeMethod 6 = [true, true, false, false, true] by decide +kernel]; simp [readShift, readLog, rd, ofBits]
  · rw [show writeMethod 7 = [true, true, false, true, true] by decide +kernel]; simp [readShift, readLog, rd, ofBits]
  · rw [show writeMethod 8 = [true, true, true, false, false, false] by decide +kernel]; simp [readShift, readLog, rd, ofBits]
  · rw [show writeMethod 9 = [true, true, true, true, false, false] by decide +kernel]; simp [readShift, readLog, rd, ofBits]
  · rw [show writeMethod 10 = [true, true, true, false, true, false] by decide +kernel]; simp [readShift, readLog, rd, ofBits]
  · rw [show writeMethod 11 = [true, true, true, true, true, false] by decide +kernel]; simp [readShift, readLog, rd, ofBits]
  · rw [show writeMethod 12 = [true, true, true, false, false, true] by decide +kernel]; simp [readShift, readLog, rd, ofBits]

theorem readGeneral_enc (h : Hist) (shift : Nat) (hs3 : 3 ≤ h.size) (hs : h.size ≤ 256) (ho : h.omitPos < h.size)
    (hsum : h.counts.sum = 4096) (hpos : 0 < h.counts.getD h.omitPos 0) (hbef : ∀ i, i < h.omitPos → h.counts.getD i 0 < 2048)
    (hlt : ∀ i, i ≠ h.omitPos → h.counts.getD i 0 < 4096) (hbey : ∀ i, h.size ≤ i → h.counts.getD i 0 = 0) (hp : PrecOk h shift) (rest : List Bool) :
    ∃ c, readGeneral shift (storeVarLen8 (h.size - 3) ++ (writeWidths h (sameOf h) h.size 0 ++
        ((if shift ≠ 0 then writeExtra h shift (sameOf h) h.size 0 else []) ++ rest))) = some (c, rest) ∧
      (∀ j, c.getD j 0 = h.counts.getD j 0) ∧ c.length = h.size := by
  have hr := sameOf_ok h hs
  have hw : ∀ i, i < h.size → widthAt h i ≤ 12 := by
    intro i hi
    unfold widthAt
    split
    · exact omitWidth_le h hbef hlt
    · rename_i hne; exact bitWidth_le (k := 12) (hlt i hne)
  have how : 0 < omitWidth h := by
    have : 10 ≤ omitWidth h := by
      unfold omitWidth
      refine foldl_max_ge _ ?_ 10
      intro w j; split <;> omega
    omega
  unfold readGeneral
  rw [readVarLen8_store (by omega)]
  dsimp only
  rw [show h.size - 3 + 3 = h.size by omega]
  obtain ⟨L, h1, h2, _, h4⟩ := readLogs_parse h.size h.size 0 (logs0 h.size) (writeWidths h (sameOf h) h.size 0 ++
        ((if shift ≠ 0 then writeExtra h shift (sameOf h) h.size 0 else []) ++ rest)) (by omega) (by simp [logs0]) (by simp [logs0])
    (fun j _ => getD_replicate_zero _ j)
  rw [parse_enc h (sameOf h) hr hs hw _ h.size 0 h.size (by omega) (by omega)] at h1 h2 h4
  dsimp only at h1 h2 h4
  rw [omit_enc h (sameOf h) hr ho h.size 0 _ (by omega) (by omega) (by intro _; exact how)] at h4
  have h6 := congrArg Prod.snd h4
  dsimp only at h6
  rw [show (⟨List.replicate h.size 1, List.replicate h.size 0, 0, none⟩ : Logs) = logs0 h.size from rfl, h1]
  dsimp only
  rw [h6]
  dsimp only
  rw [if_neg (by
    rintro ⟨g1, g2⟩
    rw [after_omit h (sameOf h) hr h.size 0 (by omega) h2 (by omega) g1] at g2
    have := hw (h.omitPos + 1) g1
    omega)]
  obtain ⟨c, f1, f2, f3⟩ := fill_enc h shift (sameOf h) hr hp rest h.size 0 (List.replicate h.size 0, 0) (by omega) (by omega) (by simp) (by simp)
    (by intro j; rw [if_neg (by omega)]; exact getD_replicate_zero _ j)
  obtain ⟨a, h7, h8⟩ := fill_desc L shift h.omitPos h.size h2 ⟨List.replicate h.size 0, 0, 0, 0⟩
    ((if shift ≠ 0 then writeExtra h shift (sameOf h) h.size 0 else []) ++ rest) rfl
  dsimp only at h7 h8
  rw [f1] at h7 h8
  rw [Nat.sub_zero] at h7
  rw [h7]
  dsimp only at h8 ⊢
  injection h8 with e1 e2
  rw [e1, e2]
  have hget : ∀ j, (c.set h.omitPos (h.counts.getD h.omitPos 0)).getD j 0 = h.counts.getD j 0 := by
    intro j
    rw [getD_set_eq (by omega)]
    by_cases hj : h.omitPos = j
    · rw [if_pos hj, hj]
    · rw [if_neg hj, f3]
      by_cases hjs : j < h.size
      · rw [if_pos ⟨hjs, by omega⟩]
      · rw [if_neg (by omega), hbey j (by omega)]
  have hsum2 := sum_congr_getD _ _ hget
  have hss := sum_set (l := c) (i := h.omitPos) (c := h.counts.getD h.omitPos 0) (by omega)
  rw [f3 h.omitPos, if_neg (by omega)] at hss
  rw [if_neg (by omega)]
  refine ⟨_, rfl, ?_, by rw [List.length_set]; exact f2⟩
  rw [show 4096 - c.sum = h.counts.getD h.omitPos 0 by omega]
  exact hget

end Jxl.Histo
