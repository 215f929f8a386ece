import Verif.Model.JpegCoeff
/-!
# The coefficients of a JPEG file in the codestream: lemmas
-/
namespace Jxl.Jpeg

/-! ## DC coefficients -/

theorem step_upper {a x y : Nat} (h : x * 1024 ≤ y * 1025) (h5 : a < 255 * x * 4194304) : a * 1024 < 255 * (y * 1025) * 4194304 := by
  omega

theorem step_bounds {q f : Nat} (h : DcStepOk q f) :
    255 * f * 4194304 ≤ q * 262144 * 4194305 ∧ q * 262144 * 4194303 * 1024 < 255 * (f * 1025) * 4194304 := by
  obtain ⟨m, k, h1, h2, rfl, h4, h5⟩ := h
  refine ⟨h4, step_upper ?_ h5⟩
  clear h4 h5
  rw [Nat.mul_right_comm, Nat.mul_right_comm m]
  exact Nat.mul_le_mul_right _ (by omega)

/-- An integer whose distance from the exact value is small enough is the right one. -/
theorem coded_near {q f : Nat} {v n : Int} (h : DcCodedOk q f v n) {w : Nat} (hw : w = q * 262144)
    (hn : 1048576 * (2 * (v.natAbs * (w - 255 * (f : Int)).natAbs)) + 2 * (v.natAbs * w) < 1048576 * (255 * f)) : n = v := by
  subst hw
  unfold DcCodedOk at h
  by_cases e : n = v
  · exact e
  · exfalso
    have e1 : n * (255 * f) - v * (q * 262144) = (n - v) * (255 * f) - v * ((q * 262144 : Nat) - 255 * (f : Int)) := by
      rw [Int.sub_mul, Int.mul_sub, Int.natCast_mul]
      generalize n * (255 * (f : Int)) = a
      generalize v * (255 * (f : Int)) = b
      rw [show ((262144 : Nat) : Int) = 262144 from rfl]
      generalize v * ((q : Int) * 262144) = c
      omega
    have e2 : ((n - v) * (255 * (f : Int))).natAbs = (n - v).natAbs * (255 * f) := by
      rw [Int.natAbs_mul]; congr 1
    have e3 : (v * ((q * 262144 : Nat) - 255 * (f : Int))).natAbs = v.natAbs * (((q * 262144 : Nat) : Int) - 255 * (f : Int)).natAbs := Int.natAbs_mul ..
    have e4 : 1 * (255 * f) ≤ (n - v).natAbs * (255 * f) := Nat.mul_le_mul_right _ (by omega)
    rw [e1] at h
    generalize (n - v) * (255 * (f : Int)) = a at *
    generalize v * ((q * 262144 : Nat) - 255 * (f : Int)) = b at *
    generalize v.natAbs * (((q * 262144 : Nat) : Int) - 255 * (f : Int)).natAbs = c at *
    generalize v.natAbs * (q * 262144) = g at *
    omega

theorem small_near {w f v : Nat} (hw : 1 ≤ w) (h1 : 255 * f * 4194304 ≤ w * 4194305) (h2 : w * 4194303 * 1024 < 255 * (f * 1025) * 4194304)
    (hv : v ≤ 511) : 1048576 * (2 * (v * ((w : Int) - 255 * (f : Int)).natAbs)) + 2 * (v * w) < 1048576 * (255 * f) := by
  have a1 : v * w ≤ 511 * w := Nat.mul_le_mul_right _ hv
  have a2 : v * ((w : Int) - 255 * (f : Int)).natAbs ≤ 511 * ((w : Int) - 255 * (f : Int)).natAbs := Nat.mul_le_mul_right _ hv
  generalize v * w = x at *
  generalize v * ((w : Int) - 255 * (f : Int)).natAbs = y at *
  omega

/-- Coefficients of at most 9 bits are coded as they are, whatever the step. -/
theorem coded_small {q f : Nat} (hq : 1 ≤ q) (hs : DcStepOk q f) {v n : Int} (h : DcCodedOk q f v n) (hv : v.natAbs ≤ 511) : n = v := by
  obtain ⟨h1, h2⟩ := step_bounds hs
  exact coded_near (w := q * 262144) h rfl (small_near (by clear h1 h2 hs h; omega) h1 h2 hv)

/-- With the smallest steps all coefficients of 12 bits are. -/
theorem coded_fine {q f : Nat} (hq : 1 ≤ q) (hq4 : q ≤ 4) (hs : DcStepOk q f) {v n : Int} (h : DcCodedOk q f v n) (hv : v.natAbs ≤ 4095) : n = v := by
  have hf : f = 1028 * q := by
    obtain ⟨m, k, h1, h2, rfl, h4, h5⟩ := hs
    have hk : k < 3 := by
      apply Classical.byContradiction
      intro hk
      have : 2 ^ 3 ≤ 2 ^ k := Nat.pow_le_pow_right (by omega) (by omega)
      have : 1024 * 2 ^ 3 ≤ m * 2 ^ k := Nat.mul_le_mul h1 this
      omega
    have hk : k = 0 ∨ k = 1 ∨ k = 2 := by omega
    rcases hk with rfl | rfl | rfl <;> omega
  subst hf
  refine coded_near h rfl ?_
  have a0 : (((q * 262144 : Nat) : Int) - 255 * ((1028 * q : Nat) : Int)).natAbs = 4 * q := by omega
  rw [a0]
  have a1 : v.natAbs * (q * 262144) ≤ 4095 * (q * 262144) := Nat.mul_le_mul_right _ hv
  have a2 : v.natAbs * (4 * q) ≤ 4095 * (4 * q) := Nat.mul_le_mul_right _ hv
  omega

/-- Coefficients in the range of images with 8 bits per sample, and a little more, are coded as they are. -/
theorem coded_genuine {code : Nat → Int → Int} (hc : DcOk code) {q : Nat} (hq : 1 ≤ q) (hq' : q < 2 ^ 16) {v : Int}
    (hv : v.natAbs * q ≤ 1024 + q) (ycc : Bool) : code q (v + dcOffset ycc q) = v + dcOffset ycc q := by
  obtain ⟨f, hs, h⟩ := hc q hq hq'
  have ho : (dcOffset ycc q).natAbs * q ≤ 1024 := by
    unfold dcOffset; split
    · simp
    · rw [Int.natAbs_natCast]; exact Nat.div_mul_le_self _ _
  have ht : (v + dcOffset ycc q).natAbs * q ≤ 2048 + q := by
    have : (v + dcOffset ycc q).natAbs ≤ v.natAbs + (dcOffset ycc q).natAbs := Int.natAbs_add_le ..
    have := Nat.mul_le_mul_right q this
    rw [Nat.add_mul] at this
    omega
  generalize v + dcOffset ycc q = u at *
  by_cases h4 : q ≤ 4
  · refine coded_fine hq h4 hs (h u) ?_
    apply Classical.byContradiction
    intro hu
    have : 4096 * q ≤ u.natAbs * q := Nat.mul_le_mul_right _ (by omega)
    omega
  · refine coded_small hq hs (h u) ?_
    apply Classical.byContradiction
    intro hu
    have : 512 * q ≤ u.natAbs * q := Nat.mul_le_mul_right _ (by omega)
    omega

/-- Coefficients of 10 bits may change. -/
theorem coded_changed {code : Nat → Int → Int} (hc : DcOk code) : code 191 1000 = 1001 := by
  obtain ⟨f, ⟨m, k, h1, h2, rfl, h4, h5⟩, h⟩ := hc 191 (by omega) (by omega)
  have hk : k < 8 := by
    apply Classical.byContradiction
    intro hk
    have : 2 ^ 8 ≤ 2 ^ k := Nat.pow_le_pow_right (by omega) (by omega)
    have : 1024 * 2 ^ 8 ≤ m * 2 ^ k := Nat.mul_le_mul h1 this
    omega
  have hk : k = 7 := by
    have : k = 0 ∨ k = 1 ∨ k = 2 ∨ k = 3 ∨ k = 4 ∨ k = 5 ∨ k = 6 ∨ k = 7 := by omega
    rcases this with rfl | rfl | rfl | rfl | rfl | rfl | rfl | rfl <;> omega
  subst hk
  have hm : m = 1533 := by omega
  subst hm
  have := h 1000
  unfold DcCodedOk at this
  generalize code 191 1000 = n at *
  omega

theorem exact_ok : DcOk exactDc := by
  intro q hq hq'
  have hw : 2 ^ 10 ≤ q * 262144 / 255 := by omega
  have hw0 : q * 262144 / 255 ≠ 0 := by omega
  have hl : 10 ≤ (q * 262144 / 255).log2 := (Nat.le_log2 hw0).mpr hw
  have hlo : 2 ^ (q * 262144 / 255).log2 ≤ q * 262144 / 255 := Nat.log2_self_le hw0
  have hhi : q * 262144 / 255 < 2 ^ ((q * 262144 / 255).log2 + 1) := Nat.lt_log2_self
  refine ⟨exactStep q, ?_, ?_⟩
  · unfold exactStep
    dsimp only
    generalize hk : (q * 262144 / 255).log2 - 10 = k
    have hlk : (q * 262144 / 255).log2 = 10 + k := by omega
    rw [hlk] at hlo hhi
    refine ⟨q * 262144 / 255 / 2 ^ k, k, ?_, ?_, rfl, ?_, ?_⟩
    · rw [Nat.le_div_iff_mul_le (Nat.two_pow_pos k)]
      rw [Nat.pow_add] at hlo; omega
    · rw [Nat.div_lt_iff_lt_mul (Nat.two_pow_pos k)]
      rw [show 10 + k + 1 = 11 + k from by omega, Nat.pow_add] at hhi; omega
    · have := Nat.div_mul_le_self (q * 262144 / 255) (2 ^ k)
      generalize q * 262144 / 255 / 2 ^ k * 2 ^ k = z at *
      omega
    · have : q * 262144 / 255 < (q * 262144 / 255 / 2 ^ k + 1) * 2 ^ k := by
        rw [Nat.add_mul, Nat.one_mul]
        exact Nat.lt_div_mul_add (Nat.two_pow_pos k)
      generalize (q * 262144 / 255 / 2 ^ k + 1) * 2 ^ k = z at *
      omega
  · intro v
    have hpos : 0 < exactStep q := by
      unfold exactStep
      dsimp only
      refine Nat.mul_pos (Nat.div_pos ?_ (Nat.two_pow_pos _)) (Nat.two_pow_pos _)
      exact Nat.le_trans (Nat.pow_le_pow_right (by omega) (by omega)) hlo
    unfold DcCodedOk exactDc
    dsimp only
    generalize exactStep q = f at *
    generalize hx : v.natAbs * (q * 262144) = x
    rw [show 2 * v.natAbs * (q * 262144) = 2 * x from by rw [Nat.mul_assoc, hx]]
    generalize hn : (2 * x + 255 * f) / (2 * (255 * f)) = n
    have d1 : n * (2 * (255 * f)) ≤ 2 * x + 255 * f := by rw [← hn]; exact Nat.div_mul_le_self _ _
    have d2 : 2 * x + 255 * f < n * (2 * (255 * f)) + 2 * (255 * f) := by
      rw [← hn]; exact Nat.lt_div_mul_add (by omega)
    have key : 2 * ((n * (255 * f) : Nat) - (x : Int)).natAbs ≤ 255 * f := by
      rw [show n * (2 * (255 * f)) = 2 * (n * (255 * f)) from by ac_rfl] at d1 d2
      generalize n * (255 * f) = y at *
      omega
    have e : ((if v < 0 then -(n : Int) else n) * (255 * f) - v * (q * 262144)).natAbs = ((n * (255 * f) : Nat) - (x : Int)).natAbs := by
      have hv : (x : Int) = v.natAbs * (q * 262144) := by rw [← hx]; rfl
      split
      · rw [show (v : Int) * (q * 262144) = -(x : Int) from by
          rw [hv, ← Int.neg_mul]; congr 1; omega]
        rw [Int.neg_mul, show ((n * (255 * f) : Nat) : Int) = (n : Int) * (255 * (f : Int)) from rfl]
        omega
      · rw [show (v : Int) * (q * 262144) = (x : Int) from by
          rw [hv]; congr 1; omega]
        rfl
    rw [e]
    omega

/-! ## The other coefficients -/

theorem swap_lt {k : Nat} (h : k < 64) : swapPos k < 64 := by unfold swapPos; omega
theorem swap_pos {k : Nat} (h : 1 ≤ k) (h' : k < 64) : 1 ≤ swapPos k := by unfold swapPos; omega
theorem swap_swap {k : Nat} (h : k < 64) : swapPos (swapPos k) = k := by unfold swapPos; omega

theorem block_range {b : List Int} (h : b.length = 64) : b = (List.range 64).map fun i => b.getD i 0 := by
  apply List.ext_getElem
  · simp [h]
  · intro i h1 h2
    simp [List.getD_eq_getElem?_getD, List.getElem?_eq_getElem h1]

theorem tail_mem {i : Nat} (h : i ∈ (List.range 64).drop 1) : 1 ≤ i ∧ i < 64 := by
  rw [show (List.range 64).drop 1 = List.range' 1 63 from by decide] at h
  simp only [List.mem_range'_1] at h
  omega

theorem encodeAc_len (qt : List Nat) (cfl : Bool) (c : Nat) (cm : Int) (y b : List Int) : (encodeAc qt cfl c cm y b).length = 64 := by
  simp [encodeAc]

theorem decodeAc_len (qt : List Nat) (cfl : Bool) (c : Nat) (cm : Int) (y b : List Int) : (decodeAc qt cfl c cm y b).length = 64 := by
  simp [decodeAc]

theorem encodeAc_get (qt : List Nat) (cfl : Bool) (c : Nat) (cm : Int) (y b : List Int) {i : Nat} (h : 1 ≤ i) (h' : i < 64) :
    (encodeAc qt cfl c cm y b).getD (swapPos i) 0 =
      if cfl then b.getD i 0 - cflFactor (scaledQt qt c i) cm (y.getD i 0) else b.getD i 0 := by
  unfold encodeAc
  rw [List.getD_eq_getElem?_getD, List.getElem?_map, List.getElem?_range (swap_lt h'), Option.map_some, Option.getD_some,
    if_neg (by have := swap_pos h h'; omega)]
  dsimp only
  rw [swap_swap h']

theorem wrap32_id {x : Int} (h : fits32 x = true) : wrap32 x = x := by
  unfold fits32 at h
  rw [Bool.and_eq_true, decide_eq_true_eq, decide_eq_true_eq] at h
  unfold wrap32
  omega

theorem wrap_small {x : Int} (h : x.natAbs ≤ 4095) : wrap32 x = x := by unfold wrap32; omega
theorem sat_small {x : Int} (h : x.natAbs ≤ 4095) : sat16 x = x := by unfold sat16; omega

theorem factor_same {ratio cm y : Int} (h : cflDefined ratio cm y = true) : laneFactor ratio cm y = cflFactor ratio cm y := by
  unfold cflDefined at h
  simp only [Bool.and_eq_true] at h
  obtain ⟨⟨⟨h1, h2⟩, h3⟩, h4⟩ := h
  unfold laneFactor cflFactor
  rw [Int.mul_comm ratio, wrap32_id h1, wrap32_id h2]
  rw [show (ratioJpeg cm * ratio + 1024) / 2048 = coeffScale ratio cm from rfl, wrap32_id h3, wrap32_id h4]

theorem factor_zero (ratio y : Int) : cflFactor ratio 0 y = 0 := by
  have : ratioJpeg 0 = 0 := by decide
  unfold cflFactor coeffScale
  rw [this, Int.zero_mul, show ((0 : Int) + 1024) / 2048 = 0 from by decide, Int.mul_zero]
  decide

/-- What the encoder subtracts the decoder adds. -/
theorem ac_back {qt : List Nat} {cfl : Bool} {c : Nat} {cm : Int} {y b yc : List Int} (hb : b.length = 64)
    (hr : ∀ x ∈ b.drop 1, x.natAbs ≤ 4095) (hd : acDefined qt cfl c cm y = true)
    (hy : cfl = true → ∀ i, 1 ≤ i → i < 64 → yc.getD (swapPos i) 0 = y.getD i 0) :
    (decodeAc qt cfl c cm yc (encodeAc qt cfl c cm y b)).drop 1 = b.drop 1 := by
  have hm : ∀ i, 1 ≤ i → i < 64 → (b.getD i 0).natAbs ≤ 4095 := by
    intro i h1 h2
    refine hr _ (List.mem_of_getElem? (i := i - 1) ?_)
    rw [List.getElem?_drop, show 1 + (i - 1) = i from by omega, List.getD_eq_getElem?_getD, List.getElem?_eq_getElem (by omega)]
    rfl
  conv => rhs; rw [block_range hb]
  unfold decodeAc
  rw [← List.map_drop, ← List.map_drop]
  refine List.map_congr_left fun i hi => ?_
  obtain ⟨h1, h2⟩ := tail_mem hi
  rw [encodeAc_get _ _ _ _ _ _ h1 h2]
  cases cfl with
  | false => simp only [Bool.false_eq_true, if_false]; exact sat_small (hm i h1 h2)
  | true =>
    simp only [if_true]
    rw [hy rfl i h1 h2]
    have hdef : cflDefined (scaledQt qt c i) cm (y.getD i 0) = true := by
      unfold acDefined at hd
      simp only [Bool.not_true, Bool.false_or, List.all_eq_true, List.mem_range] at hd
      exact hd i h2
    rw [factor_same hdef, Int.sub_add_cancel, wrap_small (hm i h1 h2), sat_small (hm i h1 h2)]

theorem encode_zero (qt : List Nat) (cfl : Bool) (c : Nat) (y b : List Int) : encodeAc qt cfl c 0 y b = encodeAc qt false c 0 y b := by
  unfold encodeAc
  refine List.map_congr_left fun k _ => ?_
  simp only [factor_zero, Int.sub_zero, Bool.false_eq_true, if_false, ite_self]

/-- A whole block. -/
theorem coeffs_back {qt : List Nat} {cfl : Bool} {c : Nat} {cm off dc : Int} {y b yc : List Int} (hb : b.length = 64)
    (hr : ∀ x ∈ b.drop 1, x.natAbs ≤ 4095) (h0 : (b.headD 0).natAbs ≤ 2047) (hdc : dc = b.headD 0 + off)
    (hd : acDefined qt cfl c cm y = true)
    (hy : cfl = true → ∀ i, 1 ≤ i → i < 64 → yc.getD (swapPos i) 0 = y.getD i 0) :
    decodeCoeffs qt cfl c cm off dc yc (encodeAc qt cfl c cm y b) = b ∧ coeffsOk b = true := by
  refine ⟨?_, ?_⟩
  · unfold decodeCoeffs decodeDc
    rw [ac_back hb hr hd hy, hdc, Int.add_sub_cancel]
    rw [show max (-2047) (min 2047 (b.headD 0)) = b.headD 0 from by omega]
    cases b with
    | nil => simp at hb
    | cons x l => rfl
  · unfold coeffsOk
    rw [List.all_eq_true]
    intro x hx
    rw [Bool.and_eq_true, decide_eq_true_eq, decide_eq_true_eq]
    cases b with
    | nil => cases hx
    | cons z l =>
      rcases List.mem_cons.mp hx with rfl | hx
      · change x.natAbs ≤ 2047 at h0; omega
      · have := hr x (by simpa using hx); omega

/-! ## No overflow -/

theorem ratio_bound {cm : Int} (h : -128 ≤ cm) (h' : cm ≤ 127) : (ratioJpeg cm).natAbs ≤ 3120 := by
  have : ∀ n : Fin 256, (ratioJpeg ((n.val : Int) - 128)).natAbs ≤ 3120 := by decide +kernel
  have := this ⟨(cm + 128).toNat, by omega⟩
  rw [show (((cm + 128).toNat : Nat) : Int) - 128 = cm from by omega] at this
  exact this

theorem natAbs_le_of {a b : Int} {m n : Nat} (ha : a.natAbs ≤ m) (hb : b.natAbs ≤ n) : (a * b).natAbs ≤ m * n := by
  rw [Int.natAbs_mul]; exact Nat.mul_le_mul ha hb

theorem cfl_defined {ratio : Nat} {cm y : Int} (hr : ratio ≤ 256 * 2048 - 1) (h : -128 ≤ cm) (h' : cm ≤ 127) (hy : y.natAbs ≤ 2047) :
    cflDefined ratio cm y = true := by
  have h1 : (ratioJpeg cm * (ratio : Int)).natAbs ≤ 3120 * 524287 := natAbs_le_of (ratio_bound h h') (by omega)
  have h2 : (coeffScale ratio cm).natAbs ≤ 798720 := by unfold coeffScale; omega
  have h3 : (y * coeffScale ratio cm).natAbs ≤ 2047 * 798720 := natAbs_le_of hy h2
  unfold cflDefined fits32
  simp only [Bool.and_eq_true, decide_eq_true_eq]
  omega

theorem ac_defined {qt : List Nat} {cfl : Bool} {c : Nat} {cm : Int} {y : List Int} (hr : ∀ i < 64, scaledQt qt c i ≤ 256 * 2048 - 1)
    (h : -128 ≤ cm) (h' : cm ≤ 127) (hy : ∀ x ∈ y, x.natAbs ≤ 2047) : acDefined qt cfl c cm y = true := by
  unfold acDefined
  rw [Bool.or_eq_true]
  refine Or.inr (List.all_eq_true.mpr fun i hi => cfl_defined (hr i (List.mem_range.mp hi)) h h' ?_)
  rw [List.getD_eq_getElem?_getD]
  cases e : y[i]? with
  | none => simp
  | some x => exact hy x (List.mem_of_getElem? e)

end Jxl.Jpeg
