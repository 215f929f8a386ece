import Verif.Lemmas.AcTokensGroup
/-! Layouts make the neighbours known; splitting into passes. -/
namespace Jxl.AcTokens
open CoeffOrder Spec
open AcStrategy.Spec (Varblock Tiling)

theorem before_mem {bs a b : List Varblock} {v u : Varblock} (hs : bs.Pairwise AcStrategy.Spec.Before) (he : bs = a ++ v :: b)
    (hu : u ∈ bs) (h : AcStrategy.Spec.Before u v) : u ∈ a := by
  subst he
  rw [List.pairwise_append, List.pairwise_cons] at hs
  rcases List.mem_append.1 hu with h' | h'
  · exact h'
  · exfalso
    unfold AcStrategy.Spec.Before at h hs
    rcases List.mem_cons.1 h' with rfl | h'
    · omega
    · have := hs.2.1.1 u h'
      omega

theorem has_iff (e : Env) (v : Visit) (c : Nat) :
    e.has v c = true ↔ e.sx v c <<< e.hs c = v.bx ∧ e.sy v c <<< e.vs c = v.by' := by
  unfold Env.has Env.sx Env.sy
  rw [Bool.and_eq_true, beq_iff_eq, beq_iff_eq]

/-- In a layout the neighbours used for prediction come earlier. -/
theorem ready_of_tiling {e : Env} {w h : Nat} {bs : List Varblock} (ht : Tiling ⟨0, 0, w, h⟩ bs) (hs : Sampled e bs)
    {a b : List Visit} {v : Visit} (he : visits bs = a ++ v :: b) {c : Nat} (hh : e.has v c = true) : Ready e a v c := by
  unfold visits at he
  obtain ⟨a', r', hb, ha, hr⟩ := List.map_eq_append_iff.1 he
  obtain ⟨v', b', hv, hv2, hb2⟩ := List.map_eq_cons_iff.1 hr
  subst hv
  have hv' : v' ∈ bs := by rw [hb]; exact List.mem_append_right _ List.mem_cons_self
  obtain ⟨f1, f2, f3, f4, f5, f6, f7⟩ := ht.fits v' hv'
  dsimp only at f2 f3 f4 f5
  have hpos : 0 < v'.cx ∧ 0 < v'.cy := (covTable v'.t f1).2.2.2
  subst hv2
  rw [has_iff] at hh
  dsimp only at hh
  have mk : ∀ x y, x ≤ v'.x → y ≤ v'.y → (x < v'.x ∨ y < v'.y) → ∃ u ∈ a', u.Covers x y := by
    intro x y hx hy hlt
    obtain ⟨u, hu, hc⟩ := ht.covered x y ⟨Nat.zero_le _, by dsimp only; omega, Nat.zero_le _, by dsimp only; omega⟩
    refine ⟨u, ?_, hc⟩
    have hcv : ¬ v'.Covers x y := by unfold Varblock.Covers; omega
    have hne : u ≠ v' := fun h => hcv (h ▸ hc)
    refine before_mem ht.sorted hb hu ?_
    unfold Varblock.Covers at hc
    unfold AcStrategy.Spec.Before
    rcases Nat.lt_or_ge u.y v'.y with hlt' | hge
    · exact Or.inl hlt'
    · right
      refine ⟨by omega, ?_⟩
      rcases Nat.lt_or_ge u.x v'.x with h1 | h1
      · exact h1
      · exfalso
        have : u.x = v'.x ∧ u.y = v'.y := by omega
        omega
  rcases hs with h0 | h1
  · have e1 : ∀ u : Visit, e.sx u c = u.bx ∧ e.sy u c = u.by' := by
      intro u
      unfold Env.sx Env.sy
      rw [(h0 c).1, (h0 c).2]
      exact ⟨rfl, rfl⟩
    have e2 : ∀ u : Visit, e.has u c = true := by
      intro u
      rw [has_iff, (e1 u).1, (e1 u).2, (h0 c).1, (h0 c).2]
      exact ⟨rfl, rfl⟩
    refine ⟨?_, ?_⟩
    · intro hx
      rw [(e1 _).1] at hx
      dsimp only at hx
      obtain ⟨u, hu, hc⟩ := mk (v'.x - 1) v'.y (by omega) (Nat.le_refl _) (Or.inl (by omega))
      refine ⟨⟨u.x, u.y, u.t⟩, ?_, e2 _, ?_⟩
      · rw [← ha]; exact List.mem_map_of_mem hu
      · unfold Env.Covers
        rw [(e1 _).1, (e1 _).2, (e1 _).1, (e1 _).2]
        exact hc
    · intro hy
      rw [(e1 _).2] at hy
      dsimp only at hy
      obtain ⟨u, hu, hc⟩ := mk v'.x (v'.y - 1) (Nat.le_refl _) (by omega) (Or.inr (by omega))
      refine ⟨⟨u.x, u.y, u.t⟩, ?_, e2 _, ?_⟩
      · rw [← ha]; exact List.mem_map_of_mem hu
      · unfold Env.Covers
        rw [(e1 _).1, (e1 _).2, (e1 _).1, (e1 _).2]
        exact hc
  · have one : ∀ u ∈ a', ∀ x y, u.Covers x y → u.x = x ∧ u.y = y := by
      intro u hu x y hc
      have := h1 u (by rw [hb]; exact List.mem_append_left _ hu)
      unfold Varblock.Covers at hc
      omega
    have key : ∀ X Y, X <<< e.hs c ≤ v'.x → Y <<< e.vs c ≤ v'.y → (X <<< e.hs c < v'.x ∨ Y <<< e.vs c < v'.y) →
        ∃ u ∈ a, e.has u c = true ∧ e.Covers u c X Y := by
      intro X Y hX hY hlt
      obtain ⟨u, hu, hc⟩ := mk _ _ hX hY hlt
      obtain ⟨g1, g2⟩ := one u hu _ _ hc
      have hp := (covTable u.t (ht.fits u (by rw [hb]; exact List.mem_append_left _ hu)).1).2.2.2
      have s1 : e.sx ⟨u.x, u.y, u.t⟩ c = X := by
        unfold Env.sx; dsimp only; rw [g1, Nat.shiftLeft_shiftRight]
      have s2 : e.sy ⟨u.x, u.y, u.t⟩ c = Y := by
        unfold Env.sy; dsimp only; rw [g2, Nat.shiftLeft_shiftRight]
      refine ⟨⟨u.x, u.y, u.t⟩, ?_, ?_, ?_⟩
      · rw [← ha]; exact List.mem_map_of_mem hu
      · rw [has_iff, s1, s2]; exact ⟨g1.symm, g2.symm⟩
      · unfold Env.Covers
        rw [s1, s2]
        dsimp only
        omega
    have lt : ∀ n s : Nat, n ≠ 0 → (n - 1) <<< s < n <<< s := by
      intro n s hn
      rw [Nat.shiftLeft_eq, Nat.shiftLeft_eq]
      exact Nat.mul_lt_mul_of_pos_right (by omega) (Nat.two_pow_pos s)
    refine ⟨?_, ?_⟩
    · intro hx
      have := lt _ (e.hs c) hx
      exact key _ _ (by omega) (by omega) (Or.inl (by omega))
    · intro hy
      have := lt _ (e.vs c) hy
      exact key _ _ (by omega) (by omega) (Or.inr (by omega))

/-! ## Splitting -/

theorem sr_nonneg {v : Int} (h : 0 ≤ v) (s : Nat) : shiftRound0 v s = v / 2 ^ s := by
  unfold shiftRound0
  rw [if_neg (by omega), Int.add_zero]

theorem sr_neg {v : Int} (h : 0 < v) (s : Nat) : shiftRound0 (-v) s = -(v / 2 ^ s) := by
  unfold shiftRound0
  rw [if_pos (by omega)]
  have hD : (0 : Int) < 2 ^ s := Int.pow_pos (by omega)
  generalize (2 : Int) ^ s = D at hD
  have h1 := Int.mul_ediv_add_emod v D
  have h2 := Int.emod_nonneg v (by omega : D ≠ 0)
  have h3 := Int.emod_lt_of_pos v hD
  generalize v / D = q at *
  generalize v % D = r at *
  have : -v + (D - 1) = (D - 1 - r) + D * (-q) := by rw [Int.mul_neg]; omega
  rw [this, Int.add_mul_ediv_left _ _ (by omega), Int.ediv_eq_zero_of_lt (by omega) (by omega), Int.zero_add]

theorem sr_zero (v : Int) : shiftRound0 v 0 = v := by
  unfold shiftRound0
  rw [Int.pow_zero, Int.ediv_one]
  split <;> omega

theorem refine_nonneg {v : Int} (h : 0 ≤ v) {s t : Nat} (hst : t < s) :
    shiftRound0 (v - shiftRound0 v s * 2 ^ s) t * 2 ^ t = shiftRound0 v t * 2 ^ t - shiftRound0 v s * 2 ^ s := by
  rw [sr_nonneg h s, sr_nonneg h t]
  have hs : (0 : Int) < 2 ^ s := Int.pow_pos (by omega)
  have hge : 0 ≤ v - v / 2 ^ s * 2 ^ s := by
    have h1 := Int.mul_ediv_add_emod v (2 ^ s)
    have h2 := Int.emod_nonneg v (by omega : (2 : Int) ^ s ≠ 0)
    rw [Int.mul_comm]; omega
  rw [sr_nonneg hge]
  obtain ⟨m, rfl⟩ := Nat.exists_eq_add_of_lt hst
  have e : (2 : Int) ^ (t + m + 1) = 2 ^ t * 2 ^ (m + 1) := by rw [Nat.add_assoc, Int.pow_add]
  have ht : (2 : Int) ^ t ≠ 0 := by have : (0 : Int) < 2 ^ t := Int.pow_pos (by omega); omega
  generalize v / 2 ^ (t + m + 1) = q
  rw [e]
  have : v - q * (2 ^ t * 2 ^ (m + 1)) = v + 2 ^ t * (-(q * 2 ^ (m + 1))) := by
    rw [Int.mul_neg, ← Int.sub_eq_add_neg, Int.mul_left_comm]
  rw [this, Int.add_mul_ediv_left _ _ ht, Int.add_mul, Int.neg_mul, ← Int.sub_eq_add_neg, Int.mul_assoc,
    Int.mul_comm (2 ^ (m + 1)) (2 ^ t)]

theorem sr_neg' (v : Int) (s : Nat) : shiftRound0 (-v) s = -shiftRound0 v s := by
  rcases Int.lt_trichotomy v 0 with h | h | h
  · have := sr_neg (v := -v) (by omega) s
    rw [Int.neg_neg] at this
    rw [this, Int.neg_neg, sr_nonneg (by omega)]
  · subst h
    rw [Int.neg_zero, sr_nonneg (Int.le_refl 0), Int.zero_ediv]; rfl
  · rw [sr_neg h, sr_nonneg (by omega)]

theorem refine_eq (v : Int) {s t : Nat} (hst : t < s) :
    shiftRound0 (v - shiftRound0 v s * 2 ^ s) t * 2 ^ t = shiftRound0 v t * 2 ^ t - shiftRound0 v s * 2 ^ s := by
  rcases Int.le_total 0 v with h | h
  · exact refine_nonneg h hst
  · have := refine_nonneg (v := -v) (by omega) hst
    rw [sr_neg', sr_neg'] at this
    have e : -v - -shiftRound0 v s * 2 ^ s = -(v - shiftRound0 v s * 2 ^ s) := by rw [Int.neg_mul]; omega
    rw [e, sr_neg', Int.neg_mul, Int.neg_mul, Int.neg_mul] at this
    omega

theorem within_mono {cx cy n m x y : Nat} (h : n ≤ m) (hw : Within cx cy n x y) : Within cx cy m x y :=
  ⟨Nat.lt_of_lt_of_le hw.1 (Nat.mul_le_mul_left _ h), Nat.lt_of_lt_of_le hw.2 (Nat.mul_le_mul_left _ h)⟩

/-- What the passes still have to add: nothing inside the finished square, the lost bits inside the previous square, the
whole value outside. -/
theorem splitLoop_sum (cx cy x y : Nat) (v : Int) (h8 : Within cx cy 8 x y) :
    ∀ (ps : List PassDef) (done n s : Nat), Refining n s ps → done ≤ n → (s = 0 → done = n) →
      recombine ps (splitLoop cx cy x y v ps done s) =
        if Within cx cy done x y then 0
        else if s ≠ 0 ∧ Within cx cy n x y then v - shiftRound0 v s * 2 ^ s else v := by
  intro ps
  induction ps with
  | nil =>
    intro done n s hr hd hs
    obtain ⟨rfl, rfl⟩ := hr
    rw [hs rfl, if_pos h8]
    rfl
  | cons p ps ih =>
    intro done n s hr hd hs
    obtain ⟨hc, hr⟩ := hr
    have hn : n ≤ p.ncoeffs := by
      by_cases h0 : s = 0
      · rw [if_pos h0] at hc; omega
      · rw [if_neg h0] at hc; omega
    have hd' : (if p.shift = 0 then p.ncoeffs else done) ≤ p.ncoeffs := by split <;> omega
    unfold splitLoop
    dsimp only
    unfold recombine
    rw [ih _ _ _ hr hd' (fun h => if_pos h)]
    have hW : (x < cx * p.ncoeffs ∧ y < cy * p.ncoeffs) ↔ Within cx cy p.ncoeffs x y := Iff.rfl
    have hWd : (x < cx * done ∧ y < cy * done) ↔ Within cx cy done x y := Iff.rfl
    simp only [hW, hWd]
    by_cases hin : Within cx cy done x y
    · have h1 : Within cx cy p.ncoeffs x y := within_mono (by omega) hin
      have h2 : Within cx cy (if p.shift = 0 then p.ncoeffs else done) x y := by
        split
        · exact h1
        · exact hin
      rw [if_pos h1, if_pos hin, if_pos h2, if_pos hin]
      simp
    · rw [if_neg hin, if_neg hin]
      by_cases h1 : Within cx cy p.ncoeffs x y
      · rw [if_pos h1]
        have hnext : (if Within cx cy (if p.shift = 0 then p.ncoeffs else done) x y then (0 : Int)
            else if p.shift ≠ 0 ∧ Within cx cy p.ncoeffs x y then v - shiftRound0 v p.shift * 2 ^ p.shift else v) =
            v - shiftRound0 v p.shift * 2 ^ p.shift := by
          by_cases h0 : p.shift = 0
          · rw [if_pos h0, if_pos h1, h0, sr_zero]; simp
          · rw [if_neg h0, if_neg hin, if_pos ⟨h0, h1⟩]
        rw [hnext]
        by_cases h0 : s = 0
        · rw [if_neg (fun h => h h0), if_neg (fun h => h.1 h0)]; omega
        · rw [if_neg h0] at hc
          rw [if_pos h0, if_pos ⟨h0, by rw [hc.1]; exact h1⟩, refine_eq v hc.2]; omega
      · rw [if_neg h1, if_neg (fun h => h1 (within_mono hd' h)), if_neg (fun h => h1 h.2),
          if_neg (fun h => h1 (within_mono hn h.2))]
        simp

theorem split_sum (cx cy x y : Nat) (v : Int) (h8 : Within cx cy 8 x y) (ps : List PassDef) (hr : Refining 1 0 ps)
    (hl : ¬ Within cx cy 1 x y) : recombine ps (split cx cy x y v ps) = v := by
  unfold split
  by_cases h1 : ps.length = 1
  · rw [if_pos h1]
    obtain ⟨p, rfl⟩ := List.length_eq_one_iff.1 h1
    have : p.shift = 0 := hr.2.2
    unfold recombine
    rw [this]
    unfold recombine
    simp
  · rw [if_neg h1, splitLoop_sum cx cy x y v h8 ps 1 1 0 hr (Nat.le_refl _) (fun _ => rfl), if_neg hl,
      if_neg (fun h => h.1 rfl)]

theorem splitLoop_length (cx cy x y : Nat) (v : Int) : ∀ (ps : List PassDef) (d s : Nat),
    (splitLoop cx cy x y v ps d s).length = ps.length := by
  intro ps
  induction ps with
  | nil => intros; rfl
  | cons p ps ih => intro d s; unfold splitLoop; dsimp only; rw [List.length_cons, List.length_cons, ih]

theorem split_length (cx cy x y : Nat) (v : Int) (ps : List PassDef) : (split cx cy x y v ps).length = ps.length := by
  unfold split
  split
  · next h => rw [h]; rfl
  · exact splitLoop_length ..

/-- Adding up the passes is the same on both sides. -/
theorem total_recombine : ∀ (qs : List Pass) (ps : List PassDef) (vs : List Int) (i : Nat) (f : Nat → Int),
    qs.map (·.shift) = ps.map (·.shift) → vs.length = ps.length →
    (∀ (j : Nat), j < vs.length → f (i + j) = vs.getD j 0) → total qs i f = recombine ps vs := by
  intro qs
  induction qs with
  | nil =>
    intro ps vs i f h _ _
    have : ps = [] := by simpa using h.symm
    subst this
    rfl
  | cons q qs ih =>
    intro ps vs i f h hl hf
    match ps, vs, hl with
    | p :: ps, v :: vs, hl =>
      rw [List.map_cons, List.map_cons, List.cons.injEq] at h
      rw [List.length_cons, List.length_cons] at hl
      unfold total recombine
      rw [ih ps vs (i + 1) f h.2 (by omega) (fun j hj => by
        have := hf (j + 1) (by rw [List.length_cons]; omega)
        rw [show i + 1 + j = i + (j + 1) by omega, this]; rfl)]
      have := hf 0 (by rw [List.length_cons]; omega)
      rw [Nat.add_zero] at this
      rw [this, h.1]; rfl

theorem wrap_id {n : Nat} {v : Int} (h1 : -(2 ^ n : Int) ≤ 2 * v) (h2 : 2 * v < 2 ^ n) : wrap n v = v := by
  unfold wrap
  apply Int.bmod_eq_of_le_mul_two
  · have : ((2 ^ n : Nat) : Int) = 2 ^ n := by norm_cast
    rw [this]; omega
  · have : ((2 ^ n : Nat) : Int) = 2 ^ n := by norm_cast
    rw [this]; omega

end Jxl.AcTokens
