import Verif.Spec.FrameParams
import Verif.Props.F16
import Verif.Props.Headers
/-!
# Reading back the parameters of a frame
-/
namespace Jxl.FrameParams
open F16.Spec (mag32 finite16)

/-! ### Integers -/

theorem u32_trip {e : U32.Enc} {v : Nat} (hv : v < 2 ^ 32) (h : ∃ t < 4, U32.Represents (e.get t) v) :
    ∃ b, U32.write e v = some b ∧ (∀ rest, U32.read e (b ++ rest) = some (v, rest)) ∧
      ∀ t < 4, U32.Represents (e.get t) v → b.length ≤ 2 + U32.payload (e.get t) := by
  obtain ⟨b, h1, _, _, h3, _⟩ := (Props.C03_u32 e v hv []).1 h
  refine ⟨b, h1, fun rest => ?_, h3⟩
  obtain ⟨b', h1', _, h2, _⟩ := (Props.C03_u32 e v hv rest).1 h
  rw [h1] at h1'
  injection h1' with h1'
  subst h1'
  exact h2

theorem u32_read {e : U32.Enc} (he : ∀ t < 4, U32.isDirect (e.get t) = true ∨ U32.offset (e.get t) + 2 ^ U32.extraBits (e.get t) ≤ 2 ^ 32)
    {s rest : List Bool} {v : Nat} (h : U32.read e s = some (v, rest)) : ∃ t < 4, U32.Represents (e.get t) v := by
  unfold U32.read at h
  simp only [Option.bind_eq_bind, Option.bind_eq_some_iff] at h
  obtain ⟨⟨sel, s1⟩, hsel, h⟩ := h
  have h4 := rdBits_lt hsel
  refine ⟨sel, by omega, ?_⟩
  unfold U32.Represents
  dsimp only at h
  by_cases hd : U32.isDirect (e.get sel) = true
  · rw [if_pos hd] at h ⊢
    cases h
    rfl
  · rw [if_neg hd] at h ⊢
    obtain ⟨⟨x, s2⟩, hx, h⟩ := Option.bind_eq_some_iff.mp h
    have hx := rdBits_lt hx
    cases h
    have := (he sel (by omega)).resolve_left hd
    rw [Nat.mod_eq_of_lt (by omega)]
    omega

theorem represents_bits {d v o n : Nat} (hd : U32.isDirect d = false) (ho : U32.offset d = o) (hn : 2 ^ U32.extraBits d = n) :
    U32.Represents d v ↔ o ≤ v ∧ v < o + n := by
  unfold U32.Represents
  rw [hd, ho, hn]
  exact Iff.rfl

theorem scale_iff {v : Nat} : (∃ t < 4, U32.Represents (scaleEnc.get t) v) ↔ 1 ≤ v ∧ v ≤ 73728 := by
  have r0 := represents_bits (d := scaleEnc.get 0) (v := v) (o := 1) (n := 2048) (by decide) (by decide) (by decide)
  have r1 := represents_bits (d := scaleEnc.get 1) (v := v) (o := 2049) (n := 2048) (by decide) (by decide) (by decide)
  have r2 := represents_bits (d := scaleEnc.get 2) (v := v) (o := 4097) (n := 4096) (by decide) (by decide) (by decide)
  have r3 := represents_bits (d := scaleEnc.get 3) (v := v) (o := 8193) (n := 65536) (by decide) (by decide) (by decide)
  constructor
  · rintro ⟨t, ht, h⟩
    have : t = 0 ∨ t = 1 ∨ t = 2 ∨ t = 3 := by omega
    rcases this with rfl | rfl | rfl | rfl
    · have := r0.mp h; omega
    · have := r1.mp h; omega
    · have := r2.mp h; omega
    · have := r3.mp h; omega
  · intro h
    by_cases h0 : v < 2049
    · exact ⟨0, by omega, r0.mpr (by omega)⟩
    · by_cases h1 : v < 4097
      · exact ⟨1, by omega, r1.mpr (by omega)⟩
      · by_cases h2 : v < 8193
        · exact ⟨2, by omega, r2.mpr (by omega)⟩
        · exact ⟨3, by omega, r3.mpr (by omega)⟩

theorem direct_of {d v k : Nat} (hd : U32.isDirect d = true) (hk : U32.direct d = k) : U32.Represents d v ↔ v = k := by
  unfold U32.Represents
  rw [hd, hk]
  exact Iff.rfl

theorem dc_iff {v : Nat} : (∃ t < 4, U32.Represents (dcEnc.get t) v) ↔ 1 ≤ v ∧ v ≤ 65536 := by
  have r0 := direct_of (d := dcEnc.get 0) (v := v) (k := 16) (by decide) (by decide)
  have r1 := represents_bits (d := dcEnc.get 1) (v := v) (o := 1) (n := 32) (by decide) (by decide) (by decide)
  have r2 := represents_bits (d := dcEnc.get 2) (v := v) (o := 1) (n := 256) (by decide) (by decide) (by decide)
  have r3 := represents_bits (d := dcEnc.get 3) (v := v) (o := 1) (n := 65536) (by decide) (by decide) (by decide)
  constructor
  · rintro ⟨t, ht, h⟩
    have : t = 0 ∨ t = 1 ∨ t = 2 ∨ t = 3 := by omega
    rcases this with rfl | rfl | rfl | rfl
    · have := r0.mp h; omega
    · have := r1.mp h; omega
    · have := r2.mp h; omega
    · have := r3.mp h; omega
  · intro h
    exact ⟨3, by omega, r3.mpr (by omega)⟩

theorem factor_small {v : Nat} : U32.Represents (factorEnc.get 2) v ↔ 2 ≤ v ∧ v < 258 :=
  represents_bits (d := factorEnc.get 2) (o := 2) (n := 256) (by decide) (by decide) (by decide)

theorem factor_large {v : Nat} : U32.Represents (factorEnc.get 3) v ↔ 258 ≤ v ∧ v < 65794 :=
  represents_bits (d := factorEnc.get 3) (o := 258) (n := 65536) (by decide) (by decide) (by decide)

theorem factor_iff {v : Nat} : (∃ t < 4, U32.Represents (factorEnc.get t) v) ↔ 2 ≤ v ∧ v ≤ 65793 := by
  have r0 := direct_of (d := factorEnc.get 0) (v := v) (k := 84) (by decide) (by decide)
  have r1 := direct_of (d := factorEnc.get 1) (v := v) (k := 256) (by decide) (by decide)
  have r2 := factor_small (v := v)
  have r3 := factor_large (v := v)
  constructor
  · rintro ⟨t, ht, h⟩
    have : t = 0 ∨ t = 1 ∨ t = 2 ∨ t = 3 := by omega
    rcases this with rfl | rfl | rfl | rfl
    · have := r0.mp h; omega
    · have := r1.mp h; omega
    · have := r2.mp h; omega
    · have := r3.mp h; omega
  · intro h
    by_cases h0 : v < 258
    · exact ⟨2, by omega, r2.mpr (by omega)⟩
    · exact ⟨3, by omega, r3.mpr (by omega)⟩

/-! ### Base correlations -/

theorem four_iff (v : Nat) : mag32 v ≤ 4 * 2 ^ 149 ↔ v % 2 ^ 31 ≤ 0x40800000 := by
  have e : (4 * 2 ^ 149 : Nat) = 2 ^ 23 * 2 ^ 128 := by decide
  have he : v % 2 ^ 31 = v / 2 ^ 23 % 256 * 2 ^ 23 + v % 2 ^ 23 := by omega
  rw [e, he]
  unfold mag32
  dsimp only
  have hm : v % 2 ^ 23 < 2 ^ 23 := Nat.mod_lt _ (by decide)
  generalize v / 2 ^ 23 % 256 = k
  generalize v % 2 ^ 23 = m at hm
  by_cases h0 : k = 0
  · subst h0
    rw [if_pos rfl]
    have : (2 ^ 23 : Nat) ≤ 2 ^ 23 * 2 ^ 128 := Nat.le_mul_of_pos_right _ (Nat.two_pow_pos _)
    constructor <;> intro _ <;> omega
  · rw [if_neg h0]
    by_cases h1 : k ≤ 128
    · refine ⟨fun _ => by omega, fun _ => ?_⟩
      calc (2 ^ 23 + m) * 2 ^ (k - 1) ≤ 2 ^ 24 * 2 ^ 127 := Nat.mul_le_mul (by omega) (Nat.pow_le_pow_right (by decide) (by omega))
        _ = 2 ^ 23 * 2 ^ 128 := by decide
    · by_cases h2 : k = 129
      · subst h2
        rw [show 129 - 1 = 128 by rfl]
        constructor
        · intro h
          have h' : 2 ^ 23 + m ≤ 2 ^ 23 := Nat.le_of_mul_le_mul_right h (Nat.two_pow_pos 128)
          clear h e he
          omega
        · intro h
          exact Nat.mul_le_mul_right _ (by omega)
      · refine ⟨fun h => ?_, fun h => by omega⟩
        have h3 : 2 ^ 23 * 2 ^ 129 ≤ (2 ^ 23 + m) * 2 ^ (k - 1) := Nat.mul_le_mul (by omega) (Nat.pow_le_pow_right (by decide) (by omega))
        have h4 : (2 ^ 23 * 2 ^ 128 : Nat) < 2 ^ 23 * 2 ^ 129 := by decide
        exact absurd (Nat.le_trans h3 h) (Nat.not_le.mpr h4)

theorem base_back {v : Nat} (h : Half v) (hl : mag32 v ≤ 4 * 2 ^ 149) :
    ∃ w, F16.write v = some w ∧ w.length = 16 ∧ ∀ rest, readBase (w ++ rest) = some (v, rest) := by
  obtain ⟨k, hk, hf, hz, hd⟩ := h
  obtain ⟨b, w, h1, _, h2, h3, _, rfl⟩ := Props.C04_round_trip k hk hf hz []
  have hb : ∀ rest, F16.read (bitsOf 16 k ++ rest) = some (v, rest) := fun rest => by
    simp only [F16.read, rdBits_append hk, Option.bind_eq_bind, Option.bind_some, hd]
  rw [hb []] at h1
  injection h1 with h1
  injection h1 with h1
  subst h1
  refine ⟨_, h2, h3, fun rest => ?_⟩
  unfold readBase
  rw [hb]
  have := (four_iff v).mp hl
  simp only [Option.bind_eq_bind, Option.bind_some]
  rw [if_neg (by omega)]

theorem base_range {s : List Bool} {v : Nat} {rest : List Bool} (h : readBase s = some (v, rest)) : mag32 v ≤ 4 * 2 ^ 149 := by
  unfold readBase at h
  obtain ⟨⟨a, s1⟩, _, h⟩ := Option.bind_eq_some_iff.mp h
  dsimp only at h
  by_cases hc : a % 2 ^ 31 > 0x40800000
  · rw [if_pos hc] at h; cases h
  · rw [if_neg hc] at h
    cases h
    exact (four_iff _).mpr (by omega)

theorem byte_back {v : Int} (h : -128 ≤ v ∧ v ≤ 127) :
    ∃ b, writeByte v = some b ∧ b.length = 8 ∧ ∀ rest, ∃ x, rdBits 8 (b ++ rest) = some (x, rest) ∧ (x : Int) + -128 = v := by
  refine ⟨bitsOf 8 (v - -128).toNat, ?_, by simp, fun rest => ⟨_, rdBits_append (n := 8) (by omega) rest, by omega⟩⟩
  unfold writeByte writeBitsField
  rw [if_neg (by omega), if_neg (by omega)]

/-! ### Colour correlation -/

theorem half_zero {v : Nat} (h : Half v) (hz : v % 2 ^ 31 = 0) : v = 0 := by
  obtain ⟨k, hk, hf, h8, hd⟩ := h
  obtain ⟨b, w, h1, h2, h3, h4, h5, rfl⟩ := Props.C04_round_trip k hk hf h8 []
  have hb : F16.read (bitsOf 16 k ++ []) = some (v, []) := by
    simp only [F16.read, rdBits_append hk, Option.bind_eq_bind, Option.bind_some, hd]
  rw [hb] at h1
  injection h1 with h1
  injection h1 with h1
  subst h1
  -- a zero is written as the pattern zero, which is read as positive zero
  have he : F16.encode v = some 0 := by
    unfold F16.encode
    have e1 : (v >>> 23) &&& 0xFF = 0 := by
      rw [show (0xFF : Nat) = 2 ^ 8 - 1 by decide, Nat.and_two_pow_sub_one_eq_mod, Nat.shiftRight_eq_div_pow]
      omega
    rw [e1]
    rfl
  rw [F16.write, he] at h3
  have h3 : bitsOf 16 0 = bitsOf 16 k := by injection h3
  have e2 := rdBits_append (n := 16) (v := k) hk []
  rw [← h3, rdBits_append (n := 16) (by decide)] at e2
  have hk0 : k = 0 := by
    injection e2 with e2
    injection e2 with e2
    exact e2.symm
  subst hk0
  have : F16.decode 0 = some 0 := by decide
  rw [this] at hd
  injection hd with hd
  exact hd.symm

theorem initial_eq {c : Cfl} (hc : c.Ok) (h : c.isInitial = true) : c = .initial := by
  unfold Cfl.isInitial at h
  simp only [Bool.and_eq_true, beq_iff_eq] at h
  obtain ⟨⟨⟨⟨h1, h2⟩, h3⟩, h4⟩, h5⟩ := h
  have := half_zero hc.halfX h4
  cases c
  dsimp only at *
  subst h1 h2 h3 h5 this
  rfl

theorem cfl_back {c : Cfl} (hc : c.Ok) : ∃ b, writeCfl c = some b ∧ (∀ rest, readCfl (b ++ rest) = some (c, rest)) ∧ b.length ≤ 67 ∧
    (c.factor < 258 → b.length ≤ 59) := by
  by_cases hi : c.isInitial = true
  · have e := initial_eq hc hi
    refine ⟨bitsOf 1 1, by rw [writeCfl, if_pos hi], fun rest => ?_, by simp, by simp⟩
    rw [e, readCfl, rdBits_append (n := 1) (by decide)]
    rfl
  · obtain ⟨f, f1, f2, f3⟩ := u32_trip (e := factorEnc) (v := c.factor) (by have := hc.limits.factor; omega) (factor_iff.mpr hc.limits.factor)
    obtain ⟨bx, x1, x2, x3⟩ := base_back hc.halfX hc.limits.baseX
    obtain ⟨bb, b1, b2, b3⟩ := base_back hc.halfB hc.limits.baseB
    obtain ⟨x, y1, y2, y3⟩ := byte_back hc.limits.x
    obtain ⟨b, z1, z2, z3⟩ := byte_back hc.limits.b
    have hlen : (bitsOf 1 0 ++ (f ++ (bx ++ (bb ++ (x ++ b))))).length = 49 + f.length := by
      simp [x2, b2, y2, z2]; omega
    have p2 : U32.payload (factorEnc.get 2) = 8 := by decide
    have p3 : U32.payload (factorEnc.get 3) = 16 := by decide
    have hr := hc.limits.factor
    refine ⟨bitsOf 1 0 ++ (f ++ (bx ++ (bb ++ (x ++ b)))), ?_, fun rest => ?_, ?_, fun hs => ?_⟩
    · rw [writeCfl, if_neg hi, f1, x1, b1, y1, z1]
      rfl
    · obtain ⟨u, u1, u2⟩ := y3 (b ++ rest)
      obtain ⟨w, w1, w2⟩ := z3 rest
      simp only [List.append_assoc]
      rw [readCfl, rdBits_append (n := 1) (by decide)]
      simp only [Option.bind_eq_bind, Option.bind_some]
      rw [if_neg (by decide)]
      simp only [f2, x3, b3, u1, w1, Option.bind_some, u2, w2]
    · by_cases hs : c.factor < 258
      · have := f3 2 (by omega) (factor_small.mpr (by omega)); omega
      · have := f3 3 (by omega) (factor_large.mpr (by omega)); omega
    · have := f3 2 (by omega) (factor_small.mpr (by omega)); omega

theorem cfl_range {s rest : List Bool} {c : Cfl} (h : readCfl s = some (c, rest)) : c.Limits := by
  unfold readCfl at h
  obtain ⟨⟨d, s0⟩, _, h⟩ := Option.bind_eq_some_iff.mp h
  dsimp only at h
  by_cases hd : d = 1
  · rw [if_pos hd] at h
    cases h
    refine ⟨by decide, ?_, ?_, by decide, by decide⟩
    · exact (four_iff _).mpr (by decide)
    · exact (four_iff _).mpr (by decide)
  · rw [if_neg hd] at h
    simp only [Option.bind_eq_bind, Option.bind_eq_some_iff] at h
    obtain ⟨⟨f, s1⟩, hf, ⟨bx, s2⟩, hx, ⟨bb, s3⟩, hb, ⟨x, s4⟩, h4, ⟨b, s5⟩, h5, h⟩ := h
    cases h
    have h4 := rdBits_lt h4
    have h5 := rdBits_lt h5
    exact ⟨factor_iff.mp (u32_read (by decide) hf), base_range hx, base_range hb, by dsimp only; omega, by dsimp only; omega⟩

/-! ### Noise -/

theorem level_back {v : Nat} (h : quantise v < 1024) : writeLevel v = some (bitsOf 10 (quantise v)) ∧
    ∀ rest, rdBits 10 (bitsOf 10 (quantise v) ++ rest) = some (quantise v, rest) := by
  refine ⟨if_pos h, fun rest => rdBits_append (n := 10) h rest⟩

theorem levels_back : ∀ (l : List Nat), (∀ v ∈ l, quantise v < 1024) →
    ∃ bs, l.mapM writeLevel = some bs ∧ bs.flatten.length = 10 * l.length ∧
      ∀ rest, readLevels l.length (bs.flatten ++ rest) = some (l.map fun v => quantise v * (one / 1024), rest)
  | [], _ => ⟨[], rfl, rfl, fun _ => rfl⟩
  | v :: l, h => by
    obtain ⟨bs, h1, h2, h3⟩ := levels_back l fun v hv => h v (.tail _ hv)
    obtain ⟨b1, b2⟩ := level_back (h v (.head _))
    refine ⟨bitsOf 10 (quantise v) :: bs, by rw [List.mapM_cons, b1, h1]; rfl, by simp [h2]; omega, fun rest => ?_⟩
    rw [List.length_cons, readLevels, List.flatten_cons, List.append_assoc, b2]
    simp only [Option.bind_eq_bind, Option.bind_some, h3]
    rfl

theorem one_eq : one = 2048 * halfStep := by decide

theorem halfStep_pos : 0 < halfStep := by decide

/-- Rounding moves a value by at most half a step. -/
theorem near (v : Nat) : Near v (quantise v * (one / 1024)) := by
  unfold Near quantise
  rw [one_eq]
  have hp := halfStep_pos
  generalize halfStep = u at hp
  rw [show 2048 * u / 2 = 1024 * u by omega, show 2048 * u / 1024 = 2 * u by omega]
  have h1 := Nat.div_add_mod (v * 1024 + 1024 * u) (2048 * u)
  have h2 := Nat.mod_lt (v * 1024 + 1024 * u) (show 0 < 2048 * u by omega)
  generalize (v * 1024 + 1024 * u) / (2048 * u) = q at h1
  generalize (v * 1024 + 1024 * u) % (2048 * u) = r at h1 h2
  have e1 : 2048 * u * q = 2048 * (q * u) := by rw [Nat.mul_assoc, Nat.mul_comm u]
  have e2 : q * (2 * u) = 2 * (q * u) := by rw [Nat.mul_left_comm]
  rw [e1] at h1
  rw [e2]
  generalize q * u = w at *
  omega

theorem quantise_lt (v : Nat) : quantise v < 1024 ↔ v < 2047 * halfStep := by
  unfold quantise
  rw [one_eq]
  have hp := halfStep_pos
  generalize halfStep = u at hp
  rw [show 2048 * u / 2 = 1024 * u by omega, Nat.div_lt_iff_lt_mul (by omega)]
  omega

theorem quantise_step (k : Nat) : quantise (k * (2 * halfStep)) = k := by
  unfold quantise
  rw [one_eq]
  have hp := halfStep_pos
  generalize halfStep = u at hp
  rw [show 2048 * u / 2 = 1024 * u by omega, show k * (2 * u) * 1024 + 1024 * u = 1024 * u + 2048 * u * k by
    rw [show k * (2 * u) = 2 * (u * k) by rw [Nat.mul_left_comm, Nat.mul_comm k], Nat.mul_assoc 2048]
    generalize u * k = w
    omega]
  rw [Nat.add_mul_div_left _ _ (by omega), Nat.div_eq_of_lt (by omega), Nat.zero_add]

theorem hasAny_iff (lut : List Nat) : hasAny lut = true ↔ ∃ v ∈ lut, 8589935 * 2 ^ 116 < v := by
  unfold hasAny
  simp only [List.any_eq_true, decide_eq_true_eq]

theorem write_large {v : Nat} (h : ¬ v < 2047 * halfStep) : writeLevel v = none :=
  if_neg fun hq => h ((quantise_lt v).mp hq)

theorem mapM_none {α β : Type} {f : α → Option β} : ∀ {l : List α}, (∃ v ∈ l, f v = none) → l.mapM f = none
  | v :: l, ⟨w, hw, hn⟩ => by
    rw [List.mapM_cons]
    rcases List.mem_cons.mp hw with rfl | hm
    · rw [hn]; rfl
    · rw [mapM_none ⟨w, hm, hn⟩]
      cases f v <;> rfl

end Jxl.FrameParams
