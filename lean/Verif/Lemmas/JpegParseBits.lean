import Verif.Lemmas.JpegEmit
import Verif.Spec.JpegParse
/-!
# What the scan parser consumes, as symbols and bits
-/
namespace Jxl.Jpeg

theorem andThen_some {α β : Type} {x : Option (Option α)} {f : α → Option (Option β)} {b : β}
    (h : andThen x f = some (some b)) : ∃ a, x = some (some a) ∧ f a = some (some b) := by
  unfold andThen at h
  rw [Option.bind_eq_some_iff] at h
  obtain ⟨y, e1, e2⟩ := h
  cases y with
  | none => cases e2
  | some a => exact ⟨a, e1, e2⟩

theorem always_some {α : Type} {x : Option α} {a : α} (h : always x = some (some a)) : x = some a := by
  unfold always at h
  rw [Option.bind_eq_some_iff] at h
  obtain ⟨y, e1, e2⟩ := h
  injection e2 with e2
  injection e2 with e2
  rw [e1, e2]

/-- Reading with an empty slot gives an invalid symbol. -/
theorem fresh_symbol {d : List Nat} {r r' : Reader} {v : Nat}
    (e : readSymbol d (List.replicate 1024 LutEntry.fresh) r = some (v, r')) : v = 65535 := by
  unfold readSymbol at e
  simp only [Option.bind_eq_some_iff] at e
  obtain ⟨r1, _, t, ht, e⟩ := e
  have := List.eq_of_mem_replicate (List.mem_of_getElem? ht)
  subst this
  rw [if_neg (by decide)] at e
  injection e with e; injection e with e _
  exact e.symm

section
variable {d pre S : List Nat} (hp : Placed d pre S)
include hp

theorem bits_at {C r n v r'} (h : At d pre S C r) (hn : n ≤ 16) (e : readBits d r n = some (v, r')) :
    v < 2 ^ n ∧ At d pre S (C ++ msb n v) r' := by
  obtain ⟨v1, r1, e1, h1, h2⟩ := at_bits hp h n hn
  rw [e] at e1
  injection e1 with e1
  injection e1 with e1 e2
  subst e1; subst e2
  exact ⟨h1, h2⟩

theorem symbol_at {C r v r'} {x : Table} (hx : InSlot x) (h : At d pre S C r) (e : readSymbol d x.2 r = some (v, r'))
    (hv : v < 256) : Coded (codeTable x.1) v ∧ At d pre S (C ++ symBits (codeTable x.1) v) r' := by
  rcases hx with hx | hx
  case inr => rw [hx] at e; exact absurd (fresh_symbol e) (by omega)
  obtain ⟨v1, r1, e1, h1⟩ := at_symbol hp h hx
  rw [e] at e1
  injection e1 with e1
  injection e1 with e1 e2
  subst e1; subst e2
  exact ⟨coded_of hx (h1 hv).1, (h1 hv).2⟩

end

/-! ## Values -/

theorem huffExtend_spec {x s : Nat} (hs : 1 ≤ s) (hx : x < 2 ^ s) :
    huffExtend x s ≠ 0 ∧ magBits (huffExtend x s).natAbs = s ∧ valBits (huffExtend x s) = msb s x := by
  have hp2 : (2 : Nat) ^ s = 2 * 2 ^ (s - 1) := by
    have : s = s - 1 + 1 := by omega
    conv => lhs; rw [this, Nat.pow_succ]
    omega
  have hpos := Nat.two_pow_pos (s - 1)
  have hmag : ∀ a : Nat, 2 ^ (s - 1) ≤ a → a < 2 ^ s → magBits a = s := by
    intro a h1 h2
    unfold magBits
    rw [if_neg (by omega), (Nat.log2_eq_iff (by omega)).mpr ⟨h1, by
      have : s - 1 + 1 = s := by omega
      rw [this]; exact h2⟩]
    omega
  unfold huffExtend
  by_cases h : x ≥ 2 ^ (s - 1)
  · rw [if_pos h]
    have hm : magBits ((x : Int)).natAbs = s := by rw [Int.natAbs_natCast]; exact hmag x h hx
    refine ⟨by omega, hm, ?_⟩
    unfold valBits
    rw [hm]
    congr 1
    unfold extraBits
    rw [if_neg (by omega)]
    have : ((x : Int) % ((2 ^ s : Nat) : Int)) = ((x % 2 ^ s : Nat) : Int) := by norm_cast
    rw [this, Int.toNat_natCast, Nat.mod_eq_of_lt hx]
  · rw [if_neg h]
    generalize hP : 2 ^ s = P at *
    have habs : ((x : Int) - (P : Nat) + 1).natAbs = P - 1 - x := by omega
    have hm : magBits ((x : Int) - (P : Nat) + 1).natAbs = s := by rw [habs]; exact hmag _ (by omega) (by omega)
    refine ⟨by omega, hm, ?_⟩
    unfold valBits
    rw [hm]
    congr 1
    unfold extraBits
    rw [if_pos (by omega), hP]
    have : ((x : Int) - (P : Nat) + 1 - 1) % (P : Int) = (x : Int) := by
      have e : (x : Int) - (P : Nat) + 1 - 1 = (x : Int) + P * (-1) := by omega
      rw [e, Int.add_mul_emod_self_left]
      exact Int.emod_eq_of_lt (by omega) (by omega)
    rw [this, Int.toNat_natCast]

theorem firstToks_zeros : ∀ (k : Nat) (vs : List Int) (r : Nat),
    firstToks (List.replicate k 0 ++ vs) r = firstToks vs (r + k) ∧
      zerosEnd (List.replicate k 0 ++ vs) r = zerosEnd vs (r + k) := by
  intro k
  induction k with
  | zero => intro vs r; simp
  | succ k ih =>
    intro vs r
    rw [List.replicate_succ, List.cons_append, firstToks, if_pos rfl, zerosEnd, if_pos rfl, (ih vs (r + 1)).1,
      (ih vs (r + 1)).2]
    have : r + 1 + k = r + (k + 1) := by omega
    rw [this]; exact ⟨rfl, rfl⟩

section
variable {d pre S : List Nat} (hp : Placed d pre S)
include hp

theorem parseEob_bits {allowed first : Bool} {run : Nat} {s s' : AcState} {C : List Bool} {h : Huff}
    (hr : run ≤ 14) (ha : At d pre S (C ++ symBits h (16 * run)) s.r) (hc : Coded h (16 * run))
    (he : parseEob d allowed first run s = some (some s')) :
    ∃ R : Nat, 1 ≤ R ∧ R ≤ 0x7FFF ∧ At d pre S (C ++ runBits h R) s'.r ∧ Coded h (16 * Nat.log2 R) ∧ s'.eob = R ∧
      s'.runs = s.runs ∧ s'.reset = (s.reset || (allowed && first && s.eob == 0)) ∧ (allowed = false → R = 1) := by
  unfold parseEob at he
  simp only at he
  by_cases h0 : run > 0
  · rw [if_pos h0] at he
    cases allowed with
    | false => simp at he
    | true =>
      simp only [if_true] at he
      have he := always_some he
      rw [Option.bind_eq_some_iff] at he
      obtain ⟨q, e1, e2⟩ := he
      injection e2 with e2
      subst e2
      obtain ⟨q1, q2⟩ := bits_at hp ha (by omega) e1
      have h2 : (2 : Nat) ^ run ≤ 2 ^ 14 := Nat.pow_le_pow_right (by decide) hr
      have hpos := Nat.two_pow_pos run
      have hlog : Nat.log2 (2 ^ run + q.1) = run := (Nat.log2_eq_iff (by omega)).mpr ⟨by omega, by
        rw [Nat.pow_succ]; omega⟩
      refine ⟨2 ^ run + q.1, by omega, by omega, ?_, by rw [hlog]; exact hc, ?_, rfl, rfl, fun h => by cases h⟩
      · unfold runBits
        rw [if_neg (by omega), hlog, Nat.add_mod_left, Nat.mod_eq_of_lt q1, ← List.append_assoc]
        exact q2
      · show (2 : Int) ^ run + (q.1 : Int) = ((2 ^ run + q.1 : Nat) : Int)
        norm_cast
  · rw [if_neg h0] at he
    injection he with he
    injection he with he
    subst he
    have : run = 0 := by omega
    subst this
    refine ⟨1, by decide, by decide, ?_, hc, rfl, rfl, rfl, fun _ => rfl⟩
    have : runBits h 1 = symBits h (16 * 0) := by
      unfold runBits
      have : Nat.log2 1 = 0 := by decide
      rw [if_neg (by decide), this]; simp
    rw [this]; exact ha

/-- How the band of a first scan is read. -/
theorem parseAc_bits {x : Table} (hx : InSlot x) {al : Nat} {allowed : Bool} :
    ∀ (n : Nat) (first : Bool) (k : Nat) (s : AcState) (C : List Bool) {cs' : List Int} {s' : AcState}, k ≤ n →
    At d pre S C s.r → parseAc d x.2 al allowed n first (List.replicate k 0) s = some (some (cs', s')) →
    ∃ (vs : List Int) (X : List Tok) (E : List Bool), cs' = vs.map (· * ((2 ^ al : Nat) : Int)) ∧ vs.length = k ∧
      At d pre S (C ++ tokBits (codeTable x.1) X ++ E) s'.r ∧ (∀ t ∈ X, Coded (codeTable x.1) t.1) ∧
      (∀ v ∈ vs, v ≠ 0 → magBits v.natAbs + al ≤ 11) ∧
      List.replicate s.runs zrl ++ X = firstToks vs (16 * s.runs) ++ List.replicate s'.runs zrl ∧
      ((E = [] ∧ s'.eob = s.eob ∧ s'.reset = s.reset ∧ zerosEnd vs (16 * s.runs) ≤ 16 * s'.runs) ∨
        (vs ≠ [] ∧ 16 * s'.runs < zerosEnd vs (16 * s.runs) ∧
          s'.reset = (s.reset || (allowed && (first && X.isEmpty) && s.eob == 0)) ∧
          ∃ R : Nat, 1 ≤ R ∧ R ≤ 0x7FFF ∧ E = runBits (codeTable x.1) R ∧ Coded (codeTable x.1) (16 * Nat.log2 R) ∧
            s'.eob = R ∧ (allowed = false → R = 1))) := by
  intro n
  induction n with
  | zero =>
    intro first k s C cs' s' hk ha he
    have : k = 0 := by omega
    subst this
    rw [parseAc] at he
    simp only [List.replicate_zero, if_true] at he
    injection he with he; injection he with he; injection he with h1 h2
    subst h1; subst h2
    exact ⟨[], [], [], rfl, rfl, by simpa [tokBits] using ha, by simp, by simp, by simp [firstToks],
      .inl ⟨rfl, rfl, rfl, Nat.le_refl _⟩⟩
  | succ n ih =>
    intro first k s C cs' s' hk ha he
    rw [parseAc] at he
    by_cases hk0 : k = 0
    · subst hk0
      simp only [List.replicate_zero, if_true] at he
      injection he with he; injection he with he; injection he with h1 h2
      subst h1; subst h2
      exact ⟨[], [], [], rfl, rfl, by simpa [tokBits] using ha, by simp, by simp, by simp [firstToks],
        .inl ⟨rfl, rfl, rfl, Nat.le_refl _⟩⟩
    · rw [if_neg (by simpa using hk0)] at he
      obtain ⟨p, e1, he⟩ := andThen_some he
      have e1 := always_some e1
      by_cases h256 : p.1 ≥ 256
      · rw [if_pos h256] at he; cases he
      · rw [if_neg h256] at he
        simp only at he
        obtain ⟨c1, a1⟩ := symbol_at hp hx ha e1 (by omega)
        have hsym : p.1 = 16 * (p.1 / 16) + p.1 % 16 := by omega
        generalize hrun : p.1 / 16 = run at he hsym
        generalize hb : p.1 % 16 = b at he hsym
        have hr16 : run < 16 := by omega
        by_cases hb0 : b > 0
        · rw [if_pos hb0] at he
          by_cases hrk : run ≥ (List.replicate k (0 : Int)).length
          · rw [if_pos hrk] at he; cases he
          · rw [if_neg hrk] at he
            rw [List.length_replicate] at hrk
            by_cases hal : b + al ≥ 12
            · rw [if_pos hal] at he; cases he
            · rw [if_neg hal] at he
              obtain ⟨q, e2, he⟩ := andThen_some he
              obtain ⟨z, e3, he⟩ := andThen_some he
              injection he with he; injection he with he; injection he with h1 h2
              have e2 := always_some e2
              obtain ⟨q1, q2⟩ := bits_at hp a1 (by omega) e2
              rw [List.drop_replicate] at e3
              have hbal : b + al ≤ 11 := by omega
              have hlen : run + (k - (run + 1) + 1) = k := by omega
              obtain ⟨vs, X, E, k1, k2, k3, k4, k5, k6, k7⟩ :=
                ih false (k - (run + 1)) _ _ (by omega) q2 (by rw [e3])
              obtain ⟨v1, v2, v3⟩ := huffExtend_spec (x := q.1) (s := b) (by omega) q1
              simp only [List.replicate_zero, List.nil_append, Nat.mul_zero] at k6 k7
              have hft := firstToks_zeros run (huffExtend q.1 b :: vs) (16 * s.runs)
              have hd : (16 * s.runs + run) / 16 = s.runs := by omega
              have hm : (16 * s.runs + run) % 16 = run := by omega
              rw [firstToks, if_neg v1, zerosEnd, if_neg v1, hd, hm, v2, v3] at hft
              refine ⟨List.replicate run 0 ++ huffExtend q.1 b :: vs, (p.1, msb b q.1) :: X, E, ?_, ?_, ?_, ?_, ?_, ?_, ?_⟩
              · rw [← h1, k1, List.take_replicate, Nat.min_eq_left (by omega)]; simp
              · simp only [List.length_append, List.length_replicate, List.length_cons, k2]; exact hlen
              · rw [tokBits_cons, ← h2]
                simpa using k3
              · intro t ht
                rcases List.mem_cons.mp ht with rfl | ht
                · exact c1
                · exact k4 t ht
              · intro v hv h0
                rcases List.mem_append.mp hv with hv | hv
                · exact absurd (List.mem_replicate.mp hv).2 h0
                · rcases List.mem_cons.mp hv with rfl | hv
                  · rw [v2]; exact hbal
                  · exact k5 v hv h0
              · rw [hft.1, hsym, k6, ← h2]; simp
              · rw [hft.2, ← h2]
                rcases k7 with ⟨m1, m2, m3, m4⟩ | ⟨m1, m2, m3, m4⟩
                · exact .inl ⟨m1, m2, m3, m4⟩
                · right
                  refine ⟨by simp, m2, ?_, m4⟩
                  rw [m3]; simp
        · rw [if_neg hb0] at he
          by_cases h15 : run = 15
          · rw [if_pos h15] at he
            obtain ⟨z, e3, he⟩ := andThen_some he
            injection he with he; injection he with he; injection he with h1 h2
            rw [List.drop_replicate] at e3
            have hlen : min 16 k + (k - 16) = k := by omega
            have hmin : 16 ≤ k → 16 * s.runs + min 16 k = 16 * (s.runs + 1) := by intro h; omega
            have hsmall : k < 16 → k - 16 = 0 := by intro h; omega
            have hp0 : p.1 = 0xF0 := by omega
            obtain ⟨vs, X, E, k1, k2, k3, k4, k5, k6, k7⟩ := ih false (k - 16) _ _ (by omega) a1 (by rw [e3])
            simp only at k6 k7
            rw [hp0] at c1 k3
            have hft := firstToks_zeros (min 16 k) vs (16 * s.runs)
            have hkk : 16 ≤ k ∨ (k < 16 ∧ vs = []) := by
              rcases Nat.lt_or_ge k 16 with h | h
              · exact .inr ⟨h, List.length_eq_zero_iff.mp (by rw [k2]; exact hsmall h)⟩
              · exact .inl h
            have hF : firstToks vs (16 * s.runs + min 16 k) = firstToks vs (16 * (s.runs + 1)) := by
              rcases hkk with h | ⟨_, h⟩
              · have := hmin h
                rw [this]
              · rw [h]; rfl
            refine ⟨List.replicate (min 16 k) 0 ++ vs, zrl :: X, E, ?_, ?_, ?_, ?_, ?_, ?_, ?_⟩
            · rw [← h1, k1, List.take_replicate]; simp
            · simp only [List.length_append, List.length_replicate, k2]; exact hlen
            · rw [tokBits_cons, ← h2]
              simpa [zrl] using k3
            · intro t ht
              rcases List.mem_cons.mp ht with rfl | ht
              · exact c1
              · exact k4 t ht
            · intro v hv h0
              rcases List.mem_append.mp hv with hv | hv
              · exact absurd (List.mem_replicate.mp hv).2 h0
              · exact k5 v hv h0
            · rw [hft.1, hF, ← h2, ← k6, List.replicate_succ']
              simp
            · rw [hft.2, ← h2]
              rcases k7 with ⟨m1, m2, m3, m4⟩ | ⟨m1, m2, m3, m4⟩
              · left
                refine ⟨m1, m2, m3, ?_⟩
                rcases hkk with h | ⟨h, hv⟩
                · have := hmin h
                  rw [this]; exact m4
                · rw [hv] at m4 ⊢
                  rw [zerosEnd] at m4 ⊢; omega
              · right
                rcases hkk with h | ⟨h, hv⟩
                · have := hmin h
                  refine ⟨by simp [m1], by rw [this]; exact m2, ?_, m4⟩
                  rw [m3]; simp
                · exact absurd hv m1
          · rw [if_neg h15] at he
            obtain ⟨s1, e3, he⟩ := andThen_some he
            injection he with he; injection he with he; injection he with h1 h2
            have hs0 : p.1 = 16 * run := by omega
            rw [hs0] at c1 a1
            obtain ⟨R, r1, r2, r3, r4, r5, r6, r7, r8⟩ := parseEob_bits hp (s := { s with r := p.2 }) (by omega) a1 c1 e3
            have hft := firstToks_zeros k [] (16 * s.runs)
            rw [List.append_nil] at hft
            refine ⟨List.replicate k 0, [], runBits (codeTable x.1) R, ?_, by simp, ?_, by simp, ?_, ?_, ?_⟩
            · rw [← h1]; simp
            · rw [← h2]; simpa [tokBits] using r3
            · intro v hv h0; exact absurd (List.mem_replicate.mp hv).2 h0
            · rw [hft.1, ← h2, r6]; simp [firstToks]
            · right
              rw [hft.2, ← h2]
              refine ⟨by simp [hk0], ?_, ?_, R, r1, r2, rfl, r4, r5, r8⟩
              · rw [r6, zerosEnd]; show 16 * s.runs < _; omega
              · rw [r7]; simp

/-! ## Refinement scans -/

omit hp in
theorem endsNew_append : ∀ (a : List Int) (v : Int) (b : List Int), EndsNew (v :: b) → EndsNew (a ++ v :: b) := by
  intro a
  induction a with
  | nil => intro v b h; exact h
  | cons x a ih =>
    intro v b h
    have := ih v b h
    cases a with
    | nil => exact this
    | cons y a => exact this

omit hp in
theorem eager_skip : ∀ (us : List Int) (t : List Int) (r : Nat) (bs : List Bool), NoNew us → r + zerosIn us ≤ 15 →
    eager (us ++ t) r bs = eager t (r + zerosIn us) (bs ++ corr us) := by
  intro us
  induction us with
  | nil => intro t r bs _ _; simp [zerosIn, corr]
  | cons v us ih =>
    intro t r bs hn hr
    have hn1 := hn v (by simp)
    have hnt : NoNew us := fun v hv => hn v (by simp [hv])
    rw [List.cons_append, eager]
    rw [zerosIn] at hr ⊢
    by_cases h0 : v = 0
    · rw [if_pos h0] at hr ⊢
      rw [if_pos h0, if_neg (by omega), ih _ _ _ hnt (by omega), corr, if_neg (c := v.natAbs > 1) (by subst h0; decide)]
      congr 1
      omega
    · rw [if_neg h0] at hr ⊢
      rw [if_neg h0, if_pos (by omega), ih _ _ _ hnt hr, corr, if_pos (c := v.natAbs > 1) (by omega)]
      simp

omit hp in
theorem tq_mul (al : Nat) (v : Int) : tq al (v * ((2 ^ al : Nat) : Int)) = v := by
  unfold tq
  exact Int.mul_tdiv_cancel _ (by have := Nat.two_pow_pos al; omega)

omit hp in
theorem tq_tq (a b : Nat) (c : Int) : tq b (tq a c) = tq (a + b) c := by
  have h1 := tq_eq (a + b) c
  have h2 := tq_eq b (tq a c)
  have h3 := tq_eq a c
  have h4 := tq_natAbs a c
  rw [h2, h1, h4, ← Nat.shiftRight_add]
  by_cases hc : c < 0
  · rw [if_pos hc] at h3 ⊢
    by_cases hz : c.natAbs >>> a = 0
    · rw [h3, hz, if_neg (by decide), Nat.shiftRight_add, hz]; simp
    · rw [if_pos (by rw [h3]; omega)]
  · rw [if_neg hc] at h3 ⊢
    rw [if_neg (by rw [h3]; omega)]

omit hp in
theorem refineCoeff_spec {al bit : Nat} {u : Int} (hu : u ≠ 0) (hb : bit < 2) :
    ∃ v : Int, refineCoeff al bit (u * ((2 ^ (al + 1) : Nat) : Int)) = v * ((2 ^ al : Nat) : Int) ∧
      1 < v.natAbs ∧ v.natAbs % 2 = bit ∧ tq 1 v = u := by
  have hpos : 0 < ((2 ^ al : Nat) : Int) := by have := Nat.two_pow_pos al; omega
  have hp2 : ((2 ^ (al + 1) : Nat) : Int) = 2 * ((2 ^ al : Nat) : Int) := by
    rw [Nat.pow_succ]; omega
  have hc : u * ((2 ^ (al + 1) : Nat) : Int) = (2 * u) * ((2 ^ al : Nat) : Int) := by
    rw [hp2, ← Int.mul_assoc, Int.mul_comm u 2]
  have h1 : tq 1 = fun v : Int => v.tdiv 2 := rfl
  unfold refineCoeff
  rw [hc, Int.mul_ediv_cancel _ (by omega)]
  generalize hP : ((2 ^ al : Nat) : Int) = P at *
  by_cases hb0 : bit = 0
  · subst hb0
    rw [if_neg (by omega)]
    refine ⟨2 * u, rfl, by omega, by omega, ?_⟩
    rw [h1]; simp only
    rw [Int.mul_comm]; exact Int.mul_tdiv_cancel _ (by decide)
  · have : bit = 1 := by omega
    subst this
    rw [if_pos ⟨by decide, by omega⟩]
    by_cases hneg : u < 0
    · have : ¬ (2 * u * P ≥ 0) := by
        have := Int.mul_neg_of_neg_of_pos (a := 2 * u) (by omega) hpos
        omega
      rw [if_neg this]
      refine ⟨2 * u - 1, by rw [Int.sub_mul, Int.one_mul], by omega, by omega, ?_⟩
      rw [tq_eq, if_pos (by omega)]
      have : (2 * u - 1).natAbs >>> 1 = u.natAbs := by rw [Nat.shiftRight_eq_div_pow]; omega
      rw [this]; omega
    · have : 2 * u * P ≥ 0 := Int.mul_nonneg (by omega) (by omega)
      rw [if_pos this]
      refine ⟨2 * u + 1, by rw [Int.add_mul, Int.one_mul], by omega, by omega, ?_⟩
      rw [tq_eq, if_neg (by omega)]
      have : (2 * u + 1).natAbs >>> 1 = u.natAbs := by rw [Nat.shiftRight_eq_div_pow]; omega
      rw [this]; omega

/-- All are multiples of `2 ^ n`. -/
def Mult (n : Nat) (cs : List Int) : Prop := ∀ c ∈ cs, ∃ u : Int, c = u * ((2 ^ n : Nat) : Int)

/-- The refined values `vs` of the coefficients `cs`. -/
def Refined (al : Nat) (cs vs : List Int) : Prop := vs.map (tq 1) = cs.map (tq (al + 1))

omit hp in
theorem Refined.append {al : Nat} {a b vs us : List Int} (h1 : Refined al a vs) (h2 : Refined al b us) :
    Refined al (a ++ b) (vs ++ us) := by
  unfold Refined at *
  rw [List.map_append, List.map_append, h1, h2]

omit hp in
theorem Refined.cons {al : Nat} {c v : Int} {b us : List Int} (h1 : tq 1 v = tq (al + 1) c) (h2 : Refined al b us) :
    Refined al (c :: b) (v :: us) := by
  unfold Refined at *
  rw [List.map_cons, List.map_cons, h1, h2]

omit hp in
theorem Refined.length {al : Nat} {a vs : List Int} (h : Refined al a vs) : vs.length = a.length := by
  have := congrArg List.length h
  simpa using this

omit hp in
theorem tq_zero (n : Nat) : tq n 0 = 0 := by unfold tq; exact Int.zero_tdiv _

omit hp in
theorem bit_eq {q : Nat} (h : q < 2 ^ 1) : msb 1 q = [q % 2 == 1] := by
  have : q = 0 ∨ q = 1 := by omega
  rcases this with rfl | rfl <;> decide

theorem refSkip_bits {al : Nat} : ∀ (cs : List Int) (run : Nat) (r : Reader) (C : List Bool) {done rest r'}, Mult (al + 1) cs →
    At d pre S C r → refSkip d al cs run r = some (done, rest, r') →
    ∃ us A, cs = A ++ rest ∧ done = us.map (· * ((2 ^ al : Nat) : Int)) ∧ Refined al A us ∧
      At d pre S (C ++ corr us) r' ∧ NoNew us ∧ (rest ≠ [] → zerosIn us = run ∧ ∃ t, rest = 0 :: t) := by
  intro cs
  induction cs with
  | nil =>
    intro run r C done rest r' _ ha he
    rw [refSkip] at he
    cases he
    exact ⟨[], [], rfl, rfl, rfl, by simpa [corr] using ha, fun v hv => absurd hv List.not_mem_nil, fun h => absurd rfl h⟩
  | cons c cs ih =>
    intro run r C done rest r' hm ha he
    have hmt : Mult (al + 1) cs := fun c hc => hm c (by simp [hc])
    rw [refSkip] at he
    by_cases h0 : c ≠ 0
    · rw [if_pos h0] at he
      simp only [Option.bind_eq_some_iff] at he
      obtain ⟨q, e1, ⟨z1, z2, z3⟩, e2, e3⟩ := he
      cases e3
      obtain ⟨q1, q2⟩ := bits_at hp ha (by decide) e1
      obtain ⟨us, A, k1, k2, k3, k4, k5, k6⟩ := ih run _ _ hmt q2 e2
      obtain ⟨u, hu⟩ := hm c (by simp)
      have hu0 : u ≠ 0 := by intro h; rw [h] at hu; simp at hu; exact h0 hu
      obtain ⟨v, v1, v2, v3, v4⟩ := refineCoeff_spec (al := al) hu0 q1
      refine ⟨v :: us, c :: A, by rw [k1]; rfl, by rw [hu, v1, k2]; rfl, k3.cons ?_, ?_, ?_, ?_⟩
      · rw [v4, hu, tq_mul]
      · rw [corr, if_pos v2, v3]
        rw [bit_eq q1] at k4
        have hq : (q.1 == 1) = (q.1 % 2 == 1) := by
          have : q.1 % 2 = q.1 := by omega
          rw [this]
        rw [hq]
        simpa using k4
      · intro w hw
        rcases List.mem_cons.mp hw with rfl | hw
        · omega
        · exact k5 w hw
      · intro hr
        rw [zerosIn, if_neg (by omega)]
        exact k6 hr
    · have h0 : c = 0 := by omega
      rw [if_neg (by simp [h0])] at he
      by_cases hr : run = 0
      · rw [if_pos hr] at he
        cases he
        exact ⟨[], [], rfl, rfl, rfl, by simpa [corr] using ha, fun v hv => absurd hv List.not_mem_nil,
          fun _ => ⟨hr.symm, cs, by rw [h0]⟩⟩
      · rw [if_neg hr] at he
        simp only [Option.bind_eq_some_iff] at he
        obtain ⟨⟨z1, z2, z3⟩, e2, e3⟩ := he
        cases e3
        obtain ⟨us, A, k1, k2, k3, k4, k5, k6⟩ := ih _ _ _ hmt ha e2
        refine ⟨0 :: us, c :: A, by rw [k1]; rfl, by rw [h0, k2]; simp, k3.cons ?_, ?_, ?_, ?_⟩
        · rw [h0, tq_zero, tq_zero]
        · rw [corr, if_neg (by decide)]; exact k4
        · intro w hw
          rcases List.mem_cons.mp hw with rfl | hw
          · decide
          · exact k5 w hw
        · intro hrest
          obtain ⟨m1, m2⟩ := k6 hrest
          rw [zerosIn, if_pos rfl, m1]
          exact ⟨by omega, m2⟩

theorem refRest_bits {al : Nat} : ∀ (cs : List Int) (r : Reader) (C : List Bool) {done r'}, Mult (al + 1) cs →
    At d pre S C r → refRest d al cs r = some (done, r') →
    ∃ us, done = us.map (· * ((2 ^ al : Nat) : Int)) ∧ Refined al cs us ∧ At d pre S (C ++ corr us) r' ∧ NoNew us := by
  intro cs
  induction cs with
  | nil =>
    intro r C done r' _ ha he
    rw [refRest] at he
    cases he
    exact ⟨[], rfl, rfl, by simpa [corr] using ha, fun v hv => absurd hv List.not_mem_nil⟩
  | cons c cs ih =>
    intro r C done r' hm ha he
    have hmt : Mult (al + 1) cs := fun c hc => hm c (by simp [hc])
    rw [refRest] at he
    by_cases h0 : c ≠ 0
    · rw [if_pos h0] at he
      simp only [Option.bind_eq_some_iff] at he
      obtain ⟨q, e1, z, e2, e3⟩ := he
      cases e3
      obtain ⟨q1, q2⟩ := bits_at hp ha (by decide) e1
      obtain ⟨us, k2, k3, k4, k5⟩ := ih _ _ hmt q2 e2
      obtain ⟨u, hu⟩ := hm c (by simp)
      have hu0 : u ≠ 0 := by intro h; rw [h] at hu; simp at hu; exact h0 hu
      obtain ⟨v, v1, v2, v3, v4⟩ := refineCoeff_spec (al := al) hu0 q1
      refine ⟨v :: us, by rw [hu, v1, k2]; rfl, k3.cons ?_, ?_, ?_⟩
      · rw [v4, hu, tq_mul]
      · rw [corr, if_pos v2, v3]
        rw [bit_eq q1] at k4
        have hq : (q.1 == 1) = (q.1 % 2 == 1) := by
          have : q.1 % 2 = q.1 := by omega
          rw [this]
        rw [hq]
        simpa using k4
      · intro w hw
        rcases List.mem_cons.mp hw with rfl | hw
        · omega
        · exact k5 w hw
    · have h0 : c = 0 := by omega
      rw [if_neg (by simp [h0])] at he
      simp only [Option.bind_eq_some_iff] at he
      obtain ⟨z, e2, e3⟩ := he
      cases e3
      obtain ⟨us, k2, k3, k4, k5⟩ := ih _ _ hmt ha e2
      refine ⟨0 :: us, by rw [h0, k2]; simp, k3.cons ?_, ?_, ?_⟩
      · rw [h0, tq_zero, tq_zero]
      · rw [corr, if_neg (by decide)]; exact k4
      · intro w hw
        rcases List.mem_cons.mp hw with rfl | hw
        · decide
        · exact k5 w hw

omit hp in
theorem refLoop_nil {t : List LutEntry} {al : Nat} {allowed : Bool} (n : Nat) (first zero : Bool) (s : AcState) :
    refLoop d t al allowed n first zero [] s = if zero then some none else some (some ([], [], s)) := by
  cases n <;> rw [refLoop] <;> simp

/-- How the band of a refinement scan is read. -/
theorem refLoop_bits {x : Table} (hx : InSlot x) {al : Nat} {allowed : Bool} :
    ∀ (n : Nat) (first zero : Bool) (cs : List Int) (s : AcState) (C : List Bool) {done rest : List Int} {s' : AcState},
    cs.length ≤ n → Mult (al + 1) cs → At d pre S C s.r →
    refLoop d x.2 al allowed n first zero cs s = some (some (done, rest, s')) →
    ∃ (vs A : List Int) (E : List Bool), cs = A ++ rest ∧ done = vs.map (· * ((2 ^ al : Nat) : Int)) ∧ Refined al A vs ∧
      At d pre S (C ++ tokBits (codeTable x.1) (eager vs 0 []) ++ E) s'.r ∧
      (∀ t ∈ eager vs 0 [], Coded (codeTable x.1) t.1) ∧ EndsNew vs ∧ (vs = [] → zero = false) ∧ s'.runs = s.runs ∧
      ((E = [] ∧ rest = [] ∧ s'.eob = s.eob ∧ s'.reset = s.reset) ∨
        (rest ≠ [] ∧ s'.reset = (s.reset || (allowed && (first && vs.isEmpty) && s.eob == 0)) ∧
          ∃ R : Nat, 1 ≤ R ∧ R ≤ 0x7FFF ∧ E = runBits (codeTable x.1) R ∧ Coded (codeTable x.1) (16 * Nat.log2 R) ∧
            s'.eob = R ∧ (allowed = false → R = 1))) := by
  intro n
  induction n with
  | zero =>
    intro first zero cs s C done rest s' hn _ ha he
    have : cs = [] := List.length_eq_zero_iff.mp (by omega)
    subst this
    rw [refLoop_nil] at he
    cases zero with
    | true => simp at he
    | false =>
      simp only [Bool.false_eq_true, if_false] at he
      injection he with he; injection he with he; injection he with h1 h2; injection h2 with h2 h3
      subst h1; subst h2; subst h3
      exact ⟨[], [], [], rfl, rfl, rfl, by simpa [eager, tokBits] using ha, by simp [eager], trivial, fun _ => rfl, rfl,
        .inl ⟨rfl, rfl, rfl, rfl⟩⟩
  | succ n ih =>
    intro first zero cs s C done rest s' hn hm ha he
    by_cases hcs : cs = []
    · subst hcs
      rw [refLoop_nil] at he
      cases zero with
      | true => simp at he
      | false =>
        simp only [Bool.false_eq_true, if_false] at he
        injection he with he; injection he with he; injection he with h1 h2; injection h2 with h2 h3
        subst h1; subst h2; subst h3
        exact ⟨[], [], [], rfl, rfl, rfl, by simpa [eager, tokBits] using ha, by simp [eager], trivial, fun _ => rfl, rfl,
          .inl ⟨rfl, rfl, rfl, rfl⟩⟩
    · rw [refLoop, if_neg hcs] at he
      obtain ⟨p, e1, he⟩ := andThen_some he
      have e1 := always_some e1
      by_cases h256 : p.1 ≥ 256
      · rw [if_pos h256] at he; cases he
      · rw [if_neg h256] at he
        simp only at he
        obtain ⟨c1, a1⟩ := symbol_at hp hx ha e1 (by omega)
        have hsym : p.1 = 16 * (p.1 / 16) + p.1 % 16 := by omega
        generalize hrun : p.1 / 16 = run at he hsym
        generalize hb : p.1 % 16 = b at he hsym
        have hr16 : run ≤ 15 := by omega
        by_cases hb0 : b > 0
        · rw [if_pos hb0] at he
          by_cases hb1 : b ≠ 1
          · rw [if_pos hb1] at he; cases he
          · rw [if_neg hb1] at he
            have hsym1 : p.1 = 16 * run + 1 := by omega
            obtain ⟨q, e2, he⟩ := andThen_some he
            have e2 := always_some e2
            obtain ⟨q1, q2⟩ := bits_at hp a1 (by decide) e2
            obtain ⟨k, e3, he⟩ := andThen_some he
            have e3 := always_some e3
            obtain ⟨kd, kr, kk⟩ := k
            obtain ⟨us, A, m1, m2, m3, m4, m5, m6⟩ := refSkip_bits hp cs run _ _ hm q2 e3
            simp only at he
            cases kr with
            | nil => cases he
            | cons c kr =>
              simp only at he
              obtain ⟨z, e4, he⟩ := andThen_some he
              injection he with he; injection he with he; injection he with h1 h2
              obtain ⟨j1, t, j2⟩ := m6 (by simp)
              injection j2 with j2 j3
              have hlen : kr.length ≤ n := by rw [m1] at hn; simp at hn; omega
              have hmt : Mult (al + 1) kr := fun c hc => hm c (by rw [m1]; simp [hc])
              obtain ⟨zd, zr, zs⟩ := z
              cases h2
              obtain ⟨vs, A2, E, k1, k2, k3, k4, k5, k6, k7, k8, k9⟩ := ih false false kr _ _ hlen hmt m4 e4
              have hv : ∃ v : Int, v.natAbs = 1 ∧ decide (0 < v) = (q.1 % 2 == 1) ∧
                  (if q.1 ≠ 0 then ((2 ^ al : Nat) : Int) else -((2 ^ al : Nat) : Int)) = v * ((2 ^ al : Nat) : Int) := by
                have : q.1 = 0 ∨ q.1 = 1 := by omega
                rcases this with h | h <;> rw [h]
                · exact ⟨-1, rfl, rfl, by simp⟩
                · exact ⟨1, rfl, rfl, by simp⟩
              obtain ⟨v, v1, v2, v3⟩ := hv
              have hv0 : v ≠ 0 := by intro h; rw [h] at v1; exact absurd v1 (by decide)
              have heg : eager (us ++ v :: vs) 0 [] = (p.1, (q.1 % 2 == 1) :: corr us) :: eager vs 0 [] := by
                rw [eager_skip _ _ _ _ m5 (by omega), eager, if_neg hv0, if_neg (by omega), v2, hsym1, j1]
                simp
              refine ⟨us ++ v :: vs, A ++ c :: A2, E, ?_, ?_, ?_, ?_, ?_, ?_, ?_, k8, ?_⟩
              · rw [m1, k1]; simp
              · rw [← h1, v3, m2, k2]; simp
              · refine m3.append (k3.cons ?_)
                rw [j2, tq_zero]
                have : v = 1 ∨ v = -1 := by omega
                rcases this with rfl | rfl <;> decide
              · rw [heg, tokBits_cons]
                rw [bit_eq q1] at k4
                simpa using k4
              · rw [heg]
                intro t ht
                rcases List.mem_cons.mp ht with rfl | ht
                · exact c1
                · exact k5 t ht
              · refine endsNew_append _ _ _ ?_
                cases vs with
                | nil => exact v1
                | cons => exact k6
              · intro h; simp at h
              · rcases k9 with h | ⟨g1, g2, g3⟩
                · exact .inl h
                · refine .inr ⟨g1, ?_, g3⟩
                  rw [g2]; simp
        · rw [if_neg hb0] at he
          by_cases h15 : run = 15
          · rw [if_pos h15] at he
            have hp0 : p.1 = 0xF0 := by omega
            obtain ⟨k, e3, he⟩ := andThen_some he
            have e3 := always_some e3
            obtain ⟨kd, kr, kk⟩ := k
            obtain ⟨us, A, m1, m2, m3, m4, m5, m6⟩ := refSkip_bits hp cs 15 _ _ hm a1 e3
            simp only at he
            cases kr with
            | nil => simp only at he; rw [refLoop_nil] at he; simp at he
            | cons c kr =>
              simp only at he
              obtain ⟨z, e4, he⟩ := andThen_some he
              injection he with he; injection he with he; injection he with h1 h2
              obtain ⟨j1, t, j2⟩ := m6 (by simp)
              injection j2 with j2 j3
              have hlen : kr.length ≤ n := by rw [m1] at hn; simp at hn; omega
              have hmt : Mult (al + 1) kr := fun c hc => hm c (by rw [m1]; simp [hc])
              obtain ⟨zd, zr, zs⟩ := z
              cases h2
              obtain ⟨vs, A2, E, k1, k2, k3, k4, k5, k6, k7, k8, k9⟩ := ih false true kr _ _ hlen hmt m4 e4
              have heg : eager (us ++ 0 :: vs) 0 [] = (p.1, corr us) :: eager vs 0 [] := by
                rw [eager_skip _ _ _ _ m5 (by omega), eager, if_pos rfl, if_pos (by omega), hp0]
                simp
              have hvs : vs ≠ [] := fun h => absurd (k7 h) (by decide)
              refine ⟨us ++ 0 :: vs, A ++ c :: A2, E, ?_, ?_, ?_, ?_, ?_, ?_, ?_, k8, ?_⟩
              · rw [m1, k1]; simp
              · rw [← h1, m2, k2, j2]; simp
              · refine m3.append (k3.cons ?_)
                rw [j2, tq_zero, tq_zero]
              · rw [heg, tokBits_cons]
                simpa using k4
              · rw [heg]
                intro t ht
                rcases List.mem_cons.mp ht with rfl | ht
                · exact c1
                · exact k5 t ht
              · refine endsNew_append _ _ _ ?_
                cases vs with
                | nil => exact absurd rfl hvs
                | cons => exact k6
              · intro h; simp at h
              · rcases k9 with h | ⟨g1, g2, g3⟩
                · exact .inl h
                · refine .inr ⟨g1, ?_, g3⟩
                  rw [g2]; simp
          · rw [if_neg h15] at he
            obtain ⟨s1, e3, he⟩ := andThen_some he
            cases zero with
            | true => simp at he
            | false =>
              simp only [Bool.false_eq_true, if_false] at he
              injection he with he; injection he with he; injection he with h1 h2; injection h2 with h2 h3
              subst h1; subst h2; subst h3
              have hs0 : p.1 = 16 * run := by omega
              rw [hs0] at c1 a1
              obtain ⟨R, r1, r2, r3, r4, r5, r6, r7, r8⟩ := parseEob_bits hp (s := { s with r := p.2 }) (by omega) a1 c1 e3
              refine ⟨[], [], runBits (codeTable x.1) R, rfl, rfl, rfl, by simpa [eager, tokBits] using r3, by simp [eager],
                trivial, fun _ => rfl, r6, .inr ⟨hcs, ?_, R, r1, r2, rfl, r4, r5, r8⟩⟩
              rw [r7]; simp

end

end Jxl.Jpeg
