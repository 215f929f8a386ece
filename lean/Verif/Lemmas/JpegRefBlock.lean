import Verif.Lemmas.JpegBlock
/-!
# Blocks of refinement scans: reading, and writing again
-/
namespace Jxl.Jpeg

theorem eager_ne : ∀ (vs : List Int) (r : Nat) (bs : List Bool), EndsNew vs → vs ≠ [] → eager vs r bs ≠ [] := by
  intro vs
  induction vs with
  | nil => intro r bs _ h; exact absurd rfl h
  | cons v vs ih =>
    intro r bs he _
    rw [eager]
    cases vs with
    | nil =>
      have hv : v.natAbs = 1 := he
      rw [if_neg (by intro h; subst h; exact absurd hv (by decide)), if_neg (by omega)]
      simp
    | cons u us =>
      have ht : EndsNew (u :: us) := he
      split
      · split
        · simp
        · exact ih _ _ ht (by simp)
      · split
        · exact ih _ _ ht (by simp)
        · simp

theorem corr_length (vs : List Int) : (corr vs).length ≤ vs.length := by
  induction vs with
  | nil => exact Nat.le_refl _
  | cons v vs ih => rw [corr]; split <;> simp only [List.length_cons] <;> omega

theorem Refined.mult_left {al : Nat} {a b : List Int} (h : Mult al (a ++ b)) : Mult al b := fun c hc => h c (by simp [hc])

section
variable {d pre S : List Nat} (hp : Placed d pre S)
include hp

theorem refineBand_read {x : Table} (hx : InSlot x) {al : Nat} {allowed : Bool} {e : Int} {r : Reader} {C : List Bool}
    {cs cs' : List Int} {a : AcState} (hk : 1 ≤ cs.length) (hk2 : cs.length ≤ 63) (hm : Mult (al + 1) cs) (ha : At d pre S C r)
    (he : refineBand d x.2 al allowed cs e r = some (some (cs', a))) :
    ∃ vf vb C', cs' = (vf ++ vb).map (· * ((2 ^ al : Nat) : Int)) ∧ Refined al cs (vf ++ vb) ∧ EndsNew vf ∧ NoNew vb ∧
      At d pre S C' a.r ∧ a.runs = 0 ∧
      BandRead (codeTable x.1) allowed C C' e a.eob a.reset (eager vf 0 []) (decide (vb ≠ [])) (corr vb) := by
  unfold refineBand at he
  by_cases h0 : e > 0
  · rw [if_pos h0] at he
    unfold refEnd at he
    rw [if_pos h0] at he
    obtain ⟨z, e1, he⟩ := andThen_some he
    have e1 := always_some e1
    injection he with he; injection he with he; injection he with h1 h2
    subst h2
    obtain ⟨us, k1, k2, k3, k4⟩ := refRest_bits hp cs r C (done := z.1) (r' := z.2) hm ha e1
    have hl := k2.length
    refine ⟨[], us, C ++ corr us, by rw [← h1, k1]; simp, k2, trivial, k4, k3, rfl,
      ⟨by simp [eager], ?_, fun _ => ⟨rfl, ?_, rfl, rfl, rfl⟩, fun h => by omega⟩⟩
    · have := corr_length us; omega
    · have : us ≠ [] := by intro h; rw [h] at hl; simp at hl; omega
      simp [this]
  · rw [if_neg h0] at he
    obtain ⟨z, e1, he⟩ := andThen_some he
    obtain ⟨zd, zr, zs⟩ := z
    obtain ⟨vs, A, E, k1, k2, k3, k4, k5, k6, k7, k8, k9⟩ := refLoop_bits hp hx 64 true false cs _ C (by omega) hm ha e1
    simp only at he k8 k9
    have hl := k3.length
    have hiso : vs.isEmpty = (eager vs 0 []).isEmpty := by
      cases hvs : vs with
      | nil => rfl
      | cons v us =>
        have := eager_ne (v :: us) 0 [] (by rw [← hvs]; exact k6) (by simp)
        cases heq : eager (v :: us) 0 [] with
        | nil => exact absurd heq this
        | cons => rfl
    unfold refEnd at he
    rcases k9 with ⟨m1, m2, m3, m4⟩ | ⟨m1, m2, R, m3, m4, m5, m6, m7, m8⟩
    · rw [if_neg (by omega)] at he
      injection he with he; injection he with he; injection he with h1 h2
      subst h2
      have hA : A = cs := by rw [k1, m2, List.append_nil]
      rw [hA] at k3 hl
      refine ⟨vs, [], C ++ tokBits (codeTable x.1) (eager vs 0 []), ?_, ?_, k6, ?_, ?_, k8, ⟨k5, by simp [corr], fun h => by omega, fun _ => .inl ⟨by simp, ?_, m4, rfl, ?_⟩⟩⟩
      · rw [← h1, k2, m2]; simp
      · simpa using k3
      · intro v hv; exact absurd hv List.not_mem_nil
      · rw [m1] at k4; simpa using k4
      · exact eager_ne vs 0 [] k6 (by intro h; rw [h] at hl; simp at hl; omega)
      · show zs.eob - 1 = e - 1
        rw [m3]
    · rw [if_pos (by omega)] at he
      obtain ⟨y, e2, he⟩ := andThen_some he
      have e2 := always_some e2
      injection he with he; injection he with he; injection he with h1 h2
      subst h2
      have hmr : Mult (al + 1) zr := Refined.mult_left (a := A) (by rw [← k1]; exact hm)
      obtain ⟨us, n1, n2, n3, n4⟩ := refRest_bits hp zr _ _ (done := y.1) (r' := y.2) hmr k4 e2
      have hl2 := n2.length
      have hus : us ≠ [] := by
        intro h; rw [h] at hl2; exact m1 (List.length_eq_zero_iff.mp hl2.symm)
      refine ⟨vs, us, _, ?_, ?_, k6, n4, n3, k8, ⟨k5, ?_, fun h => by omega, fun _ => .inr ⟨by simp [hus], ?_, R, m3, m4, ?_, m6, ?_, m8⟩⟩⟩
      · rw [← h1, k2, n1]; simp
      · rw [k1]; exact k3.append n2
      · have := corr_length us
        have : cs.length = A.length + zr.length := by rw [k1, List.length_append]
        omega
      · show zs.reset = _
        rw [m2, hiso]; simp
      · rw [m5]
      · show zs.eob - 1 = _
        rw [m7]

end

/-- Everything the parser did in a block of a refinement scan. -/
structure RefRead (d pre S : List Nat) (h : Huff) (ss se al : Nat) (e last : Int) (coeffs : List Int) (C : List Bool)
    (b : BlockOut) (bit : Bool) (C1 C' : List Bool) (vf vb : List Int) : Prop where
  last : b.last = last
  dc : ss = 0 → ∃ u : Int, C1 = C ++ [bit] ∧ coeffs.headD 0 = u * ((2 ^ (al + 1) : Nat) : Int) ∧
    b.coeffs.headD 0 = (2 * u + bit01 bit) * ((2 ^ al : Nat) : Int)
  nodc : ss ≠ 0 → C1 = C
  len : b.coeffs.length = 64
  same : ∀ k, k < ss ∨ se < k → b.coeffs[k]? = coeffs[k]?
  band : bandOf ss se b.coeffs = (vf ++ vb).map (· * ((2 ^ al : Nat) : Int))
  refined : Refined al (bandOf ss se coeffs) (vf ++ vb)
  pos : At d pre S C' b.ac.r
  runs : b.ac.runs = 0
  none : se < max 1 ss → C' = C1 ∧ b.ac.eob = e ∧ b.ac.reset = false
  some : max 1 ss ≤ se → EndsNew vf ∧ NoNew vb ∧
    BandRead h (ss != 0) C1 C' e b.ac.eob b.ac.reset (eager vf 0 []) (decide (vb ≠ [])) (corr vb)

theorem refineDc_spec {al bit : Nat} (hb : bit < 2) (u : Int) :
    refineDc al bit (u * ((2 ^ (al + 1) : Nat) : Int)) = (2 * u + bit) * ((2 ^ al : Nat) : Int) := by
  have hpos : 0 < ((2 ^ al : Nat) : Int) := by have := Nat.two_pow_pos al; omega
  have hp2 : ((2 ^ (al + 1) : Nat) : Int) = 2 * ((2 ^ al : Nat) : Int) := by
    rw [Nat.pow_succ]; omega
  have hc : u * ((2 ^ (al + 1) : Nat) : Int) = (2 * u) * ((2 ^ al : Nat) : Int) := by
    rw [hp2, ← Int.mul_assoc, Int.mul_comm u 2]
  unfold refineDc
  rw [hc, Int.mul_ediv_cancel _ (by omega)]
  by_cases h : bit = 1
  · subst h
    rw [if_pos ⟨rfl, by omega⟩, Int.add_mul]
    simp
  · have : bit = 0 := by omega
    subst this
    rw [if_neg (by omega)]
    simp

section
variable {d pre S : List Nat} (hp : Placed d pre S)
include hp

theorem withBand_refine {x : Table} (hx : InSlot x) {ss se al : Nat} (hs2 : se ≤ 63)
    {e last : Int} {coeffs0 coeffs : List Int} {r : Reader} {C C1 : List Bool} {b : BlockOut} {bit : Bool}
    (hlen : coeffs.length = 64) (hm : Mult (al + 1) (bandOf ss se coeffs)) (ha : At d pre S C1 r)
    (hdc : ss = 0 → ∃ u : Int, C1 = C ++ [bit] ∧ coeffs0.headD 0 = u * ((2 ^ (al + 1) : Nat) : Int) ∧
      coeffs.headD 0 = (2 * u + bit01 bit) * ((2 ^ al : Nat) : Int))
    (hno : ss ≠ 0 → C1 = C) (hsame : ∀ k, k < ss ∨ se < k → coeffs[k]? = coeffs0[k]?)
    (hbo : bandOf ss se coeffs = bandOf ss se coeffs0)
    (hb : withBand ss se coeffs last e r (refineBand d x.2 al (ss != 0)) = some (some b)) :
    ∃ C' vf vb, RefRead d pre S (codeTable x.1) ss se al e last coeffs0 C b bit C1 C' vf vb := by
  unfold withBand at hb
  by_cases hband : max 1 ss > se
  · rw [if_pos hband] at hb
    injection hb with hb; injection hb with hb
    subst hb
    have hbe : bandOf ss se coeffs = [] := by
      apply List.length_eq_zero_iff.mp; rw [bandOf_length hlen hs2]; omega
    exact ⟨C1, [], [], rfl, hdc, hno, hlen, hsame, by simpa using hbe, by rw [← hbo, hbe]; rfl, ha, rfl,
      fun _ => ⟨rfl, rfl, rfl⟩, fun h => by omega⟩
  · rw [if_neg hband] at hb
    obtain ⟨z, e1, hb⟩ := andThen_some hb
    injection hb with hb; injection hb with hb
    subst hb
    have hbl := bandOf_length (ss := ss) hlen hs2
    obtain ⟨vf, vb, C', k1, k2, k3, k4, k5, k6, k7⟩ := refineBand_read hp hx (cs := bandOf ss se coeffs) (cs' := z.1) (a := z.2)
      (by omega) (by omega) hm ha e1
    have hzl : z.1.length = se + 1 - max 1 ss := by rw [k1, List.length_map, k2.length]; exact hbl
    have hget := putBand_get hlen (m := max 1 ss) (by omega) hs2 hzl
    have hd0 : (putBand (max 1 ss) se coeffs z.1).headD 0 = coeffs.headD 0 := by
      rw [headD_get, hget, if_pos (by omega), ← headD_get]
    refine ⟨C', vf, vb, rfl, ?_, hno, putBand_length hlen (by omega) hs2 hzl, ?_, ?_, by rw [← hbo]; exact k2, k5, k6, fun h => by omega,
      fun _ => ⟨k3, k4, k7⟩⟩
    · intro h
      obtain ⟨u, g1, g2, g3⟩ := hdc h
      exact ⟨u, g1, g2, by rw [hd0]; exact g3⟩
    · intro k hk
      rw [← hsame k hk, hget]
      rcases hk with hk | hk
      · rw [if_pos (by omega)]
      · rw [if_neg (by omega), if_neg (by omega)]
    · rw [bandOf_putBand hlen (by omega) hs2 hzl, k1]

theorem refine_read {x : Table} (hx : InSlot x) {ss se al : Nat} (hs2 : se ≤ 63)
    {e last : Int} {coeffs : List Int} {r : Reader} {C : List Bool} {b : BlockOut}
    (hlen : coeffs.length = 64) (hm : Mult (al + 1) (bandOf ss se coeffs))
    (hm0 : ss = 0 → ∃ u : Int, coeffs.headD 0 = u * ((2 ^ (al + 1) : Nat) : Int)) (ha : At d pre S C r)
    (hb : refineBlock d x.2 ss se al e last coeffs r = some (some b)) :
    ∃ bit C1 C' vf vb, RefRead d pre S (codeTable x.1) ss se al e last coeffs C b bit C1 C' vf vb := by
  unfold refineBlock at hb
  by_cases h0 : ss = 0
  · rw [if_pos h0] at hb
    obtain ⟨p, e1, hb⟩ := andThen_some hb
    have e1 := always_some e1
    obtain ⟨q1, q2⟩ := bits_at hp ha (by decide) e1
    rw [bit_eq q1] at q2
    obtain ⟨u, hu⟩ := hm0 h0
    have hhead : (coeffs.set 0 (refineDc al p.1 (coeffs.headD 0))).headD 0 = refineDc al p.1 (coeffs.headD 0) := by
      cases coeffs with
      | nil => cases hlen
      | cons => rfl
    have hbit : ((bit01 (p.1 % 2 == 1) : Nat) : Int) = (p.1 : Int) := by
      have : p.1 = 0 ∨ p.1 = 1 := by omega
      rcases this with h | h <;> rw [h] <;> rfl
    have hbool : (ss != 0) = false := by simp [h0]
    obtain ⟨C', vf, vb, h⟩ := withBand_refine hp hx hs2 (coeffs0 := coeffs) (C := C) (bit := p.1 % 2 == 1)
      (coeffs := coeffs.set 0 (refineDc al p.1 (coeffs.headD 0))) (by rw [List.length_set]; exact hlen)
      (by rw [bandOf_set]; exact hm) q2 (fun _ => ⟨u, rfl, hu, by rw [hhead, hu, refineDc_spec q1, hbit]⟩)
      (fun h => absurd h0 h) (fun k hk => by rw [List.getElem?_set_ne (by omega)]) (bandOf_set _ _) (by rw [hbool]; exact hb)
    exact ⟨_, _, C', vf, vb, h⟩
  · rw [if_neg h0] at hb
    have hbool : (ss != 0) = true := by simp [h0]
    obtain ⟨C', vf, vb, h⟩ := withBand_refine hp hx hs2 (coeffs0 := coeffs) (C := C) (bit := false)
      (coeffs := coeffs) hlen hm ha (fun h => absurd h h0) (fun _ => rfl) (fun _ _ => rfl) rfl
      (by rw [hbool]; exact hb)
    exact ⟨_, _, C', vf, vb, h⟩

end

theorem noNew_nil : ∀ {vb : List Int}, NoNew vb → zerosIn vb = 0 → corr vb = [] → vb = [] := by
  intro vb
  induction vb with
  | nil => intro _ _ _; rfl
  | cons v vb ih =>
    intro h1 h2 h3
    have hv := h1 v (by simp)
    rw [zerosIn] at h2
    rw [corr] at h3
    by_cases h0 : v = 0
    · rw [if_pos h0] at h2; omega
    · rw [if_pos (by omega)] at h3; cases h3

/-- A block of a refinement scan. -/
theorem refine_write {d pre S preW : List Nat} {h : Huff} {ss se al : Nat} {e last : Int} {coeffs c : List Int} {C C1 C' : List Bool}
    {b : BlockOut} {bit : Bool} {vf vb : List Int} {s s1 s' : Coding} {w w1 w' : Writer}
    (hr : RefRead d pre S h ss se al e last coeffs C b bit C1 C' vf vb) (hs : Sync preW C e s w)
    (hal : ss = 0 → s.eobRun = 0) (hag : Agrees ss se al b.coeffs c)
    (h1 : (if b.ac.reset then flush s w else some (s, w)) = some (s1, w1))
    (hw : encodeRefinement c h ss se al s1 (reserve w1 512) = some (s', w')) :
    Sync preW C' b.ac.eob s' w' ∧ (ss = 0 → s'.eobRun = 0) := by
  have hmap : (bandOf ss se c).map (tq al) = vf ++ vb := by rw [hag.band, hr.band, map_tq_mul]
  unfold encodeRefinement at hw
  simp only [Option.bind_eq_some_iff] at hw
  obtain ⟨q, e1, e2⟩ := hw
  have hss : (if ss = 0 then 1 else ss) = max 1 ss := by split <;> omega
  rw [hss] at e2
  have hreset0 : ss = 0 → b.ac.reset = false := by
    intro h0
    by_cases hb : max 1 ss ≤ se
    · have hbr := (hr.some hb).2.2
      have he := (hs.winv (hal h0)).2.2
      have hbool : (ss != 0) = false := by simp [h0]
      rcases hbr.off he with ⟨_, _, g, _⟩ | ⟨_, g, _⟩
      · exact g
      · rw [g, hbool]; rfl
    · exact (hr.none (by omega)).2.2
  have hq : (ss = 0 → s1 = s ∧ WInv preW C1 q) ∧ (ss ≠ 0 → q = reserve w1 512) := by
    by_cases h0 : ss = 0
    · rw [if_pos h0] at e1
      obtain ⟨u, g1, g2, g3⟩ := hr.dc h0
      rw [hreset0 h0] at h1
      simp only [Bool.false_eq_true, if_false] at h1
      injection h1 with h1; injection h1 with a1 a2
      subst a1; subst a2
      have hdiv : c.headD 0 / ((2 ^ al : Nat) : Int) = 2 * u + bit01 bit := by
        rw [hag.dc h0, g3]
        exact Int.mul_ediv_cancel _ (by have := Nat.two_pow_pos al; omega)
      have hbb : bit01 bit < 2 := by cases bit <;> decide
      have hv : ((c.headD 0 / ((2 ^ al : Nat) : Int)) % 2).toNat = bit01 bit := by rw [hdiv]; omega
      rw [hv] at e1
      have hi := reserve_inv 512 (hs.winv (hal h0)).1
      have := (writeBits_inv hi (by decide) (by simpa using hbb) e1).1
      have hm : msb 1 (bit01 bit) = [bit] := by cases bit <;> decide
      rw [hm, ← g1] at this
      exact ⟨fun _ => ⟨rfl, this⟩, fun h => absurd h0 h⟩
    · rw [if_neg h0] at e1
      injection e1 with e1
      exact ⟨fun h => absurd h h0, fun _ => e1.symm⟩
  by_cases hb : max 1 ss ≤ se
  · rw [if_neg (by omega), Option.bind_eq_some_iff] at e2
    obtain ⟨p, e3, e5⟩ := e2
    obtain ⟨hen, hnn, hbr⟩ := hr.some hb
    have hband : (c.take (se + 1)).drop (max 1 ss) = bandOf ss se c := rfl
    rw [hband, lastNew_eq al _ vf vb hmap hen hnn] at e3
    obtain ⟨z, qb, sz, wz⟩ := p
    have hem : z = zerosIn vb ∧ qb = ((corr vb).map bit01).reverse ∧
        ∀ B F, (eager vf 0 [] ≠ [] → CanFlush preW s1 q B F) → Em preW h s1 q B F (eager vf 0 []) sz wz := by
      by_cases hv : vf = []
      · subst hv
        rw [List.nil_append] at hmap
        obtain ⟨g1, g2, g3, g4⟩ := refAc_back (bandOf ss se c) 0 [] s1 (by rw [hmap]; exact hnn) e3
        rw [hmap] at g1 g2
        exact ⟨by rw [g1]; omega, by simpa using g2, fun _ _ _ => .inl ⟨rfl, g3, g4⟩⟩
      · have hne := eager_ne vf 0 [] hen hv
        have hlz : lazily 0 [] vf = eager vf 0 [] := lazily_lt (by decide) _ _
        have hcod : ∀ t ∈ lazily 0 [] vf, Coded h t.1 := by rw [hlz]; exact hbr.coded
        have hsome : ∀ B F, CanFlush preW s1 q B F → z = zerosIn vb ∧ qb = ((corr vb).map bit01).reverse ∧
            Em preW h s1 q B F (eager vf 0 []) sz wz := by
          intro B F hcf
          have := refAc_front (bandOf ss se c) vf vb 0 [] s1 B F hv hmap hen hnn hcf hcod e3
          rw [hlz] at this
          exact this
        -- a flush is possible at all
        have hcan : ∃ B F, CanFlush preW s1 q B F := by
          by_cases he : 0 < e
          · exact absurd (hbr.on he).1 hne
          · by_cases h0 : ss = 0
            · obtain ⟨g1, g2⟩ := hq.1 h0
              subst g1
              obtain ⟨_, f2, f3⟩ := hs.winv (hal h0)
              exact ⟨C1, [], fun s2 w2 hf => by
                have := (sync_empty g2 f2 (hal h0) f3).flush f3 hf
                simpa using this⟩
            · rw [hq.2 h0]
              cases hrs : b.ac.reset with
              | true =>
                rw [hrs] at h1
                simp only [if_true] at h1
                obtain ⟨g1, g2⟩ := hs.flush (by omega) h1
                subst g1
                exact ⟨C, [], canFlush_flushed s (reserve_inv 512 g2)⟩
              | false =>
                rw [hrs] at h1
                simp only [Bool.false_eq_true, if_false] at h1
                injection h1 with h1; injection h1 with a1 a2
                subst a1; subst a2
                exact ⟨C, [], fun s2 w2 hf => by
                  have := (hs.mono (fun B hi => reserve_inv 512 hi)).flush (by omega) hf
                  simpa using this⟩
        obtain ⟨B, F, hcan⟩ := hcan
        obtain ⟨g1, g2, _⟩ := hsome B F hcan
        exact ⟨g1, g2, fun B F hcf => (hsome B F (hcf hne)).2.2⟩
    obtain ⟨g1, g2, hem⟩ := hem
    have hiff : (z > 0 ∨ qb ≠ []) ↔ vb ≠ [] := by
      constructor
      · rintro h rfl
        rcases h with h | h
        · rw [g1] at h; exact absurd h (by decide)
        · rw [g2] at h; exact h rfl
      · intro h
        by_cases hz : z > 0
        · exact .inl hz
        · right
          intro hqn
          rw [g2] at hqn
          exact h (noNew_nil hnn (by omega) (by simpa using hqn))
    have h3 : (if decide (vb ≠ []) then
        (bufferEndOfBand sz h ((corr vb).map bit01) wz).bind fun b => if (ss != 0) then some b else flush b.1 b.2
        else some (sz, wz)) = some (s', w') := by
      simp only at e5
      by_cases hvb : vb ≠ []
      · rw [if_pos (hiff.mpr hvb)] at e5
        rw [if_pos (by simpa using hvb)]
        rw [g2, List.reverse_reverse] at e5
        rw [Option.bind_eq_some_iff] at e5 ⊢
        obtain ⟨y, e6, e7⟩ := e5
        refine ⟨y, e6, ?_⟩
        by_cases h0 : ss = 0
        · rw [if_pos h0] at e7
          rw [if_neg (by simp [h0])]; exact e7
        · rw [if_neg h0] at e7
          rw [if_pos (by simp [h0])]; exact e7
      · rw [if_neg (fun h => hvb (hiff.mp h))] at e5
        rw [if_neg (by simpa using hvb)]; exact e5
    by_cases h0 : ss = 0
    · obtain ⟨g1, g2⟩ := hq.1 h0
      subst g1
      obtain ⟨_, f2, f3⟩ := hs.winv (hal h0)
      have := sync_band (s1 := s1) (w := q) (w1 := q) (w1' := q) (sync_empty g2 f2 (hal h0) f3) hbr (fun _ => hal h0)
        (by rw [hreset0 h0]; rfl) (fun _ h => h) hem h3
      exact ⟨this.1, fun _ => this.2 (by simp [h0])⟩
    · have hC := hr.nodc h0
      subst hC
      have := sync_band (w1' := q) hs hbr (fun h => absurd h (by simp [h0])) h1
        (fun B hi => by rw [hq.2 h0]; exact reserve_inv 512 hi) hem h3
      exact ⟨this.1, fun h => absurd h h0⟩
  · rw [if_pos (by omega)] at e2
    injection e2 with e2; injection e2 with a1 a2
    subst a1; subst a2
    obtain ⟨n1, n2, n3⟩ := hr.none (by omega)
    rw [n1, n2]
    by_cases h0 : ss = 0
    · obtain ⟨g1, g2⟩ := hq.1 h0
      subst g1
      obtain ⟨_, f2, f3⟩ := hs.winv (hal h0)
      exact ⟨sync_empty g2 f2 (hal h0) f3, hal⟩
    · rw [n3] at h1
      simp only [Bool.false_eq_true, if_false] at h1
      injection h1 with h1; injection h1 with a1 a2
      subst a1; subst a2
      rw [hr.nodc h0, hq.2 h0]
      exact ⟨hs.mono fun B hi => reserve_inv 512 hi, hal⟩

end Jxl.Jpeg
