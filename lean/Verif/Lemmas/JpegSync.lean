import Verif.Lemmas.JpegParseBits
/-!
# Parser and writer in step

The writer keeps a run of ends of band, and the correction bits that follow it, until the run is over; the parser has
then read the length of the whole run in advance.
-/
namespace Jxl.Jpeg

/-- `C` are the bits read so far in the segment, `e` is the parser's `eobrun`. -/
def Sync (pre : List Nat) (C : List Bool) (e : Int) (s : Coding) (w : Writer) : Prop :=
  ∃ B pend, WInv pre B w ∧ Held s pend ∧ C = B ++ runBits s.huff (s.eobRun + e.toNat) ++ pend ∧
    s.eobRun + e.toNat ≤ 0x7FFF ∧ s.eobRun < 0x7FFF ∧ (s.eobRun = 0 → e ≤ 0) ∧
    (0 < s.eobRun → 0 ≤ e ∧ Coded s.huff (16 * Nat.log2 (s.eobRun + e.toNat)))

/-- What reading the band of a block took from the input: symbols `X`, then possibly (`f`) an end of band, with
correction bits `K`. -/
structure BandRead (h : Huff) (allowed : Bool) (C C' : List Bool) (e e' : Int) (rs : Bool) (X : List Tok) (f : Bool)
    (K : List Bool) : Prop where
  coded : ∀ t ∈ X, Coded h t.1
  short : K.length ≤ 63
  on : 0 < e → X = [] ∧ f = true ∧ rs = false ∧ C' = C ++ K ∧ e' = e - 1
  off : e ≤ 0 → (f = false ∧ X ≠ [] ∧ rs = false ∧ C' = C ++ tokBits h X ∧ e' = e - 1) ∨
    (f = true ∧ rs = (allowed && X.isEmpty && e == 0) ∧ ∃ R : Nat, 1 ≤ R ∧ R ≤ 0x7FFF ∧
      C' = C ++ tokBits h X ++ runBits h R ++ K ∧ Coded h (16 * Nat.log2 R) ∧ e' = R - 1 ∧ (allowed = false → R = 1))

theorem runBits_zero (h : Huff) : runBits h 0 = [] := rfl

theorem sync_empty {pre C w} {s : Coding} {e : Int} (hi : WInv pre C w) (hh : Held s []) (h0 : s.eobRun = 0) (he : e ≤ 0) :
    Sync pre C e s w := by
  refine ⟨C, [], hi, hh, ?_, by omega, by omega, fun _ => he, fun h => by omega⟩
  have : e.toNat = 0 := by omega
  rw [this, h0]; simp [runBits_zero]

theorem Sync.flush {pre C e s w} (h : Sync pre C e s w) (he : e ≤ 0) {s' w'} (hf : flush s w = some (s', w')) :
    s' = flushed s ∧ WInv pre C w' := by
  obtain ⟨B, pend, h1, h2, h3, h4, h5, h6, h7⟩ := h
  have he0 : e.toNat = 0 := by omega
  rw [he0, Nat.add_zero] at h3 h7
  have := flush_bits h1 h2 (by omega) (fun h => (h7 h).2) hf
  rw [h3]
  exact this

/-- The band of a block: the writer does what the parser has read. -/
theorem sync_band {pre : List Nat} {h : Huff} {allowed : Bool} {C C' : List Bool} {e e' : Int} {rs f : Bool} {X : List Tok}
    {K : List Bool} {s s1 s2 s3 : Coding} {w w1 w1' w2 w3 : Writer} (hs : Sync pre C e s w)
    (hr : BandRead h allowed C C' e e' rs X f K) (hal : allowed = false → s.eobRun = 0)
    (h1 : (if rs then flush s w else some (s, w)) = some (s1, w1)) (hw : ∀ B, WInv pre B w1 → WInv pre B w1')
    (hem : ∀ B F, (X ≠ [] → CanFlush pre s1 w1' B F) → Em pre h s1 w1' B F X s2 w2)
    (h3 : (if f then (bufferEndOfBand s2 h (K.map bit01) w2).bind fun b => if allowed then some b else flush b.1 b.2
      else some (s2, w2)) = some (s3, w3)) :
    Sync pre C' e' s3 w3 ∧ (allowed = false → s3.eobRun = 0) := by
  by_cases he : 0 < e
  · obtain ⟨rfl, rfl, rfl, rfl, rfl⟩ := hr.on he
    obtain ⟨B, pend, k1, k2, k3, k4, k5, k6, k7⟩ := hs
    have hpos : 0 < s.eobRun := by
      rcases Nat.eq_zero_or_pos s.eobRun with h0 | h0
      · exact absurd (k6 h0) (by omega)
      · exact h0
    cases allowed with
    | false => have := hal rfl; omega
    | true =>
      simp only [Bool.false_eq_true, if_false] at h1
      injection h1 with h1; injection h1 with a1 a2
      subst a1; subst a2
      have hi := hw B k1
      rcases hem B [] (fun h => absurd rfl h) with ⟨_, rfl, rfl⟩ | ⟨h, _⟩
      · simp only [if_true] at h3
        rw [Option.bind_eq_some_iff] at h3
        obtain ⟨b, e1, e2⟩ := h3
        injection e2 with e2
        subst e2
        rw [bufferEndOfBand_eq] at e1
        obtain ⟨m1, m2, m3⟩ := buffered_held (ac := h) k2 hr.short
        rw [if_neg (by omega)] at m3
        generalize buffered s2 h (K.map bit01) = sb at *
        have hsum : sb.eobRun + (e - 1).toNat = s2.eobRun + e.toNat := by omega
        refine ⟨?_, fun h => by cases h⟩
        by_cases hmax : sb.eobRun = 0x7FFF
        · rw [if_pos hmax] at e1
          have htot : sb.eobRun = s2.eobRun + e.toNat := by omega
          obtain ⟨g1, g2⟩ := flush_bits hi m1 (by omega) (fun _ => by rw [m3, htot]; exact (k7 hpos).2) e1
          rw [m3, htot] at g2
          subst g1
          refine sync_empty ?_ (held_flushed sb) rfl (by omega)
          rw [k3]
          simpa using g2
        · rw [if_neg hmax] at e1
          injection e1 with e1; injection e1 with a1 a2
          subst a1; subst a2
          refine ⟨B, pend ++ K, hi, m1, ?_, by omega, by omega, fun h => by omega, fun _ => ⟨by omega, ?_⟩⟩
          · rw [m3, hsum, k3]; simp
          · rw [m3, hsum]; exact (k7 hpos).2
      · exact absurd rfl h
  · have he : e ≤ 0 := by omega
    have mid : ∃ B F, C = B ++ F ∧ WInv pre B w1' ∧ CanFlush pre s1 w1' B F ∧ (s1.eobRun = 0 → F = [] ∧ Held s1 []) ∧
        (rs = true → s1.eobRun = 0) ∧ (rs = false → s1 = s) := by
      cases rs with
      | true =>
        simp only [if_true] at h1
        obtain ⟨g1, g2⟩ := hs.flush he h1
        subst g1
        exact ⟨C, [], by simp, hw _ g2, canFlush_flushed s (hw _ g2), fun _ => ⟨rfl, held_flushed s⟩, fun _ => rfl,
          fun h => by cases h⟩
      | false =>
        simp only [Bool.false_eq_true, if_false] at h1
        injection h1 with h1; injection h1 with a1 a2
        subst a1; subst a2
        obtain ⟨B, pend, k1, k2, k3, k4, k5, k6, k7⟩ := hs
        have he0 : e.toNat = 0 := by omega
        rw [he0, Nat.add_zero] at k3 k7
        refine ⟨B, runBits s.huff s.eobRun ++ pend, by rw [k3]; simp, hw _ k1, ?_, ?_, (fun h => by cases h), fun _ => rfl⟩
        · intro s2 w2 hf
          have := flush_bits (hw _ k1) k2 (by omega) (fun h => (k7 h).2) hf
          rw [← List.append_assoc]
          exact this
        · intro h0
          have hp0 := k2.zero h0
          rw [hp0] at k2
          exact ⟨by rw [h0, hp0]; rfl, k2⟩
    obtain ⟨B, F, m1, m2, m3, m4, m5, m6⟩ := mid
    have em := hem B F (fun _ => m3)
    rcases hr.off he with ⟨rfl, r2, r3, r4, r5⟩ | ⟨rfl, r2, R, r3, r4, r5, r6, r7, r8⟩
    · simp only [Bool.false_eq_true, if_false] at h3
      injection h3 with h3; injection h3 with a1 a2
      subst a1; subst a2
      rcases em with ⟨h, _⟩ | ⟨_, g1, g2⟩
      · exact absurd h r2
      · subst g1
        refine ⟨sync_empty ?_ (held_flushed s1) rfl (by omega), fun _ => rfl⟩
        rw [r4, m1]; exact g2
    · have hz : s2.eobRun = 0 ∧ Held s2 [] ∧ WInv pre (C ++ tokBits h X) w2 := by
        rcases em with ⟨hX, g1, g2⟩ | ⟨_, g1, g2⟩
        · subst hX; subst g1; subst g2
          have h0 : s2.eobRun = 0 := by
            cases hrs : rs with
            | true => exact m5 hrs
            | false =>
              rw [m6 hrs]
              cases allowed with
              | false => exact hal rfl
              | true =>
                obtain ⟨B, pend, k1, k2, k3, k4, k5, k6, k7⟩ := hs
                rw [hrs] at r2
                simp at r2
                rcases Nat.eq_zero_or_pos s.eobRun with h | h
                · exact h
                · have := (k7 h).1; omega
          obtain ⟨f1, f2⟩ := m4 h0
          refine ⟨h0, f2, ?_⟩
          rw [m1, f1]
          simpa [tokBits] using m2
        · subst g1
          refine ⟨rfl, held_flushed s1, ?_⟩
          rw [m1]; exact g2
      obtain ⟨z1, z2, z3⟩ := hz
      simp only [if_true] at h3
      rw [Option.bind_eq_some_iff] at h3
      obtain ⟨b, e1, e2⟩ := h3
      rw [bufferEndOfBand_eq] at e1
      obtain ⟨n1, n2, n3⟩ := buffered_held (ac := h) z2 hr.short
      rw [if_pos z1] at n3
      rw [z1] at n2
      generalize buffered s2 h (K.map bit01) = sb at *
      rw [if_neg (by omega)] at e1
      injection e1 with e1
      subst e1
      rw [List.nil_append] at n1
      cases allowed with
      | true =>
        simp only [if_true] at e2
        injection e2 with e2; injection e2 with a1 a2
        subst a1; subst a2
        refine ⟨⟨C ++ tokBits h X, K, z3, n1, ?_, by omega, by omega, fun h => by omega, fun _ => ⟨by omega, ?_⟩⟩,
          fun h => by cases h⟩
        · have : sb.eobRun + e'.toNat = R := by omega
          rw [this, n3, r5]
        · have : sb.eobRun + e'.toNat = R := by omega
          rw [this, n3]; exact r6
      | false =>
        have hR := r8 rfl
        subst hR
        simp only [Bool.false_eq_true, if_false] at e2
        obtain ⟨g1, g2⟩ := flush_bits z3 n1 (by omega) (fun _ => by rw [n3, n2]; exact r6) e2
        subst g1
        refine ⟨sync_empty ?_ (held_flushed sb) rfl (by omega), fun _ => rfl⟩
        rw [n3, n2] at g2
        rw [r5]; exact g2

end Jxl.Jpeg
