import Verif.Lemmas.JpegFile
import Verif.Lemmas.JpegScanSafe
/-!
# Coefficients and zero runs a first scan can leave
-/
namespace Jxl.Jpeg

theorem readBits_small {d : List Nat} {r : Reader} {n : Nat} {q} (h : readBits d r n = some q) : q.1 < 2 ^ n := by
  unfold readBits at h
  rw [Option.bind_eq_some_iff] at h
  obtain ⟨r1, _, h⟩ := h
  split at h
  · cases h
  · injection h with h
    subst h
    have := Nat.two_pow_pos n
    have : (r1.val >>> (r1.left - n)) &&& (2 ^ n - 1) ≤ 2 ^ n - 1 := Nat.and_le_right
    show (r1.val >>> (r1.left - n)) &&& (2 ^ n - 1) < 2 ^ n
    omega

theorem huffExtend_small {x b : Nat} (hx : x < 2 ^ b) : (huffExtend x b).natAbs ≤ 2 ^ b - 1 := by
  have hb := Nat.two_pow_pos b
  unfold huffExtend
  split <;> omega

theorem shifted_small {v : Int} {b al : Nat} (hv : v.natAbs ≤ 2 ^ b - 1) (h : b + al < 12) :
    (v * ((2 ^ al : Nat) : Int)).natAbs ≤ 2047 := by
  rw [Int.natAbs_mul, Int.natAbs_natCast]
  have h1 := Nat.mul_le_mul_right (2 ^ al) hv
  have h2 : 2 ^ b * 2 ^ al ≤ 2 ^ 11 := by
    rw [← Nat.pow_add]; exact Nat.pow_le_pow_right (by decide) (by omega)
  rw [Nat.sub_mul, Nat.one_mul] at h1
  have := Nat.two_pow_pos al
  omega

theorem parseAc_range (d : List Nat) (t : List LutEntry) (al : Nat) (allowed : Bool) :
    ∀ (n : Nat) (first : Bool) (cs : List Int) (s : AcState) (z), (∀ c ∈ cs, c.natAbs ≤ 2047) →
      parseAc d t al allowed n first cs s = some (some z) →
      z.1.length = cs.length ∧ (∀ c ∈ z.1, c.natAbs ≤ 2047) ∧ z.2.runs ≤ s.runs + (cs.length + 15) / 16 := by
  intro n
  induction n with
  | zero =>
    intro first cs s z hc h
    rw [parseAc] at h
    split at h
    · rename_i h0
      injection h with h; injection h with h
      subst h; subst h0
      exact ⟨rfl, hc, by simp⟩
    · cases h
  | succ n ih =>
    intro first cs s z hc h
    rw [parseAc] at h
    by_cases h0 : cs = []
    · rw [if_pos h0] at h
      injection h with h; injection h with h
      subst h; subst h0
      exact ⟨rfl, hc, by simp⟩
    rw [if_neg h0] at h
    obtain ⟨p, _, h⟩ := andThen_some h
    by_cases h1 : p.1 ≥ 256
    · rw [if_pos h1] at h; simp at h
    rw [if_neg h1] at h
    simp only at h
    by_cases h2 : p.1 % 16 > 0
    · rw [if_pos h2] at h
      by_cases h3 : p.1 / 16 ≥ cs.length
      · rw [if_pos h3] at h; simp at h
      rw [if_neg h3] at h
      by_cases h4 : p.1 % 16 + al ≥ 12
      · rw [if_pos h4] at h; simp at h
      rw [if_neg h4] at h
      obtain ⟨q, e1, h⟩ := andThen_some h
      have e1 := readBits_small (always_some e1)
      obtain ⟨y, e2, h⟩ := andThen_some h
      injection h with h; injection h with h
      subst h
      obtain ⟨i1, i2, i3⟩ := ih _ _ _ _ (fun c hc' => hc c (List.mem_of_mem_drop hc')) e2
      rw [List.length_drop] at i1 i3
      refine ⟨?_, ?_, ?_⟩
      · rw [List.length_append, List.length_cons, List.length_take, i1]; omega
      · intro c hc'
        rcases List.mem_append.mp hc' with hc' | hc'
        · exact hc c (List.mem_of_mem_take hc')
        · rcases List.mem_cons.mp hc' with rfl | hc'
          · exact shifted_small (huffExtend_small e1) (by omega)
          · exact i2 c hc'
      · show y.2.runs ≤ _
        simp only at i3
        omega
    · rw [if_neg h2] at h
      by_cases h3 : p.1 / 16 = 15
      · rw [if_pos h3] at h
        obtain ⟨y, e2, h⟩ := andThen_some h
        injection h with h; injection h with h
        subst h
        obtain ⟨i1, i2, i3⟩ := ih _ _ _ _ (fun c hc' => hc c (List.mem_of_mem_drop hc')) e2
        rw [List.length_drop] at i1 i3
        have hpos : 0 < cs.length := List.length_pos_iff.mpr h0
        refine ⟨?_, ?_, ?_⟩
        · rw [List.length_append, List.length_take, i1]; omega
        · intro c hc'
          rcases List.mem_append.mp hc' with hc' | hc'
          · exact hc c (List.mem_of_mem_take hc')
          · exact i2 c hc'
        · show y.2.runs ≤ _
          simp only at i3
          omega
      · rw [if_neg h3] at h
        obtain ⟨y, e2, h⟩ := andThen_some h
        injection h with h; injection h with h
        subst h
        refine ⟨rfl, hc, ?_⟩
        have : y.runs = s.runs := by
          unfold parseEob at e2
          simp only at e2
          split at e2
          · split at e2
            · have e2 := always_some e2
              rw [Option.bind_eq_some_iff] at e2
              obtain ⟨q, _, e2⟩ := e2
              injection e2 with e2
              rw [← e2]
            · simp at e2
          · injection e2 with e2; injection e2 with e2
            rw [← e2]
        show y.runs ≤ _
        omega

theorem parseBand_range {d : List Nat} {t : List LutEntry} {al : Nat} {allowed : Bool} {cs : List Int} {eob : Int} {r : Reader} {z}
    (hl : cs.length ≤ 63) (hc : ∀ c ∈ cs, c.natAbs ≤ 2047) (h : parseBand d t al allowed cs eob r = some (some z)) :
    z.1.length = cs.length ∧ (∀ c ∈ z.1, c.natAbs ≤ 2047) ∧ z.2.runs ≤ 4 := by
  unfold parseBand at h
  split at h
  · injection h with h; injection h with h
    subst h
    exact ⟨rfl, hc, by show 0 ≤ 4; decide⟩
  · obtain ⟨y, e, h⟩ := andThen_some h
    injection h with h; injection h with h
    subst h
    obtain ⟨i1, i2, i3⟩ := parseAc_range d t al allowed _ _ _ _ _ hc e
    refine ⟨i1, i2, ?_⟩
    show y.2.runs ≤ 4
    simp only at i3
    omega

/-- A block of 64 coefficients whose AC coefficients have at most 11 bits. -/
def Narrow (cs : List Int) : Prop := cs.length = 64 ∧ ∀ c ∈ cs.drop 1, c.natAbs ≤ 2047

theorem withBand_range {d : List Nat} {t : List LutEntry} {ss se al : Nat} {allowed : Bool} {cs : List Int} {last eob : Int} {r : Reader} {b}
    (hse : se ≤ 63) (hn : Narrow cs) (h : withBand ss se cs last eob r (parseBand d t al allowed) = some (some b)) :
    Narrow b.coeffs ∧ b.ac.runs ≤ 4 := by
  unfold withBand at h
  split at h
  · injection h with h; injection h with h
    subst h
    exact ⟨hn, by show 0 ≤ 4; decide⟩
  · rename_i hss
    obtain ⟨z, e, h⟩ := andThen_some h
    injection h with h; injection h with h
    subst h
    obtain ⟨hl, hc⟩ := hn
    have hbl : ((cs.take (se + 1)).drop (max 1 ss)).length = se + 1 - max 1 ss := by
      rw [List.length_drop, List.length_take, hl]; omega
    obtain ⟨i1, i2, i3⟩ := parseBand_range (by omega) (by
      intro c hc'
      apply hc
      have : c ∈ cs.drop (max 1 ss) := by
        rw [List.drop_take] at hc'
        exact List.mem_of_mem_take hc'
      have hx : max 1 ss = 1 + (max 1 ss - 1) := by omega
      rw [hx, ← List.drop_drop] at this
      exact List.mem_of_mem_drop this) e
    refine ⟨⟨?_, ?_⟩, i3⟩
    · show (putBand (max 1 ss) se cs z.1).length = 64
      unfold putBand
      rw [List.length_append, List.length_append, List.length_take, List.length_drop, i1, hbl]
      omega
    · show ∀ c ∈ (putBand (max 1 ss) se cs z.1).drop 1, _
      unfold putBand
      intro c hc'
      rw [List.append_assoc, List.drop_append_of_le_length (by rw [List.length_take]; omega), List.mem_append, List.mem_append] at hc'
      rcases hc' with hc' | hc' | hc'
      · rw [List.drop_take] at hc'
        exact hc c (List.mem_of_mem_take hc')
      · exact i2 c hc'
      · apply hc
        have hx : se + 1 = 1 + se := by omega
        rw [hx, ← List.drop_drop] at hc'
        exact List.mem_of_mem_drop hc'

theorem set_zero_narrow {cs : List Int} (h : Narrow cs) (v : Int) : Narrow (cs.set 0 v) := by
  obtain ⟨h1, h2⟩ := h
  cases cs with
  | nil => exact ⟨h1, h2⟩
  | cons c cs => exact ⟨h1, h2⟩

theorem parseBlock_range {m : Mode} (hm : ModeOk m) (hr : m.refining = false) {d : List Nat} {t0 t : List LutEntry} {eob last : Int} {cs : List Int}
    {r : Reader} {b} (hn : Narrow cs) (h : parseBlock m d t0 t eob last cs r = some (some b)) : Narrow b.coeffs ∧ b.ac.runs ≤ 4 := by
  have key : ∀ ss se al, se ≤ 63 → decodeBlock d t0 t ss se al eob last cs r = some (some b) → Narrow b.coeffs ∧ b.ac.runs ≤ 4 := by
    intro ss se al hse h
    unfold decodeBlock at h
    split at h
    · obtain ⟨p, _, h⟩ := andThen_some h
      exact withBand_range hse (set_zero_narrow hn _) h
    · exact withBand_range hse hn h
  cases m with
  | sequential => exact key _ _ _ (by decide) h
  | first ss se al => exact key _ _ _ hm.2 h
  | refine => cases hr

theorem parseUnits_range {m : Mode} (hm : ModeOk m) (hr : m.refining = false) {d : List Nat} : ∀ (us : List ScanUnit) (st st' : ParseState),
    (∀ c i, Narrow (st.store c i)) → (∀ x ∈ st.runs, x.2 ≤ 4) → parseUnits m d us st = some (some st') →
    (∀ c i, Narrow (st'.store c i)) ∧ ∀ x ∈ st'.runs, x.2 ≤ 4 := by
  intro us
  induction us with
  | nil =>
    intro st st' h1 h2 h
    injection h with h; injection h with h
    subst h
    exact ⟨h1, h2⟩
  | cons u us ih =>
    intro st st' h1 h2 h
    rw [parseUnits] at h
    obtain ⟨st1, e1, e2⟩ := andThen_some h
    cases u with
    | restart =>
      have e1 : parseRestart d st = some (some st1) := e1
      unfold parseRestart at e1
      obtain ⟨f, _, e1⟩ := andThen_some e1
      obtain ⟨ok, _, e1⟩ := andThen_some e1
      split at e1
      · obtain ⟨r, _, e1⟩ := andThen_some e1
        split at e1
        · simp at e1
        · injection e1 with e1; injection e1 with e1
          refine ih st1 st' ?_ ?_ e2
          · rw [← e1]; exact h1
          · rw [← e1]; exact h2
      · simp at e1
    | block comp idx dc ac =>
      have e1 : andThen (parseBlock m d dc.2 ac.2 st.eob (st.lastDc comp) (st.store comp idx) st.r) _ = some (some st1) := e1
      obtain ⟨b, e3, e1⟩ := andThen_some e1
      injection e1 with e1; injection e1 with e1
      obtain ⟨k1, k2⟩ := parseBlock_range hm hr (h1 comp idx) e3
      refine ih st1 st' ?_ ?_ e2
      · intro c i
        rw [← e1]
        show Narrow (if c = comp ∧ i = idx then b.coeffs else st.store c i)
        split
        · exact k1
        · exact h1 c i
      · intro x hx
        rw [← e1] at hx
        simp only at hx
        split at hx
        · rcases List.mem_append.mp hx with hx | hx
          · exact h2 x hx
          · simp at hx; rw [hx]; exact k2
        · exact h2 x hx

theorem empty_narrow : ∀ c i, Narrow (Store.empty c i) := by
  intro c i
  refine ⟨by simp [Store.empty], fun v hv => ?_⟩
  have := List.eq_of_mem_replicate (List.mem_of_mem_drop (show v ∈ (List.replicate 64 (0 : Int)).drop 1 from hv))
  rw [this]; decide

theorem parseFile_range {d : List Nat} {q : Nat} : ∀ (ss : List ScanIn) (p : Progress) (st : Store) (os : List ParsedScan) (fin : Store),
    (∀ s ∈ ss, ScanOk d q s) → (∀ s ∈ ss, s.mode.refining = false) → (∀ c i, Narrow (st c i)) →
    parseFile d ss p st = some (some (os, fin)) → (∀ c i, Narrow (fin c i)) ∧ ∀ o ∈ os, ∀ x ∈ o.runs, x.2 ≤ 4 := by
  intro ss
  induction ss with
  | nil =>
    intro p st os fin _ _ hn h
    injection h with h; injection h with h; injection h with h1 h2
    subst h1; subst h2
    exact ⟨hn, fun o ho => absurd ho List.not_mem_nil⟩
  | cons s ss ih =>
    intro p st os fin hok hr hn h
    rw [parseFile] at h
    split at h
    · simp at h
    split at h
    · simp at h
    obtain ⟨o, e1, h⟩ := andThen_some h
    obtain ⟨z, e2, h⟩ := andThen_some h
    injection h with h; injection h with h; injection h with h1 h2
    subst h1; subst h2
    have hs := hok s (List.mem_cons_self ..)
    have hone : (∀ c i, Narrow (o.store c i)) ∧ ∀ x ∈ o.runs, x.2 ≤ 4 := by
      unfold parseScan at e1
      obtain ⟨r, _, e1⟩ := andThen_some e1
      obtain ⟨st1, e3, e1⟩ := andThen_some e1
      split at e1
      · simp at e1
      obtain ⟨f, _, e1⟩ := andThen_some e1
      split at e1
      · simp at e1
      injection e1 with e1; injection e1 with e1
      rw [← e1]
      exact parseUnits_range hs.mode (hr s (List.mem_cons_self ..)) _ _ _ hn (fun x hx => absurd hx List.not_mem_nil) e3
    obtain ⟨i1, i2⟩ := ih _ _ _ _ (fun s h => hok s (List.mem_cons_of_mem _ h)) (fun s h => hr s (List.mem_cons_of_mem _ h)) hone.1 e2
    refine ⟨i1, ?_⟩
    intro x hx
    rcases List.mem_cons.mp hx with rfl | hx
    · exact hone.2
    · exact i2 x hx

theorem codeTable_ok {x : Table} (hx : InSlot x) : HuffOk (codeTable x.1) := by
  rcases hx with hx | hx
  case inr => rw [hx]; exact fun s _ => Or.inr rfl
  obtain ⟨hacc, _⟩ := fromFile_spec hx
  obtain ⟨_, c2⟩ := codeTable_spec hacc
  intro s _
  rcases c2 s with h | ⟨_, i, hi⟩
  · exact Or.inr h
  · exact Or.inl (hacc.len _ (List.mem_of_getElem? hi))

theorem writerSteps_ok {F : Store} (hF : ∀ c i, Narrow (F c i)) (hdc : ∀ c i, ((F c i).headD 0).natAbs ≤ 2047) : ∀ (us : List ScanUnit) (i : Nat)
    (ps : List Nat) (zs : List (Nat × Nat)), (∀ u ∈ us, TablesOk u) → (∀ x ∈ zs, x.2 ≤ 4) → ∀ x ∈ writerSteps F us i ps zs, StepOk x := by
  intro us
  induction us with
  | nil => intro i ps zs _ _ x hx; exact absurd hx List.not_mem_nil
  | cons u us ih =>
    intro i ps zs ht hz x hx
    cases u with
    | restart =>
      rw [writerSteps] at hx
      rcases List.mem_cons.mp hx with rfl | hx
      · trivial
      · exact ih i ps zs (fun u hu => ht u (List.mem_cons_of_mem _ hu)) hz x hx
    | block comp idx dc ac =>
      obtain ⟨t1, t2⟩ := ht _ (List.mem_cons_self ..)
      have hrun : (takeRun i zs).1 ≤ 4 ∧ ∀ x ∈ (takeRun i zs).2, x.2 ≤ 4 := by
        cases zs with
        | nil => exact ⟨by show 0 ≤ 4; decide, hz⟩
        | cons z zs =>
          rw [takeRun]
          split
          · exact ⟨hz z (List.mem_cons_self ..), fun x hx => hz x (List.mem_cons_of_mem _ hx)⟩
          · exact ⟨by show 0 ≤ 4; decide, hz⟩
      rw [writerSteps] at hx
      rcases List.mem_append.mp hx with hx | hx
      · split at hx
        · rcases List.mem_cons.mp hx with rfl | hx
          · trivial
          · exact absurd hx List.not_mem_nil
        · exact absurd hx List.not_mem_nil
      · rcases List.mem_cons.mp hx with rfl | hx
        · refine ⟨codeTable_ok t1, codeTable_ok t2, (hF comp idx).1, hdc comp idx, ?_, hrun.1⟩
          intro c hc
          have h1 := hF comp idx
          have h2 := hdc comp idx
          revert hc h1 h2
          generalize F comp idx = cs
          intro hc h1 h2
          cases cs with
          | nil => exact absurd hc List.not_mem_nil
          | cons a cs =>
            rcases List.mem_cons.mp hc with rfl | hc
            · have h2 : c.natAbs ≤ 2047 := h2
              omega
            · have := h1.2 c hc
              omega
        · exact ih _ _ _ (fun u hu => ht u (List.mem_cons_of_mem _ hu)) hrun.2 x hx

theorem encodeScan_some {m : Mode} (hr : m.refining = false) {xs : List Step} (pads : Option (List Nat)) (ac : Huff)
    (hx : ∀ x ∈ xs, StepOk x) : encodeScan m xs pads ac ≠ none := by
  cases m with
  | sequential => exact scan_end (runSteps_some (fun _ _ _ h => by cases h) xs _ (init_inv pads ac) hx)
  | first ss se al => exact scan_end (runSteps_some (fun _ _ _ h => by cases h) xs _ (init_inv pads ac) hx)
  | refine => cases hr

theorem writeFile_some {F : Store} (hF : ∀ c i, Narrow (F c i)) (hdc : ∀ c i, ((F c i).headD 0).natAbs ≤ 2047) (ac : Huff) :
    ∀ (xs : List (ScanIn × ParsedScan)) (pads : Option (List Nat)), (∀ x ∈ xs, x.1.mode.refining = false) →
      (∀ x ∈ xs, ∀ u ∈ x.1.units, TablesOk u) → (∀ x ∈ xs, ∀ z ∈ x.2.runs, z.2 ≤ 4) → writeFile F ac xs pads ≠ none := by
  intro xs
  induction xs with
  | nil => intro pads _ _ _ h; cases h
  | cons x xs ih =>
    intro pads hr ht hz h
    rw [writeFile, andThen] at h
    have h1 := encodeScan_some (hr x (List.mem_cons_self ..)) pads ac
      (writerSteps_ok hF hdc x.1.units 0 x.2.points x.2.runs (ht x (List.mem_cons_self ..)) (hz x (List.mem_cons_self ..)))
    cases he : encodeScan x.1.mode (writerSteps F x.1.units 0 x.2.points x.2.runs) pads ac with
    | none => exact h1 he
    | some y =>
      rw [he] at h
      cases y with
      | none => cases h
      | some ws =>
        simp only [Option.bind_some] at h
        split at h
        · have h2 := ih ws.pads (fun x hx => hr x (List.mem_cons_of_mem _ hx)) (fun x hx => ht x (List.mem_cons_of_mem _ hx))
            (fun x hx => hz x (List.mem_cons_of_mem _ hx))
          rw [andThen] at h
          cases he2 : writeFile F ac xs ws.pads with
          | none => exact h2 he2
          | some y => rw [he2] at h; cases y <;> cases h
        · cases h

end Jxl.Jpeg
