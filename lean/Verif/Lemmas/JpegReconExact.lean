import Verif.Lemmas.JpegReconSafe
/-!
# JPEG reconstruction data: sound data can be written
-/
namespace Jxl.Jpeg

theorem both_ok {a b : Option (List Bool)} (ha : ∃ x, a = some x) (hb : ∃ x, b = some x) : ∃ x, both a b = some x := by
  obtain ⟨x, rfl⟩ := ha
  obtain ⟨y, rfl⟩ := hb
  exact ⟨x ++ y, rfl⟩

theorem only_ok {b : Bool} (h : b = true) : ∃ x, only b = some x := by subst h; exact ⟨[], rfl⟩

theorem onlyDec_ok {p : Prop} [Decidable p] (h : p) : ∃ x, only (decide p) = some x := only_ok (decide_eq_true h)

theorem writeBool_ok (b : Bool) : ∃ x, writeBool b = some x := ⟨_, rfl⟩

theorem field_ok {n v : Nat} (h : v < 2 ^ n) : ∃ x, writeBitsField n v = some x := by
  unfold writeBitsField
  rw [if_neg (by omega)]
  exact ⟨_, rfl⟩

theorem writeAll_ok {α : Type} {f : α → Option (List Bool)} : ∀ {l : List α}, (∀ x ∈ l, ∃ b, f x = some b) → ∃ b, writeAll f l = some b
  | [], _ => ⟨[], rfl⟩
  | x :: xs, h => by
    obtain ⟨a, ha⟩ := h x (by simp)
    obtain ⟨b, hb⟩ := writeAll_ok (l := xs) (fun y hy => h y (by simp [hy]))
    rw [writeAll, ha, hb]
    exact ⟨a ++ b, rfl⟩

theorem u32_ok {e : U32.Enc} {v t : Nat} (ht : t < 4) (h : U32.Represents (e.get t) v) : ∃ b, U32.write e v = some b := by
  rw [← Option.ne_none_iff_exists']
  exact fun hn => U32.chooseSelector_none.mp (U32.write_none.mp hn) t ht h

theorem u32_in {e : U32.Enc} (t lo hi : Nat) (hc : t < 4 ∧ U32.isDirect (e.get t) = false ∧ U32.offset (e.get t) ≤ lo ∧
    hi < U32.offset (e.get t) + 2 ^ U32.extraBits (e.get t)) {v : Nat} (h1 : lo ≤ v) (h2 : v ≤ hi) : ∃ b, U32.write e v = some b := by
  refine u32_ok hc.1 ?_
  unfold U32.Represents
  rw [hc.2.1]
  simp only [Bool.false_eq_true, if_false]
  omega

theorem u32_val {e : U32.Enc} (t : Nat) {v : Nat} (hc : t < 4 ∧ U32.isDirect (e.get t) = true ∧ U32.direct (e.get t) = v) :
    ∃ b, U32.write e v = some b := by
  refine u32_ok hc.1 ?_
  unfold U32.Represents
  rw [hc.2.1]
  exact hc.2.2.symm

theorem appType_ok {v : Nat} (h : v ≤ 3) : ∃ b, U32.write appTypeEnc v = some b := by
  rcases (by omega : v = 0 ∨ v = 1 ∨ 2 ≤ v) with rfl | rfl | h1
  · exact u32_val 0 (by decide)
  · exact u32_val 1 (by decide)
  · exact u32_in 2 2 3 (by decide) h1 h

theorem oneToFour_ok {v : Nat} (h1 : 1 ≤ v) (h2 : v ≤ 4) : ∃ b, U32.write oneToFourEnc v = some b := by
  rcases (by omega : v = 1 ∨ v = 2 ∨ v = 3 ∨ v = 4) with rfl | rfl | rfl | rfl
  · exact u32_val 0 (by decide)
  · exact u32_val 1 (by decide)
  · exact u32_val 2 (by decide)
  · exact u32_val 3 (by decide)

theorem numHuff_ok {v : Nat} (h1 : 2 ≤ v) (h2 : v ≤ 89) : ∃ b, U32.write numHuffEnc v = some b := by
  rcases (by omega : v ≤ 9 ∨ (10 ≤ v ∧ v ≤ 25) ∨ 26 ≤ v) with h | h | h
  · exact u32_in 1 2 9 (by decide) h1 h
  · exact u32_in 2 10 25 (by decide) h.1 h.2
  · exact u32_in 3 26 89 (by decide) h h2

theorem count_ok {v : Nat} (h : v ≤ 255) : ∃ b, U32.write countEnc v = some b := u32_in 3 0 255 (by decide) (Nat.zero_le _) h

theorem symbol_ok {v : Nat} (h : v ≤ 256) : ∃ b, U32.write symbolEnc v = some b := by
  rcases (by omega : v ≤ 3 ∨ 1 ≤ v) with h1 | h1
  · exact u32_in 0 0 3 (by decide) (Nat.zero_le _) h1
  · exact u32_in 3 1 256 (by decide) h1 h

theorem pass_ok {v : Nat} (h : v ≤ 10) : ∃ b, U32.write passEnc v = some b := by
  rcases (by omega : v = 0 ∨ v = 1 ∨ v = 2 ∨ 3 ≤ v) with rfl | rfl | rfl | h1
  · exact u32_val 0 (by decide)
  · exact u32_val 1 (by decide)
  · exact u32_val 2 (by decide)
  · exact u32_in 3 3 10 (by decide) h1 h

theorem numPoints_ok {v : Nat} (h : v ≤ 65555) : ∃ b, U32.write numPointsEnc v = some b := by
  rcases (by omega : v = 0 ∨ (1 ≤ v ∧ v ≤ 4) ∨ (4 ≤ v ∧ v ≤ 19) ∨ 20 ≤ v) with rfl | h1 | h1 | h1
  · exact u32_val 0 (by decide)
  · exact u32_in 1 1 4 (by decide) h1.1 h1.2
  · exact u32_in 2 4 19 (by decide) h1.1 h1.2
  · exact u32_in 3 20 65555 (by decide) h1 h

theorem blockDiff_ok {v : Nat} (h : v ≤ 2 ^ 28 + 40) : ∃ b, U32.write blockEnc v = some b := by
  rcases (by omega : v = 0 ∨ (1 ≤ v ∧ v ≤ 8) ∨ (9 ≤ v ∧ v ≤ 40) ∨ 41 ≤ v) with rfl | h1 | h1 | h1
  · exact u32_val 0 (by decide)
  · exact u32_in 1 1 8 (by decide) h1.1 h1.2
  · exact u32_in 2 9 40 (by decide) h1.1 h1.2
  · exact u32_in 3 41 (2 ^ 28 + 40) (by decide) h1 h

theorem run_ok {v : Nat} (h1 : 1 ≤ v) (h2 : v ≤ 4) : ∃ b, U32.write runEnc v = some b := by
  rcases (by omega : v = 1 ∨ 2 ≤ v) with rfl | h
  · exact u32_val 0 (by decide)
  · exact u32_in 1 2 5 (by decide) h (by omega)

theorem tailSize_ok {v : Nat} (h : v ≤ 4260096) : ∃ b, U32.write tailEnc v = some b := by
  rcases (by omega : v = 0 ∨ (1 ≤ v ∧ v ≤ 256) ∨ (257 ≤ v ∧ v ≤ 65792) ∨ 65793 ≤ v) with rfl | h1 | h1 | h1
  · exact u32_val 0 (by decide)
  · exact u32_in 1 1 256 (by decide) h1.1 h1.2
  · exact u32_in 2 257 65792 (by decide) h1.1 h1.2
  · exact u32_in 3 65793 4260096 (by decide) h1 h

theorem u32_diff {n k : Nat} (h : k ≤ n) (hn : n < 2 ^ 32) : u32 (n + 2 ^ 32 - k) = n - k := by unfold u32; omega

theorem putMarkers_ok {ms : List Nat} (hl : ms.length ≤ 16384) (hm : ∀ m ∈ ms, 0xc0 ≤ m ∧ m ≤ 0xff) (he : ms.getLast? = some 0xd9) :
    ∃ b, putMarkers ms = some b := by
  refine both_ok (onlyDec_ok hl) (both_ok (writeAll_ok fun m h => ?_) (only_ok (by rw [he]; simp)))
  have := hm m h
  unfold putMarker
  rw [u32_diff (by omega) (by omega)]
  exact field_ok (by omega)

theorem putSize_ok {n : Nat} (h1 : 3 ≤ n) (h2 : n ≤ 65536) : ∃ b, putSize n = some b := by
  refine both_ok ?_ (onlyDec_ok h1)
  rw [u32_diff (by omega) (by omega)]
  exact field_ok (by omega)

theorem putApp_ok {a : Nat × Nat} (h : a.1 ≤ 3 ∧ 3 ≤ a.2 ∧ a.2 ≤ 65536) : ∃ b, putApp a = some b :=
  both_ok (appType_ok h.1) (both_ok (onlyDec_ok h.1) (putSize_ok h.2.1 h.2.2))

theorem putQuants_ok {qs : List QuantHead} (hl : 1 ≤ qs.length ∧ qs.length ≤ 3) (hq : ∀ q ∈ qs, q.precision ≤ 1 ∧ q.index ≤ 3) :
    ∃ b, putQuants qs = some b := by
  unfold putQuants
  rw [u32_small (by omega)]
  refine both_ok (oneToFour_ok hl.1 (by omega)) (both_ok (onlyDec_ok (by omega)) (writeAll_ok fun q h => ?_))
  have := hq q h
  exact both_ok (onlyDec_ok this.1) (both_ok (field_ok (by omega)) (both_ok (field_ok (by omega)) (writeBool_ok _)))

theorem putIds_ok {ids : List Nat} (hl : ids.length = 1 ∨ ids.length = 3) (hi : ∀ i ∈ ids, i ≤ 255) : ∃ b, putIds ids = some b := by
  unfold putIds
  rw [u32_small (by omega)]
  refine both_ok (field_ok ?_) ?_
  · rcases compType_cases ids with h | h | h | h
    · omega
    · omega
    · omega
    · omega
  · split
    · refine both_ok (oneToFour_ok (by omega) (by omega)) (both_ok (onlyDec_ok hl) (writeAll_ok fun i h => field_ok ?_))
      have := hi i h
      omega
    · exact ⟨[], rfl⟩

theorem quantOk_all {used : List Nat} {n : Nat} (h : 0 ∈ used) : quantOk (fun _ => true) used n = true := by
  unfold quantOk
  rw [List.all_eq_true]
  intro i _
  by_cases h0 : i = 0
  · subst h0; simp [h]
  · simp [h0]

theorem putFront_ok {r : Recon} (S : ReconSound r) : ∃ b, putFront (fun _ => true) r = some b := by
  have hc : countsOk r = true := by
    rw [countsOk_iff]
    refine ⟨Nat.pos_iff_ne_zero.mp (List.count_pos_iff.mpr S.sos), ?_, S.numCom, S.numScans⟩
    rw [S.numApp]
    exact (countP_same (fun m hm => isApp_range m (S.markers.2 m hm).2)).symm
  refine both_ok (writeBool_ok _) (both_ok (putMarkers_ok S.markers.1 S.markers.2 S.eoi.1) (both_ok (only_ok hc)
    (both_ok (writeAll_ok fun a h => putApp_ok (S.app a h)) (both_ok (writeAll_ok fun a h => putSize_ok (S.com a h).1 (S.com a h).2)
      (both_ok (putQuants_ok S.numQuant S.quant) (both_ok (putIds_ok ?_ ?_) (both_ok (writeAll_ok fun q h => ?_) (only_ok (quantOk_all ?_)))))))))
  · rw [List.length_map]; exact S.numComps
  · intro i hi
    obtain ⟨c, hc, rfl⟩ := List.mem_map.mp hi
    exact (S.comps c hc).1
  · obtain ⟨c, hc, rfl⟩ := List.mem_map.mp h
    have := (S.comps c hc).2
    have := S.numQuant
    exact both_ok (field_ok (by omega)) (onlyDec_ok (by omega))
  · obtain ⟨c, hc, h0⟩ := S.first
    exact List.mem_map.mpr ⟨c, hc, h0⟩

/-! ## Tables -/

theorem noteSymbols_total : ∀ {vs slots s' : List Nat}, noteSymbols slots vs = some s' → vs.Nodup → (∀ v ∈ vs, noted slots v = false) →
    totalOnes s' = totalOnes slots + vs.length
  | [], _, _, h, _, _ => by cases h; rfl
  | v :: vs, slots, s', h, hn, hf => by
    rw [noteSymbols] at h
    obtain ⟨s1, h1, h2⟩ := Option.bind_eq_some_iff.mp h
    obtain ⟨a1, a2, a3⟩ := noteSymbol_ok h1
    obtain ⟨n1, n2⟩ := List.nodup_cons.mp hn
    rw [noteSymbols_total h2 n2 (fun u hu => ?_), a2, hf v (by simp), List.length_cons]
    · simp only [Bool.false_eq_true, if_false]; omega
    · rw [a3, hf u (by simp [hu]), Bool.false_or, beq_eq_false_iff_ne]
      exact fun e => n1 (e ▸ hu)

theorem noteSymbols_words : ∀ {vs slots s' : List Nat}, noteSymbols slots vs = some s' → (∀ w ∈ slots, w < 2 ^ 64) → ∀ w ∈ s', w < 2 ^ 64
  | [], _, _, h, hw => by cases h; exact hw
  | v :: vs, slots, s', h, hw => by
    rw [noteSymbols] at h
    obtain ⟨s1, h1, h2⟩ := Option.bind_eq_some_iff.mp h
    refine noteSymbols_words h2 (fun w hm => ?_)
    unfold noteSymbol at h1
    obtain ⟨x, h3, h4⟩ := Option.bind_eq_some_iff.mp h1
    cases h4
    rcases List.mem_or_eq_of_mem_set hm with h | rfl
    · exact hw w h
    · refine Nat.or_lt_two_pow (hw x (List.mem_of_getElem? h3)) ?_
      rw [Nat.one_shiftLeft]
      exact Nat.pow_lt_pow_right (by decide) (by rw [and63]; omega)

theorem testBit_one (i : Nat) : Nat.testBit 1 i = decide (i = 0) := by
  have := Nat.testBit_two_pow (n := 0) (m := i)
  rw [Nat.pow_zero] at this
  rw [this]
  congr 1
  exact propext ⟨Eq.symm, Eq.symm⟩

theorem word_zero {w : Nat} (hw : w < 2 ^ 64) (h : ∀ i < 64, w.testBit i = false) : w = 0 := by
  refine Nat.eq_of_testBit_eq fun i => ?_
  rw [Nat.zero_testBit]
  by_cases hi : i < 64
  · exact h i hi
  · exact Nat.testBit_lt_two_pow (Nat.lt_of_lt_of_le hw (Nat.pow_le_pow_right (by decide) (by omega)))

theorem symbolsOk_of {ac : Bool} {vs : List Nat} (hn : vs.Nodup) (hl : vs.getLast? = some 256) (hv : ∀ v ∈ vs, v ≤ 256)
    (hd : ac = false → ∀ v ∈ vs, v = 256 ∨ v < 12) : symbolsOk ac vs = some true := by
  unfold symbolsOk
  obtain ⟨s, hs⟩ := Option.ne_none_iff_exists'.mp (noteSymbols_safe (slots := List.replicate 5 0) (by rfl) hv)
  obtain ⟨h1, _, h3, _⟩ := noteSymbols_ok hs
  have ht := noteSymbols_total hs hn (fun v _ => noted_zero v)
  have hw := noteSymbols_words hs (fun w h => by rw [List.mem_replicate] at h; rw [h.2]; decide)
  rw [hs, hl]
  simp only [Option.bind_some]
  have hb : ∀ u, noted s u = true ↔ u ∈ vs := fun u => by
    rw [h3, noted_zero]; simp
  match s, h1, ht, hw, hb with
  | [a, b, c, d, e], _, ht, hw, hb =>
    have hm : 256 ∈ vs := List.mem_of_getLast? hl
    have bitE : ∀ i < 64, e.testBit i = true ↔ 256 + i ∈ vs := fun i hi => by
      rw [← hb]; unfold noted
      rw [shr6, and63, show (256 + i) / 64 = 4 by omega, show (256 + i) % 64 = i by omega]; rfl
    have bitD : ∀ i < 64, d.testBit i = true ↔ 192 + i ∈ vs := fun i hi => by
      rw [← hb]; unfold noted
      rw [shr6, and63, show (192 + i) / 64 = 3 by omega, show (192 + i) % 64 = i by omega]; rfl
    have bitC : ∀ i < 64, c.testBit i = true ↔ 128 + i ∈ vs := fun i hi => by
      rw [← hb]; unfold noted
      rw [shr6, and63, show (128 + i) / 64 = 2 by omega, show (128 + i) % 64 = i by omega]; rfl
    have bitB : ∀ i < 64, b.testBit i = true ↔ 64 + i ∈ vs := fun i hi => by
      rw [← hb]; unfold noted
      rw [shr6, and63, show (64 + i) / 64 = 1 by omega, show (64 + i) % 64 = i by omega]; rfl
    have bitA : ∀ i < 64, a.testBit i = true ↔ i ∈ vs := fun i hi => by
      rw [← hb]; unfold noted
      rw [shr6, and63, show i / 64 = 0 by omega, show i % 64 = i by omega]; rfl
    have he : e = 1 := by
      refine Nat.eq_of_testBit_eq fun i => ?_
      by_cases hi : i < 64
      · rw [testBit_one, Bool.eq_iff_iff, bitE i hi, decide_eq_true_iff]
        constructor
        · intro h; have := hv _ h; omega
        · rintro rfl; exact hm
      · rw [testBit_one, Nat.testBit_lt_two_pow (Nat.lt_of_lt_of_le (hw e (by simp)) (Nat.pow_le_pow_right (by decide) (by omega)))]
        simp; omega
    have hcount : 1 + popCount a + popCount b + popCount c + popCount d = vs.length := by
      rw [totalOnes_zero] at ht
      simp only [totalOnes, List.map_cons, List.map_nil, List.sum_cons, List.sum_nil, he, popCount_one] at ht
      omega
    have hdc : (ac || (a >>> 12) ||| b ||| c ||| d == 0) = true := by
      cases hac : ac with
      | true => rfl
      | false =>
        have hd := hd hac
        have hB : b = 0 := word_zero (hw b (by simp)) fun i hi => by
          rw [← Bool.not_eq_true, bitB i hi]; intro h; have := hd _ h; omega
        have hC : c = 0 := word_zero (hw c (by simp)) fun i hi => by
          rw [← Bool.not_eq_true, bitC i hi]; intro h; have := hd _ h; omega
        have hD : d = 0 := word_zero (hw d (by simp)) fun i hi => by
          rw [← Bool.not_eq_true, bitD i hi]; intro h; have := hd _ h; omega
        have hA : a >>> 12 = 0 := word_zero (Nat.lt_of_le_of_lt (Nat.shiftRight_le _ _) (hw a (by simp))) fun i hi => by
          rw [Nat.testBit_shiftRight]
          by_cases h12 : 12 + i < 64
          · rw [← Bool.not_eq_true, bitA _ h12]; intro h; have := hd _ h; omega
          · exact Nat.testBit_lt_two_pow (Nat.lt_of_lt_of_le (hw a (by simp)) (Nat.pow_le_pow_right (by decide) (by omega)))
        rw [hA, hB, hC, hD]; rfl
    dsimp only
    rw [hdc, he, hcount]
    simp

theorem slot_bits : ∀ s ≤ 19, s ≤ 3 ∨ 16 ≤ s → s &&& 0xF < 4 ∧ ((s >>> 4 != 0) = false → s ≤ 3) := by decide

theorem putHuff_ok {h : ReconHuff} (S : HuffSound h) : ∃ b, putHuff h = some (some b) := by
  obtain ⟨h1, ⟨h2, h3, h4⟩, h5⟩ := S
  obtain ⟨k1, k2⟩ := slot_bits h.slot (by rcases h1 with h | h <;> omega) (by rcases h1 with h | h <;> omega)
  have hbits : ∃ b, putHuffBits h = some b := by
    refine both_ok (writeBool_ok _) (both_ok (field_ok k1) (both_ok (writeBool_ok _) (both_ok (writeAll_ok fun c hc => count_ok (h4 c hc)) ?_)))
    split
    · exact ⟨[], rfl⟩
    · rename_i h0
      have hne : h.values ≠ [] := fun e => by rw [e] at h3; exact h0 h3.symm
      obtain ⟨q1, q2, q3, q4, q5⟩ := h5 hne
      exact both_ok (onlyDec_ok (by omega)) (writeAll_ok fun v hv => symbol_ok (q4 v hv))
  have hok : huffOk h = some true := by
    unfold huffOk
    split
    · rfl
    · rename_i h0
      have hne : h.values ≠ [] := fun e => by rw [e] at h3; exact h0 h3.symm
      obtain ⟨q1, q2, q3, q4, q5⟩ := h5 hne
      exact symbolsOk_of q2 q3 q4 (fun hac => q5 (k2 hac))
  obtain ⟨b, hb⟩ := hbits
  unfold putHuff
  rw [hb, hok]
  exact ⟨b, rfl⟩

theorem putHuffs_ok : ∀ {hs : List ReconHuff}, (∀ h ∈ hs, HuffSound h) → ∃ b, putHuffs hs = some (some b)
  | [], _ => ⟨[], rfl⟩
  | h :: hs, H => by
    obtain ⟨a, ha⟩ := putHuff_ok (H h (by simp))
    obtain ⟨b, hb⟩ := putHuffs_ok (hs := hs) (fun x hx => H x (by simp [hx]))
    rw [putHuffs, ha]
    show ∃ b, andThen (putHuffs hs) _ = _
    rw [hb]
    exact ⟨a ++ b, rfl⟩

/-! ## Scans -/

theorem putBlock_ok {next b : Nat} (h1 : next ≤ b) (h2 : b ≤ 3 * 2 ^ 26) : ∃ x, putBlock next b = some x := by
  unfold putBlock
  rw [u32_diff h1 (by omega)]
  exact blockDiff_ok (by omega)

theorem putPoints_ok : ∀ {ps : List Nat} {next : Nat}, ps.Pairwise (· < ·) → (∀ p ∈ ps, next ≤ p ∧ p < 3 * 2 ^ 26) → ∃ x, putPoints next ps = some x
  | [], _, _, _ => ⟨[], rfl⟩
  | p :: ps, next, hp, hb => by
    have h1 := hb p (by simp)
    obtain ⟨p1, p2⟩ := List.pairwise_cons.mp hp
    rw [putPoints]
    refine both_ok (putBlock_ok h1.1 (by omega)) (both_ok (onlyDec_ok ?_) (putPoints_ok p2 fun q hq => ⟨p1 q hq, (hb q (by simp [hq])).2⟩))
    rw [show 3 <<< 26 = 3 * 2 ^ 26 by decide]
    exact h1.2

theorem putRuns_ok : ∀ {rs : List (Nat × Nat)} {next : Nat}, (rs.map (·.1)).Pairwise (· < ·) →
    (∀ x ∈ rs, next ≤ x.1 ∧ x.1 ≤ 3 * 2 ^ 26 ∧ 1 ≤ x.2 ∧ x.2 ≤ 4) → ∃ x, putRuns next rs = some x
  | [], _, _, _ => ⟨[], rfl⟩
  | r :: rs, next, hp, hb => by
    have h1 := hb r (by simp)
    rw [List.map_cons] at hp
    obtain ⟨p1, p2⟩ := List.pairwise_cons.mp hp
    rw [putRuns]
    refine both_ok (run_ok h1.2.2.1 h1.2.2.2) (both_ok (putBlock_ok h1.1 h1.2.1) (both_ok (onlyDec_ok ?_)
      (putRuns_ok p2 fun q hq => ⟨p1 _ (List.mem_map.mpr ⟨q, hq, rfl⟩), (hb q (by simp [hq])).2⟩)))
    rw [show 3 <<< 26 = 3 * 2 ^ 26 by decide]
    exact ⟨h1.2.2.2, h1.2.1⟩

theorem putScanTail_ok {s : ReconScan} (S : TailSound (s.points, s.runs)) : ∃ b, putScanTail s = some b := by
  obtain ⟨⟨h1, h2, h3⟩, h4, h5, h6⟩ := S
  dsimp only at h1 h2 h3 h4 h5 h6
  unfold putScanTail
  rw [u32_small (by omega), u32_small (by omega)]
  exact both_ok (numPoints_ok h1) (both_ok (putPoints_ok h2 fun p hp => ⟨Nat.zero_le _, h3 p hp⟩)
    (both_ok (numPoints_ok h4) (putRuns_ok h5 fun x hx => ⟨Nat.zero_le _, h6 x hx⟩)))

theorem putScanHead_ok {n : Nat} (hn : n ≤ 3) {h : ScanHead} (S : HeadSound n h) : ∃ b, putScanHead n h = some b := by
  obtain ⟨h1, h2, h3, h4, h5, h6, h7⟩ := S
  refine both_ok (oneToFour_ok h1.1 (by omega)) (both_ok (onlyDec_ok (by omega)) (both_ok (field_ok (by omega)) (both_ok (field_ok (by omega))
    (both_ok (field_ok (by omega)) (both_ok (field_ok (by omega)) (both_ok (writeAll_ok fun c hc => ?_) (pass_ok h6)))))))
  have := h7 c hc
  exact both_ok (field_ok (by omega)) (both_ok (onlyDec_ok this.1) (both_ok (field_ok (by omega)) (field_ok (by omega))))

theorem putPads_ok {p : Option (List Nat)} (h : ∀ bs, p = some bs → bs.length < 2 ^ 24 ∧ ∀ b ∈ bs, b ≤ 1) : ∃ b, putPads p = some b := by
  cases p with
  | none => exact ⟨_, rfl⟩
  | some bs =>
    have := h bs rfl
    unfold putPads
    dsimp only
    rw [u32_small (by omega)]
    exact both_ok (writeBool_ok _) (both_ok (field_ok this.1) (writeAll_ok fun _ _ => writeBool_ok _))

theorem putBack_ok {r : Recon} (S : ReconSound r) : ∃ b, putBack r = some b := by
  refine both_ok (writeAll_ok fun s hs => putScanHead_ok (by have := S.numComps; omega) (S.scans s hs)) (both_ok ?_
    (both_ok (writeAll_ok fun s hs => putScanTail_ok ⟨S.points s hs, S.runs s hs⟩) (both_ok (writeAll_ok fun n hn => ?_) (both_ok ?_ (putPads_ok S.pads)))))
  · split
    · exact field_ok (Nat.lt_succ_of_le S.restart.1)
    · exact ⟨[], rfl⟩
  · have := S.inter n (List.mem_of_mem_take hn)
    unfold putInter
    rw [u32_small (by omega)]
    exact field_ok (by omega)
  · unfold putTail
    have := S.tail
    rw [u32_small (by omega)]
    exact both_ok (onlyDec_ok this) (tailSize_ok this)

theorem putRecon_ok {r : Recon} (S : ReconSound r) : ∃ b, putRecon (fun _ => true) r = some (some b) := by
  obtain ⟨a, ha⟩ := putFront_ok S
  obtain ⟨n, hn⟩ := numHuff_ok S.numHuff.1 S.numHuff.2
  obtain ⟨c, hc⟩ := putHuffs_ok (fun h hm => ⟨S.slot h hm, S.counts h hm, S.symbols h hm⟩)
  obtain ⟨d, hd⟩ := putBack_ok S
  obtain ⟨b, h5, h6⟩ := tablesDefined_ok (ms := r.markers) (hs := r.huff) (ss := r.scans) (p := false)
    (d := ⟨List.replicate 4 false, List.replicate 4 false⟩) rfl rfl S.slot
    (fun s hs c hc => ((S.scans s hs).2.2.2.2.2.2 c hc).2) (by rw [S.numScans]; exact Nat.le_refl _)
  have hb : b = true := h6.mpr fun pre post e => use_start.mpr (S.defined pre post e)
  subst hb
  unfold putRecon
  rw [if_neg (by rw [S.numInter]; exact Nat.lt_irrefl _), ha]
  rw [u32_small (by have := S.numHuff; omega), hn]
  show ∃ b, andThen (putHuffs r.huff) _ = _
  rw [hc]
  show ∃ b, andThen (some (putBack r)) _ = _
  rw [hd]
  show ∃ b, andThen (always (allDefined r)) _ = _
  rw [show allDefined r = some true from h5]
  exact ⟨_, rfl⟩

theorem ok_of_sound {r : Recon} (S : ReconSound r) : ReconOk r where
  bytes := fun m hm => by have := S.markers.2 m hm; omega
  eoi := S.eoi.2
  inter := S.numInter
  restart := S.restart.2
  slot := fun t ht => by rcases S.slot t ht with h | h <;> omega
  counts := fun t ht => (S.counts t ht).1
  values := fun t ht => (S.counts t ht).2.1
  bits := fun bs hb => (S.pads bs hb).2
  appSmall := fun a ha => by have := S.app a ha; omega
  comSmall := fun a ha => by have := S.com a ha; omega
  interSmall := fun a ha => by have := S.inter a ha; omega
  tailSmall := by have := S.tail; omega
  quantFew := by have := S.numQuant; omega
  compsFew := by have := S.numComps; omega
  huffFew := by have := S.numHuff; omega
  padsFew := fun bs hb => by have := (S.pads bs hb).1; omega
  scansFew := fun s hs => by
    have hp := S.points s hs
    have hr := S.runs s hs
    refine ⟨by omega, by omega, fun b hb => ?_, fun x hx => ?_⟩
    · have := hp.2.2 b hb; omega
    · have := hr.2.2 x hx; omega

end Jxl.Jpeg
