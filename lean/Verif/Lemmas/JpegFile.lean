import Verif.Lemmas.JpegScanSync
/-!
# All scans of a file
-/
namespace Jxl.Jpeg

/-- What a scan down to bit `n` sees of coefficient `k`. -/
def view (k n : Nat) (c : Int) : Int := if k = 0 then c / ((2 ^ n : Nat) : Int) else tq n c

theorem view_mono {k n n' : Nat} {a b : Int} (h : n ≤ n') (he : view k n a = view k n b) : view k n' a = view k n' b := by
  unfold view at he ⊢
  by_cases hk : k = 0
  · rw [if_pos hk, if_pos hk] at he ⊢
    have hx : n' = n + (n' - n) := by omega
    have hp : ((2 ^ n' : Nat) : Int) = ((2 ^ n : Nat) : Int) * ((2 ^ (n' - n) : Nat) : Int) := by
      conv => lhs; rw [hx]
      rw [Nat.pow_add]; exact Int.natCast_mul _ _
    rw [hp, ← Int.ediv_ediv_of_nonneg (Int.natCast_nonneg _), ← Int.ediv_ediv_of_nonneg (Int.natCast_nonneg _), he]
  · rw [if_neg hk, if_neg hk] at he ⊢
    have hx : n' = n + (n' - n) := by omega
    rw [hx, ← tq_tq, ← tq_tq, he]

/-! ## Which bits have been coded -/

theorem scanMask_testBit {m : Mode} (n : Nat) :
    (scanMask m).testBit n = (decide (n < 16) && (if m.refining then decide (n = m.al) else decide (m.al ≤ n))) := by
  unfold scanMask
  have h16 : (65536 : Nat) = 2 ^ 16 := by decide
  split
  · rw [h16, Nat.testBit_mod_two_pow, Nat.one_shiftLeft, Nat.testBit_two_pow]
    congr 1
    exact decide_eq_decide.mpr eq_comm
  · have hf : (0xffff : Nat) = 2 ^ 16 - 1 := by decide
    rw [h16, Nat.testBit_mod_two_pow, Nat.testBit_shiftLeft, hf, Nat.testBit_two_pow_sub_one]
    by_cases h1 : n < 16 <;> by_cases h2 : m.al ≤ n <;> simp [h1, h2] <;> omega

theorem finerMask_testBit {m : Mode} (n : Nat) : (finerMask m).testBit n = (decide (n < 16) && decide (n < m.al)) := by
  unfold finerMask
  have h16 : (65536 : Nat) = 2 ^ 16 := by decide
  rw [h16, Nat.testBit_mod_two_pow, Nat.one_shiftLeft, Nat.testBit_two_pow_sub_one]

/-- Marking the bits of a scan. -/
structure Marked (m : Mode) (inside : Nat → Nat → Prop) (p p' : Progress) : Prop where
  grow : ∀ c k n, (p c k).testBit n = true → (p' c k).testBit n = true
  small : (∀ c k, p c k < 65536) → ∀ c k, p' c k < 65536
  set : ∀ c k, inside c k → ∀ n, (scanMask m).testBit n = true → (p' c k).testBit n = true
  clear : ∀ c k, inside c k → ∀ n, (scanMask m).testBit n = true ∨ (finerMask m).testBit n = true → (p c k).testBit n = false
  same : ∀ c k, ¬ inside c k → p' c k = p c k

theorem scanMask_small (m : Mode) : scanMask m < 65536 := by
  unfold scanMask; split <;> exact Nat.mod_lt _ (by decide)

theorem and_zero_testBit {a b n : Nat} (h : a &&& b = 0) (hb : b.testBit n = true) : a.testBit n = false := by
  have := congrArg (·.testBit n) h
  simp only [Nat.testBit_and, hb, Bool.and_true, Nat.zero_testBit] at this
  exact this

theorem markBand_marked (m : Mode) (comp : Nat) : ∀ (n k : Nat) (p p' : Progress), markBand m comp n k p = some p' →
    Marked m (fun c j => c = comp ∧ k ≤ j ∧ j < k + n) p p' := by
  intro n
  induction n with
  | zero =>
    intro k p p' h
    injection h with h
    subst h
    exact ⟨fun _ _ _ h => h, fun h => h, fun c j h => by omega, fun c j h => by omega, fun _ _ _ => rfl⟩
  | succ n ih =>
    intro k p p' h
    rw [markBand] at h
    split at h
    · cases h
    rename_i h1
    split at h
    · cases h
    rename_i h2
    have h1 : p comp k &&& scanMask m = 0 := Decidable.not_not.mp h1
    have h2 : p comp k &&& finerMask m = 0 := Decidable.not_not.mp h2
    have hi := ih _ _ _ h
    have g0 : ∀ c j n, (p c j).testBit n = true →
        ((fun i j => if i = comp ∧ j = k then p i j ||| scanMask m else p i j) c j : Nat).testBit n = true := by
      intro c j n hb
      show Nat.testBit (if c = comp ∧ j = k then p c j ||| scanMask m else p c j) n = true
      split
      · rw [Nat.testBit_or, hb]; rfl
      · exact hb
    refine ⟨fun c j n hb => hi.grow c j n (g0 c j n hb), ?_, ?_, ?_, ?_⟩
    · intro hs
      apply hi.small
      intro c j
      split
      · exact Nat.or_lt_two_pow (n := 16) (hs c j) (scanMask_small m)
      · exact hs c j
    · intro c j hj b hb
      by_cases hjk : j = k
      · refine hi.grow c j b ?_
        rw [if_pos ⟨hj.1, hjk⟩, Nat.testBit_or, hb, Bool.or_true]
      · exact hi.set c j ⟨hj.1, by omega, by omega⟩ b hb
    · intro c j hj b hb
      by_cases hjk : j = k
      · rw [hj.1, hjk]
        rcases hb with hb | hb
        · exact and_zero_testBit h1 hb
        · exact and_zero_testBit h2 hb
      · have := hi.clear c j ⟨hj.1, by omega, by omega⟩ b hb
        rw [if_neg (fun h => hjk h.2)] at this
        exact this
    · intro c j hj
      rw [hi.same c j (fun h => hj ⟨h.1, by omega, by omega⟩)]
      rw [if_neg (fun h => hj ⟨h.1, by omega, by omega⟩)]

theorem markScan_marked (m : Mode) : ∀ (cs : List Nat) (p p' : Progress), markScan m cs p = some p' →
    Marked m (fun c j => c ∈ cs ∧ m.ss ≤ j ∧ j ≤ m.se) p p' := by
  intro cs
  induction cs with
  | nil =>
    intro p p' h
    injection h with h
    subst h
    exact ⟨fun _ _ _ h => h, fun h => h, fun c j h => absurd h.1 List.not_mem_nil, fun c j h => absurd h.1 List.not_mem_nil,
      fun _ _ _ => rfl⟩
  | cons c0 cs ih =>
    intro p p' h
    rw [markScan, Option.bind_eq_some_iff] at h
    obtain ⟨p1, h1, h2⟩ := h
    have hb := markBand_marked m c0 _ _ _ _ h1
    have hi := ih _ _ h2
    refine ⟨fun c j n hn => hi.grow _ _ _ (hb.grow _ _ _ hn), fun hs => hi.small (hb.small hs), ?_, ?_, ?_⟩
    · intro c j hj n hn
      rcases List.mem_cons.mp hj.1 with hc | hc
      · exact hi.grow _ _ _ (hb.set c j ⟨hc, by omega, by omega⟩ n hn)
      · exact hi.set c j ⟨hc, hj.2⟩ n hn
    · intro c j hj n hn
      rcases List.mem_cons.mp hj.1 with hc | hc
      · exact hb.clear c j ⟨hc, by omega, by omega⟩ n hn
      · have := hi.clear c j ⟨hc, hj.2⟩ n hn
        cases hp : (p c j).testBit n with
        | false => rfl
        | true => rw [hb.grow _ _ _ hp] at this; cases this
    · intro c j hj
      rw [hi.same c j (fun h => hj ⟨List.mem_cons_of_mem _ h.1, h.2⟩),
        hb.same c j (fun h => hj ⟨by rw [h.1]; exact List.mem_cons_self .., by omega, by omega⟩)]

/-! ## The coefficients between scans -/

theorem Fits.zero {v : Int} (h : Fits 0 v) : v = 0 := by
  obtain ⟨u, hu⟩ := h v.natAbs (fun i _ => Nat.zero_testBit i)
  have h1 : v.natAbs = u.natAbs * 2 ^ v.natAbs := by
    conv => lhs; rw [hu]
    rw [Int.natAbs_mul, Int.natAbs_natCast]
  have h2 := Nat.lt_two_pow_self (n := v.natAbs)
  rcases Nat.eq_zero_or_pos u.natAbs with h | h
  · rw [h] at h1; omega
  · have := Nat.mul_le_mul_right (2 ^ v.natAbs) h
    omega

theorem fits_of_bit {mask n : Nat} {v : Int} (hb : mask.testBit n = true) (hv : ∃ u : Int, v = u * ((2 ^ n : Nat) : Int)) :
    Fits mask v := by
  intro n' h
  have hle : n' ≤ n := by
    rcases Nat.lt_or_ge n n' with hn | hn
    · rw [h n hn] at hb; cases hb
    · exact hn
  obtain ⟨u, hu⟩ := hv
  refine ⟨u * ((2 ^ (n - n') : Nat) : Int), ?_⟩
  rw [hu, Int.mul_assoc]
  congr 1
  have hx : n = (n - n') + n' := by omega
  conv => lhs; rw [hx]
  rw [Nat.pow_add]; exact Int.natCast_mul _ _

theorem mem_bandOf {ss se : Nat} {cs : List Int} {v : Int} (h : v ∈ bandOf ss se cs) :
    ∃ k, max 1 ss ≤ k ∧ k ≤ se ∧ cs[k]? = some v := by
  obtain ⟨i, hi⟩ := List.mem_iff_getElem?.mp h
  rw [bandOf_get] at hi
  split at hi
  · exact ⟨max 1 ss + i, by omega, by omega, hi⟩
  · cases hi

theorem get_bandOf {ss se k : Nat} {cs : List Int} (h1 : max 1 ss ≤ k) (h2 : k ≤ se) :
    (bandOf ss se cs)[k - max 1 ss]? = cs[k]? := by
  rw [bandOf_get, if_pos (by omega)]
  congr 1
  omega

theorem head_some {cs : List Int} (h : cs.length = 64) : cs[0]? = some (cs.headD 0) := by
  cases cs with
  | nil => cases h
  | cons => rfl

theorem Between.pre {p p' : Progress} {st : Store} (hb : Between p st) {m : Mode} {comps : List Nat} (hal : m.al ≤ 10)
    (hk : Marked m (fun c j => c ∈ comps ∧ m.ss ≤ j ∧ j ≤ m.se) p p') {c : Nat} (hc : c ∈ comps) (i : Nat) : BlockPre m (st c i) := by
  have hlow : ∀ k, m.ss ≤ k → k ≤ m.se → ∀ n, n < 16 → (m.refining = true → n ≤ m.al) → (p c k).testBit n = false := by
    intro k h1 h2 n hn hr
    apply hk.clear c k ⟨hc, h1, h2⟩ n
    rw [scanMask_testBit, finerMask_testBit]
    by_cases hal : n < m.al
    · right; simp [hn, hal]
    · left
      cases hmr : m.refining with
      | false => simp [hn]; omega
      | true => have := hr hmr; simp [hn]; omega
  refine ⟨hb.len c i, ?_, ?_, ?_⟩
  · intro hr v hv
    obtain ⟨k, h1, h2, h3⟩ := mem_bandOf hv
    have hz : p c k = 0 := by
      apply Nat.eq_of_testBit_eq
      intro n
      rw [Nat.zero_testBit]
      by_cases hn : n < 16
      · exact hlow k (by omega) h2 n hn (fun h => by rw [hr] at h; cases h)
      · exact Nat.testBit_lt_two_pow (Nat.lt_of_lt_of_le (hb.small c k) (Nat.pow_le_pow_right (n := 2) (i := 16) (j := n) (by decide) (by omega)))
    have := hb.fits c i k v h3
    rw [hz] at this
    exact this.zero
  · intro hr v hv
    obtain ⟨k, h1, h2, h3⟩ := mem_bandOf hv
    exact hb.fits c i k v h3 (m.al + 1) (fun n hn => hlow k (by omega) h2 n (by omega) (fun _ => by omega))
  · intro hr h0
    exact hb.fits c i 0 _ (head_some (hb.len c i)) (m.al + 1)
      (fun n hn => hlow 0 (by omega) (by omega) n (by omega) (fun _ => by omega))

/-- What a scan leaves fits the bits marked, and the bits coded before look the same. -/
theorem Between.after {p p' : Progress} {st st' : Store} (hb : Between p st) {m : Mode} {comps : List Nat} (hm : ModeOk m) (hal : m.al ≤ 10)
    (hk : Marked m (fun c j => c ∈ comps ∧ m.ss ≤ j ∧ j ≤ m.se) p p') {us : List ScanUnit}
    (hcomps : ∀ c i, (c, i) ∈ blocks us → c ∈ comps)
    (kept : ∀ c i, (c, i) ∉ blocks us → st' c i = st c i)
    (post : ∀ c i, (c, i) ∈ blocks us → BlockPost m (st c i) (st' c i)) :
    Between p' st' ∧ ∀ c i k n, (p c k).testBit n = true → view k n ((st' c i)[k]?.getD 0) = view k n ((st c i)[k]?.getD 0) := by
  have hset : ∀ c k, c ∈ comps → m.ss ≤ k → k ≤ m.se → (p' c k).testBit m.al = true := by
    intro c k hc h1 h2
    apply hk.set c k ⟨hc, h1, h2⟩
    rw [scanMask_testBit]
    have : m.al < 16 := by omega
    cases m.refining <;> simp [this]
  have hgrow : ∀ c k v, Fits (p c k) v → Fits (p' c k) v := by
    intro c k v hf n hn
    exact hf n (fun i hi => by
      cases hq : (p c k).testBit i with
      | false => rfl
      | true => have := hk.grow c k i hq; rw [hn i hi] at this; cases this)
  -- values of a block of the scan
  have hpost : ∀ c i, (c, i) ∈ blocks us → ∀ k v, m.ss ≤ k → k ≤ m.se → (st' c i)[k]? = some v →
      ∃ u : Int, v = u * ((2 ^ m.al : Nat) : Int) := by
    intro c i hci k v h1 h2 hv
    have hq := post c i hci
    by_cases h0 : k = 0
    · obtain ⟨u, hu⟩ := hq.head (by omega)
      rw [h0, head_some hq.len] at hv
      injection hv with hv
      exact ⟨u, by rw [← hv]; exact hu⟩
    · apply hq.mult
      apply List.mem_of_getElem? (i := k - max 1 m.ss)
      rw [get_bandOf (by omega) h2]
      exact hv
  constructor
  · refine ⟨?_, hk.small hb.small, ?_⟩
    · intro c i
      by_cases hci : (c, i) ∈ blocks us
      · exact (post c i hci).len
      · rw [kept c i hci]; exact hb.len c i
    · intro c i k v hv
      by_cases hci : (c, i) ∈ blocks us
      · by_cases hk' : m.ss ≤ k ∧ k ≤ m.se
        · exact fits_of_bit (hset c k (hcomps c i hci) hk'.1 hk'.2) (hpost c i hci k v hk'.1 hk'.2 hv)
        · rw [(post c i hci).same k (by omega)] at hv
          exact hgrow c k v (hb.fits c i k v hv)
      · rw [kept c i hci] at hv
        exact hgrow c k v (hb.fits c i k v hv)
  · intro c i k n hn
    by_cases hci : (c, i) ∈ blocks us
    · have hq := post c i hci
      by_cases hk' : m.ss ≤ k ∧ k ≤ m.se
      · have hin := hk.clear c k ⟨hcomps c i hci, hk'⟩ n
        rw [scanMask_testBit, finerMask_testBit] at hin
        have hn16 : n < 16 := by
          rcases Nat.lt_or_ge n 16 with h | h
          · exact h
          · rw [Nat.testBit_lt_two_pow (Nat.lt_of_lt_of_le (hb.small c k) (Nat.pow_le_pow_right (n := 2) (i := 16) (j := n) (by decide) (by omega)))] at hn
            cases hn
        have hnn : n ≥ m.al + 1 ∧ m.refining = true := by
          have : ¬ ((decide (n < 16) && if m.refining = true then decide (n = m.al) else decide (m.al ≤ n)) = true ∨
              (decide (n < 16) && decide (n < m.al)) = true) := by
            intro h
            rw [hin h] at hn
            cases hn
          cases hr : m.refining with
          | false => rw [hr] at this; simp [hn16] at this; omega
          | true => rw [hr] at this; simp [hn16] at this; exact ⟨by omega, rfl⟩
        apply view_mono hnn.1
        unfold view
        by_cases h0 : k = 0
        · rw [if_pos h0, if_pos h0, h0, ← headD_get, ← headD_get]
          exact hq.refinedHead hnn.2 (by omega)
        · rw [if_neg h0, if_neg h0]
          have := congrArg (fun l => l[k - max 1 m.ss]?) (hq.refined hnn.2)
          simp only [List.getElem?_map] at this
          rw [get_bandOf (by omega) hk'.2, get_bandOf (by omega) hk'.2] at this
          have hlt : k < 64 := by have := hm.2; omega
          rw [List.getElem?_eq_getElem (by rw [hq.len]; exact hlt), List.getElem?_eq_getElem (by rw [hb.len]; exact hlt)] at this ⊢
          simpa using this
      · rw [hq.same k (by omega)]
    · rw [kept c i hci]

/-- A store that shows every bit coded so far. -/
def Shows (p : Progress) (st fin : Store) : Prop :=
  (∀ c i, (fin c i).length = 64) ∧ ∀ c i k n, (p c k).testBit n = true → view k n ((fin c i)[k]?.getD 0) = view k n ((st c i)[k]?.getD 0)

theorem Shows.agrees {p : Progress} {st fin : Store} (h : Shows p st fin) {m : Mode} {c i : Nat} (hm : ModeOk m) (hlen : (st c i).length = 64)
    (hset : ∀ k, m.ss ≤ k → k ≤ m.se → (p c k).testBit m.al = true) : Agrees m.ss m.se m.al (st c i) (fin c i) := by
  refine ⟨h.1 c i, ?_, ?_⟩
  · intro h0
    have := h.2 c i 0 m.al (hset 0 (by omega) (by omega))
    unfold view at this
    rw [if_pos rfl, if_pos rfl] at this
    rw [headD_get, headD_get]
    exact this
  · apply List.ext_getElem?
    intro j
    rw [List.getElem?_map, List.getElem?_map, bandOf_get, bandOf_get]
    by_cases hj : max 1 m.ss + j ≤ m.se
    · rw [if_pos hj, if_pos hj]
      have := h.2 c i (max 1 m.ss + j) m.al (hset _ (by omega) hj)
      unfold view at this
      rw [if_neg (by omega), if_neg (by omega)] at this
      have hlt : max 1 m.ss + j < 64 := by have := hm.2; omega
      rw [List.getElem?_eq_getElem (by rw [h.1]; exact hlt), List.getElem?_eq_getElem (by rw [hlen]; exact hlt)] at this ⊢
      simpa using this
    · rw [if_neg hj, if_neg hj]

/-! ## The file -/

theorem padsFor_source {pads : List Nat} (h : ∀ b ∈ pads, b ≤ 1) : PadsFor (pads ++ []) (padSource pads) := by
  rw [List.append_nil]
  unfold padSource
  split
  · exact .inl rfl
  · rename_i h0
    refine .inr ⟨rfl, fun b hb => ?_⟩
    have := h b hb
    rcases Nat.eq_zero_or_pos b with hz | hz
    · exact absurd (hz ▸ hb) h0
    · omega

/-- What the writer makes of one scan, given the coefficients at the end of the file. -/
def Rewrites (d : List Nat) (fin : Store) (s : ScanIn) (o : ParsedScan) : Prop :=
  ∀ (T : List Nat) (pads : Option (List Nat)) (h : Huff) (res : Option Scan), PadsFor (o.pads ++ T) pads →
    encodeScan s.mode (writerSteps fin s.units 0 o.points o.runs) pads h = some res →
    ∃ ws, res = some ws ∧ ws.w.healthy = true ∧ PadsFor T ws.pads ∧ ws.w.out.reverse = scanData d s o

theorem parse_file {d : List Nat} {q : Nat} (hd : Ends d q) : ∀ (ss : List ScanIn) (p : Progress) (st : Store)
    (os : List ParsedScan) (fin : Store), (∀ s ∈ ss, ScanOk d q s) → Between p st → parseFile d ss p st = some (some (os, fin)) →
    os.length = ss.length ∧ Shows p st fin ∧ (∀ o ∈ os, (∀ b ∈ o.pads, b ≤ 1)) ∧ (∀ x ∈ ss.zip os, x.1.pos ≤ x.2.pos ∧ Rewrites d fin x.1 x.2) := by
  intro ss
  induction ss with
  | nil =>
    intro p st os fin _ hb h
    injection h with h; injection h with h; injection h with h1 h2
    subst h1; subst h2
    refine ⟨rfl, ⟨hb.len, fun _ _ _ _ _ => rfl⟩, fun o ho => absurd ho List.not_mem_nil, ?_⟩
    intro x hx
    exact absurd hx List.not_mem_nil
  | cons s ss ih =>
    intro p st os fin hok hb h
    rw [parseFile] at h
    split at h
    · simp at h
    rename_i p1 hp1
    split at h
    · simp at h
    rename_i hal
    obtain ⟨o, e1, h⟩ := andThen_some h
    obtain ⟨z, e2, h⟩ := andThen_some h
    injection h with h; injection h with h; injection h with h1 h2
    have hs := hok s (List.mem_cons_self ..)
    have hk := markScan_marked s.mode s.comps p p1 hp1
    have hr := parse_scan hd hs.mode hs.start.1 hs.start.2 hs.header hs.tables hs.once
      (fun c i hci => hb.pre (by omega) hk (hs.comps c i hci) i) e1
    obtain ⟨hb1, hv1⟩ := hb.after hs.mode (by omega) hk hs.comps hr.kept hr.post
    obtain ⟨i1, i2, i3, i4⟩ := ih p1 o.store z.1 z.2 (fun s hs => hok s (List.mem_cons_of_mem _ hs)) hb1 e2
    subst h1; subst h2
    refine ⟨by simp [i1], ⟨i2.1, fun c i k n hn => (i2.2 c i k n (hk.grow c k n hn)).trans (hv1 c i k n hn)⟩, ?_, ?_⟩
    · intro x hx
      rcases List.mem_cons.mp hx with rfl | hx
      · exact hr.small
      · exact i3 x hx
    · intro x hx
      rw [List.zip_cons_cons] at hx
      rcases List.mem_cons.mp hx with rfl | hx
      · refine ⟨hr.le, fun T pads hh res hpd he => hr.write z.2 T pads hh res ?_ hpd he⟩
        intro c i hci
        refine i2.agrees hs.mode (hb1.len c i) ?_
        intro k h1 h2
        apply hk.set c k ⟨hs.comps c i hci, h1, h2⟩
        rw [scanMask_testBit]
        have : s.mode.al < 16 := by omega
        cases s.mode.refining <;> simp [this]
      · exact i4 x hx

theorem write_file {d : List Nat} {fin : Store} {hh : Huff} : ∀ (xs : List (ScanIn × ParsedScan)) (T : List Nat)
    (pads : Option (List Nat)) (res : Option (List (List Nat))), (∀ x ∈ xs, Rewrites d fin x.1 x.2) →
    PadsFor (xs.flatMap (fun x => x.2.pads) ++ T) pads → writeFile fin hh xs pads = some res →
    res = some (xs.map fun x => scanData d x.1 x.2) := by
  intro xs
  induction xs with
  | nil => intro T pads res _ _ h; injection h with h; exact h.symm
  | cons x xs ih =>
    intro T pads res hx hpd hw
    rw [writeFile] at hw
    rw [List.flatMap_cons, List.append_assoc] at hpd
    unfold andThen at hw
    rw [Option.bind_eq_some_iff] at hw
    obtain ⟨y, w1, w2⟩ := hw
    obtain ⟨ws, k1, k2, k3, k4⟩ := hx x (List.mem_cons_self ..) _ _ _ _ hpd w1
    subst k1
    simp only at w2
    rw [if_pos k2, Option.bind_eq_some_iff] at w2
    obtain ⟨y2, w3, w4⟩ := w2
    have := ih T ws.pads y2 (fun x h => hx x (List.mem_cons_of_mem _ h)) k3 w3
    subst this
    simp only at w4
    injection w4 with w4
    rw [← w4, k4]
    rfl

theorem zip_pads : ∀ (ss : List ScanIn) (os : List ParsedScan), os.length = ss.length →
    (ss.zip os).flatMap (fun x => x.2.pads) = os.flatMap (·.pads) := by
  intro ss
  induction ss with
  | nil => intro os h; cases os with
    | nil => rfl
    | cons => simp at h
  | cons s ss ih =>
    intro os h
    cases os with
    | nil => simp at h
    | cons o os =>
      rw [List.zip_cons_cons, List.flatMap_cons, List.flatMap_cons, ih os (by simpa using h)]

theorem between_start : Between (fun _ _ => 0) Store.empty := by
  refine ⟨fun _ _ => by simp [Store.empty], fun _ _ => by decide, ?_⟩
  intro c i k v hv n _
  have : v ∈ List.replicate 64 (0 : Int) := List.mem_of_getElem? hv
  exact ⟨0, by rw [List.eq_of_mem_replicate this]; simp⟩

end Jxl.Jpeg
