import Verif.Lemmas.JpegSync
/-!
# Blocks: reading, and writing again
-/
namespace Jxl.Jpeg

/-- The AC coefficients of the band. -/
def bandOf (ss se : Nat) (cs : List Int) : List Int := (cs.take (se + 1)).drop (max 1 ss)

theorem bandOf_get (ss se : Nat) (cs : List Int) (i : Nat) :
    (bandOf ss se cs)[i]? = if max 1 ss + i ≤ se then cs[max 1 ss + i]? else none := by
  unfold bandOf
  rw [List.getElem?_drop, List.getElem?_take]
  by_cases h : max 1 ss + i ≤ se
  · rw [if_pos h, if_pos (by omega)]
  · rw [if_neg h, if_neg (by omega)]

theorem bandOf_length {ss se : Nat} {cs : List Int} (hl : cs.length = 64) (hse : se ≤ 63) :
    (bandOf ss se cs).length = se + 1 - max 1 ss := by
  unfold bandOf; rw [List.length_drop, List.length_take, hl]; omega

theorem putBand_get {m se : Nat} {cs new : List Int} (hl : cs.length = 64) (hm : m ≤ se) (hse : se ≤ 63)
    (hn : new.length = se + 1 - m) (k : Nat) :
    (putBand m se cs new)[k]? = if k < m then cs[k]? else if k ≤ se then new[k - m]? else cs[k]? := by
  unfold putBand
  have h1 : (cs.take m).length = m := by rw [List.length_take]; omega
  by_cases hk : k < m
  · rw [if_pos hk, List.append_assoc, List.getElem?_append_left (by omega), List.getElem?_take, if_pos hk]
  · rw [if_neg hk]
    by_cases hk2 : k ≤ se
    · rw [if_pos hk2, List.getElem?_append_left (by rw [List.length_append]; omega),
        List.getElem?_append_right (by omega), h1]
    · rw [if_neg hk2, List.getElem?_append_right (by rw [List.length_append]; omega), List.getElem?_drop,
        List.length_append, h1, hn]
      congr 1
      omega

theorem putBand_length {m se : Nat} {cs new : List Int} (hl : cs.length = 64) (hm : m ≤ se) (hse : se ≤ 63)
    (hn : new.length = se + 1 - m) : (putBand m se cs new).length = 64 := by
  unfold putBand
  simp only [List.length_append, List.length_take, List.length_drop]
  omega

theorem bandOf_putBand {ss se : Nat} {cs new : List Int} (hl : cs.length = 64) (hm : max 1 ss ≤ se) (hse : se ≤ 63)
    (hn : new.length = se + 1 - max 1 ss) : bandOf ss se (putBand (max 1 ss) se cs new) = new := by
  apply List.ext_getElem?
  intro i
  rw [bandOf_get, putBand_get hl hm hse hn]
  by_cases h : max 1 ss + i ≤ se
  · rw [if_pos h, if_neg (by omega), if_pos h]
    congr 1
    omega
  · rw [if_neg h, List.getElem?_eq_none (by omega)]

theorem headD_get (cs : List Int) : cs.headD 0 = (cs[0]?).getD 0 := by cases cs <;> rfl

/-- The final block shows this scan what the scan has left. -/
structure Agrees (ss se al : Nat) (b c : List Int) : Prop where
  len : c.length = 64
  dc : ss = 0 → c.headD 0 / ((2 ^ al : Nat) : Int) = b.headD 0 / ((2 ^ al : Nat) : Int)
  band : (bandOf ss se c).map (tq al) = (bandOf ss se b).map (tq al)

/-! ## First scans -/

/-- Everything the parser did in a block of a first scan. -/
structure FirstRead (d pre S : List Nat) (hd h : Huff) (ss se al : Nat) (e last : Int) (coeffs : List Int) (C : List Bool)
    (b : BlockOut) (diff : Int) (C1 C' : List Bool) (vs : List Int) : Prop where
  dc : ss = 0 → b.last = diff + last ∧ Coded hd (magBits diff.natAbs) ∧ magBits diff.natAbs ≤ 15 ∧
    C1 = C ++ (symBits hd (magBits diff.natAbs) ++ valBits diff) ∧ b.coeffs.headD 0 = b.last * ((2 ^ al : Nat) : Int)
  nodc : ss ≠ 0 → b.last = last ∧ C1 = C
  len : b.coeffs.length = 64
  same : ∀ k, k < ss ∨ se < k → b.coeffs[k]? = coeffs[k]?
  band : bandOf ss se b.coeffs = vs.map (· * ((2 ^ al : Nat) : Int))
  pos : At d pre S C' b.ac.r
  none : se < max 1 ss → C' = C1 ∧ b.ac.eob = e ∧ b.ac.reset = false ∧ b.ac.runs = 0
  some : max 1 ss ≤ se → BandRead h (ss != 0) C1 C' e b.ac.eob b.ac.reset (firstToks vs 0 ++ List.replicate b.ac.runs zrl)
    (decide (16 * b.ac.runs < zerosEnd vs 0)) [] ∧ ∀ v ∈ vs, magBits v.natAbs ≤ 15

theorem firstToks_nil : ∀ (vs : List Int) (r : Nat), firstToks vs r = [] → zerosEnd vs r = r + vs.length := by
  intro vs
  induction vs with
  | nil => intro r _; rfl
  | cons v vs ih =>
    intro r h
    rw [firstToks] at h
    by_cases h0 : v = 0
    · rw [if_pos h0] at h
      rw [zerosEnd, if_pos h0, ih _ h, List.length_cons]; omega
    · rw [if_neg h0] at h; simp at h

section
variable {d pre S : List Nat} (hp : Placed d pre S)
include hp

theorem parseBand_read {x : Table} (hx : InSlot x) {al k : Nat} {allowed : Bool} {e : Int} {r : Reader} {C : List Bool}
    {cs' : List Int} {a : AcState} (hk : 1 ≤ k) (hk2 : k ≤ 63) (ha : At d pre S C r)
    (he : parseBand d x.2 al allowed (List.replicate k 0) e r = some (some (cs', a))) :
    ∃ vs C', cs' = vs.map (· * ((2 ^ al : Nat) : Int)) ∧ vs.length = k ∧ At d pre S C' a.r ∧
      BandRead (codeTable x.1) allowed C C' e a.eob a.reset (firstToks vs 0 ++ List.replicate a.runs zrl)
        (decide (16 * a.runs < zerosEnd vs 0)) [] ∧ ∀ v ∈ vs, magBits v.natAbs ≤ 15 := by
  unfold parseBand at he
  by_cases h0 : e > 0
  · rw [if_pos h0] at he
    injection he with he; injection he with he; injection he with h1 h2
    subst h1; subst h2
    have hf := firstToks_zeros k [] 0
    rw [List.append_nil] at hf
    refine ⟨List.replicate k 0, C, by simp, by simp, ha, ?_, ?_⟩
    · rw [hf.1, hf.2]
      refine ⟨by simp [firstToks], by simp, fun _ => ⟨by simp [firstToks], ?_, rfl, by simp, rfl⟩, fun h => by omega⟩
      rw [zerosEnd]; simp; omega
    · intro v hv; rw [(List.mem_replicate.mp hv).2]; decide
  · rw [if_neg h0] at he
    obtain ⟨z, e1, he⟩ := andThen_some he
    injection he with he; injection he with he; injection he with h1 h2
    obtain ⟨vs, X, E, k1, k2, k3, k4, k5, k6, k7⟩ := parseAc_bits hp hx 64 true k _ C (by omega) ha (by rw [e1])
    simp only [List.replicate_zero, List.nil_append, Nat.mul_zero] at k6 k7
    subst h2
    subst k6
    refine ⟨vs, _, by rw [← h1, k1], k2, k3, ⟨k4, by simp, fun h => by omega, fun _ => ?_⟩, ?_⟩
    · rcases k7 with ⟨m1, m2, m3, m4⟩ | ⟨m1, m2, m3, R, m4, m5, m6, m7, m8, m9⟩
      · left
        refine ⟨by simpa using m4, ?_, m3, by rw [m1]; simp, by show z.2.eob - 1 = e - 1; rw [m2]⟩
        intro hnil
        obtain ⟨n1, n2⟩ := List.append_eq_nil_iff.mp hnil
        have := firstToks_nil vs 0 n1
        have n3 : z.2.runs = 0 := by simpa using n2
        omega
      · right
        refine ⟨by simpa using m2, by rw [m3]; simp, R, m4, m5, by rw [m6]; simp, m7, by show z.2.eob - 1 = _; rw [m8], m9⟩
    · intro v hv
      by_cases hv0 : v = 0
      · subst hv0; decide
      · have := k5 v hv hv0; omega

theorem parseDc_read {x : Table} (hx : InSlot x) {al : Nat} {last : Int} {r r' : Reader} {C : List Bool} {v : Int}
    (ha : At d pre S C r) (he : parseDc d x.2 al last r = some (some (v, r'))) :
    ∃ diff : Int, v = diff + last ∧ Coded (codeTable x.1) (magBits diff.natAbs) ∧ magBits diff.natAbs ≤ 15 ∧
      At d pre S (C ++ (symBits (codeTable x.1) (magBits diff.natAbs) ++ valBits diff)) r' := by
  unfold parseDc at he
  obtain ⟨p, e1, he⟩ := andThen_some he
  have e1 := always_some e1
  by_cases h12 : p.1 ≥ 12
  · rw [if_pos h12] at he; cases he
  · rw [if_neg h12] at he
    obtain ⟨c1, a1⟩ := symbol_at hp hx ha e1 (by omega)
    obtain ⟨q, e2, he⟩ := andThen_some he
    simp only at he
    have hv : v = q.1 + last ∧ r' = q.2 := by
      split at he
      · cases he
      · injection he with he; injection he with he; injection he with h1 h2
        exact ⟨h1.symm, h2.symm⟩
    by_cases h0 : p.1 > 0
    · rw [if_pos h0] at e2
      have e2 := always_some e2
      rw [Option.bind_eq_some_iff] at e2
      obtain ⟨t, e3, e4⟩ := e2
      injection e4 with e4
      subst e4
      obtain ⟨b1, b2⟩ := bits_at hp a1 (by omega) e3
      obtain ⟨v1, v2, v3⟩ := huffExtend_spec (x := t.1) (s := p.1) (by omega) b1
      refine ⟨huffExtend t.1 p.1, hv.1, by rw [v2]; exact c1, by rw [v2]; omega, ?_⟩
      rw [v2, v3, hv.2, ← List.append_assoc]
      exact b2
    · rw [if_neg h0] at e2
      injection e2 with e2; injection e2 with e2
      subst e2
      have hp0 : p.1 = 0 := by omega
      rw [hp0] at c1 a1
      refine ⟨0, hv.1, c1, by decide, ?_⟩
      rw [hv.2]
      have : valBits 0 = [] := by decide
      have h2 : magBits (0 : Int).natAbs = 0 := by decide
      rw [this, h2, List.append_nil]
      exact a1

theorem withBand_first {h0 x : Table} (hx : InSlot x) {ss se al : Nat} (hs1 : ss ≤ se) (hs2 : se ≤ 63)
    {e last0 : Int} {coeffs0 coeffs : List Int} {r : Reader} {C C1 : List Bool} {b : BlockOut} {diff last : Int}
    (hlen : coeffs.length = 64) (hz : ∀ c ∈ bandOf ss se coeffs, c = 0) (ha : At d pre S C1 r)
    (hdc : ss = 0 → last = diff + last0 ∧ Coded (codeTable h0.1) (magBits diff.natAbs) ∧ magBits diff.natAbs ≤ 15 ∧
      C1 = C ++ (symBits (codeTable h0.1) (magBits diff.natAbs) ++ valBits diff) ∧
      coeffs.headD 0 = last * ((2 ^ al : Nat) : Int))
    (hno : ss ≠ 0 → last = last0 ∧ C1 = C) (hsame : ∀ k, k < ss ∨ se < k → coeffs[k]? = coeffs0[k]?)
    (hb : withBand ss se coeffs last e r (parseBand d x.2 al (ss != 0)) = some (some b)) :
    ∃ C' vs, FirstRead d pre S (codeTable h0.1) (codeTable x.1) ss se al e last0 coeffs0 C b diff C1 C' vs := by
  unfold withBand at hb
  by_cases hband : max 1 ss > se
  · rw [if_pos hband] at hb
    injection hb with hb; injection hb with hb
    subst hb
    have hbe : bandOf ss se coeffs = [] := by
      apply List.length_eq_zero_iff.mp; rw [bandOf_length hlen hs2]; omega
    exact ⟨C1, [], hdc, hno, hlen, hsame, by simpa using hbe, ha, fun _ => ⟨rfl, rfl, rfl, rfl⟩, fun h => by omega⟩
  · rw [if_neg hband] at hb
    obtain ⟨z, e1, hb⟩ := andThen_some hb
    injection hb with hb; injection hb with hb
    subst hb
    have hcs : (coeffs.take (se + 1)).drop (max 1 ss) = List.replicate (se + 1 - max 1 ss) 0 := by
      refine List.eq_replicate_iff.mpr ⟨?_, hz⟩
      exact bandOf_length hlen hs2
    rw [hcs] at e1
    obtain ⟨vs, C', k1, k2, k3, k4, k5⟩ := parseBand_read hp hx (k := se + 1 - max 1 ss) (cs' := z.1) (a := z.2) (by omega) (by omega) ha e1
    have hzl : z.1.length = se + 1 - max 1 ss := by rw [k1, List.length_map]; exact k2
    have hget := putBand_get hlen (m := max 1 ss) (by omega) hs2 hzl
    have hd0 : (putBand (max 1 ss) se coeffs z.1).headD 0 = coeffs.headD 0 := by
      rw [headD_get, hget, if_pos (by omega), ← headD_get]
    refine ⟨C', vs, ?_, hno, putBand_length hlen (by omega) hs2 hzl, ?_, ?_, k3, fun h => by omega, fun _ => ⟨k4, k5⟩⟩
    · intro h
      obtain ⟨g1, g2, g3, g4, g5⟩ := hdc h
      exact ⟨g1, g2, g3, g4, by rw [hd0]; exact g5⟩
    · intro k hk
      rw [← hsame k hk, hget]
      rcases hk with hk | hk
      · rw [if_pos (by omega)]
      · rw [if_neg (by omega), if_neg (by omega)]
    · rw [bandOf_putBand hlen (by omega) hs2 hzl, k1]

omit hp in
theorem bandOf_set {ss se : Nat} (cs : List Int) (v : Int) : bandOf ss se (cs.set 0 v) = bandOf ss se cs := by
  apply List.ext_getElem?
  intro i
  rw [bandOf_get, bandOf_get, List.getElem?_set_ne (by omega)]

theorem decode_read {x0 x : Table} (hx0 : InSlot x0) (hx : InSlot x) {ss se al : Nat} (hs1 : ss ≤ se) (hs2 : se ≤ 63)
    {e last : Int} {coeffs : List Int} {r : Reader} {C : List Bool} {b : BlockOut}
    (hlen : coeffs.length = 64) (hz : ∀ c ∈ bandOf ss se coeffs, c = 0) (ha : At d pre S C r)
    (hb : decodeBlock d x0.2 x.2 ss se al e last coeffs r = some (some b)) :
    ∃ diff C1 C' vs, FirstRead d pre S (codeTable x0.1) (codeTable x.1) ss se al e last coeffs C b diff C1 C' vs := by
  unfold decodeBlock at hb
  by_cases h0 : ss = 0
  · rw [if_pos h0] at hb
    obtain ⟨p, e1, hb⟩ := andThen_some hb
    obtain ⟨diff, k1, k2, k3, k4⟩ := parseDc_read hp hx0 ha (by rw [e1])
    have hhead : (coeffs.set 0 (p.1 * ((2 ^ al : Nat) : Int))).headD 0 = p.1 * ((2 ^ al : Nat) : Int) := by
      cases coeffs with
      | nil => cases hlen
      | cons => rfl
    have hbool : (ss != 0) = false := by simp [h0]
    obtain ⟨C', vs, h⟩ := withBand_first hp (h0 := x0) hx hs1 hs2 (last0 := last) (coeffs0 := coeffs) (C := C)
      (coeffs := coeffs.set 0 (p.1 * ((2 ^ al : Nat) : Int))) (diff := diff) (by rw [List.length_set]; exact hlen)
      (by rw [bandOf_set]; exact hz) k4 (fun _ => ⟨k1, k2, k3, rfl, hhead⟩) (fun h => absurd h0 h)
      (fun k hk => by rw [List.getElem?_set_ne (by omega)]) (by rw [hbool]; exact hb)
    exact ⟨diff, _, C', vs, h⟩
  · rw [if_neg h0] at hb
    have hbool : (ss != 0) = true := by simp [h0]
    obtain ⟨C', vs, h⟩ := withBand_first hp (h0 := x0) hx hs1 hs2 (last0 := last) (coeffs0 := coeffs) (C := C)
      (coeffs := coeffs) (diff := 0) hlen hz ha (fun h => absurd h h0) (fun _ => ⟨rfl, rfl⟩) (fun _ _ => rfl)
      (by rw [hbool]; exact hb)
    exact ⟨0, _, C', vs, h⟩

end

theorem map_tq_mul (al : Nat) (vs : List Int) : (vs.map (· * ((2 ^ al : Nat) : Int))).map (tq al) = vs := by
  rw [List.map_map]
  conv => rhs; rw [← List.map_id vs]
  apply List.map_congr_left
  intro v _
  exact tq_mul al v

theorem Sync.winv {pre C e s w} (h : Sync pre C e s w) (h0 : s.eobRun = 0) : WInv pre C w ∧ Held s [] ∧ e ≤ 0 := by
  obtain ⟨B, pend, h1, h2, h3, h4, h5, h6, h7⟩ := h
  have he := h6 h0
  have he0 : e.toNat = 0 := by omega
  have hp := h2.zero h0
  rw [he0, h0, hp] at h3
  rw [hp] at h2
  simp [runBits_zero] at h3
  rw [h3]
  exact ⟨h1, h2, he⟩

theorem Sync.mono {pre C e s w w'} (h : Sync pre C e s w) (hw : ∀ B, WInv pre B w → WInv pre B w') : Sync pre C e s w' := by
  obtain ⟨B, pend, h1, h2⟩ := h
  exact ⟨B, pend, hw B h1, h2⟩

/-- Writing the runs of zeros at the end of a band. -/
theorem zeroRuns_bits {pre h s w s' w'} {n : Nat} {B F : List Bool} (hf : 0 < n → CanFlush pre s w B F) (hc : 0 < n → Coded h 0xF0)
    (hw : (if n > 0 then (flush s w).bind fun f => (writeZrl h n f.2).bind fun w => some (f.1, w) else some (s, w)) =
      some (s', w')) : Em pre h s w B F (List.replicate n zrl) s' w' := by
  by_cases h0 : n > 0
  · rw [if_pos h0] at hw
    simp only [Option.bind_eq_some_iff] at hw
    obtain ⟨f, e1, w1, e2, e3⟩ := hw
    injection e3 with e3; injection e3 with a1 a2
    subst a1; subst a2
    obtain ⟨g1, g2⟩ := hf h0 _ _ e1
    right
    exact ⟨by simp; omega, g1, writeZrl_bits n g2 hc e2⟩
  · rw [if_neg h0] at hw
    injection hw with hw; injection hw with a1 a2
    have : n = 0 := by omega
    subst this
    exact .inl ⟨rfl, a1.symm, a2.symm⟩

theorem em_first {pre : List Nat} {h : Huff} {al n z : Nat} {cs : List Int} {s s1 s2 : Coding} {w w1 w2 : Writer} {B F : List Bool}
    (hf : firstToks (cs.map (tq al)) 0 ++ List.replicate n zrl ≠ [] → CanFlush pre s w B F)
    (hc : ∀ t ∈ firstToks (cs.map (tq al)) 0 ++ List.replicate n zrl, Coded h t.1)
    (hm : ∀ c ∈ cs, magBits (tq al c).natAbs ≤ 15) (h1 : progAc h al cs 0 s w = some (z, s1, w1))
    (h2 : (if n > 0 then (flush s1 w1).bind fun f => (writeZrl h n f.2).bind fun w => some (f.1, w) else some (s1, w1)) =
      some (s2, w2)) :
    Em pre h s w B F (firstToks (cs.map (tq al)) 0 ++ List.replicate n zrl) s2 w2 := by
  have hcz : 0 < n → Coded h 0xF0 := by
    intro hn
    exact hc zrl (by simp; exact .inr (by omega))
  have e1 := (progAc_bits cs 0 s B F (fun h => hf (by intro hn; exact h (List.append_eq_nil_iff.mp hn).1))
    (fun t ht => hc t (by simp [ht])) hm h1).2
  by_cases hnil : firstToks (cs.map (tq al)) 0 ++ List.replicate n zrl = []
  · obtain ⟨n1, n2⟩ := List.append_eq_nil_iff.mp hnil
    have n3 : n = 0 := by simpa using n2
    subst n3
    have := zeroRuns_bits (pre := pre) (h := h) (B := B) (F := F) (fun h => by omega) (fun h => by omega) h2
    rw [hnil]
    rcases e1 with ⟨_, g1, g2⟩ | ⟨g, _⟩
    · rcases this with ⟨_, f1, f2⟩ | ⟨f, _⟩
      · exact .inl ⟨rfl, f1.trans g1, f2.trans g2⟩
      · exact absurd rfl f
    · exact absurd n1 g
  · exact e1.trans (hf hnil) fun B1 F1 hf1 => zeroRuns_bits (fun _ => hf1) hcz h2

theorem zerosEnd_progAc {pre : List Nat} {h : Huff} {al z : Nat} {cs : List Int} {s s1 : Coding} {w w1 : Writer}
    (h1 : progAc h al cs 0 s w = some (z, s1, w1)) : z = zerosEnd (cs.map (tq al)) 0 := by
  have key : ∀ (cs : List Int) (r : Nat) (s : Coding) (w : Writer), progAc h al cs r s w = some (z, s1, w1) →
      z = zerosEnd (cs.map (tq al)) r := by
    intro cs
    induction cs with
    | nil => intro r s w h; cases h; rfl
    | cons c cs ih =>
      intro r s w h
      rw [progAc] at h
      simp only at h
      have ha := tq_natAbs al c
      rw [List.map_cons, zerosEnd]
      by_cases h0 : c.natAbs >>> al = 0
      · rw [if_pos h0] at h
        rw [if_pos (by omega)]
        exact ih _ _ _ h
      · rw [if_neg h0] at h
        simp only [Option.bind_eq_some_iff] at h
        obtain ⟨_, _, _, _, _, _, _, _, h⟩ := h
        rw [if_neg (by omega)]
        exact ih _ _ _ h
  exact key cs 0 s w h1

/-- A block of a progressive first scan. -/
theorem first_write {d pre S preW : List Nat} {hd h : Huff} {ss se al : Nat} {e last : Int} {coeffs c : List Int} {C C1 C' : List Bool}
    {b : BlockOut} {diff : Int} {vs : List Int} {s s1 s' : Coding} {w w1 w' : Writer} {l' : Int}
    (hr : FirstRead d pre S hd h ss se al e last coeffs C b diff C1 C' vs) (hs : Sync preW C e s w)
    (hal : ss = 0 → s.eobRun = 0) (hag : Agrees ss se al b.coeffs c)
    (h1 : (if b.ac.reset then flush s w else some (s, w)) = some (s1, w1))
    (hw : encodeProgressive c hd h ss se al b.ac.runs s1 last (reserve w1 512) = some (l', s', w')) :
    l' = b.last ∧ Sync preW C' b.ac.eob s' w' ∧ (ss = 0 → s'.eobRun = 0) := by
  have hmap : (bandOf ss se c).map (tq al) = vs := by rw [hag.band, hr.band, map_tq_mul]
  unfold encodeProgressive at hw
  simp only [Option.bind_eq_some_iff] at hw
  obtain ⟨q, e1, e2⟩ := hw
  have hss : (if ss = 0 then 1 else ss) = max 1 ss := by split <;> omega
  rw [hss] at e2
  have hreset0 : ss = 0 → b.ac.reset = false := by
    intro h0
    by_cases hb : max 1 ss ≤ se
    · have hbr := (hr.some hb).1
      have he := (hs.winv (hal h0)).2.2
      have hbool : (ss != 0) = false := by simp [h0]
      rcases hbr.off he with ⟨_, _, g, _⟩ | ⟨_, g, _⟩
      · exact g
      · rw [g, hbool]; rfl
    · exact (hr.none (by omega)).2.2.1
  -- the state before the band
  have hq : q.1 = b.last ∧ (ss = 0 → s1 = s ∧ WInv preW C1 q.2) ∧ (ss ≠ 0 → q.2 = reserve w1 512) := by
    by_cases h0 : ss = 0
    · rw [if_pos h0] at e1
      rw [Option.bind_eq_some_iff] at e1
      obtain ⟨wd, e3, e4⟩ := e1
      injection e4 with e4
      subst e4
      obtain ⟨g1, g2, g3, g4, g5⟩ := hr.dc h0
      rw [hreset0 h0] at h1
      simp only [Bool.false_eq_true, if_false] at h1
      injection h1 with h1; injection h1 with a1 a2
      subst a1; subst a2
      have hdiv : c.headD 0 / ((2 ^ al : Nat) : Int) = b.last := by
        rw [hag.dc h0, g5]
        exact Int.mul_ediv_cancel _ (by have := Nat.two_pow_pos al; omega)
      rw [hdiv] at e3
      have hdf : b.last - last = diff := by omega
      rw [hdf] at e3
      have hi := reserve_inv 512 (hs.winv (hal h0)).1
      have := writeDc_bits hi g2 g3 e3
      exact ⟨hdiv, fun _ => ⟨rfl, by rw [g4]; exact this⟩, fun h => absurd h0 h⟩
    · rw [if_neg h0] at e1
      injection e1 with e1
      subst e1
      exact ⟨(hr.nodc h0).1.symm, fun h => absurd h h0, fun _ => by dsimp only⟩
  by_cases hb : max 1 ss ≤ se
  · rw [if_neg (by omega)] at e2
    simp only [Option.bind_eq_some_iff] at e2
    obtain ⟨p, e3, z, e4, e5⟩ := e2
    obtain ⟨hbr, hmag⟩ := hr.some hb
    have hz := zerosEnd_progAc (pre := preW) e3
    have hband : (c.take (se + 1)).drop (max 1 ss) = bandOf ss se c := rfl
    rw [hband] at e3 hz
    have hem : ∀ B F, (firstToks vs 0 ++ List.replicate b.ac.runs zrl ≠ [] → CanFlush preW s1 q.2 B F) →
        Em preW h s1 q.2 B F (firstToks vs 0 ++ List.replicate b.ac.runs zrl) z.1 z.2 := by
      intro B F hf
      rw [← hmap] at hf ⊢
      refine em_first hf (by rw [hmap]; exact hbr.coded) ?_ e3 e4
      intro x hx
      exact hmag _ (by rw [← hmap]; exact List.mem_map_of_mem hx)
    rw [hmap] at hz
    have hz0 : p.1 = zerosEnd vs 0 := hz
    rw [hz0] at e5
    -- the end of the band
    have h3 : (if decide (16 * b.ac.runs < zerosEnd vs 0) then
        (bufferEndOfBand z.1 h (([] : List Bool).map bit01) z.2).bind fun b => if (ss != 0) then some b else flush b.1 b.2
        else some (z.1, z.2)) = some (s', w') ∧ q.1 = l' := by
      by_cases hlt : 16 * b.ac.runs < zerosEnd vs 0
      · rw [if_pos hlt] at e5
        simp only [Option.bind_eq_some_iff] at e5
        obtain ⟨y, e6, y2, e7, e8⟩ := e5
        injection e8 with e8; injection e8 with a1 a2; injection a2 with a2 a3
        rw [if_pos (by simpa using hlt)]
        refine ⟨?_, a1⟩
        show (bufferEndOfBand z.1 h [] z.2).bind _ = _
        rw [e6]
        simp only [Option.bind_some]
        by_cases h0 : ss = 0
        · rw [if_pos h0] at e7
          rw [if_neg (by simp [h0]), e7, ← a2, ← a3]
        · rw [if_neg h0] at e7
          rw [if_pos (by simp [h0]), e7, ← a2, ← a3]
      · rw [if_neg hlt] at e5
        injection e5 with e8; injection e8 with a1 a2; injection a2 with a2 a3
        rw [if_neg (by simpa using hlt), ← a2, ← a3]
        exact ⟨rfl, a1⟩
    refine ⟨h3.2.symm.trans hq.1, ?_⟩
    by_cases h0 : ss = 0
    · obtain ⟨g1, g2⟩ := hq.2.1 h0
      subst g1
      obtain ⟨_, f2, f3⟩ := hs.winv (hal h0)
      have := sync_band (s1 := s1) (w := q.2) (w1 := q.2) (w1' := q.2) (sync_empty g2 f2 (hal h0) f3) hbr (fun _ => hal h0)
        (by rw [hreset0 h0]; rfl) (fun _ h => h) hem h3.1
      exact ⟨this.1, fun _ => this.2 (by simp [h0])⟩
    · have hC := (hr.nodc h0).2
      subst hC
      have := sync_band (w1' := q.2) hs hbr (fun h => absurd h (by simp [h0])) h1
        (fun B hi => by rw [hq.2.2 h0]; exact reserve_inv 512 hi) hem h3.1
      exact ⟨this.1, fun h => absurd h h0⟩
  · rw [if_pos (by omega)] at e2
    injection e2 with e2; injection e2 with a1 a2; injection a2 with a2 a3
    subst a1; subst a2; subst a3
    refine ⟨hq.1, ?_⟩
    obtain ⟨n1, n2, n3, n4⟩ := hr.none (by omega)
    rw [n1, n2]
    by_cases h0 : ss = 0
    · obtain ⟨g1, g2⟩ := hq.2.1 h0
      subst g1
      obtain ⟨_, f2, f3⟩ := hs.winv (hal h0)
      exact ⟨sync_empty g2 f2 (hal h0) f3, hal⟩
    · rw [n3] at h1
      simp only [Bool.false_eq_true, if_false] at h1
      injection h1 with h1; injection h1 with a1 a2
      subst a1; subst a2
      rw [(hr.nodc h0).2, hq.2.2 h0]
      exact ⟨hs.mono fun B hi => reserve_inv 512 hi, hal⟩

/-- A block of a sequential scan. -/
theorem seq_write {d pre S preW : List Nat} {hd h : Huff} {e last : Int} {coeffs c : List Int} {C C1 C' : List Bool}
    {b : BlockOut} {diff : Int} {vs : List Int} {s : Coding} {w w' : Writer} {l' : Int}
    (hr : FirstRead d pre S hd h 0 63 0 e last coeffs C b diff C1 C' vs) (hs : Sync preW C e s w)
    (hal : s.eobRun = 0) (hag : Agrees 0 63 0 b.coeffs c)
    (hw : encodeSequential c hd h b.ac.runs last (reserve w 512) = some (l', w')) :
    l' = b.last ∧ b.ac.reset = false ∧ Sync preW C' b.ac.eob s w' := by
  have hmap : (bandOf 0 63 c).map (tq 0) = vs := by rw [hag.band, hr.band, map_tq_mul]
  obtain ⟨i1, i2, i3⟩ := hs.winv hal
  obtain ⟨g1, g2, g3, g4, g5⟩ := hr.dc rfl
  obtain ⟨hbr, hmag⟩ := hr.some (by decide)
  cases c with
  | nil => exact absurd hag.len (by decide)
  | cons c0 cs =>
    have hcl : cs.length = 63 := by have := hag.len; simpa using this
    have hdc := hag.dc rfl
    simp only [List.headD_cons, Nat.pow_zero] at hdc
    rw [g5] at hdc
    have hc0 : c0 = b.last := by
      have : ((1 : Nat) : Int) = 1 := rfl
      rw [this, Int.ediv_one, Int.ediv_one] at hdc
      rw [hdc]; simp
    have hcs : cs = vs := by
      have hb : bandOf 0 63 (c0 :: cs) = cs := by
        unfold bandOf
        rw [List.take_of_length_le (by simp; omega)]
        rfl
      rw [hb] at hmap
      rw [← hmap]
      conv => lhs; rw [← List.map_id cs]
      apply List.map_congr_left
      intro v _
      show v = v.tdiv ((2 ^ 0 : Nat) : Int)
      simp
    subst hcs
    unfold encodeSequential at hw
    simp only [Option.bind_eq_some_iff] at hw
    obtain ⟨w1, e1, p, e2, w2, e3, w3, e4, e5⟩ := hw
    injection e5 with e5; injection e5 with a1 a2
    subst a1; subst a2
    have hdf : c0 - last = diff := by omega
    rw [hdf] at e1
    have j1 := writeDc_bits (reserve_inv 512 i1) g2 g3 e1
    rw [← g4] at j1
    have j2 := seqAc_bits cs 0 j1 (fun t ht => hbr.coded t (by simp [ht])) hmag (by omega) e2
    have j3 := writeZrl_bits b.ac.runs j2.2 (fun hn => hbr.coded zrl (by simp; exact .inr (by omega))) e3
    rw [j2.1] at e4
    refine ⟨hc0, ?_⟩
    rcases hbr.off i3 with ⟨r1, r2, r3, r4, r5⟩ | ⟨r1, r2, R, r3, r4, r5, r6, r7, r8⟩
    · rw [if_neg (by simpa using r1)] at e4
      injection e4 with e4
      subst e4
      refine ⟨r3, sync_empty ?_ i2 hal (by omega)⟩
      rw [r4, tokBits_append]; simpa using j3
    · have hR := r8 rfl
      subst hR
      rw [if_pos (by simpa using r1)] at e4
      have hl : Nat.log2 1 = 0 := by decide
      rw [hl] at r6
      have j4 := writeSymbol_bits j3 r6 e4
      refine ⟨r2, sync_empty ?_ i2 hal (by omega)⟩
      have hrb : runBits h 1 = symBits h 0 := by unfold runBits; rw [if_neg (by decide), hl]; simp [msb, bitsOf]
      rw [r5, hrb, tokBits_append]; simpa using j4

end Jxl.Jpeg
