import Verif.Lemmas.JpegSafe
import Verif.Model.JpegMarkers
/-!
# Marker segments are written as they were read
-/
namespace Jxl.Jpeg

theorem Ok.check {c : Prop} [Decidable c] {k : Option (Option α)} {P : α → Prop} (h : c → Ok k P) : Ok (check c k) P := by
  unfold Jpeg.check
  exact Ok.ite h fun _ => Ok.no

theorem Ok.need {n : Nat} {l : List Nat} {k : Option (Option α)} {P : α → Prop} (h : n ≤ l.length → Ok k P) : Ok (need n l k) P := by
  unfold Jpeg.need
  exact Ok.ite (fun _ => Ok.no) fun hn => h (by omega)

theorem check_true {c : Prop} [Decidable c] {k : Option (Option α)} (h : c) : check c k = k := by
  unfold check; exact if_pos h

/-! ## Bytes -/

theorem byte_lt {n : Nat} (h : n < 256) : byte n = n := Nat.mod_eq_of_lt h

theorem byte_hi {a b : Nat} (ha : a < 256) (hb : b < 256) : byte (word a b >>> 8) = a := by
  unfold byte word
  rw [Nat.shiftRight_eq_div_pow]
  omega

theorem byte_lo {a b : Nat} (hb : b < 256) : byte (word a b) = b := by
  unfold byte word
  omega

theorem nibbles (f : Nat) (h : f < 256) : byte (((f / 16) <<< 4) ||| (f % 16)) = f := by
  have e : ∀ f : Fin 256, byte (((f.val / 16) <<< 4) ||| (f.val % 16)) = f.val := by decide +kernel
  exact e ⟨f, h⟩

theorem nibbles_add (f : Nat) (h : f < 256) : byte (((f / 16) <<< 4) + (f % 16)) = f := by
  unfold byte
  rw [Nat.shiftLeft_eq]
  omega

theorem chunk_full {n : Nat} {l : List Nat} (h : l.length = n) : chunk n l = some l := by
  unfold chunk
  rw [if_pos (by omega), h, Nat.sub_self, List.replicate_zero, List.append_nil]

theorem map_byte {l : List Nat} (h : ∀ b ∈ l, b < 256) : l.map byte = l := by
  conv => rhs; rw [← List.map_id l]
  exact List.map_congr_left fun b hb => byte_lt (h b hb)

/-! ## Frames -/

/-- What a frame header guarantees about the components. -/
structure CompsOk (cs : List Comp) : Prop where
  ids : (cs.map (·.id)).Nodup
  pos : ∀ c ∈ cs, 1 ≤ c.h ∧ 1 ≤ c.v

theorem quantWith_some : ∀ (ts : List QuantTable) (i j k : Nat), quantWith i ts j = some k → ∃ t, ts[k - j]? = some t ∧ t.index = i ∧ j ≤ k := by
  intro ts
  induction ts with
  | nil => intro i j k h; cases h
  | cons t ts ih =>
    intro i j k h
    rw [quantWith] at h
    split at h
    · rename_i ht
      injection h with h
      subst h
      exact ⟨t, by rw [Nat.sub_self]; rfl, ht, Nat.le_refl _⟩
    · obtain ⟨t', h1, h2, h3⟩ := ih i (j + 1) k h
      refine ⟨t', ?_, h2, by omega⟩
      rw [show k - j = (k - (j + 1)) + 1 by omega, List.getElem?_cons_succ]
      exact h1

theorem fixup_cons {ts : List QuantTable} {c : Comp} {cs cs' : List Comp} (h : fixup ts (c :: cs) = some cs') :
    ∃ j rest, quantWith c.quant ts 0 = some j ∧ fixup ts cs = some rest ∧ cs' = { c with quant := j } :: rest := by
  unfold fixup at h ⊢
  rw [List.mapM_cons] at h
  simp only [bind, pure, Option.bind_eq_some_iff] at h
  obtain ⟨a, ⟨j, h1, h2⟩, rest, h3, h4⟩ := h
  injection h2 with h2
  injection h4 with h4
  exact ⟨j, rest, h1, h3, by rw [← h4, ← h2]⟩

theorem fixup_length : ∀ {ts : List QuantTable} {cs cs' : List Comp}, fixup ts cs = some cs' → cs'.length = cs.length := by
  intro ts cs
  induction cs with
  | nil => intro cs' h; injection h with h; rw [← h]; rfl
  | cons c cs ih =>
    intro cs' h
    obtain ⟨j, rest, _, h2, h3⟩ := fixup_cons h
    rw [h3, List.length_cons, List.length_cons, ih h2]

theorem fixup_get : ∀ {ts : List QuantTable} {cs cs' : List Comp}, fixup ts cs = some cs' →
    ∀ i : Nat, (cs'[i]?).map (fun c : Comp => (c.id, c.h, c.v)) = (cs[i]?).map (fun c : Comp => (c.id, c.h, c.v)) := by
  intro ts cs
  induction cs with
  | nil => intro cs' h i; injection h with h; rw [← h]; rfl
  | cons c cs ih =>
    intro cs' h i
    obtain ⟨j, rest, _, h2, h3⟩ := fixup_cons h
    subst h3
    cases i with
    | zero => rfl
    | succ i => rw [List.getElem?_cons_succ, List.getElem?_cons_succ]; exact ih h2 i

theorem readComps_ok : ∀ (n : Nat) (seen l : List Nat), (∀ b ∈ l, b < 256) → 3 * n ≤ l.length →
    Ok (readComps n seen l) fun cs => cs.length = n ∧ (cs.map (·.id)).Nodup ∧ (∀ c ∈ cs, c.id ∉ seen ∧ 1 ≤ c.h ∧ 1 ≤ c.v) ∧
      ∀ qs cs', fixup qs cs = some cs' → (∀ q ∈ qs, q.index < 256) → writeComps qs cs' = some (l.take (3 * n)) := by
  intro n
  induction n with
  | zero =>
    intro seen l _ _
    refine ⟨rfl, List.nodup_nil, fun c hc => absurd hc List.not_mem_nil, ?_⟩
    intro qs cs' h _
    injection h with h
    rw [← h]
    rfl
  | succ n ih =>
    intro seen l hb hl
    match l, hb, hl with
    | id :: f :: q :: l, hb, hl =>
      rw [readComps]
      refine Ok.check fun hs => Ok.check fun h1 => Ok.check fun h2 => ?_
      have hbl : ∀ b ∈ l, b < 256 := fun b hm => hb b (by simp [hm])
      have hid : id < 256 := hb _ (by simp)
      have hf : f < 256 := hb _ (by simp)
      have hq : q < 256 := hb _ (by simp)
      simp only [List.length_cons] at hl
      refine Ok.andThen (ih (id :: seen) l hbl (by omega)) fun cs hcs => ?_
      obtain ⟨k1, k2, k3, k4⟩ := hcs
      refine ⟨by rw [List.length_cons, k1], ?_, ?_, ?_⟩
      · rw [List.map_cons]
        refine List.nodup_cons.mpr ⟨fun hm => ?_, k2⟩
        obtain ⟨c, hc, he⟩ := List.mem_map.mp hm
        exact (k3 c hc).1 (by simp only at he; rw [he]; simp)
      · intro c hc
        rcases List.mem_cons.mp hc with rfl | hc
        · exact ⟨hs, h1.1, h2.1⟩
        · have := k3 c hc
          exact ⟨fun hm => this.1 (List.mem_cons_of_mem _ hm), this.2⟩
      · intro qs cs' hfx hqs
        obtain ⟨j, rest, e1, e2, e3⟩ := fixup_cons hfx
        subst e3
        obtain ⟨t, e4, e5, _⟩ := quantWith_some _ _ _ _ e1
        rw [writeComps]
        simp only at e5 ⊢
        rw [show j - 0 = j by omega] at e4
        rw [e4]
        simp only [Option.bind_some]
        rw [k4 qs rest e2 hqs]
        simp only [Option.bind_some]
        rw [byte_lt hid, nibbles f hf, e5, byte_lt hq, show 3 * (n + 1) = 3 * n + 1 + 1 + 1 by omega]
        rfl

theorem readSof_ok {l : List Nat} (hb : ∀ b ∈ l, b < 256) :
    Ok (readSof l) fun r => 2 ≤ r.2 ∧ r.2 ≤ l.length ∧ CompsOk r.1.comps ∧ 1 ≤ r.1.width ∧ 1 ≤ r.1.height ∧
      (∀ c ∈ r.1.comps, maxH r.1.comps % c.h = 0 ∧ maxV r.1.comps % c.v = 0) ∧
      ∀ (j : Jpg) m, j.width = r.1.width → j.height = r.1.height → fixup j.quant r.1.comps = some j.comps →
        (∀ q ∈ j.quant, q.index < 256) → writeSof j m = some (some ([255, m] ++ l.take r.2)) := by
  unfold readSof
  refine Ok.need fun h8 => ?_
  match l, hb, h8 with
  | l1 :: l0 :: prec :: h1 :: h0 :: w1 :: w0 :: n :: l, hb, _ =>
    refine Ok.check fun c1 => Ok.check fun c2 => Ok.check fun c3 => Ok.check fun c4 => Ok.need fun c5 => ?_
    have hbl : ∀ b ∈ l, b < 256 := fun b hm => hb b (by simp [hm])
    refine Ok.andThen (readComps_ok n [] l hbl c5) fun cs hcs => Ok.check fun c6 => Ok.check fun c7 => ?_
    obtain ⟨k1, k2, k3, k4⟩ := hcs
    refine ⟨by show 2 ≤ 8 + 3 * n; omega, by show 8 + 3 * n ≤ _; simp only [List.length_cons]; omega, ⟨k2, fun c hc => (k3 c hc).2⟩,
      c3.1, c2.1, c6, ?_⟩
    intro j m hw hh hfx hqs
    unfold writeSof
    simp only at hw hh hfx ⊢
    rw [k4 _ _ hfx hqs]
    simp only
    have hlen : j.comps.length = n := by rw [fixup_length hfx, k1]
    rw [hlen, hw, hh, chunk_full (by simp only [List.length_append, List.length_cons, List.length_nil, List.length_take]; omega)]
    have e1 : byte ((8 + 3 * n) >>> 8) = l1 := by rw [← c7]; exact byte_hi (hb _ (by simp)) (hb _ (by simp))
    have e0 : byte (8 + 3 * n) = l0 := by rw [← c7]; exact byte_lo (hb _ (by simp))
    rw [e1, e0, byte_hi (hb _ (by simp)) (hb _ (by simp)), byte_lo (hb _ (by simp)), byte_hi (hb _ (by simp)) (hb _ (by simp)),
      byte_lo (hb _ (by simp)), byte_lt (n := n) (hb _ (by simp)), c1, show 8 + 3 * n = 3 * n + 1 + 1 + 1 + 1 + 1 + 1 + 1 + 1 by omega]
    rfl

/-! ## Scans -/

theorem lastWith_some : ∀ (cs : List Comp) (id j k : Nat), lastWith id cs j = some k → ∃ c, cs[k - j]? = some c ∧ c.id = id ∧ j ≤ k := by
  intro cs
  induction cs with
  | nil => intro id j k h; cases h
  | cons c cs ih =>
    intro id j k h
    rw [lastWith] at h
    split at h
    · rename_i k' hk
      injection h with h
      subst h
      obtain ⟨c', h1, h2, h3⟩ := ih id (j + 1) k' hk
      refine ⟨c', ?_, h2, by omega⟩
      rw [show k' - j = (k' - (j + 1)) + 1 by omega, List.getElem?_cons_succ]
      exact h1
    · split at h
      · rename_i ht
        injection h with h
        subst h
        exact ⟨c, by rw [Nat.sub_self]; rfl, ht, Nat.le_refl _⟩
      · cases h

theorem readScanComps_ok (cs : List Comp) : ∀ (n : Nat) (seen l : List Nat), (∀ b ∈ l, b < 256) → 2 * n ≤ l.length →
    Ok (readScanComps cs n seen l) fun r => r.1.length = n ∧ r.2 = l.drop (2 * n) ∧
      (∀ c ∈ r.1, (∃ k, cs[c.comp]? = some k ∧ k.id ∉ seen) ∧ c.dc ≤ 3 ∧ c.ac ≤ 3) ∧ (r.1.map (·.comp)).Nodup ∧
      ∀ cs' : List Comp, (∀ i : Nat, (cs'[i]?).map (fun c : Comp => c.id) = (cs[i]?).map (fun c : Comp => c.id)) → writeScanComps cs' r.1 = some (l.take (2 * n)) := by
  intro n
  induction n with
  | zero =>
    intro seen l _ _
    exact ⟨rfl, rfl, fun c hc => absurd hc List.not_mem_nil, List.nodup_nil, fun _ _ => rfl⟩
  | succ n ih =>
    intro seen l hb hl
    match l, hb, hl with
    | id :: t :: l, hb, hl =>
      rw [readScanComps]
      refine Ok.check fun hs => ?_
      have hbl : ∀ b ∈ l, b < 256 := fun b hm => hb b (by simp [hm])
      have hid : id < 256 := hb _ (by simp)
      have ht : t < 256 := hb _ (by simp)
      simp only [List.length_cons] at hl
      cases hlw : lastWith id cs 0 with
      | none => exact Ok.no
      | some j =>
        simp only
        obtain ⟨c, e1, e2, _⟩ := lastWith_some _ _ _ _ hlw
        rw [show j - 0 = j by omega] at e1
        refine Ok.check fun t1 => Ok.check fun t2 => ?_
        refine Ok.andThen (ih (id :: seen) l hbl (by omega)) fun r hr => ?_
        obtain ⟨k1, k2, k3, k4, k5⟩ := hr
        refine ⟨by show (_ :: r.1).length = _; rw [List.length_cons, k1], ?_, ?_, ?_, ?_⟩
        · rw [k2, show 2 * (n + 1) = 2 * n + 1 + 1 by omega]
          rfl
        · intro c' hc'
          rcases List.mem_cons.mp hc' with rfl | hc'
          · exact ⟨⟨c, e1, by rw [e2]; exact hs⟩, t1, t2⟩
          · obtain ⟨⟨k, m1, m2⟩, m3⟩ := k3 c' hc'
            exact ⟨⟨k, m1, fun hm => m2 (List.mem_cons_of_mem _ hm)⟩, m3⟩
        · show (List.map (·.comp) (_ :: r.1)).Nodup
          rw [List.map_cons]
          refine List.nodup_cons.mpr ⟨fun hm => ?_, k4⟩
          obtain ⟨c', hc', he⟩ := List.mem_map.mp hm
          obtain ⟨⟨k, m1, m2⟩, _⟩ := k3 c' hc'
          simp only at he
          rw [he, e1] at m1
          injection m1 with m1
          subst m1
          exact m2 (by rw [e2]; simp)
        · intro cs' hcs'
          show writeScanComps cs' (_ :: r.1) = _
          rw [writeScanComps]
          have hj := hcs' j
          rw [e1] at hj
          cases hcj : cs'[j]? with
          | none => rw [hcj] at hj; cases hj
          | some k =>
            rw [hcj] at hj
            simp only [Option.map_some] at hj
            injection hj with hj
            simp only [hcj, Option.bind_some]
            rw [k5 cs' hcs']
            simp only [Option.bind_some]
            rw [hj, e2, byte_lt hid, nibbles_add t ht, show 2 * (n + 1) = 2 * n + 1 + 1 by omega]
            rfl

theorem readSos_ok {cs : List Comp} {hs : List HuffCode} {l : List Nat} (hb : ∀ b ∈ l, b < 256) :
    Ok (readSos cs hs l) fun r => 8 ≤ r.2 ∧ r.2 ≤ l.length ∧ r.1.ss ≤ r.1.se ∧ r.1.se ≤ 63 ∧ r.1.comps ≠ [] ∧
      (∀ c ∈ r.1.comps, (∃ k, cs[c.comp]? = some k) ∧ c.dc ≤ 3 ∧ c.ac ≤ 3 ∧ tablesFound hs r.1.ss r.1.se c = true) ∧
      (r.1.comps.map (·.comp)).Nodup ∧ r.1.al < 16 ∧ l[r.2 - 1]? = some (16 * r.1.ah + r.1.al) ∧
      ∀ (cs' : List Comp) (i : ScanInfo), (∀ i : Nat, (cs'[i]?).map (fun c : Comp => c.id) = (cs[i]?).map (fun c : Comp => c.id)) → i.ss = r.1.ss → i.se = r.1.se →
        i.ah = r.1.ah → i.al = r.1.al → i.comps = r.1.comps → writeSos cs' i = some (some ([255, 0xda] ++ l.take r.2)) := by
  unfold readSos
  refine Ok.need fun h3 => ?_
  match l, hb, h3 with
  | l1 :: l0 :: n :: l, hb, _ =>
    simp only
    refine Ok.check fun c1 => Ok.need fun c2 => ?_
    have hbl : ∀ b ∈ l, b < 256 := fun b hm => hb b (by simp [hm])
    refine Ok.andThen (readScanComps_ok cs n [] l hbl c2) fun r hr => Ok.need fun c3 => ?_
    obtain ⟨k1, k2, k3, k4, k5⟩ := hr
    have hdl : l.drop (2 * n) = r.2 := k2.symm
    match hrr : r.2, c3 with
    | ss :: se :: a :: rest, _ =>
      simp only
      rw [hrr] at hdl
      have hlen : 2 * n + 3 ≤ l.length := by
        have := congrArg List.length hdl
        rw [List.length_drop] at this
        simp only [List.length_cons] at this
        omega
      have hmem : ∀ x ∈ ss :: se :: a :: rest, x < 256 := fun x hx => hbl x (List.mem_of_mem_drop (by rw [hdl]; exact hx))
      have ha : a < 256 := hmem a (by simp)
      refine Ok.check fun c4 => Ok.check fun c5 => Ok.check fun c6 => Ok.check fun c7 => ?_
      have hsplit : l.take (2 * n + 3) = l.take (2 * n) ++ [ss, se, a] := by
        rw [List.take_add, hdl]; rfl
      refine ⟨by show 8 ≤ 6 + 2 * n; omega, by show 6 + 2 * n ≤ _; simp only [List.length_cons]; omega, c5.1, c5.2, ?_, ?_, k4, Nat.mod_lt _ (by decide), ?_, ?_⟩
      · intro he
        have : r.1.length = 0 := by rw [show r.1 = [] from he]; rfl
        omega
      · intro c hc
        obtain ⟨⟨k, m1, _⟩, m3⟩ := k3 c hc
        exact ⟨⟨k, m1⟩, m3.1, m3.2, List.all_eq_true.mp c6 c hc⟩
      · show (l1 :: l0 :: n :: l)[6 + 2 * n - 1]? = some (16 * (a / 16) + a % 16)
        rw [show 6 + 2 * n - 1 = (2 * n + 2) + 1 + 1 + 1 by omega, List.getElem?_cons_succ, List.getElem?_cons_succ, List.getElem?_cons_succ,
          ← List.getElem?_drop, hdl, show 16 * (a / 16) + a % 16 = a by omega]
        rfl
      · intro cs' i hcs e1 e2 e3 e4 e5
        unfold writeSos
        simp only at e1 e2 e3 e4 e5 ⊢
        rw [e5, k5 cs' hcs]
        simp only
        rw [k1, e1, e2, e3, e4, chunk_full (by simp only [List.length_append, List.length_cons, List.length_nil, List.length_take]; omega),
          nibbles a ha]
        have d1 : byte ((6 + 2 * n) >>> 8) = l1 := by rw [← c7]; exact byte_hi (hb _ (by simp)) (hb _ (by simp))
        have d0 : byte (6 + 2 * n) = l0 := by rw [← c7]; exact byte_lo (hb _ (by simp))
        rw [d1, d0, byte_lt (n := n) (hb _ (by simp)), byte_lt (n := ss) (by omega), byte_lt (n := se) (by omega),
          show 6 + 2 * n = (2 * n + 3) + 1 + 1 + 1 by omega, List.take_succ_cons, List.take_succ_cons, List.take_succ_cons, hsplit]
        rfl

/-! ## Huffman tables -/

theorem expand_length : ∀ (ns : List Nat) (l : Nat), (expand l ns).length = ns.sum := by
  intro ns
  induction ns with
  | nil => intro l; rfl
  | cons n ns ih => intro l; rw [expand, List.length_append, List.length_replicate, ih, List.sum_cons]

theorem bumpLast_none : ∀ (ns : List Nat), bumpLast ns = none → ns.sum = 0 := by
  intro ns
  induction ns with
  | nil => intro _; rfl
  | cons n ns ih =>
    intro h
    rw [bumpLast] at h
    split at h
    · cases h
    · rename_i hb
      split at h
      · rename_i hn
        rw [List.sum_cons, ih hb, hn]
      · cases h

theorem zero_sum : ∀ (ns : List Nat), ns.sum = 0 → ns = List.replicate ns.length 0 := by
  intro ns
  induction ns with
  | nil => intro _; rfl
  | cons n ns ih =>
    intro h
    rw [List.sum_cons] at h
    rw [List.length_cons, List.replicate_succ, ← ih (by omega), show n = 0 by omega]

theorem zero_rest : ∀ (k l : Nat), maxLength (List.replicate k 0) l = 0 ∧ expand l (List.replicate k 0) = [] ∧
    ∀ t, writeCounts t (List.replicate k 0) l = List.replicate k 0 := by
  intro k
  induction k with
  | zero => intro l; exact ⟨rfl, rfl, fun _ => rfl⟩
  | succ k ih =>
    intro l
    obtain ⟨h1, h2, h3⟩ := ih (l + 1)
    rw [List.replicate_succ]
    refine ⟨?_, ?_, fun t => ?_⟩
    · rw [maxLength, h1]; rfl
    · rw [expand, h2]; rfl
    · rw [writeCounts, h3 t]
      congr 1
      unfold byte
      split <;> rfl

theorem writeCounts_after {top : Nat} : ∀ (ns : List Nat) (l : Nat), top < l → (∀ n ∈ ns, n < 256) → writeCounts top ns l = ns := by
  intro ns
  induction ns with
  | nil => intro l _ _; rfl
  | cons n ns ih =>
    intro l hl hb
    rw [writeCounts, ih (l + 1) (by omega) (fun m hm => hb m (List.mem_cons_of_mem _ hm)), if_neg (by omega), byte_lt (hb n (by simp))]

theorem bumpLast_some : ∀ (ns ms : List Nat) (l : Nat), 1 ≤ l → (∀ n ∈ ns, n < 256) → bumpLast ns = some ms →
    ms.sum = ns.sum + 1 ∧ l ≤ maxLength ms l ∧ writeCounts (maxLength ms l) ms l = ns ∧ ms.length = ns.length ∧
      expand l ns ≠ [] ∧ ∀ x, expand l ms = expand l ns ++ [(expand l ns).getLastD x] := by
  intro ns
  induction ns with
  | nil => intro ms l _ _ h; cases h
  | cons n ns ih =>
    intro ms l hl hb h
    have hbt : ∀ m ∈ ns, m < 256 := fun m hm => hb m (List.mem_cons_of_mem _ hm)
    have hn : n < 256 := hb n (by simp)
    rw [bumpLast] at h
    split at h
    · rename_i ms' hms
      injection h with h
      subst h
      obtain ⟨h1, h2, h3, h4, h5, h6⟩ := ih ms' (l + 1) (by omega) hbt hms
      have hm : maxLength (n :: ms') l = maxLength ms' (l + 1) := by rw [maxLength, if_pos (by omega)]
      have hne : expand l (n :: ns) ≠ [] := by rw [expand]; simp [h5]
      refine ⟨by rw [List.sum_cons, List.sum_cons, h1]; omega, by omega, ?_, by rw [List.length_cons, List.length_cons, h4], hne, ?_⟩
      · rw [hm, writeCounts, h3, if_neg (by omega), byte_lt hn]
      · intro x
        have e : (expand l (n :: ns)).getLastD x = (expand (l + 1) ns).getLastD x := by
          rw [expand, List.getLastD_eq_getLast?, List.getLast?_append, List.getLastD_eq_getLast?]
          cases hh : (expand (l + 1) ns).getLast? with
          | none => exact absurd (List.getLast?_eq_none_iff.mp hh) h5
          | some y => rfl
        rw [e, expand, h6 x, expand, List.append_assoc]
    · rename_i hms
      split at h
      · cases h
      · rename_i hn0
        injection h with h
        subst h
        have hz := zero_sum ns (bumpLast_none ns hms)
        obtain ⟨z1, z2, z3⟩ := zero_rest ns.length (l + 1)
        rw [← hz] at z1 z2 z3
        have hm : maxLength ((n + 1) :: ns) l = l := by rw [maxLength, z1]; simp
        refine ⟨by rw [List.sum_cons, List.sum_cons]; omega, by omega, ?_, rfl, ?_, ?_⟩
        · rw [hm, writeCounts, if_pos rfl, Nat.add_sub_cancel, byte_lt hn, z3]
        · rw [expand, z2]; simp [hn0]
        · intro x
          rw [expand, expand, z2, List.append_nil, List.append_nil, List.replicate_succ', List.getLastD_eq_getLast?]
          congr 2
          obtain ⟨k, rfl⟩ : ∃ k, n = k + 1 := ⟨n - 1, by omega⟩
          rw [List.replicate_succ', List.getLast?_append]
          rfl

theorem bump_spec {counts : List Nat} (hc : counts.length = 16) (hb : ∀ n ∈ counts, n < 256) :
    (bump counts).sum = counts.sum + 1 ∧ writeCounts (maxLength (bump counts) 1) (bump counts) 1 = counts ∧
      expand 1 (bump counts) = expand 1 counts ++ [maxDepth (expand 1 counts)] ∧ (bump counts).length = 16 := by
  unfold bump maxDepth
  cases h : bumpLast counts with
  | some ms =>
    obtain ⟨h1, _, h3, h4, _, h6⟩ := bumpLast_some counts ms 1 (Nat.le_refl _) hb h
    exact ⟨h1, h3, h6 1, by simp only; omega⟩
  | none =>
    have hz := zero_sum counts (bumpLast_none counts h)
    rw [hc] at hz
    rw [hz]
    decide

/-- The parser's and the writer's tables of a slot. -/
def TableRel (t : Table) (o : Option (List Code)) : Prop := (t = Table.fresh ∧ o = none) ∨ (FromFile t ∧ o = some t.1)

structure SlotRel (s : Slots) (w : WriterSlots) : Prop where
  dc : ∀ i, TableRel (s.dc i) (w.dc i)
  ac : ∀ i, TableRel (s.ac i) (w.ac i)

/-- The parser's slots hold tables. -/
structure SlotsOk (s : Slots) : Prop where
  dc : ∀ i, InSlot (s.dc i)
  ac : ∀ i, InSlot (s.ac i)

theorem SlotsOk.get {s : Slots} (h : SlotsOk s) (a : Bool) (i : Nat) : InSlot (s.get a i) := by
  unfold Slots.get
  split
  · exact h.ac i
  · exact h.dc i

theorem InSlot.slot {t : Table} (h : InSlot t) : Slot t.2 := by
  rcases h with ⟨u, a, c, v, h1, h2, h3, h4⟩ | h
  · exact Slot.built h1 h2 h3 (t' := t.2) (cs := t.1) h4
  · rw [h]; exact Slot.fresh

theorem SlotsOk.put {s : Slots} (h : SlotsOk s) (a : Bool) (i : Nat) {t : Table} (ht : InSlot t) : SlotsOk (s.put a i t) := by
  unfold Slots.put
  split
  · refine ⟨h.dc, fun j => ?_⟩
    simp only
    split
    · exact ht
    · exact h.ac j
  · refine ⟨fun j => ?_, h.ac⟩
    simp only
    split
    · exact ht
    · exact h.dc j

theorem SlotRel.put {s : Slots} {w : WriterSlots} (h : SlotRel s w) (a : Bool) (i : Nat) {t : Table} (ht : FromFile t) :
    SlotRel (s.put a i t) (w.put a i t.1) := by
  unfold Slots.put WriterSlots.put
  split
  · refine ⟨h.dc, fun j => ?_⟩
    simp only
    split
    · exact Or.inr ⟨ht, rfl⟩
    · exact h.ac j
  · refine ⟨fun j => ?_, h.ac⟩
    simp only
    split
    · exact Or.inr ⟨ht, rfl⟩
    · exact h.dc j

/-- A table that was read stands in its slot. -/
def InPlace (s : Slots) (h : HuffCode) : Prop :=
  (∀ i, h.slot = i + 16 → FromFile (s.ac i)) ∧ (h.values ≠ [] → ∀ i, i ≤ 3 → h.slot = i → FromFile (s.dc i))

theorem InPlace.put {s : Slots} {h : HuffCode} (hi : InPlace s h) (a : Bool) (i : Nat) {t : Table} (ht : FromFile t) :
    InPlace (s.put a i t) h := by
  unfold Slots.put
  split
  · refine ⟨fun j hj => ?_, hi.2⟩
    simp only
    split
    · exact ht
    · exact hi.1 j hj
  · refine ⟨hi.1, fun hv j h3 hj => ?_⟩
    simp only
    split
    · exact ht
    · exact hi.2 hv j h3 hj

theorem readTable_codes {isAc : Bool} {counts values : List Nat} {t : List LutEntry} {x : Table}
    (h : readTable isAc counts values t = some (some x)) (hv : values.length = counts.sum) :
    x.1 = (expand 1 counts ++ [maxDepth (expand 1 counts)]).zip (values ++ [256]) := by
  unfold readTable at h
  simp only at h
  generalize (if isAc then 256 else 12) = lim at h
  split at h
  · cases h
  · split at h
    · cases h
    · split at h
      · cases h
      · split at h
        · cases h
        · rw [Option.bind_eq_some_iff] at h
          obtain ⟨t', _, e1⟩ := h
          injection e1 with e1
          injection e1 with e1
          rw [← e1]
          simp only
          rw [expand_length, ← hv, List.take_length]

theorem readCodes_ok : ∀ (n len used : Nat) (l : List Nat) (s : Slots), (∀ b ∈ l, b < 256) → SlotsOk s → l.length < n → 2 ≤ used →
    Ok (readCodes n len used l s) fun r => ∃ k, r.2.1 = used + k ∧ k ≤ l.length ∧ SlotsOk r.2.2 ∧ (∀ h, InPlace s h → InPlace r.2.2 h) ∧
      (∀ h ∈ r.1, InPlace r.2.2 h ∧ h.values ≠ []) ∧ (¬ used < len → r.1 = [] ∧ r.2.2 = s) ∧
      (used < len → r.2.1 = len → ∀ more ws, SlotRel s ws → ∃ ws', SlotRel r.2.2 ws' ∧
        writeCodes (r.1 ++ more) ws = some (some (l.take k, more, ws')) ∧ dhtLen (r.1 ++ more) used = len) := by
  intro n
  induction n with
  | zero => intro len used l s _ _ h _; omega
  | succ n ih =>
    intro len used l s hb hs hl hu
    rw [readCodes.eq_def]
    refine Ok.ite (fun hlt => ?_) fun hlt => ?_
    · refine Ok.need fun h17 => ?_
      match l, hb, hl, h17 with
      | slot :: l, hb, hl, h17 =>
        simp only
        simp only [List.length_cons] at hl h17
        have hbl : ∀ b ∈ l, b < 256 := fun b hm => hb b (by simp [hm])
        have hslot : slot < 256 := hb _ (by simp)
        generalize hac : decide (slot / 16 % 2 = 1) = isAc
        have hac' : (slot / 16 % 2 = 1) = (isAc = true) := by rw [← hac]; simp
        simp only [hac']
        generalize hix : (if isAc = true then slot - 16 else slot) = index
        refine Ok.check fun hindex => Ok.check fun htotal => Ok.need fun hvals => ?_
        have hcl : (l.take 16).length = 16 := by rw [List.length_take]; omega
        have hcb : ∀ b ∈ l.take 16, b < 256 := fun b hm => hbl b (List.mem_of_mem_take hm)
        have hvb : ∀ b ∈ (l.drop 16).take (l.take 16).sum, b < 256 := fun b hm => hbl b (List.mem_of_mem_drop (List.mem_of_mem_take hm))
        have hvl : ((l.drop 16).take (l.take 16).sum).length = (l.take 16).sum := by rw [List.length_take]; omega
        generalize hcs : l.take 16 = counts at *
        generalize hvs : (l.drop 16).take counts.sum = values at *
        obtain ⟨r0, e0, k0⟩ := readTable_spec isAc counts values (s.get isAc index).2 hcl hvb (slotOk_of (hs.get isAc index).slot)
        have hrt : Ok (readTable isAc counts values (s.get isAc index).2) fun t => FromFile t ∧
            t.1 = (expand 1 (bump counts)).zip (values ++ [256]) := by
          rw [e0]
          cases r0 with
          | none => exact trivial
          | some t =>
            refine ⟨⟨_, isAc, counts, values, (hs.get isAc index).slot, hcl, hvb, e0⟩, ?_⟩
            rw [(bump_spec hcl hcb).2.2.1]
            exact readTable_codes e0 hvl
        refine Ok.andThen hrt fun t ht => ?_
        obtain ⟨hf, ht1⟩ := ht
        have hdl : ((l.drop 16).drop counts.sum).length < n := by
          rw [List.length_drop, List.length_drop]; omega
        have hput := hs.put isAc index (t := t) (Or.inl hf)
        refine Ok.andThen (ih len (used + 17 + counts.sum) ((l.drop 16).drop counts.sum) (s.put isAc index t)
          (fun b hm => hbl b (List.mem_of_mem_drop (List.mem_of_mem_drop hm))) hput hdl (by omega)) fun r hr => ?_
        obtain ⟨k, k1, k2, k3, k4, k5, k7, k6⟩ := hr
        have hplace : InPlace (s.put isAc index t) ⟨slot, bump counts, values ++ [256], used + 17 + counts.sum == len⟩ := by
          unfold Slots.put InPlace
          cases isAc with
          | true =>
            rw [if_pos rfl] at hix
            simp only [if_true]
            refine ⟨fun i hi => ?_, fun _ i h3 hi => ?_⟩
            · rw [if_pos (by omega)]; exact hf
            · rw [decide_eq_true_eq] at hac; omega
          | false =>
            rw [if_neg (by simp)] at hix
            simp only [Bool.false_eq_true, if_false]
            refine ⟨fun i hi => ?_, fun _ i h3 hi => ?_⟩
            · omega
            · rw [if_pos (by omega)]; exact hf
        have hbump := bump_spec hcl hcb
        rw [List.length_drop, List.length_drop] at k2
        rw [List.length_drop] at hvals
        refine ⟨17 + counts.sum + k, by show r.2.1 = _; omega, by simp only [List.length_cons]; omega, k3, fun h hi => k4 h (hi.put isAc index hf), ?_, fun h => absurd hlt h, ?_⟩
        · intro h hh
          rcases List.mem_cons.mp hh with rfl | hh
          · exact ⟨k4 _ hplace, by simp⟩
          · exact k5 h hh
        · intro _ hfin more ws hrel
          have hrel' := hrel.put isAc index hf
          have htot256 : counts.sum ≤ 256 := by
            have : (if isAc = true then 256 else 12) ≤ 256 := by split <;> omega
            omega
          have htake : (slot :: l).take (17 + counts.sum + k) =
              slot :: (counts ++ values) ++ ((l.drop 16).drop counts.sum).take k := by
            rw [show 17 + counts.sum + k = (16 + counts.sum + k) + 1 by omega, List.take_succ_cons, show 16 + counts.sum + k = 16 + (counts.sum + k) by omega,
              List.take_add, List.take_add, hcs, hvs]
            simp
          have hwc : ∀ hs' more', writeCodes ((⟨slot, bump counts, values ++ [256], used + 17 + counts.sum == len⟩ :: hs') ++ more') ws =
              if (used + 17 + counts.sum == len) then
                some (some (slot :: (counts ++ values), hs' ++ more', ws.put isAc index t.1))
              else andThen (writeCodes (hs' ++ more') (ws.put isAc index t.1)) fun r => some (some (slot :: (counts ++ values) ++ r.1, r.2)) := by
            intro hs' more'
            rw [List.cons_append, writeCodes]
            simp only [hac', hix, Bool.decide_eq_true]
            rw [if_neg (by omega), if_neg (by omega), if_neg (by omega), ← ht1, hbump.1, hbump.2.1, Nat.add_sub_cancel, ← hvl,
              List.take_left, map_byte hvb, byte_lt hslot]
            rfl
          have hdh : ∀ hs' more', dhtLen ((⟨slot, bump counts, values ++ [256], used + 17 + counts.sum == len⟩ :: hs') ++ more') used =
              if (used + 17 + counts.sum == len) then used + 17 + counts.sum else dhtLen (hs' ++ more') (used + 17 + counts.sum) := by
            intro hs' more'
            rw [List.cons_append, dhtLen]
            simp only
            rw [hbump.1, if_neg (by omega), show used + (counts.sum + 1) + 16 = used + 17 + counts.sum by omega]
          show ∃ ws', _ ∧ writeCodes ((_ :: r.1) ++ more) ws = _ ∧ dhtLen ((_ :: r.1) ++ more) used = len
          rw [hwc, hdh, htake]
          have hfin' : r.2.1 = len := hfin
          by_cases hcont : used + 17 + counts.sum < len
          · have hne : (used + 17 + counts.sum == len) = false := by rw [beq_eq_false_iff_ne]; omega
            obtain ⟨ws', m1, m2, m3⟩ := k6 hcont hfin more _ hrel'
            rw [hne, m2]
            exact ⟨ws', m1, rfl, m3⟩
          · have he : used + 17 + counts.sum = len := by omega
            have heb : (used + 17 + counts.sum == len) = true := by rw [beq_iff_eq]; exact he
            have hk : k = 0 := by omega
            rw [heb, if_pos rfl, if_pos rfl, hk, List.take_zero, List.append_nil]
            obtain ⟨n1, n2⟩ := k7 hcont
            rw [n1]
            refine ⟨ws.put isAc index t.1, ?_, rfl, he⟩
            show SlotRel r.2.2 _
            rw [n2]
            exact hrel'
    · exact ⟨0, rfl, Nat.zero_le _, hs, fun _ h => h, fun h hh => absurd hh List.not_mem_nil, fun _ => ⟨rfl, rfl⟩, fun h _ => absurd h hlt⟩

theorem readDht_ok {l : List Nat} {s : Slots} (hb : ∀ b ∈ l, b < 256) (hs : SlotsOk s) :
    Ok (readDht l s) fun r => 2 ≤ r.2.1 ∧ r.2.1 ≤ l.length ∧ SlotsOk r.2.2 ∧ (∀ h, InPlace s h → InPlace r.2.2 h) ∧
      (∀ h ∈ r.1, InPlace r.2.2 h) ∧
      ∀ more ws, SlotRel s ws → ∃ ws', SlotRel r.2.2 ws' ∧ writeDht (r.1 ++ more) ws = some (some ([255, 0xc4] ++ l.take r.2.1, more, ws')) := by
  unfold readDht
  refine Ok.need fun h2 => ?_
  match l, hb, h2 with
  | l1 :: l0 :: rest, hb, _ =>
    simp only
    have hl1 : l1 < 256 := hb _ (by simp)
    have hl0 : l0 < 256 := hb _ (by simp)
    have hbl : ∀ b ∈ rest, b < 256 := fun b hm => hb b (by simp [hm])
    refine Ok.ite (fun hw => ?_) fun hw => ?_
    · refine ⟨Nat.le_refl _, by simp only [List.length_cons]; omega, hs, fun _ h => h, ?_, ?_⟩
      · intro h hh
        rw [List.mem_singleton] at hh
        subst hh
        exact ⟨fun i hi => by simp only at hi; omega, fun hv => absurd rfl hv⟩
      · intro more ws hrel
        refine ⟨ws, hrel, ?_⟩
        unfold word at hw
        rw [show l1 = 0 by omega, show l0 = 2 by omega]
        unfold writeDht
        simp only [List.singleton_append]
        rw [writeCodes, if_pos (by decide), dhtLen]
        have hsum : (List.replicate 16 0).sum = 0 := by decide
        simp only [hsum, Nat.add_zero, if_true]
        rfl
    · have hlen : rest.length < (l1 :: l0 :: rest).length := by simp only [List.length_cons]; omega
      refine Ok.andThen (readCodes_ok (l1 :: l0 :: rest).length (word l1 l0) 2 rest s hbl hs hlen (Nat.le_refl _)) fun r hr => Ok.check fun hfin => ?_
      obtain ⟨k, k1, k2, k3, k4, k5, k7, k6⟩ := hr
      refine ⟨by show 2 ≤ r.2.1; omega, by show r.2.1 ≤ _; simp only [List.length_cons]; omega, k3, k4, fun h hh => (k5 h hh).1, ?_⟩
      intro more ws hrel
      obtain ⟨ws', m1, m2, m3⟩ := k6 (by omega) hfin.symm more ws hrel
      refine ⟨ws', m1, ?_⟩
      unfold writeDht
      simp only
      rw [m2, m3]
      unfold andThen
      simp only [Option.bind_some]
      have hk : word l1 l0 = k + 2 := by omega
      rw [chunk_full (by simp only [List.length_append, List.length_cons, List.length_nil, List.length_take]; omega),
        byte_hi hl1 hl0, byte_lo hl0, k1, show 2 + k = k + 1 + 1 by omega]
      rfl

/-! ## Quantization tables -/

theorem readQuant_ok (wide : Bool) : ∀ (ks l : List Nat) (vs : Nat → Nat), (∀ b ∈ l, b < 256) → ks.Nodup →
    ks.length * (if wide then 2 else 1) ≤ l.length →
    Ok (readQuant wide ks l vs) fun r => r.2 = l.drop (ks.length * (if wide then 2 else 1)) ∧ (∀ k, k ∉ ks → r.1 k = vs k) ∧
      (ks.flatMap fun k => if wide then [byte (r.1 k >>> 8), byte (r.1 k)] else [byte (r.1 k)]) =
        l.take (ks.length * (if wide then 2 else 1)) := by
  intro ks
  induction ks with
  | nil => intro l vs _ _ _; exact ⟨by simp, fun _ _ => rfl, by simp⟩
  | cons k ks ih =>
    intro l vs hb hnd hl
    obtain ⟨hk, hnd⟩ := List.nodup_cons.mp hnd
    cases wide with
    | true =>
      simp only [if_true, List.length_cons] at hl ⊢
      match l, hb, hl with
      | [], _, hl => simp only [List.length_nil] at hl; omega
      | [_], _, hl => simp only [List.length_cons, List.length_nil] at hl; omega
      | a :: b :: l, hb, hl =>
        simp only [List.length_cons] at hl
        rw [readQuant.eq_def]
        simp only [if_true]
        refine Ok.check fun _ => ?_
        refine Ok.mono (ih l _ (fun x hx => hb x (by simp [hx])) hnd (by simp only [if_true]; omega)) fun r hr => ?_
        simp only [if_true] at hr
        obtain ⟨r1, r2, r3⟩ := hr
        refine ⟨?_, fun j hj => ?_, ?_⟩
        · rw [r1, show (ks.length + 1) * 2 = ks.length * 2 + 1 + 1 by omega]; rfl
        · rw [r2 j (fun hm => hj (List.mem_cons_of_mem _ hm)), if_neg (fun he => hj (by rw [he]; simp))]
        · rw [List.flatMap_cons, r3, r2 k hk, if_pos rfl, byte_hi (hb _ (by simp)) (hb _ (by simp)), byte_lo (hb _ (by simp)),
            show (ks.length + 1) * 2 = ks.length * 2 + 1 + 1 by omega]
          rfl
    | false =>
      simp only [Bool.false_eq_true, if_false, List.length_cons, Nat.mul_one] at hl ⊢
      match l, hb, hl with
      | a :: l, hb, hl =>
        simp only [List.length_cons] at hl
        rw [readQuant.eq_def]
        simp only [Bool.false_eq_true, if_false]
        refine Ok.check fun _ => ?_
        refine Ok.mono (ih l _ (fun x hx => hb x (by simp [hx])) hnd (by simp only [Bool.false_eq_true, if_false]; omega)) fun r hr => ?_
        simp only [Bool.false_eq_true, if_false, Nat.mul_one] at hr
        obtain ⟨r1, r2, r3⟩ := hr
        refine ⟨r1, fun j hj => ?_, ?_⟩
        · rw [r2 j (fun hm => hj (List.mem_cons_of_mem _ hm)), if_neg (fun he => hj (by rw [he]; simp))]
        · rw [List.flatMap_cons, r3, r2 k hk, if_pos rfl, byte_lt (hb _ (by simp))]
          rfl

theorem naturalOrder_nodup : naturalOrder.Nodup := by decide +kernel

theorem readQuants_ok : ∀ (n have_ len used : Nat) (l : List Nat), (∀ b ∈ l, b < 256) → 4 ≤ have_ + n →
    Ok (readQuants n have_ len used l) fun r => ∃ k, r.2 = used + k ∧ k ≤ l.length ∧ (∀ t ∈ r.1, t.index ≤ 3) ∧
      (¬ used < len → r.1 = []) ∧
      (used < len → r.2 = len → ∀ more, writeQuants (r.1 ++ more) = some (l.take k, more) ∧ dqtLen (r.1 ++ more) used = len) := by
  intro n
  induction n with
  | zero =>
    intro have_ len used l _ h4
    rw [readQuants.eq_def]
    simp only
    rw [if_neg (fun h => by have := h.2; omega)]
    exact ⟨0, rfl, Nat.zero_le _, fun _ h => absurd h List.not_mem_nil, fun _ => rfl, fun h1 h2 => by simp only at h2; omega⟩
  | succ n ih =>
    intro have_ len used l hb h4
    rw [readQuants.eq_def]
    refine Ok.ite (fun hlt => ?_) fun hlt => ?_
    · refine Ok.need fun h1 => ?_
      match l, hb, h1 with
      | b :: l, hb, h1 =>
        simp only
        have hbb : b < 256 := hb _ (by simp)
        have hbl : ∀ x ∈ l, x < 256 := fun x hm => hb x (by simp [hm])
        refine Ok.check fun hp => Ok.check fun hi => Ok.need fun hn => ?_
        have hsz : naturalOrder.length * (if decide (b / 16 = 1) then 2 else 1) = (b / 16 + 1) * 64 := by
          rw [show naturalOrder.length = 64 from rfl]
          by_cases h : b / 16 = 1
          · rw [h]; rfl
          · rw [show b / 16 = 0 by omega]; rfl
        have hq := readQuant_ok (decide (b / 16 = 1)) naturalOrder l (fun _ => 0) hbl naturalOrder_nodup (by rw [hsz]; exact hn)
        rw [hsz] at hq
        refine Ok.andThen hq fun r hr => ?_
        obtain ⟨r1, _, r3⟩ := hr
        refine Ok.andThen (ih (have_ + 1) len (used + 1 + (b / 16 + 1) * 64) r.2
          (fun x hx => hbl x (by rw [r1] at hx; exact List.mem_of_mem_drop hx)) (by omega)) fun z hz => ?_
        obtain ⟨k, k1, k2, k3, k4, k5⟩ := hz
        rw [r1, List.length_drop] at k2
        refine ⟨1 + (b / 16 + 1) * 64 + k, by show z.2 = _; omega, by simp only [List.length_cons]; omega, ?_, fun h => absurd hlt.1 h, ?_⟩
        · intro t ht
          rcases List.mem_cons.mp ht with rfl | ht
          · exact hi
          · exact k3 t ht
        · intro _ hfin more
          have hfin' : z.2 = len := hfin
          have hwq : writeQuant ⟨b % 16, b / 16, r.1, used + 1 + (b / 16 + 1) * 64 == len⟩ = b :: l.take ((b / 16 + 1) * 64) := by
            unfold writeQuant
            simp only
            rw [nibbles_add b hbb, ← r3]
            congr 2
            funext j
            by_cases h : b / 16 = 1
            · rw [if_pos (by omega), if_pos (by simpa using h)]
            · rw [if_neg (by omega), if_neg (by simpa using h)]
          have hadd : used + (1 + (if b / 16 ≠ 0 then 2 else 1) * 64) = used + 1 + (b / 16 + 1) * 64 := by
            by_cases h : b / 16 = 1
            · rw [if_pos (by omega), h]
            · rw [if_neg (by omega), show b / 16 = 0 by omega]
          have htake : (b :: l).take (1 + (b / 16 + 1) * 64 + k) = b :: l.take ((b / 16 + 1) * 64) ++ (l.drop ((b / 16 + 1) * 64)).take k := by
            rw [show 1 + (b / 16 + 1) * 64 + k = ((b / 16 + 1) * 64 + k) + 1 by omega, List.take_succ_cons, List.take_add]
            rfl
          show writeQuants ((_ :: z.1) ++ more) = _ ∧ dqtLen ((_ :: z.1) ++ more) used = len
          rw [List.cons_append, writeQuants, dqtLen, hwq, htake]
          simp only
          rw [hadd]
          by_cases hcont : used + 1 + (b / 16 + 1) * 64 < len
          · have hne : (used + 1 + (b / 16 + 1) * 64 == len) = false := by rw [beq_eq_false_iff_ne]; omega
            obtain ⟨m2, m3⟩ := k5 hcont hfin more
            rw [hne, m2, r1]
            exact ⟨rfl, m3⟩
          · have he : used + 1 + (b / 16 + 1) * 64 = len := by omega
            have heb : (used + 1 + (b / 16 + 1) * 64 == len) = true := by rw [beq_iff_eq]; exact he
            have hk : k = 0 := by omega
            rw [heb, if_pos rfl, if_pos rfl, hk, List.take_zero, List.append_nil, k4 hcont]
            exact ⟨rfl, he⟩
    · refine ⟨0, rfl, Nat.zero_le _, fun h hh => absurd hh List.not_mem_nil, fun _ => rfl, fun h h2 => ?_⟩
      simp only at h2
      omega

theorem readDqt_ok {l : List Nat} {have_ : Nat} (hb : ∀ b ∈ l, b < 256) :
    Ok (readDqt have_ l) fun r => 2 ≤ r.2 ∧ r.2 ≤ l.length ∧ (∀ t ∈ r.1, t.index < 256) ∧
      ∀ more, writeDqt (r.1 ++ more) = some (some ([255, 0xdb] ++ l.take r.2, more)) := by
  unfold readDqt
  refine Ok.need fun h2 => ?_
  match l, hb, h2 with
  | l1 :: l0 :: rest, hb, _ =>
    simp only
    have hl1 : l1 < 256 := hb _ (by simp)
    have hl0 : l0 < 256 := hb _ (by simp)
    refine Ok.check fun hw => ?_
    refine Ok.andThen (readQuants_ok 4 have_ (word l1 l0) 2 rest (fun b hm => hb b (by simp [hm])) (by omega)) fun r hr => Ok.check fun hfin => ?_
    obtain ⟨k, k1, k2, k3, k4, k5⟩ := hr
    refine ⟨by show 2 ≤ r.2; omega, by show r.2 ≤ _; simp only [List.length_cons]; omega, fun t ht => by have := k3 t ht; omega, ?_⟩
    intro more
    obtain ⟨m2, m3⟩ := k5 (by omega) hfin.symm more
    unfold writeDqt
    simp only
    rw [m2, m3]
    simp only
    have hk : word l1 l0 = k + 2 := by omega
    rw [chunk_full (by simp only [List.length_append, List.length_cons, List.length_nil, List.length_take]; omega),
      byte_hi hl1 hl0, byte_lo hl0, k1, show 2 + k = k + 1 + 1 by omega]
    rfl

/-! ## Other segments -/

theorem readDri_ok {l : List Nat} (hb : ∀ b ∈ l, b < 256) :
    Ok (readDri l) fun r => 4 ≤ l.length ∧ [255, 0xdd, 0, 4, byte (r >>> 8), byte r] = [255, 0xdd] ++ l.take 4 := by
  unfold readDri
  refine Ok.need fun h4 => ?_
  match l, hb, h4 with
  | l1 :: l0 :: r1 :: r0 :: rest, hb, h4 =>
    simp only
    have hl1 : l1 < 256 := hb _ (by simp)
    have hl0 : l0 < 256 := hb _ (by simp)
    refine Ok.check fun hw => ⟨h4, ?_⟩
    unfold word at hw
    rw [byte_hi (hb _ (by simp)) (hb _ (by simp)), byte_lo (hb _ (by simp)), show l1 = 0 by omega, show l0 = 4 by omega]
    rfl

theorem readApp_ok {l : List Nat} {m : Nat} :
    Ok (readApp m l) fun r => 2 ≤ r.length - 1 ∧ r.length - 1 ≤ l.length ∧ r = m :: l.take (r.length - 1) := by
  unfold readApp
  refine Ok.need fun h2 => ?_
  match l, h2 with
  | l1 :: l0 :: rest, _ =>
    simp only
    refine Ok.check fun hw => Ok.need fun hn => ?_
    have hl : (m :: (l1 :: l0 :: rest).take (word l1 l0)).length - 1 = word l1 l0 := by
      simp only [List.length_cons, List.length_take]; omega
    refine ⟨by rw [hl]; exact hw.1, by rw [hl]; simp only [List.length_cons]; omega, by rw [hl]⟩

end Jxl.Jpeg
