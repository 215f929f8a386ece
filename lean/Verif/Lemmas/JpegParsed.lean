import Verif.Lemmas.JpegLoop
import Verif.Lemmas.JpegMeta
/-!
# What the parser of JPEG files leaves
-/
namespace Jxl.Jpeg

/-- The property if accepted. -/
def Got (x : Option (Option α)) (P : α → Prop) : Prop := ∀ a, x = some (some a) → P a

theorem Got.andThen {α β : Type} {x : Option (Option α)} {f : α → Option (Option β)} {P : α → Prop} {Q : β → Prop} (h : Got x P)
    (hf : ∀ a, P a → Got (f a) Q) : Got (andThen x f) Q := by
  intro b hb
  obtain ⟨a, e1, e2⟩ := andThen_some hb
  exact hf a (h a e1) b e2

theorem Got.any {x : Option (Option α)} : Got x fun _ => True := fun _ _ => trivial
theorem Got.ok {a : α} {P : α → Prop} (h : P a) : Got (some (some a)) P := by intro b hb; cases hb; exact h
theorem Got.no {P : α → Prop} : Got (some none) P := by intro b hb; cases hb
theorem Got.ub {P : α → Prop} : Got none P := by intro b hb; cases hb

theorem Got.ite {c : Prop} [Decidable c] {x y : Option (Option α)} {P : α → Prop} (h1 : c → Got x P) (h2 : ¬ c → Got y P) :
    Got (if c then x else y) P := by
  by_cases h : c
  · rw [if_pos h]; exact h1 h
  · rw [if_neg h]; exact h2 h

theorem Got.check {c : Prop} [Decidable c] {k : Option (Option α)} {P : α → Prop} (h : c → Got k P) : Got (check c k) P := by
  unfold Jpeg.check
  exact Got.ite h fun _ => Got.no

theorem Got.need {n : Nat} {l : List Nat} {k : Option (Option α)} {P : α → Prop} (h : n ≤ l.length → Got k P) : Got (need n l k) P := by
  unfold Jpeg.need
  exact Got.ite (fun _ => Got.no) fun hn => h (by omega)

theorem Got.mono {x : Option (Option α)} {P Q : α → Prop} (h : Got x P) (hq : ∀ a, P a → Q a) : Got x Q :=
  fun a e => hq a (h a e)

theorem Got.always {α : Type} {x : Option α} {P : α → Prop} (h : ∀ a, x = some a → P a) : Got (always x) P :=
  fun a e => h a (always_some e)

/-! ## Tables -/

structure HuffKept (h : HuffCode) : Prop where
  slot : h.slot ≤ 3 ∨ (16 ≤ h.slot ∧ h.slot ≤ 19)
  counts : h.counts.length = 16
  values : h.values.length = h.counts.sum
  symbols : ∀ v ∈ h.values, v ≤ 256

structure QuantKept (q : QuantTable) : Prop where
  pos : ∀ k, k < 64 → 1 ≤ q.values k
  zero : ∀ k, 64 ≤ k → q.values k = 0
  lt : ∀ k, q.values k < 2 ^ 16

theorem codes_kept : ∀ (n len used : Nat) (l : List Nat) (s : Slots), (∀ b ∈ l, b < 256) →
    Got (readCodes n len used l s) fun r => ∀ h ∈ r.1, HuffKept h := by
  intro n
  induction n with
  | zero =>
    intro len used l s _
    rw [readCodes.eq_def]
    refine Got.ite (fun _ => Got.ub) fun _ => Got.ok fun h hh => (by cases hh)
  | succ n ih =>
    intro len used l s hb
    rw [readCodes.eq_def]
    refine Got.ite (fun _ => ?_) fun _ => Got.ok fun h hh => (by cases hh)
    refine Got.need fun h17 => ?_
    match l, hb, h17 with
    | slot :: l, hb, h17 =>
      simp only
      rw [List.length_cons] at h17
      have hbl : ∀ b ∈ l, b < 256 := fun b hm => hb b (List.mem_cons_of_mem _ hm)
      have hs := hb slot (List.mem_cons_self ..)
      refine Got.check fun hi => Got.check fun ht => Got.need fun hn => ?_
      refine Got.andThen Got.any fun t _ => ?_
      refine Got.andThen (ih _ _ _ _ (fun b hm => hbl b (List.mem_of_mem_drop (List.mem_of_mem_drop hm)))) fun r hr => ?_
      refine Got.ok fun h hh => ?_
      rcases List.mem_cons.mp hh with rfl | hh
      · have hc : (l.take 16).length = 16 := by rw [List.length_take]; omega
        obtain ⟨b1, _, _, b2⟩ := bump_spec hc fun b hm => hbl b (List.mem_of_mem_take hm)
        refine ⟨?_, b2, ?_, ?_⟩
        · simp only
          by_cases hac : slot / 16 % 2 = 1
          · rw [if_pos hac] at hi; omega
          · rw [if_neg hac] at hi; omega
        · simp only
          rw [b1, List.length_append, List.length_take, List.length_singleton]
          omega
        · intro v hv
          rcases List.mem_append.mp hv with hv | hv
          · have := hbl v (List.mem_of_mem_drop (List.mem_of_mem_take hv)); omega
          · rw [List.mem_singleton] at hv; omega
      · exact hr h hh

theorem dht_kept {l : List Nat} {s : Slots} (hb : ∀ b ∈ l, b < 256) : Got (readDht l s) fun r => ∀ h ∈ r.1, HuffKept h := by
  unfold readDht
  refine Got.need fun h2 => ?_
  match l, hb, h2 with
  | l1 :: l0 :: rest, hb, _ =>
    refine Got.ite (fun _ => ?_) fun _ => ?_
    · refine Got.ok fun h hh => ?_
      rw [List.mem_singleton] at hh
      subst hh
      exact ⟨Or.inl (by decide), by decide, by decide, fun v hv => (by cases hv)⟩
    · refine Got.andThen (codes_kept _ _ _ _ _ fun b hm => hb b (by simp [hm])) fun r hr => Got.check fun _ => Got.ok hr

theorem quant_kept (wide : Bool) : ∀ (ks l : List Nat) (vs : Nat → Nat), (∀ b ∈ l, b < 256) → (∀ k, vs k < 2 ^ 16) →
    Got (readQuant wide ks l vs) fun r => ((∀ k ∈ ks, 1 ≤ r.1 k) ∧ (∀ k, 1 ≤ vs k → 1 ≤ r.1 k) ∧ ∀ k, k ∉ ks → r.1 k = vs k) ∧
      (∀ k, r.1 k < 2 ^ 16) ∧ ∀ b ∈ r.2, b < 256 := by
  intro ks
  induction ks with
  | nil => intro l vs hl hv; exact Got.ok ⟨⟨fun k hk => (by cases hk), fun k h => h, fun k _ => rfl⟩, hv, hl⟩
  | cons k ks ih =>
    intro l vs hl hvs
    have main : ∀ v l, 1 ≤ v → v < 2 ^ 16 → (∀ b ∈ l, b < 256) → Got (readQuant wide ks l fun j => if j = k then v else vs j) fun r =>
        ((∀ i ∈ k :: ks, 1 ≤ r.1 i) ∧ (∀ i, 1 ≤ vs i → 1 ≤ r.1 i) ∧ ∀ i, i ∉ k :: ks → r.1 i = vs i) ∧
          (∀ i, r.1 i < 2 ^ 16) ∧ ∀ b ∈ r.2, b < 256 := by
      intro v l hv hv' hl
      refine Got.mono (ih l _ hl fun i => ?_) fun r hr => ⟨⟨fun i hi => ?_, fun i hi => ?_, fun i hi => ?_⟩, hr.2⟩
      · split
        · exact hv'
        · exact hvs i
      · rcases List.mem_cons.mp hi with rfl | hi
        · exact hr.1.2.1 i (by rw [if_pos rfl]; exact hv)
        · exact hr.1.1 i hi
      · refine hr.1.2.1 i ?_
        split
        · exact hv
        · exact hi
      · rw [List.mem_cons, not_or] at hi
        rw [hr.1.2.2 i hi.2, if_neg hi.1]
    cases l with
    | nil =>
      rw [readQuant.eq_def]
      cases wide
      · exact Got.ub
      · exact Got.ub
    | cons a l =>
      have ha : a < 256 := hl a (by simp)
      rw [readQuant.eq_def]
      simp only
      refine Got.ite (fun _ => ?_) fun _ => ?_
      · cases l with
        | nil => exact Got.ub
        | cons b l =>
          have hb : b < 256 := hl b (by simp)
          exact Got.check fun h => main _ _ h.1 (by have := h.2; unfold word at *; omega) fun x hx => hl x (by simp [hx])
      · exact Got.check fun h => main _ _ h.1 (by omega) fun x hx => hl x (by simp [hx])

theorem order_all : ∀ k, k < 64 ↔ k ∈ naturalOrder := by
  have h1 : ∀ k, k < 64 → k ∈ naturalOrder := by decide
  have h2 : ∀ k ∈ naturalOrder, k < 64 := by decide
  exact fun k => ⟨h1 k, h2 k⟩

theorem quants_kept : ∀ (n have_ len used : Nat) (l : List Nat), have_ ≤ 4 → (∀ b ∈ l, b < 256) →
    Got (readQuants n have_ len used l) fun r => (∀ q ∈ r.1, QuantKept q) ∧ have_ + r.1.length ≤ 4 := by
  intro n
  induction n with
  | zero =>
    intro have_ len used l hh _
    rw [readQuants.eq_def]
    exact Got.ite (fun _ => Got.ub) fun _ => Got.ok ⟨fun q hq => (by cases hq), hh⟩
  | succ n ih =>
    intro have_ len used l hh hl
    rw [readQuants.eq_def]
    refine Got.ite (fun hlt => ?_) fun _ => Got.ok ⟨fun q hq => (by cases hq), hh⟩
    refine Got.need fun h1 => ?_
    match l, h1 with
    | b :: l, _ =>
      refine Got.check fun _ => Got.check fun _ => Got.need fun _ => ?_
      refine Got.andThen (quant_kept _ _ _ _ (fun x hx => hl x (by simp [hx])) fun k => by decide) fun r hr => ?_
      obtain ⟨hr, hlt, hrest⟩ := hr
      refine Got.andThen (ih _ _ _ _ (by omega) hrest) fun z hz => Got.ok ⟨fun q hq => ?_, ?_⟩
      · rcases List.mem_cons.mp hq with rfl | hq
        · refine ⟨fun k hk => hr.1 k ((order_all k).mp hk), fun k hk => hr.2.2 k fun hm => ?_, hlt⟩
          have := (order_all k).mpr hm
          omega
        · exact hz.1 q hq
      · simp only [List.length_cons]
        omega

theorem dqt_kept {have_ : Nat} {l : List Nat} (hh : have_ ≤ 4) (hl : ∀ b ∈ l, b < 256) :
    Got (readDqt have_ l) fun r => (∀ q ∈ r.1, QuantKept q) ∧ have_ + r.1.length ≤ 4 := by
  unfold readDqt
  refine Got.need fun h2 => ?_
  match l, h2 with
  | l1 :: l0 :: rest, _ =>
    exact Got.check fun _ => Got.andThen (quants_kept _ _ _ _ _ hh fun b hb => hl b (by simp [hb])) fun r hr => Got.check fun _ => Got.ok hr

theorem app_kept {m : Nat} {l : List Nat} (hm : m < 256) (hb : ∀ b ∈ l, b < 256) :
    Got (readApp m l) fun a => JpegMeta.Segment a ∧ ∀ b ∈ a, b < 256 := by
  unfold readApp
  refine Got.need fun h2 => ?_
  match l, hb, h2 with
  | l1 :: l0 :: rest, hb, _ =>
    refine Got.check fun hw => Got.need fun hn => Got.ok ⟨?_, fun b hb' => ?_⟩
    rotate_left
    · rcases List.mem_cons.mp hb' with rfl | hb'
      · exact hm
      · exact hb b (List.mem_of_mem_take hb')
    obtain ⟨n, hn'⟩ : ∃ n, word l1 l0 = n + 2 := ⟨word l1 l0 - 2, by omega⟩
    refine ⟨m, l1, l0, rest.take n, ?_, hb _ (by simp), hb _ (by simp), ?_⟩
    · rw [hn']; rfl
    · rw [List.length_take]
      unfold word at hn'
      unfold word at hn
      omega

/-! ## Scans -/

/-- The records of a scan so far. -/
structure Recorded (st : ParseState) : Prop where
  below : ∀ p ∈ st.points, p < st.index
  points : st.points.Pairwise (· < ·)
  belowR : ∀ x ∈ st.runs, x.1 < st.index
  runs : (st.runs.map (·.1)).Pairwise (· < ·)
  pads : ∀ b ∈ st.pads, b ≤ 1

theorem pairwise_snoc {l : List Nat} {x : Nat} (h : l.Pairwise (· < ·)) (hx : ∀ p ∈ l, p < x) : (l ++ [x]).Pairwise (· < ·) := by
  rw [List.pairwise_append]
  exact ⟨h, List.pairwise_singleton _ _, fun a ha b hb => by rw [List.mem_singleton] at hb; rw [hb]; exact hx a ha⟩

theorem unit_recorded {mode : Mode} {d : List Nat} {st : ParseState} (u : ScanUnit) (h : Recorded st) :
    Got (parseUnit mode d st u) Recorded := by
  cases u with
  | restart =>
    rw [parseUnit]
    unfold parseRestart
    refine Got.andThen (P := fun f => ∀ b ∈ f.1, b ≤ 1) (fun f e => finishStream_small e) fun f hf => ?_
    refine Got.andThen Got.any fun ok _ => Got.ite (fun _ => ?_) fun _ => Got.no
    refine Got.andThen Got.any fun r _ => Got.ite (fun _ => Got.no) fun _ => Got.ok ?_
    exact ⟨h.below, h.points, h.belowR, h.runs, fun b hb => (List.mem_append.mp hb).elim (h.pads b) (hf b)⟩
  | block comp idx dc ac =>
    rw [parseUnit]
    refine Got.andThen Got.any fun b _ => Got.ok ⟨?_, ?_, ?_, ?_, h.pads⟩
    · intro p hp
      have hp : p ∈ (if b.ac.reset then st.points ++ [st.index] else st.points) := hp
      show p < st.index + 1
      split at hp
      · rcases List.mem_append.mp hp with hp | hp
        · have := h.below p hp; omega
        · rw [List.mem_singleton] at hp; omega
      · have := h.below p hp; omega
    · show (if b.ac.reset then st.points ++ [st.index] else st.points).Pairwise (· < ·)
      split
      · exact pairwise_snoc h.points h.below
      · exact h.points
    · intro p hp
      have hp : p ∈ (if b.ac.runs > 0 then st.runs ++ [(st.index, b.ac.runs)] else st.runs) := hp
      show p.1 < st.index + 1
      split at hp
      · rcases List.mem_append.mp hp with hp | hp
        · have := h.belowR p hp; omega
        · rw [List.mem_singleton] at hp; rw [hp]; exact Nat.lt_succ_self _
      · have := h.belowR p hp; omega
    · show ((if b.ac.runs > 0 then st.runs ++ [(st.index, b.ac.runs)] else st.runs).map (·.1)).Pairwise (· < ·)
      split
      · rw [List.map_append]
        refine pairwise_snoc h.runs fun p hp => ?_
        obtain ⟨x, hx, rfl⟩ := List.mem_map.mp hp
        exact h.belowR x hx
      · exact h.runs

theorem units_recorded {mode : Mode} {d : List Nat} : ∀ (us : List ScanUnit) (st : ParseState), Recorded st →
    Got (parseUnits mode d us st) Recorded := by
  intro us
  induction us with
  | nil => intro st h; exact Got.ok h
  | cons u us ih =>
    intro st h
    rw [parseUnits]
    exact Got.andThen (unit_recorded u h) fun st' h' => ih st' h'

theorem scan_recorded {mode : Mode} {d : List Nat} {us : List ScanUnit} {store : Store} {pos : Nat} :
    Got (parseScan mode d us store pos) fun o =>
      o.points.Pairwise (· < ·) ∧ (o.runs.map (·.1)).Pairwise (· < ·) ∧ ∀ b ∈ o.pads, b ≤ 1 := by
  unfold parseScan
  refine Got.andThen Got.any fun r _ => ?_
  refine Got.andThen (units_recorded us _ ⟨fun p hp => (by cases hp), List.Pairwise.nil, fun p hp => (by cases hp),
    List.Pairwise.nil, fun p hp => (by cases hp)⟩) fun st hst => ?_
  refine Got.ite (fun _ => Got.no) fun _ => ?_
  refine Got.andThen (P := fun f => ∀ b ∈ f.1, b ≤ 1) (fun f e => finishStream_small e) fun f hf => ?_
  refine Got.ite (fun _ => Got.no) fun _ => Got.ok ⟨hst.points, hst.runs, fun b hb => (List.mem_append.mp hb).elim (hst.pads b) (hf b)⟩

structure ScanKept (s : ScanInfo) : Prop where
  tables : ∀ c ∈ s.comps, c.dc ≤ 3 ∧ c.ac ≤ 3
  points : s.points.Pairwise (· < ·)
  runs : (s.runs.map (·.1)).Pairwise (· < ·)

/-! ## Files -/

structure Kept (d : List Nat) (st : ReadState) : Prop where
  marks : ∀ m ∈ st.jpg.markers, m < 256
  eoi : 0xd9 ∉ st.jpg.markers
  inter : st.jpg.inter.length = st.jpg.markers.count 0xff
  interLen : ∀ b ∈ st.jpg.inter, b.length ≤ d.length
  interBytes : ∀ a ∈ st.jpg.inter, ∀ b ∈ a, b < 256
  still : st.dri = false → st.jpg.restart = 0
  dri : st.dri = true → 0xdd ∈ st.jpg.markers
  huff : ∀ h ∈ st.jpg.huff, HuffKept h
  quant : ∀ q ∈ st.jpg.quant, QuantKept q
  few : st.jpg.quant.length ≤ 4
  comps : st.jpg.comps.length ≤ 4
  app : ∀ a ∈ st.jpg.app, JpegMeta.Segment a ∧ ∀ b ∈ a, b < 256
  com : ∀ a ∈ st.jpg.com, JpegMeta.Segment a ∧ ∀ b ∈ a, b < 256
  scans : ∀ s ∈ st.jpg.scans, ScanKept s
  pads : ∀ b ∈ st.jpg.pads, b ≤ 1
  fresh : st.jpg.width = 0 → st.jpg.comps = []
  out : ∀ k i, st.jpg.comps.length ≤ k → st.jpg.store k i = List.replicate 64 0

/-- A marker other than the end is noted; nothing else changes. -/
theorem Kept.note {d : List Nat} {st : ReadState} (h : Kept d st) {m : Nat} (h1 : m < 256) (h2 : m ≠ 0xd9) (h3 : m ≠ 0xff) :
    Kept d (noteMarker st m) where
  marks := by
    intro x hx
    rcases List.mem_append.mp hx with hx | hx
    · exact h.marks x hx
    · rw [List.mem_singleton] at hx; omega
  eoi := by
    intro hx
    rcases List.mem_append.mp hx with hx | hx
    · exact h.eoi hx
    · rw [List.mem_singleton] at hx; omega
  inter := by
    show st.jpg.inter.length = (st.jpg.markers ++ [m]).count 0xff
    rw [List.count_append, h.inter, List.count_singleton, if_neg (by simp; omega)]
    rfl
  interLen := h.interLen
  interBytes := h.interBytes
  still := h.still
  dri := fun e => List.mem_append.mpr (Or.inl (h.dri e))
  huff := h.huff
  quant := h.quant
  few := h.few
  comps := h.comps
  app := h.app
  com := h.com
  scans := h.scans
  pads := h.pads
  fresh := h.fresh
  out := h.out

theorem skip_kept {d : List Nat} {st : ReadState} {bytes : List Nat} (h : Kept d st) (hl : bytes.length ≤ d.length)
    (hb : ∀ b ∈ bytes, b < 256) :
    Kept d (noteSkipped st bytes) := by
  unfold noteSkipped
  split
  · exact h
  · refine { h with marks := ?_, eoi := ?_, inter := ?_, interLen := ?_, interBytes := ?_, dri := fun e => List.mem_append.mpr (Or.inl (h.dri e)) }
    · intro x hx
      rcases List.mem_append.mp hx with hx | hx
      · exact h.marks x hx
      · rw [List.mem_singleton] at hx; omega
    · intro hx
      rcases List.mem_append.mp hx with hx | hx
      · exact h.eoi hx
      · rw [List.mem_singleton] at hx; omega
    · show (st.jpg.inter ++ [bytes]).length = (st.jpg.markers ++ [0xff]).count 0xff
      rw [List.length_append, List.count_append, h.inter]
      rfl
    · intro b hb
      rcases List.mem_append.mp hb with hb | hb
      · exact h.interLen b hb
      · rw [List.mem_singleton] at hb; rw [hb]; exact hl
    · intro a ha
      rcases List.mem_append.mp ha with ha | ha
      · exact h.interBytes a ha
      · rw [List.mem_singleton] at ha; rw [ha]; exact hb

theorem comps_len : ∀ (n : Nat) (seen l : List Nat), Got (readComps n seen l) fun cs => cs.length = n := by
  intro n
  induction n with
  | zero => intro seen l; rw [readComps]; exact Got.ok rfl
  | succ n ih =>
    intro seen l
    match l with
    | id :: f :: q :: l =>
      rw [readComps]
      exact Got.check fun _ => Got.check fun _ => Got.check fun _ => Got.andThen (ih _ _) fun cs hc => Got.ok (by simp [hc])
    | [] => exact Got.ub
    | [_] => exact Got.ub
    | [_, _] => exact Got.ub

theorem sof_kept {l : List Nat} : Got (readSof l) fun r => r.1.comps.length ≤ 4 ∧ 1 ≤ r.1.width := by
  unfold readSof
  refine Got.need fun h => ?_
  match l, h with
  | l1 :: l0 :: prec :: h1 :: h0 :: w1 :: w0 :: n :: l, _ =>
    refine Got.check fun _ => Got.check fun _ => Got.check fun hw => Got.check fun hn => Got.need fun _ => ?_
    refine Got.andThen (comps_len _ _ _) fun cs hc => Got.check fun _ => Got.check fun _ => Got.ok ⟨?_, ?_⟩
    · show cs.length ≤ 4
      omega
    · exact hw.1

theorem scanComps_kept (cs : List Comp) : ∀ (n : Nat) (seen l : List Nat),
    Got (readScanComps cs n seen l) fun r => ∀ c ∈ r.1, c.dc ≤ 3 ∧ c.ac ≤ 3 := by
  intro n
  induction n with
  | zero => intro seen l; rw [readScanComps]; exact Got.ok fun c hc => (by cases hc)
  | succ n ih =>
    intro seen l
    match l with
    | id :: t :: l =>
      rw [readScanComps]
      refine Got.check fun _ => ?_
      split
      · exact Got.no
      · refine Got.check fun h1 => Got.check fun h2 => Got.andThen (ih _ _) fun r hr => Got.ok fun c hc => ?_
        rcases List.mem_cons.mp hc with rfl | hc
        · exact ⟨h1, h2⟩
        · exact hr c hc
    | [] => exact Got.ub
    | [_] => exact Got.ub

theorem sos_kept {cs : List Comp} {hs : List HuffCode} {l : List Nat} :
    Got (readSos cs hs l) fun r => ∀ c ∈ r.1.comps, c.dc ≤ 3 ∧ c.ac ≤ 3 := by
  unfold readSos
  refine Got.need fun h => ?_
  match l, h with
  | l1 :: l0 :: n :: l, _ =>
    refine Got.check fun _ => Got.need fun _ => Got.andThen (scanComps_kept _ _ _ _) fun r hr => Got.need fun h3 => ?_
    match hrr : r.2, h3 with
    | ss :: se :: a :: rest, _ =>
      exact Got.check fun _ => Got.check fun _ => Got.check fun _ => Got.check fun _ => Got.ok hr

theorem members_within {cs : List Comp} {s : Slots} {i : ScanInfo} {ms : List Member} (h : members cs s i = some ms) :
    ∀ m ∈ ms, m.idx < cs.length := by
  have : ∀ (l : List ScanComp) (ms : List Member),
      (l.mapM fun c => (cs[c.comp]?).bind fun k => some (⟨c.comp, k, s.dc c.dc, s.ac c.ac⟩ : Member)) = some ms → ∀ m ∈ ms, m.idx < cs.length := by
    intro l
    induction l with
    | nil => intro ms h; cases h; intro m hm; cases hm
    | cons c l ih =>
      intro ms h
      rw [List.mapM_cons] at h
      obtain ⟨x, e0, h⟩ := Option.bind_eq_some_iff.mp h
      obtain ⟨k, hk, e⟩ := Option.bind_eq_some_iff.mp e0
      obtain ⟨ms', h1, h2⟩ := Option.bind_eq_some_iff.mp h
      cases h2
      cases e
      intro m hm
      rcases List.mem_cons.mp hm with rfl | hm
      · exact (List.getElem?_eq_some_iff.mp hk).1
      · exact ih _ h1 m hm
  exact this _ ms h

theorem units_apart {mode : Mode} {d : List Nat} {k : Nat} : ∀ (us : List ScanUnit) (st : ParseState),
    (∀ c i dc ac, ScanUnit.block c i dc ac ∈ us → c ≠ k) → Got (parseUnits mode d us st) fun st' => ∀ i, st'.store k i = st.store k i := by
  intro us
  induction us with
  | nil => intro st _; exact Got.ok fun _ => rfl
  | cons u us ih =>
    intro st h
    rw [parseUnits]
    refine Got.andThen (P := fun st' => ∀ i, st'.store k i = st.store k i) ?_ fun st' h' =>
      Got.mono (ih st' fun c i dc ac hu => h c i dc ac (List.mem_cons_of_mem _ hu)) fun st2 h2 i => (h2 i).trans (h' i)
    cases u with
    | restart =>
      rw [parseUnit]
      unfold parseRestart
      refine Got.andThen Got.any fun f _ => ?_
      refine Got.andThen Got.any fun ok _ => Got.ite (fun _ => ?_) fun _ => Got.no
      exact Got.andThen Got.any fun r _ => Got.ite (fun _ => Got.no) fun _ => Got.ok fun _ => rfl
    | block comp idx dc ac =>
      rw [parseUnit]
      refine Got.andThen Got.any fun b _ => Got.ok fun i => ?_
      show (if k = comp ∧ i = idx then b.coeffs else st.store k i) = _
      rw [if_neg fun hh => h comp idx dc ac (List.mem_cons_self ..) hh.1.symm]

theorem scan_apart {mode : Mode} {d : List Nat} {us : List ScanUnit} {store : Store} {pos k : Nat}
    (h : ∀ c i dc ac, ScanUnit.block c i dc ac ∈ us → c ≠ k) :
    Got (parseScan mode d us store pos) fun o => ∀ i, o.store k i = store k i := by
  unfold parseScan
  refine Got.andThen Got.any fun r _ => ?_
  refine Got.andThen (units_apart us _ h) fun st hst => ?_
  refine Got.ite (fun _ => Got.no) fun _ => ?_
  refine Got.andThen Got.any fun f _ => ?_
  exact Got.ite (fun _ => Got.no) fun _ => Got.ok hst

theorem readScan_kept {d : List Nat} {st : ReadState} {pos : Nat} (h : Kept d st) : Got (readScan d st pos) fun r => Kept d r.1 := by
  unfold readScan
  refine Got.andThen sos_kept fun r hr => Got.andThen (Got.always fun ms e => members_within e) fun ms hms => ?_
  simp only
  split
  · exact Got.no
  · refine Got.check fun _ => Got.andThen (fun o e => And.intro (scan_recorded o e) fun (k i : Nat) (hk : st.jpg.comps.length ≤ k) =>
        scan_apart (k := k) (fun c i dc ac hu => ?_) o e i) fun o hoo => Got.ok ?_
    · rcases mem_units hu with hu | ⟨m, hm, i', hu⟩
      · cases hu
      · cases hu
        have := hms m hm
        omega
    obtain ⟨ho, hout⟩ := hoo
    refine { h with scans := ?_, pads := ?_, out := fun k i hk => (hout k i hk).trans (h.out k i hk) }
    · intro s hs
      rcases List.mem_append.mp hs with hs | hs
      · exact h.scans s hs
      · rw [List.mem_singleton] at hs
        subst hs
        exact ⟨hr, ho.1, ho.2.1⟩
    · intro b hb
      exact (List.mem_append.mp hb).elim (h.pads b) (ho.2.2 b)

theorem marker_kept {d : List Nat} (hb : ∀ b ∈ d, b < 256) {m : Nat} {st : ReadState} {pos : Nat} (h : Kept d st)
    (hm : m < 256) (hm2 : m ≠ 0xd9) : Got (readMarker d m st pos) fun r => Kept d (noteMarker r.1 m) := by
  have hd : ∀ b ∈ d.drop pos, b < 256 := bytes_drop hb pos
  unfold readMarker
  simp only
  refine Got.ite (fun c => ?_) fun _ => ?_
  · refine Got.check fun hwz => Got.andThen sof_kept fun r hr => Got.ok ?_
    refine Kept.note (m := m) ?_ hm hm2 (by omega)
    exact { h with
      comps := hr.1
      fresh := fun e => absurd e (by have := hr.2; show ¬ r.1.width = 0; omega)
      out := fun k i _ => h.out k i (by rw [h.fresh hwz]; exact Nat.zero_le _) }
  refine Got.ite (fun c => ?_) fun _ => ?_
  · refine Got.andThen (dht_kept hd) fun r hr => Got.ok ?_
    refine Kept.note ?_ hm hm2 (by omega)
    exact { h with huff := fun x hx => (List.mem_append.mp hx).elim (h.huff x) (hr x) }
  refine Got.ite (fun c => Got.ok (h.note hm hm2 (by omega))) fun _ => ?_
  refine Got.ite (fun c => absurd c hm2) fun _ => ?_
  refine Got.ite (fun c => Got.mono (readScan_kept h) fun r hr => hr.note hm hm2 (by omega)) fun _ => ?_
  refine Got.ite (fun c => ?_) fun _ => ?_
  · refine Got.andThen (dqt_kept h.few hd) fun r hr => Got.ok ?_
    refine Kept.note ?_ hm hm2 (by omega)
    exact { h with
      quant := fun x hx => (List.mem_append.mp hx).elim (h.quant x) (hr.1 x)
      few := by show (st.jpg.quant ++ r.1).length ≤ 4; rw [List.length_append]; exact hr.2 }
  refine Got.ite (fun c => ?_) fun _ => ?_
  · refine Got.check fun _ => Got.andThen Got.any fun r _ => Got.ok ?_
    have hn := h.note hm hm2 (by omega)
    exact { hn with
      still := fun e => (by cases e)
      dri := fun _ => List.mem_append.mpr (Or.inr (by rw [List.mem_singleton]; exact c.symm)) }
  refine Got.ite (fun c => ?_) fun _ => ?_
  · refine Got.andThen (app_kept hm hd) fun r hr => Got.ok ?_
    refine Kept.note ?_ hm hm2 (by omega)
    refine { h with app := fun x hx => (List.mem_append.mp hx).elim (h.app x) fun hx => ?_ }
    rw [List.mem_singleton] at hx; rw [hx]; exact hr
  refine Got.ite (fun c => ?_) fun _ => Got.no
  · refine Got.andThen (app_kept hm hd) fun r hr => Got.ok ?_
    refine Kept.note ?_ hm hm2 (by omega)
    refine { h with com := fun x hx => (List.mem_append.mp hx).elim (h.com x) fun hx => ?_ }
    rw [List.mem_singleton] at hx; rw [hx]; exact hr

theorem loop_kept {d : List Nat} (hb : ∀ b ∈ d, b < 256) : ∀ (n : Nat) (st : ReadState) (pos : Nat), Kept d st →
    Got (readLoop d n st pos) fun r => ∃ st, Kept d st ∧ r.1 = noteMarker st 0xd9 := by
  intro n
  induction n with
  | zero => intro st pos _; exact Got.ub
  | succ n ih =>
    intro st pos h
    rw [readLoop]
    have hk : Kept d (noteSkipped st ((d.drop pos).take (skipTo (d.drop pos)))) :=
      skip_kept h (by rw [List.length_take, List.length_drop]; omega)
        fun b hm => bytes_drop hb pos b (List.mem_of_mem_take hm)
    match hd : d.drop (pos + skipTo (d.drop pos)) with
    | a :: m :: rest =>
      have hm : m < 256 := bytes_drop hb (pos + skipTo (d.drop pos)) m (by rw [hd]; simp)
      refine Got.check fun _ => ?_
      by_cases he : m = 0xd9
      · subst he
        refine Got.andThen (P := fun r => r.1 = noteSkipped st ((d.drop pos).take (skipTo (d.drop pos)))) (fun r e => ?_) fun r hr => ?_
        · unfold readMarker at e
          simp only at e
          rw [if_neg (by decide), if_neg (by decide), if_neg (by decide), if_pos trivial] at e
          cases e
          rfl
        · rw [if_pos rfl]
          exact Got.ok ⟨_, hk, by rw [hr]⟩
      · refine Got.andThen (marker_kept hb hk hm he) fun r hr => ?_
        rw [if_neg he]
        exact ih _ _ hr
    | [] => exact Got.no
    | [_] => exact Got.no

theorem start_kept (d : List Nat) : Kept d ReadState.start where
  marks := fun m hm => (by cases hm)
  eoi := fun h => (by cases h)
  inter := rfl
  interLen := fun m hm => (by cases hm)
  interBytes := fun m hm => (by cases hm)
  still := fun _ => rfl
  dri := fun h => (by cases h)
  huff := fun m hm => (by cases hm)
  quant := fun m hm => (by cases hm)
  few := by decide
  comps := by decide
  app := fun m hm => (by cases hm)
  com := fun m hm => (by cases hm)
  scans := fun m hm => (by cases hm)
  pads := fun m hm => (by cases hm)
  fresh := fun _ => rfl
  out := fun _ _ _ => rfl

/-- What is known of a file that was accepted. -/
structure Parsed (d : List Nat) (j : Jpg) : Prop where
  marks : ∀ m ∈ j.markers, m < 256
  eoi : 0xd9 ∉ j.markers.dropLast
  inter : j.inter.length = j.markers.count 0xff
  interLen : ∀ b ∈ j.inter, b.length ≤ d.length
  interBytes : ∀ a ∈ j.inter, ∀ b ∈ a, b < 256
  restart : 0xdd ∉ j.markers → j.restart = 0
  huff : ∀ h ∈ j.huff, HuffKept h
  huffFew : j.huff.length < 512
  quant : ∀ q ∈ j.quant, QuantKept q
  few : j.quant.length ≤ 4
  comps : j.comps.length ≤ 4
  index : ∀ c ∈ j.comps, c.quant < j.quant.length
  app : ∀ a ∈ j.app, JpegMeta.Segment a ∧ ∀ b ∈ a, b < 256
  com : ∀ a ∈ j.com, JpegMeta.Segment a ∧ ∀ b ∈ a, b < 256
  scans : ∀ s ∈ j.scans, ScanKept s
  pads : ∀ b ∈ j.pads, b ≤ 1
  tail : j.tail.length ≤ d.length
  tailBytes : ∀ b ∈ j.tail, b < 256
  out : ∀ k i, j.comps.length ≤ k → j.store k i = List.replicate 64 0

theorem quantWith_lt : ∀ (ts : List QuantTable) (i j k : Nat), quantWith i ts j = some k → k < j + ts.length := by
  intro ts
  induction ts with
  | nil => intro i j k h; cases h
  | cons t ts ih =>
    intro i j k h
    rw [quantWith] at h
    split at h
    · cases h; simp only [List.length_cons]; omega
    · have := ih i (j + 1) k h
      simp only [List.length_cons]
      omega

theorem fixup_index {ts : List QuantTable} : ∀ (cs ds : List Comp), fixup ts cs = some ds →
    ds.length = cs.length ∧ ∀ c ∈ ds, c.quant < ts.length := by
  intro cs
  induction cs with
  | nil => intro ds h; cases h; exact ⟨rfl, fun c hc => (by cases hc)⟩
  | cons c cs ih =>
    intro ds h
    unfold fixup at h ih
    rw [List.mapM_cons] at h
    obtain ⟨c', e0, h⟩ := Option.bind_eq_some_iff.mp h
    obtain ⟨k, hk, e⟩ := Option.bind_eq_some_iff.mp e0
    obtain ⟨ds', h1, h2⟩ := Option.bind_eq_some_iff.mp h
    cases h2
    cases e
    obtain ⟨i1, i2⟩ := ih _ h1
    refine ⟨by simp only [List.length_cons, i1], fun x hx => ?_⟩
    rcases List.mem_cons.mp hx with rfl | hx
    · have := quantWith_lt _ _ _ _ hk
      simpa using this
    · exact i2 x hx

theorem parsed {d : List Nat} (hb : ∀ b ∈ d, b < 256) : Got (readJpeg d) (Parsed d) := by
  unfold readJpeg
  match d, hb with
  | a :: b :: rest, hb =>
    refine Got.check fun _ => Got.check fun _ => Got.andThen (loop_kept hb _ _ _ (start_kept _)) fun r hr => ?_
    obtain ⟨st, h, e⟩ := hr
    unfold readEnd
    refine Got.check fun _ => Got.check fun _ => ?_
    split
    · exact Got.no
    · next cs hfx =>
      refine Got.check fun _ => Got.check fun hhf => Got.ok ?_
      rw [e] at hfx hhf ⊢
      obtain ⟨f1, f2⟩ := fixup_index _ _ hfx
      refine ⟨?_, ?_, ?_, h.interLen, h.interBytes, ?_, h.huff, hhf, h.quant, h.few, ?_, f2, h.app, h.com, h.scans, h.pads, ?_, bytes_drop hb _, fun k i hk => h.out k i (Nat.le_trans (Nat.le_of_eq f1.symm) hk)⟩
      · intro m hm
        rcases List.mem_append.mp hm with hm | hm
        · exact h.marks m hm
        · rw [List.mem_singleton] at hm; omega
      · show 0xd9 ∉ (st.jpg.markers ++ [0xd9]).dropLast
        rw [List.dropLast_concat]
        exact h.eoi
      · show st.jpg.inter.length = (st.jpg.markers ++ [0xd9]).count 0xff
        rw [List.count_append, h.inter]
        rfl
      · intro hn
        refine h.still ?_
        match hdr : st.dri with
        | false => rfl
        | true => exact absurd (List.mem_append.mpr (Or.inl (h.dri hdr))) hn
      · show cs.length ≤ 4
        rw [f1]
        exact h.comps
      · show ((a :: b :: rest).drop r.2).length ≤ _
        rw [List.length_drop]
        omega
  | [], _ => exact Got.no
  | [_], _ => exact Got.no

end Jxl.Jpeg
