import Verif.Lemmas.JpegRefBlock
import Verif.Lemmas.JpegScan
import Verif.Spec.JpegParse
/-!
# Whole scans: parser and writer in step
-/
namespace Jxl.Jpeg

/-! ## Blocks of any scan -/

/-- What a scan may find in a block. -/
structure BlockPre (m : Mode) (cs : List Int) : Prop where
  len : cs.length = 64
  zero : m.refining = false → ∀ c ∈ bandOf m.ss m.se cs, c = 0
  mult : m.refining = true → Mult (m.al + 1) (bandOf m.ss m.se cs)
  head : m.refining = true → m.ss = 0 → ∃ u : Int, cs.headD 0 = u * ((2 ^ (m.al + 1) : Nat) : Int)

/-- What a scan leaves in a block. -/
structure BlockPost (m : Mode) (old new : List Int) : Prop where
  len : new.length = 64
  same : ∀ k, k < m.ss ∨ m.se < k → new[k]? = old[k]?
  mult : Mult m.al (bandOf m.ss m.se new)
  head : m.ss = 0 → ∃ u : Int, new.headD 0 = u * ((2 ^ m.al : Nat) : Int)
  refined : m.refining = true →
    (bandOf m.ss m.se new).map (tq (m.al + 1)) = (bandOf m.ss m.se old).map (tq (m.al + 1))
  refinedHead : m.refining = true → m.ss = 0 →
    new.headD 0 / ((2 ^ (m.al + 1) : Nat) : Int) = old.headD 0 / ((2 ^ (m.al + 1) : Nat) : Int)

theorem mult_map (al : Nat) (vs : List Int) : Mult al (vs.map (· * ((2 ^ al : Nat) : Int))) := by
  intro c hc
  obtain ⟨v, _, rfl⟩ := List.mem_map.mp hc
  exact ⟨v, rfl⟩

/-- The writer's steps for a block. -/
def blockSteps (comp : Nat) (hd h : Huff) (c : List Int) (a : AcState) : List Step :=
  (if a.reset then [Step.reset] else []) ++ [.block comp hd h c a.runs]

theorem runSteps_block {m : Mode} {comp : Nat} {hd h : Huff} {c : List Int} {a : AcState} {ws : Scan} {xs : List Step} {r}
    (hr : runSteps m (blockSteps comp hd h c a ++ xs) ws = some r) :
    ∃ s1 w1 ws1, (if a.reset then flush ws.coding ws.w else some (ws.coding, ws.w)) = some (s1, w1) ∧
      encodeBlock m comp hd h c a.runs { ws with coding := s1, w := w1 } = some ws1 ∧ runSteps m xs ws1 = some r := by
  unfold blockSteps at hr
  cases hres : a.reset with
  | false =>
    rw [hres] at hr
    simp only [Bool.false_eq_true, if_false, List.nil_append, List.cons_append] at hr
    rw [runSteps] at hr
    simp only [stepScan, Option.bind_eq_some_iff] at hr
    obtain ⟨x, ⟨ws1, e1, e2⟩, e3⟩ := hr
    injection e2 with e2
    subst e2
    exact ⟨ws.coding, ws.w, ws1, rfl, e1, e3⟩
  | true =>
    rw [hres] at hr
    simp only [if_true, List.cons_append, List.nil_append] at hr
    rw [runSteps] at hr
    simp only [stepScan, Option.bind_eq_some_iff] at hr
    obtain ⟨x, ⟨p, e1, e2⟩, e3⟩ := hr
    injection e2 with e2
    subst e2
    simp only at e3
    rw [runSteps] at e3
    simp only [stepScan, Option.bind_eq_some_iff] at e3
    obtain ⟨y, ⟨ws1, e4, e5⟩, e6⟩ := e3
    injection e5 with e5
    subst e5
    exact ⟨p.1, p.2, ws1, by rw [if_pos rfl]; exact e1, e4, e6⟩

/-- The writer's state fits the parser's. -/
structure Fit (m : Mode) (preW : List Nat) (C : List Bool) (eob : Int) (lastDc : Nat → Int) (next : Nat) (ws : Scan) : Prop where
  sync : Sync preW C eob ws.coding ws.w
  alone : m.ss = 0 → ws.coding.eobRun = 0
  dc : ws.lastDc = lastDc
  num : ws.next = next

theorem block_step {d pre S : List Nat} (hp : Placed d pre S) {m : Mode} (hm : ModeOk m) {x0 x : Table} (hx0 : InSlot x0)
    (hx : InSlot x) {e : Int} {lastDc : Nat → Int} {comp next : Nat} {coeffs : List Int} {r : Reader} {C : List Bool} {b : BlockOut}
    (hpre : BlockPre m coeffs) (ha : At d pre S C r)
    (hb : parseBlock m d x0.2 x.2 e (lastDc comp) coeffs r = some (some b)) :
    BlockPost m coeffs b.coeffs ∧ ∃ C', At d pre S C' b.ac.r ∧
      ∀ preW ws c xs res, Fit m preW C e lastDc next ws → Agrees m.ss m.se m.al b.coeffs c →
        runSteps m (blockSteps comp (codeTable x0.1) (codeTable x.1) c b.ac ++ xs) ws = some res →
        ∃ ws1, Fit m preW C' b.ac.eob (fun i => if i = comp then b.last else lastDc i) next ws1 ∧ ws1.pads = ws.pads ∧
          runSteps m xs ws1 = some res := by
  cases m with
  | sequential =>
    obtain ⟨diff, C1, C', vs, hr⟩ := decode_read hp hx0 hx (ss := 0) (se := 63) (al := 0) (by decide) (by decide) hpre.len
      (hpre.zero rfl) ha hb
    refine ⟨⟨hr.len, hr.same, ?_, fun h => ⟨_, (hr.dc h).2.2.2.2⟩, (fun h => by cases h), (fun h => by cases h)⟩, C', hr.pos, ?_⟩
    · show Mult 0 (bandOf 0 63 b.coeffs)
      rw [hr.band]; exact mult_map _ _
    · intro preW ws c xs res hf hag hrun
      obtain ⟨s1, w1, ws1, e1, e2, e3⟩ := runSteps_block hrun
      simp only [encodeBlock, Option.bind_eq_some_iff] at e2
      obtain ⟨p, e4, e5⟩ := e2
      injection e5 with e5
      have h0 := hf.alone rfl
      have hw := hf.sync.winv h0
      -- no reset in a sequential scan
      have hres : b.ac.reset = false := by
        have hbr := (hr.some (by decide)).1
        rcases hbr.off hw.2.2 with ⟨_, _, g, _⟩ | ⟨_, g, _⟩
        · exact g
        · rw [g]; rfl
      rw [hres] at e1
      simp only [Bool.false_eq_true, if_false] at e1
      injection e1 with e1; injection e1 with a1 a2
      subst a1; subst a2
      rw [hf.dc] at e4
      obtain ⟨l', w'⟩ := p
      obtain ⟨g1, g2, g3⟩ := seq_write hr hf.sync h0 hag e4
      subst e5
      refine ⟨_, ?_, ?_, e3⟩
      case refine_2 => rfl
      refine ⟨g3, fun _ => h0, ?_, hf.num⟩
      show (fun i => if i = comp then l' else ws.lastDc i) = _
      rw [g1, hf.dc]
  | first ss se al =>
    obtain ⟨diff, C1, C', vs, hr⟩ := decode_read hp hx0 hx (ss := ss) (se := se) (al := al) hm.1 hm.2 hpre.len
      (hpre.zero rfl) ha hb
    refine ⟨⟨hr.len, hr.same, ?_, fun h => ⟨_, (hr.dc h).2.2.2.2⟩, (fun h => by cases h), (fun h => by cases h)⟩, C', hr.pos, ?_⟩
    · show Mult al (bandOf ss se b.coeffs)
      rw [hr.band]; exact mult_map _ _
    · intro preW ws c xs res hf hag hrun
      obtain ⟨s1, w1, ws1, e1, e2, e3⟩ := runSteps_block hrun
      simp only [encodeBlock, Option.bind_eq_some_iff] at e2
      obtain ⟨p, e4, e5⟩ := e2
      injection e5 with e5
      rw [hf.dc] at e4
      obtain ⟨l', s', w'⟩ := p
      obtain ⟨g1, g2, g3⟩ := first_write hr hf.sync hf.alone hag e1 e4
      subst e5
      refine ⟨_, ?_, ?_, e3⟩
      case refine_2 => rfl
      refine ⟨g2, g3, ?_, hf.num⟩
      show (fun i => if i = comp then l' else ws.lastDc i) = _
      rw [g1, hf.dc]
  | refine ss se al =>
    obtain ⟨bit, C1, C', vf, vb, hr⟩ := refine_read hp hx (ss := ss) (se := se) (al := al) hm.2 hpre.len
      (hpre.mult rfl) (hpre.head rfl) ha hb
    refine ⟨⟨hr.len, hr.same, ?_, ?_, ?_, ?_⟩, C', hr.pos, ?_⟩
    · show Mult al (bandOf ss se b.coeffs)
      rw [hr.band]; exact mult_map _ _
    · intro h
      obtain ⟨u, _, _, g⟩ := hr.dc h
      exact ⟨_, g⟩
    · intro _
      show (bandOf ss se b.coeffs).map (tq (al + 1)) = (bandOf ss se coeffs).map (tq (al + 1))
      rw [hr.band, ← hr.refined, List.map_map]
      apply List.map_congr_left
      intro v _
      show tq (al + 1) (v * _) = tq 1 v
      rw [← tq_tq, tq_mul]
    · intro _ h
      show b.coeffs.headD 0 / ((2 ^ (al + 1) : Nat) : Int) = coeffs.headD 0 / ((2 ^ (al + 1) : Nat) : Int)
      obtain ⟨u, _, g1, g2⟩ := hr.dc h
      have hpos : 0 < ((2 ^ al : Nat) : Int) := by have := Nat.two_pow_pos al; omega
      have hp2 : ((2 ^ (al + 1) : Nat) : Int) = ((2 ^ al : Nat) : Int) * 2 := by rw [Nat.pow_succ]; omega
      rw [g1, g2, hp2, ← Int.ediv_ediv_of_nonneg (by omega), ← Int.ediv_ediv_of_nonneg (by omega), Int.mul_ediv_cancel _ (by omega),
        Int.mul_comm ((2 ^ al : Nat) : Int) 2, ← Int.mul_assoc, Int.mul_ediv_cancel _ (by omega)]
      cases bit <;> simp [bit01] <;> omega
    · intro preW ws c xs res hf hag hrun
      obtain ⟨s1, w1, ws1, e1, e2, e3⟩ := runSteps_block hrun
      simp only [encodeBlock, Option.bind_eq_some_iff] at e2
      obtain ⟨p, e4, e5⟩ := e2
      injection e5 with e5
      obtain ⟨s', w'⟩ := p
      obtain ⟨g1, g2⟩ := refine_write hr hf.sync hf.alone hag e1 e4
      subst e5
      refine ⟨_, ?_, ?_, e3⟩
      case refine_2 => rfl
      refine ⟨g1, g2, ?_, hf.num⟩
      show ws.lastDc = _
      rw [hf.dc, hr.last]
      funext i
      split
      · rename_i h; rw [h]
      · rfl

/-! ## Ends of segments -/

theorem map_bit01_inj {a b : List Bool} (h : a.map bit01 = b.map bit01) : a = b := by
  induction a generalizing b with
  | nil => cases b with
    | nil => rfl
    | cons => cases h
  | cons x a ih =>
    cases b with
    | nil => cases h
    | cons y b =>
      injection h with h1 h2
      rw [ih h2]
      congr 1
      cases x <;> cases y <;> first | rfl | cases h1

theorem jump_pads {pre : List Nat} {C Q : List Bool} {T : List Nat} {w : Writer} {p : Option (List Nat)} {r}
    (h : WInv pre C w) (hQ : Q.length = (8 - C.length % 8) % 8) (hp : PadsFor (Q.map bit01 ++ T) p) (hj : jump w p = some r) :
    ∃ w' p', r = some (w', p') ∧ PadsFor T p' ∧ w'.out.reverse = pre ++ segment C Q ∧ w'.buf = 0 ∧ w'.room = 64 ∧
      w'.healthy = true := by
  have hlen := h.len
  rcases hp with rfl | ⟨rfl, hall⟩
  · have hQr : Q.length = w.room % 8 := by omega
    obtain ⟨d', g1, g2⟩ := takePads_bits Q T [] 0 (by decide) (by simp; omega)
    have hne : r ≠ none := by
      intro hr
      subst hr
      unfold jump at hj
      simp only at hj
      rw [← hQr] at hj
      have : valMsb [] = 0 := rfl
      rw [this] at g2
      rw [g2] at hj
      simp only at hj
      rw [if_neg (by omega)] at hj
      rw [Option.bind_eq_some_iff] at hj
      obtain ⟨_, _, h⟩ := hj
      cases h
    cases r with
    | none => exact absurd rfl hne
    | some q =>
      obtain ⟨w', p'⟩ := q
      obtain ⟨k1, k2, k3, k4, k5, k6⟩ := jump_inv h hj
      have hpo : padsOf C.length (some (Q.map bit01 ++ T)) = Q := by
        unfold padsOf
        rw [← hQ]
        simp only
        rw [List.take_append_of_le_length (by simp), List.take_of_length_le (by simp), List.map_map]
        conv => rhs; rw [← List.map_id Q]
        apply List.map_congr_left
        intro b _
        cases b <;> rfl
      refine ⟨w', p', rfl, .inl ?_, by rw [k1, hpo], k2, k3, k4.trans h.ok⟩
      rw [k5]
      unfold padsRest
      rw [← hQ]
      simp only
      rw [List.drop_append_of_le_length (by simp), List.drop_of_length_le (by simp)]
      rfl
  · have hne : r ≠ none := by
      intro hr
      subst hr
      unfold jump at hj
      simp only at hj
      rw [Option.bind_eq_some_iff] at hj
      obtain ⟨_, _, h⟩ := hj
      cases h
    cases r with
    | none => exact absurd rfl hne
    | some q =>
      obtain ⟨w', p'⟩ := q
      obtain ⟨k1, k2, k3, k4, k5, k6⟩ := jump_inv h hj
      have hpo : padsOf C.length none = Q := by
        unfold padsOf
        rw [← hQ]
        symm
        refine List.eq_replicate_iff.mpr ⟨rfl, ?_⟩
        intro b hb
        have := hall (bit01 b) (List.mem_append_left _ (List.mem_map_of_mem hb))
        cases b
        · cases this
        · rfl
      exact ⟨w', p', rfl, .inr ⟨by rw [k5]; rfl, fun b hb => hall b (by simp [hb])⟩, by rw [k1, hpo], k2, k3, k4.trans h.ok⟩

/-- The end of a segment: the writer pads as the file does. -/
theorem end_segment {d pre S : List Nat} (hp : Placed d pre S) {C : List Bool} {r : Reader} {f : List Nat × Nat} (ha : At d pre S C r)
    (hf : finishStream d r = some (some f)) :
    (pre.length ≤ f.2 ∧ f.2 ≤ mark pre S) ∧
    ∀ (base preW : List Nat) (ws : Scan) (eob : Int) (T : List Nat) (q), base ++ preW = pre → Sync preW C eob ws.coding ws.w → eob ≤ 0 →
      PadsFor (f.1 ++ T) ws.pads →
      ((flush ws.coding ws.w).bind fun p => (jump p.2 ws.pads).bind fun j => some (p.1, j)) = some q →
      ∃ w' p', q = (flushed ws.coding, some (w', p')) ∧ PadsFor T p' ∧ base ++ w'.out.reverse = d.take f.2 ∧ w'.buf = 0 ∧
        w'.room = 64 ∧ w'.healthy = true := by
  rcases at_finish hp ha with h | ⟨Q, j, k1, k2, k3, k4⟩
  · rw [h] at hf; cases hf
  · rw [hf] at k4
    injection k4 with k4; injection k4 with k4
    subst k4
    have hst : (stuff S).length = (stuff (S.take j)).length + (stuff (S.drop j)).length := by
      conv => lhs; rw [← List.take_append_drop j S]
      rw [stuff_append, List.length_append]
    refine ⟨⟨by simp, by unfold mark; simp only; omega⟩, ?_⟩
    intro base preW ws eob T q hbase hs he hpd hq
    simp only [Option.bind_eq_some_iff] at hq
    obtain ⟨p, e1, jr, e2, e3⟩ := hq
    injection e3 with e3
    subst e3
    obtain ⟨g1, g2⟩ := hs.flush he e1
    obtain ⟨w', p', m1, m2, m3, m4, m5, m6⟩ := jump_pads g2 k2 hpd e2
    refine ⟨w', p', by rw [m1, ← g1], m2, ?_, m4, m5, m6⟩
    rw [m3, ← List.append_assoc, hbase]
    unfold segment
    rw [← k3, packBytes_bitsMsb _ fun b hb => hp.bytes b (List.mem_of_mem_take hb)]
    obtain ⟨mm, rest, _, hd⟩ := hp.eq
    have hd2 : d = (pre ++ stuff (S.take j)) ++ (stuff (S.drop j) ++ 255 :: mm :: rest) := by
      rw [hd]
      conv => lhs; rw [← List.take_append_drop j S]
      rw [stuff_append]; simp
    have hl : pre.length + (stuff (S.take j)).length = (pre ++ stuff (S.take j)).length := by simp
    simp only
    rw [hl]
    conv => rhs; rw [hd2]
    rw [List.take_left]

/-! ## Units -/

theorem restartAt_true {d : List Nat} {pos i : Nat} (h : restartAt d pos i = some true) :
    d[pos]? = some 255 ∧ d[pos + 1]? = some (0xD0 + i % 8) := by
  unfold restartAt at h
  split at h
  · cases h
  · split at h
    · rename_i a b h1 h2
      injection h with h
      simp only [Bool.and_eq_true, beq_iff_eq] at h
      rw [h1, h2, h.1, h.2]
      exact ⟨rfl, rfl⟩
    · cases h

theorem finishStream_small {d : List Nat} {r : Reader} {f : List Nat × Nat} (h : finishStream d r = some (some f)) :
    ∀ b ∈ f.1, b ≤ 1 := by
  unfold finishStream at h
  simp only [Option.bind_eq_some_iff] at h
  obtain ⟨pos, _, h⟩ := h
  split at h
  · simp at h
  · injection h with h; injection h with h
    subst h
    intro b hb
    obtain ⟨i, _, rfl⟩ := List.mem_map.mp hb
    exact Nat.and_le_right

/-- Reading the units, and what the writer then does. -/
structure UnitsRead (d : List Nat) (p : Nat) (m : Mode) (us : List ScanUnit) (st st' : ParseState) (pre : List Nat) (C : List Bool)
    (P : List Nat) (R : List (Nat × Nat)) (L pre' S' : List Nat) (C' : List Bool) : Prop where
  points : st'.points = st.points ++ P
  runs : st'.runs = st.runs ++ R
  pads : st'.pads = st.pads ++ L
  placed : Placed d pre' S'
  here : At d pre' S' C' st'.r
  before : mark pre' S' ≤ p
  grow : pre.length ≤ pre'.length
  small : ∀ b ∈ L, b ≤ 1
  laterP : ∀ x ∈ P, st.index ≤ x
  laterR : ∀ x ∈ R, st.index ≤ x.1
  kept : ∀ c i, (c, i) ∉ blocks us → st'.store c i = st.store c i
  post : ∀ c i, (c, i) ∈ blocks us → BlockPost m (st.store c i) (st'.store c i)
  write : ∀ (F : Store) (ws : Scan) (T base preW : List Nat) (res : Option Scan),
    (∀ c i, (c, i) ∈ blocks us → Agrees m.ss m.se m.al (st'.store c i) (F c i)) → base ++ preW = pre →
    Fit m preW C st.eob st.lastDc st.next ws → PadsFor (L ++ T) ws.pads →
    runSteps m (writerSteps F us st.index P R) ws = some res →
    ∃ ws' preW', res = some ws' ∧ base ++ preW' = pre' ∧ Fit m preW' C' st'.eob st'.lastDc st'.next ws' ∧ PadsFor T ws'.pads

theorem takePoint_cons (i : Nat) (b : Bool) {P : List Nat} (h : ∀ x ∈ P, i + 1 ≤ x) :
    takePoint i ((if b then [i] else []) ++ P) = (b, P) := by
  cases b with
  | true => simp [takePoint]
  | false =>
    cases P with
    | nil => rfl
    | cons x P =>
      have := h x (by simp)
      show takePoint i (x :: P) = _
      rw [takePoint, if_neg (by omega)]

theorem takeRun_cons (i n : Nat) {R : List (Nat × Nat)} (h : ∀ x ∈ R, i + 1 ≤ x.1) :
    takeRun i ((if n > 0 then [(i, n)] else []) ++ R) = (n, R) := by
  by_cases hn : n > 0
  · simp [takeRun, hn]
  · have h0 : n = 0 := by omega
    subst h0
    cases R with
    | nil => rfl
    | cons x R =>
      have := h x (by simp)
      show takeRun i (x :: R) = _
      rw [takeRun, if_neg (by omega)]

theorem parse_units {d : List Nat} {p : Nat} (hd : Ends d p) {m : Mode} (hm : ModeOk m) :
    ∀ (us : List ScanUnit) (st st' : ParseState) (pre S : List Nat) (C : List Bool), Placed d pre S → At d pre S C st.r →
      mark pre S ≤ p → (∀ u ∈ us, TablesOk u) → (blocks us).Nodup →
      (∀ c i, (c, i) ∈ blocks us → BlockPre m (st.store c i)) → parseUnits m d us st = some (some st') →
      ∃ P R L pre' S' C', UnitsRead d p m us st st' pre C P R L pre' S' C' := by
  intro us
  induction us with
  | nil =>
    intro st st' pre S C hp ha hk _ _ _ h
    injection h with h; injection h with h
    subst h
    refine ⟨[], [], [], pre, S, C, by simp, by simp, by simp, hp, ha, hk, Nat.le_refl _, by simp, by simp, by simp, fun _ _ _ => rfl,
      fun c i h => absurd h List.not_mem_nil, ?_⟩
    intro F ws T base preW res _ hb hf hpd hr
    injection hr with hr
    exact ⟨ws, preW, hr.symm, hb, hf, hpd⟩
  | cons u us ih =>
    intro st st' pre S C hp ha hk ht hn hpre h
    rw [parseUnits] at h
    obtain ⟨st1, h1, h2⟩ := andThen_some h
    have ht' : ∀ u ∈ us, TablesOk u := fun u hu => ht u (by simp [hu])
    cases u with
    | restart =>
      have h1 : parseRestart d st = some (some st1) := h1
      unfold parseRestart at h1
      obtain ⟨f, e1, h1⟩ := andThen_some h1
      obtain ⟨ok, e2, h1⟩ := andThen_some h1
      have e2 := always_some e2
      cases ok with
      | false => simp at h1
      | true =>
        simp only [if_true] at h1
        obtain ⟨r, e3, h1⟩ := andThen_some h1
        have e3 := always_some e3
        by_cases he : st.eob > 0
        · rw [if_pos he] at h1; simp at h1
        rw [if_neg he] at h1
        injection h1 with h1; injection h1 with h1
        obtain ⟨q1, q2⟩ := restartAt_true e2
        obtain ⟨⟨b1, b2⟩, hend⟩ := end_segment hp ha e1
        obtain ⟨mm, o1, o2, o3⟩ := hd.other
        have hmod : st.next % 8 < 8 := Nat.mod_lt _ (by decide)
        have n1 : f.2 ≠ p := by
          intro e
          rw [e, o1] at q2
          injection q2 with q2
          omega
        have n2 : f.2 + 1 ≠ p := by
          intro e
          rw [e, hd.marker] at q2
          injection q2 with q2
          omega
        obtain ⟨S2, p1, p2, p3⟩ := placed_of_marker (pos := f.2 + 2) hd.bytes (by omega) (by omega)
          (by show d[f.2 + 1]? ≠ _; rw [q2]; intro e; injection e with e; omega) hd.marker o1 o2
        obtain ⟨r', a1, a2⟩ := at_reset p1
        rw [p2, e3] at a1
        injection a1 with a1
        subst a1
        subst h1
        obtain ⟨P, R, L, pre', S', C', hu⟩ := ih { st with eob := -1, lastDc := fun _ => 0, next := st.next + 1, pads := st.pads ++ f.1, r := r } st' (d.take (f.2 + 2)) S2 [] p1 a2 p3 ht' hn hpre h2
        refine ⟨P, R, f.1 ++ L, pre', S', C', hu.points, hu.runs, by rw [hu.pads]; simp, hu.placed, hu.here, hu.before, by have := hu.grow; omega,
          fun b hb => (List.mem_append.mp hb).elim (finishStream_small e1 b) (hu.small b),
          hu.laterP, hu.laterR, hu.kept, hu.post, ?_⟩
        intro F ws T base preW res hF hbase hf hpd hr
        rw [writerSteps, runSteps] at hr
        simp only [stepScan] at hr
        rw [Option.bind_eq_some_iff] at hr
        obtain ⟨x, hx, hr⟩ := hr
        rw [Option.bind_eq_some_iff] at hx
        obtain ⟨fl, f1, hx⟩ := hx
        rw [Option.bind_eq_some_iff] at hx
        obtain ⟨jr, f2, hx⟩ := hx
        obtain ⟨w', p', g1, g2, g3, g4, g5, g6⟩ := hend base preW ws st.eob (L ++ T) (fl.1, jr) hbase hf.sync (by omega)
          (by rw [← List.append_assoc]; exact hpd) (by rw [f1]; simp only [Option.bind_some]; rw [f2]; rfl)
        injection g1 with g1 g1'
        subst g1'
        simp only [Option.bind_eq_some_iff] at hx
        obtain ⟨w'', hx1, hx2⟩ := hx
        injection hx2 with hx2
        subst hx2
        obtain ⟨k1, k2, k3, k4⟩ := emitMarker_out hx1
        have hw := WInv.fresh (w := w'') (k2.trans g4) (k3.trans g5) (k4.trans g6)
        refine hu.write F _ T base w''.out.reverse res hF ?_ ⟨sync_empty hw ?_ ?_ (by show (-1 : Int) ≤ 0; decide), ?_, rfl, ?_⟩ g2 hr
        · rw [k1, ← List.append_assoc, g3, hf.num]
          have hlt : f.2 + 1 < d.length := by
            rcases Nat.lt_or_ge (f.2 + 1) d.length with h | h
            · exact h
            · rw [List.getElem?_eq_none h] at q2; cases q2
          rw [List.take_add_one, List.take_add_one, q1, q2]
          simp
        · rw [g1]; exact held_flushed _
        · rw [g1]; rfl
        · intro _; rw [g1]; rfl
        · show ws.next + 1 = st.next + 1
          rw [hf.num]
    | block comp idx dc ac =>
      have h1 : andThen (parseBlock m d dc.2 ac.2 st.eob (st.lastDc comp) (st.store comp idx) st.r) _ = some (some st1) := h1
      obtain ⟨b, e1, h1⟩ := andThen_some h1
      injection h1 with h1; injection h1 with h1
      obtain ⟨t1, t2⟩ := ht _ (List.mem_cons_self ..)
      obtain ⟨hpost, C1, hpos, hw⟩ := block_step hp hm (next := st.next) t1 t2 (hpre comp idx (List.mem_cons_self ..)) ha e1
      have hn : ((comp, idx) :: blocks us).Nodup := hn
      obtain ⟨hni, hn'⟩ := List.nodup_cons.mp hn
      have hput : ∀ c i, (c, i) ∈ blocks us → st1.store c i = st.store c i := by
        intro c i hci
        rw [← h1]
        show (if c = comp ∧ i = idx then _ else _) = _
        rw [if_neg (fun hh => hni (by rw [← hh.1, ← hh.2]; exact hci))]
      have hself : st1.store comp idx = b.coeffs := by
        rw [← h1]
        show (if comp = comp ∧ idx = idx then _ else _) = _
        rw [if_pos ⟨rfl, rfl⟩]
      obtain ⟨P, R, L, pre', S', C', hu⟩ := ih st1 st' pre S C1 hp (by rw [← h1]; exact hpos) hk ht' hn'
        (fun c i hci => by rw [hput c i hci]; exact hpre c i (List.mem_cons_of_mem _ hci)) h2
      have hfin : st'.store comp idx = b.coeffs := by rw [hu.kept comp idx hni, hself]
      have hidx : st1.index = st.index + 1 := by rw [← h1]
      refine ⟨(if b.ac.reset then [st.index] else []) ++ P, (if b.ac.runs > 0 then [(st.index, b.ac.runs)] else []) ++ R, L, pre', S', C',
        ?_, ?_, ?_, hu.placed, hu.here, hu.before, hu.grow, hu.small, ?_, ?_, ?_, ?_, ?_⟩
      · rw [hu.points, ← h1]
        simp only
        split <;> simp
      · rw [hu.runs, ← h1]
        simp only
        split <;> simp
      · rw [hu.pads, ← h1]
      · intro x hx
        rcases List.mem_append.mp hx with hx | hx
        · split at hx
          · simp at hx; omega
          · cases hx
        · have := hu.laterP x hx; omega
      · intro x hx
        rcases List.mem_append.mp hx with hx | hx
        · split at hx
          · simp at hx; rw [hx]; exact Nat.le_refl _
          · cases hx
        · have := hu.laterR x hx; omega
      · intro c i hci
        have hci : (c, i) ∉ (comp, idx) :: blocks us := hci
        rw [List.mem_cons, not_or] at hci
        rw [hu.kept c i hci.2, ← h1]
        show (if c = comp ∧ i = idx then _ else _) = _
        rw [if_neg (fun hh => hci.1 (by rw [hh.1, hh.2]))]
      · intro c i hci
        have hci : (c, i) ∈ (comp, idx) :: blocks us := hci
        rcases List.mem_cons.mp hci with hci | hci
        · injection hci with c1 c2
          subst c1; subst c2
          rw [hfin]
          exact hpost
        · rw [← hput c i hci]
          exact hu.post c i hci
      · intro F ws T base preW res hF hbase hf hpd hr
        rw [writerSteps, takePoint_cons st.index b.ac.reset (fun x hx => by have := hu.laterP x hx; omega),
          takeRun_cons st.index b.ac.runs (fun x hx => by have := hu.laterR x hx; omega)] at hr
        have hr : runSteps m (blockSteps comp (codeTable dc.1) (codeTable ac.1) (F comp idx) b.ac ++
            writerSteps F us (st.index + 1) P R) ws = some res := by
          unfold blockSteps
          rw [List.append_assoc]
          exact hr
        obtain ⟨ws1, k1, k2, k3⟩ := hw preW ws (F comp idx) _ res hf
          (by rw [← hfin]; exact hF comp idx (List.mem_cons_self ..)) hr
        refine hu.write F ws1 T base preW res (fun c i hci => hF c i (List.mem_cons_of_mem _ hci)) hbase ?_ (by rw [k2]; exact hpd)
          (by rw [hidx]; exact k3)
        rw [← h1]
        exact k1

/-! ## A whole scan -/

/-- A scan the parser accepts, starting at `pos`: what it leaves, and what the writer makes of the records and of
coefficients that agree. -/
structure ScanRead (d : List Nat) (m : Mode) (us : List ScanUnit) (store : Store) (pos : Nat) (o : ParsedScan) : Prop where
  le : pos ≤ o.pos
  small : ∀ b ∈ o.pads, b ≤ 1
  kept : ∀ c i, (c, i) ∉ blocks us → o.store c i = store c i
  post : ∀ c i, (c, i) ∈ blocks us → BlockPost m (store c i) (o.store c i)
  write : ∀ (F : Store) (T : List Nat) (pads : Option (List Nat)) (h : Huff) (res : Option Scan),
    (∀ c i, (c, i) ∈ blocks us → Agrees m.ss m.se m.al (o.store c i) (F c i)) → PadsFor (o.pads ++ T) pads →
    encodeScan m (writerSteps F us 0 o.points o.runs) pads h = some res →
    ∃ ws, res = some ws ∧ ws.w.healthy = true ∧ PadsFor T ws.pads ∧ ws.w.out.reverse = (d.take o.pos).drop pos

theorem parse_scan {d : List Nat} {p : Nat} (hd : Ends d p) {m : Mode} (hm : ModeOk m) {us : List ScanUnit} {store : Store}
    {pos : Nat} {o : ParsedScan} (h0 : 0 < pos) (hpp : pos ≤ p) (hl : d[pos - 1]? ≠ some 255)
    (ht : ∀ u ∈ us, TablesOk u) (hn : (blocks us).Nodup) (hpre : ∀ c i, (c, i) ∈ blocks us → BlockPre m (store c i))
    (h : parseScan m d us store pos = some (some o)) : ScanRead d m us store pos o := by
  obtain ⟨mm, o1, o2, _⟩ := hd.other
  obtain ⟨S, p1, p2, p3⟩ := placed_of_marker hd.bytes h0 hpp hl hd.marker o1 o2
  obtain ⟨r', a1, a2⟩ := at_reset p1
  unfold parseScan at h
  obtain ⟨r, e1, h⟩ := andThen_some h
  have e1 := always_some e1
  rw [p2, e1] at a1
  injection a1 with a1
  subst a1
  obtain ⟨st, e2, h⟩ := andThen_some h
  by_cases he : st.eob > 0
  · rw [if_pos he] at h; simp at h
  rw [if_neg he] at h
  obtain ⟨f, e3, h⟩ := andThen_some h
  split at h
  · simp at h
  injection h with h; injection h with h
  obtain ⟨P, R, L, pre', S', C', hu⟩ := parse_units hd hm us _ st (d.take pos) S [] p1 a2 p3 ht hn hpre e2
  have hq := hu.points
  have hqr := hu.runs
  have hqp := hu.pads
  simp only [List.nil_append] at hq hqr hqp
  obtain ⟨⟨b1, b2⟩, hend⟩ := end_segment hu.placed hu.here e3
  have hg := hu.grow
  rw [p2] at hg
  rw [← h]
  refine ⟨by show pos ≤ f.2; omega, ?_, hu.kept, hu.post, ?_⟩
  · intro b hb
    have hb : b ∈ st.pads ++ f.1 := hb
    rw [hqp] at hb
    exact (List.mem_append.mp hb).elim (hu.small b) (finishStream_small e3 b)
  intro F T pads hh res hF hpd hr
  simp only at hr hpd
  rw [hq, hqr] at hr
  unfold encodeScan at hr
  rw [Option.bind_eq_some_iff] at hr
  obtain ⟨x, k1, k2⟩ := hr
  rw [hqp, List.append_assoc] at hpd
  have hfresh : WInv [] [] Writer.init := WInv.fresh (w := Writer.init) rfl rfl rfl
  obtain ⟨ws', preW', g1, g2, g3, g4⟩ := hu.write F (Scan.init pads hh) (f.1 ++ T) (d.take pos) [] x hF (by simp)
    ⟨sync_empty hfresh (held_flushed (Scan.init pads hh).coding) rfl (by show (-1 : Int) ≤ 0; decide), fun _ => rfl, rfl, rfl⟩ hpd k1
  subst g1
  simp only [Option.bind_eq_some_iff] at k2
  obtain ⟨fl, f1, jr, f2, hx⟩ := k2
  obtain ⟨w', p', q1, q2, q3, q4, q5, q6⟩ := hend (d.take pos) preW' ws' st.eob T (fl.1, jr) g2 g3.sync (by omega) g4
    (by rw [f1]; simp only [Option.bind_some]; rw [f2]; rfl)
  injection q1 with q1 q1'
  subst q1'
  injection hx with hx
  subst hx
  refine ⟨_, rfl, q6, q2, ?_⟩
  show w'.out.reverse = (d.take f.2).drop pos
  rw [← q3, List.drop_append_of_le_length (by omega), List.drop_of_length_le (by omega)]
  rfl

end Jxl.Jpeg
