import Verif.Lemmas.JpegGeometry
import Verif.Lemmas.JpegFile
/-!
# The loop of `ReadJpeg` and the sections of `WriteJpeg`
-/
namespace Jxl.Jpeg

/-- Between two markers. -/
structure Good (st : ReadState) : Prop where
  slots : SlotsOk st.slots
  len : ∀ c i, (st.jpg.store c i).length = 64
  comps : CompsOk st.jpg.comps
  size : st.jpg.comps ≠ [] → 1 ≤ st.jpg.width ∧ 1 ≤ st.jpg.height
  place : ∀ h ∈ st.jpg.huff, InPlace st.slots h
  dri : st.dri = false → st.jpg.restart = 0
  quant : ∀ q ∈ st.jpg.quant, q.index < 256

/-- What has been read is part of what the file turned out to be. -/
structure Within (st : ReadState) (j : Jpg) : Prop where
  huff : st.jpg.huff <+: j.huff
  quant : st.jpg.quant <+: j.quant
  scans : st.jpg.scans <+: j.scans
  app : st.jpg.app <+: j.app
  com : st.jpg.com <+: j.com
  inter : st.jpg.inter <+: j.inter
  pads : st.jpg.pads <+: j.pads
  frame : st.jpg.width ≠ 0 → j.width = st.jpg.width ∧ j.height = st.jpg.height ∧ fixup j.quant st.jpg.comps = some j.comps
  restart : st.dri = true → j.restart = st.jpg.restart
  index : ∀ q ∈ j.quant, q.index < 256

/-- The writer has written what has been read. -/
structure Ready (j : Jpg) (st : ReadState) (ws : WriteState) : Prop where
  huff : ws.huff = j.huff.drop st.jpg.huff.length
  quant : ws.quant = j.quant.drop st.jpg.quant.length
  scans : ws.scans = j.scans.drop st.jpg.scans.length
  app : ws.app = j.app.drop st.jpg.app.length
  com : ws.com = j.com.drop st.jpg.com.length
  inter : ws.inter = j.inter.drop st.jpg.inter.length
  pads : PadsFor (j.pads.drop st.jpg.pads.length) ws.pads
  slots : SlotRel st.slots ws.slots
  progressive : ws.progressive = st.progressive
  dri : ws.dri = st.dri

/-- Files without an empty Huffman segment, or without refinement of DC coefficients. -/
def Edge (j : Jpg) : Prop := (∀ h ∈ j.huff, h.values ≠ []) ∨ ∀ s ∈ j.scans, s.ss = 0 → s.ah = 0

theorem drop_prefix {a b : List α} {l : List α} (h : a ++ b <+: l) : l.drop a.length = b ++ l.drop (a ++ b).length := by
  obtain ⟨t, rfl⟩ := h
  rw [List.append_assoc, List.drop_left, ← List.append_assoc, List.drop_left]

/-- The writer leaves its output chunk in a scan. -/
def Stuck (fin : Store) (x : ScanIn × ParsedScan) : Prop :=
  ∃ pads, encodeScan x.1.mode (writerSteps fin x.1.units 0 x.2.points x.2.runs) pads (codeTable []) = none

/-- What a marker with its segment does. -/
structure Stage (d : List Nat) (m : Nat) (st st' : ReadState) (pos pos' : Nat) (xs : List (ScanIn × ParsedScan)) : Prop where
  le : pos ≤ pos'
  len : pos' ≤ d.length
  good : Good st'
  back : ∀ j, Within st' j → Within st j
  same : st'.jpg.markers = st.jpg.markers
  scans : ∃ S, st'.jpg.scans = st.jpg.scans ++ S ∧ ((∀ s ∈ S, s.ah = 0) → ∀ x ∈ xs, x.1.mode.refining = false) ∧
    ((∀ s ∈ S, ¬ (s.ah = 15 ∧ s.al = 15)) → ∀ x ∈ xs, ∀ q, pos' ≤ q → ScanOk d q x.1)
  pads : st'.jpg.pads = st.jpg.pads ++ xs.flatMap (·.2.pads)
  parse : ∀ rest z, parseFile d rest st'.progress st'.jpg.store = some (some z) →
    parseFile d (xs.map (·.1) ++ rest) st.progress st.jpg.store = some (some (xs.map (·.2) ++ z.1, z.2))
  write : ∀ j ws, Within st' j → (∀ x ∈ xs, Rewrites d j.store x.1 x.2 ∧ x.1.pos ≤ x.2.pos) → Edge j → Ready j st ws →
    (writeSection j m ws = none ∧ ∃ x ∈ xs, Stuck j.store x) ∨
      ∃ ws', writeSection j m ws = some (some ([255, m] ++ (d.take pos').drop pos, ws')) ∧ Ready j st' ws'

theorem slice {d : List Nat} {pos n : Nat} : (d.take (pos + n)).drop pos = (d.drop pos).take n := by
  rw [List.drop_take, Nat.add_sub_cancel_left]

theorem bytes_drop {d : List Nat} (h : ∀ b ∈ d, b < 256) (n : Nat) : ∀ b ∈ d.drop n, b < 256 :=
  fun b hb => h b (List.mem_of_mem_drop hb)

/-! ## Segments -/

section
variable {d : List Nat} {st : ReadState} {pos : Nat}

theorem step_sof {m : Nat} (hm : m = 0xc0 ∨ m = 0xc1 ∨ m = 0xc2) (hb : ∀ b ∈ d, b < 256) (hg : Good st) (hp : pos ≤ d.length)
    (hw : st.jpg.width = 0) :
    Ok (andThen (readSof (d.drop pos)) fun r =>
      some (some ({ st with
        progressive := m == 0xc2, sof := true,
        jpg := { st.jpg with width := r.1.width, height := r.1.height, comps := r.1.comps } }, pos + r.2)))
      fun r => Stage d m st r.1 pos r.2 [] := by
  refine Ok.andThen (readSof_ok (bytes_drop hb pos)) fun r hr => ?_
  obtain ⟨k1, k2, k3, k4, k5, k6, k7⟩ := hr
  rw [List.length_drop] at k2
  refine ⟨by simp only; omega, by simp only; omega, ?_, ?_, rfl, ⟨[], by simp, fun _ x hx => absurd hx List.not_mem_nil, fun _ x hx => absurd hx List.not_mem_nil⟩, by simp, fun _ _ h => h, ?_⟩
  · exact ⟨hg.slots, hg.len, k3, fun _ => ⟨k4, k5⟩, hg.place, hg.dri, hg.quant⟩
  · intro j h
    exact ⟨h.huff, h.quant, h.scans, h.app, h.com, h.inter, h.pads, fun hh => absurd hw hh, h.restart, h.index⟩
  · intro j ws hwi _ _ hr'
    refine Or.inr ?_
    obtain ⟨f1, f2, f3⟩ := hwi.frame (by simp only; omega)
    simp only at f1 f2 f3
    have := k7 j m f1 f2 f3 hwi.index
    unfold writeSection
    rw [if_pos (by rcases hm with h | h | h <;> simp [h]), this]
    refine ⟨_, congrArg some (congrArg some (Prod.ext ?_ rfl)), ?_⟩
    rotate_left
    · exact ⟨hr'.huff, hr'.quant, hr'.scans, hr'.app, hr'.com, hr'.inter, hr'.pads, hr'.slots, by
        simp only; rw [if_pos (by omega)], hr'.dri⟩
    · simp only
      rw [slice]

theorem step_dht (hb : ∀ b ∈ d, b < 256) (hg : Good st) (hp : pos ≤ d.length) :
    Ok (andThen (readDht (d.drop pos) st.slots) fun r =>
      some (some ({ st with slots := r.2.2, jpg := { st.jpg with huff := st.jpg.huff ++ r.1 } }, pos + r.2.1)))
      fun r => Stage d 0xc4 st r.1 pos r.2 [] := by
  refine Ok.andThen (readDht_ok (bytes_drop hb pos) hg.slots) fun r hr => ?_
  obtain ⟨k1, k2, k3, k4, k5, k6⟩ := hr
  rw [List.length_drop] at k2
  refine ⟨by simp only; omega, by simp only; omega, ?_, ?_, rfl, ⟨[], by simp, fun _ x hx => absurd hx List.not_mem_nil, fun _ x hx => absurd hx List.not_mem_nil⟩, by simp, fun _ _ h => h, ?_⟩
  · refine ⟨k3, hg.len, hg.comps, hg.size, ?_, hg.dri, hg.quant⟩
    intro h hh
    rcases List.mem_append.mp hh with hh | hh
    · exact k4 h (hg.place h hh)
    · exact k5 h hh
  · intro j h
    exact ⟨(List.prefix_append _ _).trans h.huff, h.quant, h.scans, h.app, h.com, h.inter, h.pads, h.frame, h.restart, h.index⟩
  · intro j ws hwi _ _ hr'
    refine Or.inr ?_
    have hh := drop_prefix hwi.huff
    obtain ⟨ws', m1, m2⟩ := k6 (j.huff.drop (st.jpg.huff ++ r.1).length) ws.slots hr'.slots
    rw [← hh, ← hr'.huff] at m2
    unfold writeSection
    rw [if_neg (by decide), if_pos rfl, m2]
    refine ⟨_, congrArg some (congrArg some (Prod.ext ?_ rfl)), ?_⟩
    rotate_left
    · exact ⟨rfl, hr'.quant, hr'.scans, hr'.app, hr'.com, hr'.inter, hr'.pads, m1, hr'.progressive, hr'.dri⟩
    · simp only
      rw [slice]

theorem step_dqt (hb : ∀ b ∈ d, b < 256) (hg : Good st) (hp : pos ≤ d.length) :
    Ok (andThen (readDqt st.jpg.quant.length (d.drop pos)) fun r =>
      some (some ({ st with jpg := { st.jpg with quant := st.jpg.quant ++ r.1 } }, pos + r.2)))
      fun r => Stage d 0xdb st r.1 pos r.2 [] := by
  refine Ok.andThen (readDqt_ok (bytes_drop hb pos)) fun r hr => ?_
  obtain ⟨k1, k2, k3, k6⟩ := hr
  rw [List.length_drop] at k2
  refine ⟨by simp only; omega, by simp only; omega, ?_, ?_, rfl, ⟨[], by simp, fun _ x hx => absurd hx List.not_mem_nil, fun _ x hx => absurd hx List.not_mem_nil⟩, by simp, fun _ _ h => h, ?_⟩
  · refine ⟨hg.slots, hg.len, hg.comps, hg.size, hg.place, hg.dri, ?_⟩
    intro h hh
    rcases List.mem_append.mp hh with hh | hh
    · exact hg.quant h hh
    · exact k3 h hh
  · intro j h
    exact ⟨h.huff, (List.prefix_append _ _).trans h.quant, h.scans, h.app, h.com, h.inter, h.pads, h.frame, h.restart, h.index⟩
  · intro j ws hwi _ _ hr'
    refine Or.inr ?_
    have hh := drop_prefix hwi.quant
    have m2 := k6 (j.quant.drop (st.jpg.quant ++ r.1).length)
    rw [← hh, ← hr'.quant] at m2
    unfold writeSection
    rw [if_neg (by decide), if_neg (by decide), if_neg (by decide), if_neg (by decide), if_neg (by decide), if_pos rfl, m2]
    refine ⟨_, congrArg some (congrArg some (Prod.ext ?_ rfl)), ?_⟩
    rotate_left
    · exact ⟨hr'.huff, rfl, hr'.scans, hr'.app, hr'.com, hr'.inter, hr'.pads, hr'.slots, hr'.progressive, hr'.dri⟩
    · simp only
      rw [slice]

theorem step_dri (hb : ∀ b ∈ d, b < 256) (hg : Good st) (hp : pos ≤ d.length) (hd : st.dri = false) :
    Ok (andThen (readDri (d.drop pos)) fun r =>
      some (some ({ st with dri := true, jpg := { st.jpg with restart := r } }, pos + 4)))
      fun r => Stage d 0xdd st r.1 pos r.2 [] := by
  refine Ok.andThen (readDri_ok (bytes_drop hb pos)) fun r hr => ?_
  obtain ⟨k2, k6⟩ := hr
  rw [List.length_drop] at k2
  refine ⟨by simp only; omega, by simp only; omega, ?_, ?_, rfl, ⟨[], by simp, fun _ x hx => absurd hx List.not_mem_nil, fun _ x hx => absurd hx List.not_mem_nil⟩, by simp, fun _ _ h => h, ?_⟩
  · exact ⟨hg.slots, hg.len, hg.comps, hg.size, hg.place, (fun h => by cases h), hg.quant⟩
  · intro j h
    exact ⟨h.huff, h.quant, h.scans, h.app, h.com, h.inter, h.pads, h.frame, (fun hh => by rw [hd] at hh; cases hh), h.index⟩
  · intro j ws hwi _ _ hr'
    refine Or.inr ?_
    unfold writeSection
    rw [if_neg (by decide), if_neg (by decide), if_neg (by decide), if_neg (by decide), if_neg (by decide), if_neg (by decide), if_pos rfl,
      hwi.restart rfl]
    simp only
    rw [k6]
    refine ⟨_, congrArg some (congrArg some (Prod.ext ?_ rfl)), ?_⟩
    rotate_left
    · exact ⟨hr'.huff, hr'.quant, hr'.scans, hr'.app, hr'.com, hr'.inter, hr'.pads, hr'.slots, hr'.progressive, rfl⟩
    · simp only
      rw [slice]

theorem step_app {m : Nat} (hm : 0xe0 ≤ m ∧ m ≤ 0xef) (hg : Good st) (hp : pos ≤ d.length) :
    Ok (andThen (readApp m (d.drop pos)) fun r =>
      some (some ({ st with jpg := { st.jpg with app := st.jpg.app ++ [r] } }, pos + (r.length - 1))))
      fun r => Stage d m st r.1 pos r.2 [] := by
  refine Ok.andThen readApp_ok fun r hr => ?_
  obtain ⟨k1, k2, k3⟩ := hr
  rw [List.length_drop] at k2
  refine ⟨by simp only; omega, by simp only; omega, ?_, ?_, rfl, ⟨[], by simp, fun _ x hx => absurd hx List.not_mem_nil, fun _ x hx => absurd hx List.not_mem_nil⟩, by simp, fun _ _ h => h, ?_⟩
  · exact ⟨hg.slots, hg.len, hg.comps, hg.size, hg.place, hg.dri, hg.quant⟩
  · intro j h
    exact ⟨h.huff, h.quant, h.scans, (List.prefix_append _ _).trans h.app, h.com, h.inter, h.pads, h.frame, h.restart, h.index⟩
  · intro j ws hwi _ _ hr'
    refine Or.inr ?_
    have hh := drop_prefix hwi.app
    rw [← hr'.app] at hh
    unfold writeSection
    rw [if_neg (by omega), if_neg (by omega), if_neg (by omega), if_neg (by omega), if_neg (by omega), if_neg (by omega), if_neg (by omega),
      if_pos hm, hh]
    simp only [List.singleton_append, writeNext]
    refine ⟨_, congrArg some (congrArg some (Prod.ext ?_ rfl)), ?_⟩
    rotate_left
    · exact ⟨hr'.huff, hr'.quant, hr'.scans, rfl, hr'.com, hr'.inter, hr'.pads, hr'.slots, hr'.progressive, hr'.dri⟩
    · simp only
      rw [slice]
      conv => lhs; rw [k3]
      rfl

theorem step_com (hg : Good st) (hp : pos ≤ d.length) :
    Ok (andThen (readApp 0xfe (d.drop pos)) fun r =>
      some (some ({ st with jpg := { st.jpg with com := st.jpg.com ++ [r] } }, pos + (r.length - 1))))
      fun r => Stage d 0xfe st r.1 pos r.2 [] := by
  refine Ok.andThen readApp_ok fun r hr => ?_
  obtain ⟨k1, k2, k3⟩ := hr
  rw [List.length_drop] at k2
  refine ⟨by simp only; omega, by simp only; omega, ?_, ?_, rfl, ⟨[], by simp, fun _ x hx => absurd hx List.not_mem_nil, fun _ x hx => absurd hx List.not_mem_nil⟩, by simp, fun _ _ h => h, ?_⟩
  · exact ⟨hg.slots, hg.len, hg.comps, hg.size, hg.place, hg.dri, hg.quant⟩
  · intro j h
    exact ⟨h.huff, h.quant, h.scans, h.app, (List.prefix_append _ _).trans h.com, h.inter, h.pads, h.frame, h.restart, h.index⟩
  · intro j ws hwi _ _ hr'
    refine Or.inr ?_
    have hh := drop_prefix hwi.com
    rw [← hr'.com] at hh
    unfold writeSection
    rw [if_neg (by decide), if_neg (by decide), if_neg (by decide), if_neg (by decide), if_neg (by decide), if_neg (by decide), if_neg (by decide),
      if_neg (by decide), if_pos rfl, hh]
    simp only [List.singleton_append, writeNext]
    refine ⟨_, congrArg some (congrArg some (Prod.ext ?_ rfl)), ?_⟩
    rotate_left
    · exact ⟨hr'.huff, hr'.quant, hr'.scans, hr'.app, rfl, hr'.inter, hr'.pads, hr'.slots, hr'.progressive, hr'.dri⟩
    · simp only
      rw [slice]
      conv => lhs; rw [k3]
      rfl

theorem step_rst {m : Nat} (hm : 0xd0 ≤ m ∧ m ≤ 0xd7) (hg : Good st) (hp : pos ≤ d.length) : Stage d m st st pos pos [] := by
  refine ⟨Nat.le_refl _, hp, hg, fun _ h => h, rfl, ⟨[], by simp, fun _ x hx => absurd hx List.not_mem_nil, fun _ x hx => absurd hx List.not_mem_nil⟩, by simp, fun _ _ h => h, ?_⟩
  intro j ws hwi _ _ hr'
  refine Or.inr ?_
  unfold writeSection
  rw [if_neg (by omega), if_neg (by omega), if_pos hm]
  exact ⟨ws, by rw [List.drop_eq_nil_of_le (by rw [List.length_take]; omega)]; rfl, hr'⟩

end

/-! ## Components of a scan -/

theorem not_no {c : Prop} [Decidable c] {k : Option (Option α)} {a : α} (h : (if c then some none else k) = some (some a)) :
    k = some (some a) := by
  by_cases hc : c
  · rw [if_pos hc] at h; cases h
  · rwa [if_neg hc] at h

theorem fromFile_ne {t : Table} (h : FromFile t) : t.1 ≠ [] := by
  obtain ⟨t0, isAc, counts, values, _, _, _, h⟩ := h
  unfold readTable at h
  simp only at h
  replace h := not_no (not_no (not_no (not_no h)))
  rw [Option.bind_eq_some_iff] at h
  obtain ⟨t1, _, h⟩ := h
  injection h with h
  injection h with h
  rw [← h]
  intro e
  have := congrArg List.length e
  rw [List.length_zip, List.length_append, List.length_append] at this
  simp only [List.length_cons, List.length_nil] at this
  omega

theorem rel_some {t : Table} {o : Option (List Code)} (h : TableRel t o) (hf : t ≠ Table.fresh) : o.isSome = true := by
  rcases h with ⟨h, _⟩ | ⟨_, h⟩
  · exact absurd h hf
  · rw [h]; rfl

theorem rel_getD {t : Table} {o : Option (List Code)} (h : TableRel t o) : o.getD [] = t.1 := by
  rcases h with ⟨h, e⟩ | ⟨_, e⟩ <;> rw [e]
  · rw [h]; rfl
  · rfl

theorem file_ne_fresh {t : Table} (h : FromFile t) : t ≠ Table.fresh := fun e => fromFile_ne h (by rw [e]; rfl)

/-- A member with the component as it is at the end of the file. -/
def Member.final (cs : List Comp) (m : Member) : Member :=
  match cs[m.idx]? with
  | some k => if m.comp.h = k.h ∧ m.comp.v = k.v then { m with comp := k } else m
  | none => m

theorem final_same (cs : List Comp) (m : Member) : SameGeometry m (m.final cs) := by
  unfold Member.final
  split
  · split
    · exact ⟨rfl, rfl, rfl, by assumption⟩
    · exact ⟨rfl, rfl, rfl, rfl, rfl⟩
  · exact ⟨rfl, rfl, rfl, rfl, rfl⟩

/-- The member for a component of a scan. -/
structure IsMember (cs : List Comp) (s : Slots) (c : ScanComp) (m : Member) : Prop where
  idx : m.idx = c.comp
  comp : cs[c.comp]? = some m.comp
  dc : m.dc = s.dc c.dc
  ac : m.ac = s.ac c.ac

theorem mapM_members {cs : List Comp} {s : Slots} : ∀ (l : List ScanComp), (∀ c ∈ l, ∃ k, cs[c.comp]? = some k) →
    ∃ ms : List Member, (l.mapM fun c => (cs[c.comp]?).bind fun k => some (⟨c.comp, k, s.dc c.dc, s.ac c.ac⟩ : Member)) = some ms ∧
      ms.map (·.idx) = l.map (·.comp) ∧ (∀ m ∈ ms, ∃ c ∈ l, IsMember cs s c m) ∧ (∀ c ∈ l, ∃ m ∈ ms, IsMember cs s c m) ∧
      ∀ (cs' : List Comp) (w : WriterSlots), SlotRel s w →
        (∀ i : Nat, (cs'[i]?).map (fun c : Comp => (c.id, c.h, c.v)) = (cs[i]?).map (fun c : Comp => (c.id, c.h, c.v))) →
        (l.mapM fun c => (cs'[c.comp]?).bind fun k =>
          some (⟨c.comp, k, ((w.dc c.dc).getD [], []), ((w.ac c.ac).getD [], [])⟩ : Member)) =
          some ((ms.map Member.strip).map (Member.final cs')) := by
  intro l
  induction l with
  | nil =>
    intro _
    exact ⟨[], rfl, rfl, fun m hm => absurd hm List.not_mem_nil, fun m hm => absurd hm List.not_mem_nil, fun _ _ _ _ => rfl⟩
  | cons c l ih =>
    intro h
    obtain ⟨k, hk⟩ := h c (List.mem_cons_self ..)
    obtain ⟨ms, e1, e2, e3, e4, e5⟩ := ih fun c hc => h c (List.mem_cons_of_mem _ hc)
    refine ⟨⟨c.comp, k, s.dc c.dc, s.ac c.ac⟩ :: ms, ?_, ?_, ?_, ?_, ?_⟩
    · rw [List.mapM_cons, e1, hk]; rfl
    · rw [List.map_cons, List.map_cons, e2]
    · intro m hm
      rcases List.mem_cons.mp hm with rfl | hm
      · exact ⟨c, List.mem_cons_self .., rfl, hk, rfl, rfl⟩
      · obtain ⟨c', h1, h2⟩ := e3 m hm
        exact ⟨c', List.mem_cons_of_mem _ h1, h2⟩
    · intro c' hc
      rcases List.mem_cons.mp hc with rfl | hc
      · exact ⟨_, List.mem_cons_self .., rfl, hk, rfl, rfl⟩
      · obtain ⟨m, h1, h2⟩ := e4 c' hc
        exact ⟨m, List.mem_cons_of_mem _ h1, h2⟩
    · intro cs' w hs hcs
      have hi := hcs c.comp
      rw [hk, Option.map_some] at hi
      rw [Option.map_eq_some_iff] at hi
      obtain ⟨k', hk', ek⟩ := hi
      injection ek with _ ek
      injection ek with ek1 ek2
      rw [List.mapM_cons, e5 cs' w hs hcs, hk']
      simp only [bind, pure, Option.bind_some, List.map_cons]
      congr 2
      unfold Member.final Member.strip
      simp only [hk']
      rw [if_pos ⟨ek1.symm, ek2.symm⟩, rel_getD (hs.dc _), rel_getD (hs.ac _)]

theorem mode_ok {p : Bool} {i : ScanInfo} (h1 : i.ss ≤ i.se) (h2 : i.se ≤ 63) : ModeOk (scanMode p i) := by
  unfold scanMode ModeOk
  split
  · split
    · split
      · decide
      · exact ⟨h1, h2⟩
    · exact ⟨h1, h2⟩
  · decide

/-- The tables a scan wants were read. -/
theorem tables_ready {hs : List HuffCode} {s : Slots} {w : WriterSlots} {c : ScanComp} {p : Bool} {i : ScanInfo}
    (hr : SlotRel s w) (hp : ∀ h ∈ hs, InPlace s h) (hd : c.dc ≤ 3) (hle : i.ss ≤ i.se) (hf : tablesFound hs i.ss i.se c = true)
    (ht : ((scanMode p i).ss = 0 → (scanMode p i).refining = false → s.dc c.dc ≠ Table.fresh) ∧
      (scanMode p i = .sequential → s.ac c.ac ≠ Table.fresh))
    (he : (∀ h ∈ hs, h.values ≠ []) ∨ (i.ss = 0 → i.ah = 0)) : tablesReady (scanMode p i) w c = true := by
  unfold tablesFound at hf
  rw [Bool.and_eq_true] at hf
  obtain ⟨hfd, hfa⟩ := hf
  have hac : i.se ≠ 0 → s.ac c.ac ≠ Table.fresh := by
    intro h0
    rw [Bool.or_eq_true] at hfa
    rcases hfa with hfa | hfa
    · exact absurd (by simpa using hfa) h0
    · rw [List.any_eq_true] at hfa
      obtain ⟨h, hm, hh⟩ := hfa
      rw [Bool.and_eq_true] at hh
      exact file_ne_fresh ((hp h hm).1 _ (by simpa using hh.2))
  have hdc : i.ss = 0 → (∀ h ∈ hs, h.values ≠ []) → s.dc c.dc ≠ Table.fresh := by
    intro h0 hv
    rw [Bool.or_eq_true] at hfd
    rcases hfd with hfd | hfd
    · exact absurd h0 (by simpa using hfd)
    · rw [List.any_eq_true] at hfd
      obtain ⟨h, hm, hh⟩ := hfd
      exact file_ne_fresh ((hp h hm).2 (hv h hm) _ hd (by simpa using hh))
  unfold tablesReady
  rw [Bool.and_eq_true, Bool.or_eq_true, Bool.or_eq_true]
  constructor
  · by_cases h0 : (scanMode p i).ss = 0
    · right
      apply rel_some (hr.dc _)
      by_cases h1 : (scanMode p i).refining = false
      · exact ht.1 h0 h1
      · have : i.ss = 0 ∧ i.ah ≠ 0 := by
          revert h0 h1
          unfold scanMode
          split
          · split
            · split
              · intro _ h; exact absurd rfl h
              · intro _ h; exact absurd rfl h
            · intro h _; exact ⟨h, by assumption⟩
          · intro _ h; exact absurd rfl h
        rcases he with he | he
        · exact hdc this.1 he
        · exact absurd (he this.1) this.2
    · left; simpa using h0
  · by_cases hs : scanMode p i = .sequential
    · right
      exact rel_some (hr.ac _) (ht.2 hs)
    · have : (scanMode p i).ss = i.ss ∧ (scanMode p i).se = i.se := by
        revert hs
        unfold scanMode
        split
        · split
          · split
            · intro h; exact absurd rfl h
            · intro _; exact ⟨rfl, rfl⟩
          · intro _; exact ⟨rfl, rfl⟩
        · intro h; exact absurd rfl h
      rw [this.1, this.2]
      by_cases h0 : i.se = 0
      · left
        have : i.ss = 0 := by omega
        rw [this, h0]; rfl
      · right
        exact rel_some (hr.ac _) (hac h0)

/-! ## Scans -/

theorem step_scan {d : List Nat} {st : ReadState} {pos : Nat} (hb : ∀ b ∈ d, b < 256) (hg : Good st) (hp : pos ≤ d.length) :
    Ok (readScan d st pos) fun r => ∃ x, Stage d 0xda st r.1 pos r.2 [x] := by
  unfold readScan
  refine Ok.andThen (readSos_ok (bytes_drop hb pos)) fun r hr => ?_
  obtain ⟨k1, k2, k3, k4, k5, k6, k7, ha, k8, k9⟩ := hr
  rw [List.length_drop] at k2
  obtain ⟨ms, e1, e2, e3, e4, e5⟩ := mapM_members (cs := st.jpg.comps) (s := st.slots) r.1.comps fun c hc => (k6 c hc).1
  refine Ok.andThen (Ok.always (P := fun x => x = ms) ⟨ms, e1, rfl⟩) fun ms' hms => ?_
  subst hms
  simp only
  have hmode := mode_ok (p := st.progressive) k3 k4
  have hcs : st.jpg.comps ≠ [] := by
    obtain ⟨c, hc⟩ := List.exists_mem_of_ne_nil _ k5
    obtain ⟨k, hk⟩ := (k6 c hc).1
    intro h
    rw [h] at hk
    cases hk
  obtain ⟨hw, hh⟩ := hg.size hcs
  have hnd : (blocks (readerUnits st.jpg.width st.jpg.height st.jpg.restart st.jpg.comps ms')).Nodup :=
    units_nodup (by rw [e2]; exact k7)
  have htab : ∀ u ∈ readerUnits st.jpg.width st.jpg.height st.jpg.restart st.jpg.comps ms', TablesOk u := by
    intro u hu
    rcases mem_units hu with rfl | ⟨m, hm, i, rfl⟩
    · exact trivial
    · obtain ⟨c, _, hc⟩ := e3 m hm
      exact ⟨by rw [hc.dc]; exact hg.slots.dc _, by rw [hc.ac]; exact hg.slots.ac _⟩
  match hmark : markScan (scanMode st.progressive r.1) (r.1.comps.map (·.comp)) st.progress with
  | none => rw [hmark]; exact Ok.no
  | some progress =>
    rw [hmark]
    refine Ok.check fun hal => ?_
    match hpar : parseScan (scanMode st.progressive r.1) d (readerUnits st.jpg.width st.jpg.height st.jpg.restart st.jpg.comps ms') st.jpg.store (pos + r.2),
      safe_scan (m := scanMode st.progressive r.1) (d := d) (us := readerUnits st.jpg.width st.jpg.height st.jpg.restart st.jpg.comps ms')
        (store := st.jpg.store) (lo := pos + r.2) (by omega) (by omega) hmode.2 htab hg.len with
    | none, h => exact h.elim
    | some none, _ => exact Ok.no
    | some (some o), h =>
      obtain ⟨s1, s2, s3, s4⟩ := h
      refine ⟨(⟨scanMode st.progressive r.1, r.1.comps.map (·.comp), readerUnits st.jpg.width st.jpg.height st.jpg.restart st.jpg.comps ms', pos + r.2⟩, o), ?_⟩
      have hhead : d[pos + r.2 - 1]? = some (16 * r.1.ah + r.1.al) := by
        rw [← k8, List.getElem?_drop]
        congr 1
        omega
      refine ⟨by simp only; omega, by simp only; omega, ?_, ?_, rfl, ⟨_, rfl, fun hS x hx => ?_, ?_⟩, by simp, ?_, ?_⟩
      · exact ⟨hg.slots, s4, hg.comps, hg.size, hg.place, hg.dri, hg.quant⟩
      · intro j h
        exact ⟨h.huff, h.quant, (List.prefix_append _ _).trans h.scans, h.app, h.com, h.inter, (List.prefix_append _ _).trans h.pads,
          h.frame, h.restart, h.index⟩
      · rw [List.mem_singleton] at hx
        subst hx
        have h0 := hS _ (List.mem_singleton_self _)
        simp only at h0 ⊢
        unfold scanMode
        rw [if_pos h0]
        split
        · split <;> rfl
        · rfl
      · intro hS x hx q hq
        rw [List.mem_singleton] at hx
        subst hx
        have hne : d[pos + r.2 - 1]? ≠ some 255 := by
          rw [hhead]
          intro h
          injection h with h
          have h' := hS _ (List.mem_singleton_self _)
          simp only at h'
          omega
        have := s2 hne
        refine ⟨hmode, htab, hnd, ?_, ⟨by simp only; omega, by simp only at hq ⊢; omega⟩, hne⟩
        intro c i hci
        obtain ⟨dc, ac, hu⟩ := mem_blocks hci
        rcases mem_units hu with h | ⟨m, hm, i', h⟩
        · cases h
        · injection h with h1
          simp only at h1
          rw [h1]
          simp only
          rw [← e2]
          exact List.mem_map.mpr ⟨m, hm, rfl⟩
      · intro rest z hz
        simp only [List.map_cons, List.map_nil, List.singleton_append]
        unfold parseFile
        simp only
        rw [hmark]
        simp only
        rw [if_neg (by omega), hpar]
        simp only at hz
        simp only [andThen, Option.bind_some]
        rw [hz]
        rfl
      · intro j ws hwi hrw hedge hr'
        have hsc := drop_prefix hwi.scans
        rw [← hr'.scans] at hsc
        obtain ⟨f1, f2, f3⟩ := hwi.frame (by simp only; omega)
        simp only at f1 f2 f3
        have hgeo := fixup_get f3
        obtain ⟨g1, g2⟩ := maxH_congr hgeo
        have hrst : (if ws.dri then j.restart else 0) = st.jpg.restart := by
          rw [hr'.dri]
          by_cases hd : st.dri = true
          · rw [if_pos hd]; exact hwi.restart hd
          · rw [if_neg hd, hg.dri (by simpa using hd)]
        unfold writeSection
        rw [if_neg (by decide), if_neg (by decide), if_neg (by decide), if_neg (by decide), if_pos rfl]
        unfold writeScan
        rw [hsc]
        simp only [List.singleton_append]
        rw [k9 j.comps { r.1 with points := o.points, runs := o.runs } (fun i => by
          have := congrArg (Option.map Prod.fst) (hgeo i)
          rw [Option.map_map, Option.map_map] at this
          exact this) rfl rfl rfl rfl rfl]
        have hwm := e5 j.comps ws.slots hr'.slots hgeo
        simp only [andThen, Option.bind_some]
        unfold writeMembers
        simp only
        rw [hwm]
        simp only [always, Option.bind_some]
        rw [hr'.progressive]
        have hready : (r.1.comps.all (tablesReady (scanMode st.progressive { r.1 with points := o.points, runs := o.runs }) ws.slots)) = true := by
          rw [List.all_eq_true]
          intro c hc
          obtain ⟨m, hm, hmc⟩ := e4 c hc
          obtain ⟨_, q2, q3, q4⟩ := k6 c hc
          have hpos := hg.comps.pos m.comp (List.mem_of_getElem? hmc.comp)
          obtain ⟨i, hu⟩ := units_mem (restart := st.jpg.restart) (cs := st.jpg.comps) hm hw hh hpos.1 hpos.2
          have ht := scan_tables hpar hnd hg.len hu
          rw [hmc.dc, hmc.ac] at ht
          refine tables_ready (p := st.progressive) (i := r.1) hr'.slots hg.place q2 k3 q4 ht ?_
          rcases hedge with he | he
          · exact Or.inl fun h hh => he h (hwi.huff.subset hh)
          · exact Or.inr fun h0 => he { r.1 with points := o.points, runs := o.runs }
              (hwi.scans.subset (List.mem_append_right _ (List.mem_singleton_self _))) h0
        rw [check_true hready, ← units_eq, hrst, f1, f2, units_congr _ _ _ g1 g2 _ (final_same j.comps), units_strip, steps_strip]
        obtain ⟨hre, hle⟩ := hrw _ (List.mem_singleton_self _)
        have hpd := hr'.pads
        have hpp := drop_prefix hwi.pads
        rw [hpp] at hpd
        cases henc : encodeScan (scanMode st.progressive r.1) (writerSteps j.store (readerUnits st.jpg.width st.jpg.height st.jpg.restart st.jpg.comps ms') 0 o.points o.runs) ws.pads (codeTable []) with
        | none =>
          have hsm : scanMode st.progressive { r.1 with points := o.points, runs := o.runs } = scanMode st.progressive r.1 := rfl
          rw [hsm, henc]
          exact Or.inl ⟨rfl, _, List.mem_singleton_self _, ws.pads, henc⟩
        | some en =>
          obtain ⟨wz, z1, z2, z3, z4⟩ := hre (j.pads.drop (st.jpg.pads ++ o.pads).length) ws.pads (codeTable []) en hpd henc
          have hsm : scanMode st.progressive { r.1 with points := o.points, runs := o.runs } = scanMode st.progressive r.1 := rfl
          rw [hsm, henc, z1]
          simp only [Option.bind_some]
          rw [check_true z2]
          refine Or.inr ⟨_, congrArg some (congrArg some (Prod.ext ?_ rfl)), ?_⟩
          · simp only
            rw [z4, List.append_assoc]
            congr 1
            unfold scanData
            simp only at hle ⊢
            rw [← slice, List.drop_take, List.drop_take, List.drop_take, ← List.drop_drop, Nat.add_sub_cancel_left]
            have : o.pos - pos = r.2 + (o.pos - (pos + r.2)) := by omega
            rw [this, List.take_add]
          · exact ⟨hr'.huff, hr'.quant, rfl, hr'.app, hr'.com, hr'.inter, z3, hr'.slots, rfl, hr'.dri⟩

/-! ## Markers -/

theorem step_marker {d : List Nat} {m : Nat} {st : ReadState} {pos : Nat} (hb : ∀ b ∈ d, b < 256) (hg : Good st) (hp : pos ≤ d.length)
    (hm : m ≠ 0xd9) : Ok (readMarker d m st pos) fun r => ∃ xs, Stage d m st r.1 pos r.2 xs := by
  unfold readMarker
  simp only
  refine Ok.ite (fun h => Ok.check fun hw => (step_sof h hb hg hp hw).mono fun _ h => ⟨_, h⟩) fun _ => ?_
  refine Ok.ite (fun h => ?_) fun _ => ?_
  · subst h; exact (step_dht hb hg hp).mono fun _ h => ⟨_, h⟩
  refine Ok.ite (fun h => Ok.ok ⟨[], step_rst h hg hp⟩) fun _ => ?_
  refine Ok.ite (fun h => absurd h hm) fun _ => ?_
  refine Ok.ite (fun h => ?_) fun _ => ?_
  · subst h; exact (step_scan hb hg hp).mono fun _ ⟨x, h⟩ => ⟨_, h⟩
  refine Ok.ite (fun h => ?_) fun _ => ?_
  · subst h; exact (step_dqt hb hg hp).mono fun _ h => ⟨_, h⟩
  refine Ok.ite (fun h => ?_) fun _ => ?_
  · subst h; exact Ok.check fun hd => (step_dri hb hg hp hd).mono fun _ h => ⟨_, h⟩
  refine Ok.ite (fun h => (step_app h hg hp).mono fun _ h => ⟨_, h⟩) fun _ => ?_
  refine Ok.ite (fun h => ?_) fun _ => Ok.no
  subst h; exact (step_com hg hp).mono fun _ h => ⟨_, h⟩

theorem andThen_same {α : Type} (x : Option (Option α)) : (andThen x fun a => some (some a)) = x := by
  match x with
  | none => rfl
  | some none => rfl
  | some (some a) => rfl

theorem skip_ok {st : ReadState} (bytes : List Nat) (hg : Good st) :
    Good (noteSkipped st bytes) ∧ (∀ j, Within (noteSkipped st bytes) j → Within st j) ∧
      (noteSkipped st bytes).jpg.scans = st.jpg.scans ∧ (noteSkipped st bytes).jpg.pads = st.jpg.pads ∧
      (noteSkipped st bytes).jpg.store = st.jpg.store ∧ (noteSkipped st bytes).progress = st.progress ∧
      ∃ M, (noteSkipped st bytes).jpg.markers = st.jpg.markers ++ M ∧
        ∀ j ws, Within (noteSkipped st bytes) j → Ready j st ws → ∃ ws', Ready j (noteSkipped st bytes) ws' ∧
          ∀ ms, writeSections j (M ++ ms) ws = andThen (writeSections j ms ws') fun z => some (some (bytes ++ z.1, z.2)) := by
  unfold noteSkipped
  by_cases h : bytes = []
  · rw [if_pos h]
    exact ⟨hg, fun _ h => h, rfl, rfl, rfl, rfl, [], by simp, fun j ws _ hr => ⟨ws, hr, fun ms => by rw [h]; exact (andThen_same _).symm⟩⟩
  · rw [if_neg h]
    refine ⟨⟨hg.slots, hg.len, hg.comps, hg.size, hg.place, hg.dri, hg.quant⟩,
      fun j h => ⟨h.huff, h.quant, h.scans, h.app, h.com, (List.prefix_append _ _).trans h.inter, h.pads, h.frame, h.restart, h.index⟩,
      rfl, rfl, rfl, rfl, [0xff], rfl, ?_⟩
    intro j ws hw hr
    have hi := drop_prefix hw.inter
    rw [← hr.inter] at hi
    refine ⟨{ ws with inter := j.inter.drop (st.jpg.inter ++ [bytes]).length }, ⟨hr.huff, hr.quant, hr.scans, hr.app, hr.com, rfl, hr.pads, hr.slots, hr.progressive, hr.dri⟩, ?_⟩
    intro ms
    rw [List.singleton_append, writeSections]
    unfold writeSection
    rw [if_neg (by decide), if_neg (by decide), if_neg (by decide), if_neg (by decide), if_neg (by decide), if_neg (by decide), if_neg (by decide),
      if_neg (by decide), if_neg (by decide), if_pos rfl, hi]
    rfl

theorem skip_le : ∀ l : List Nat, skipTo l ≤ l.length := by
  intro l
  match l with
  | [] => exact Nat.zero_le _
  | [_] => exact Nat.zero_le _
  | a :: b :: l =>
    rw [skipTo]
    split
    · have := skip_le (b :: l)
      simp only [List.length_cons] at this ⊢
      omega
    · exact Nat.zero_le _

theorem Good.note {st : ReadState} (h : Good st) (m : Nat) : Good (noteMarker st m) :=
  ⟨h.slots, h.len, h.comps, h.size, h.place, h.dri, h.quant⟩

theorem Within.note {st : ReadState} {j : Jpg} {m : Nat} (h : Within (noteMarker st m) j) : Within st j :=
  ⟨h.huff, h.quant, h.scans, h.app, h.com, h.inter, h.pads, h.frame, h.restart, h.index⟩

theorem Ready.note {st : ReadState} {j : Jpg} {ws : WriteState} (h : Ready j st ws) (m : Nat) : Ready j (noteMarker st m) ws :=
  ⟨h.huff, h.quant, h.scans, h.app, h.com, h.inter, h.pads, h.slots, h.progressive, h.dri⟩

/-- What the loop has read, from `pos` to after the end marker. -/
structure Run (d : List Nat) (st fin : ReadState) (pos q : Nat) (xs : List (ScanIn × ParsedScan)) (S : List ScanInfo) (M : List Nat) : Prop where
  le : pos + 2 ≤ q
  len : q ≤ d.length
  mark : d[q - 2]? = some 255 ∧ d[q - 1]? = some 0xd9
  good : Good fin
  back : ∀ j, Within fin j → Within st j
  scans : fin.jpg.scans = st.jpg.scans ++ S
  markers : fin.jpg.markers = st.jpg.markers ++ M
  any : M ≠ []
  ok : (∀ s ∈ S, ¬ (s.ah = 15 ∧ s.al = 15)) → ∀ x ∈ xs, ScanOk d (q - 2) x.1
  coarse : (∀ s ∈ S, s.ah = 0) → ∀ x ∈ xs, x.1.mode.refining = false
  pads : fin.jpg.pads = st.jpg.pads ++ xs.flatMap (·.2.pads)
  parse : parseFile d (xs.map (·.1)) st.progress st.jpg.store = some (some (xs.map (·.2), fin.jpg.store))
  write : ∀ j ws, Within fin j → j.tail = d.drop q → j.pads = fin.jpg.pads →
    (∀ x ∈ xs, Rewrites d j.store x.1 x.2 ∧ x.1.pos ≤ x.2.pos) → Edge j → Ready j st ws →
    (writeSections j M ws = none ∧ ∃ x ∈ xs, Stuck j.store x) ∨
      ∃ p, writeSections j M ws = some (some (d.drop pos, p)) ∧ PadsFor [] p

theorem join {d : List Nat} {a b : Nat} (h : a ≤ b) : (d.take b).drop a ++ d.drop b = d.drop a := by
  conv => rhs; rw [← List.take_append_drop b d]
  rw [List.drop_append]
  congr 1
  rw [List.length_take]
  by_cases hb : b ≤ d.length
  · rw [Nat.min_eq_left hb, Nat.sub_eq_zero_of_le h]; rfl
  · rw [List.drop_eq_nil_of_le (as := d) (by omega), List.drop_nil]

theorem loop_ok {d : List Nat} (hb : ∀ b ∈ d, b < 256) : ∀ (n : Nat) (st : ReadState) (pos : Nat), Good st → pos ≤ d.length →
    d.length + 1 ≤ pos + n → Ok (readLoop d n st pos) fun r => ∃ xs S M, Run d st r.1 pos r.2 xs S M := by
  intro n
  induction n with
  | zero => intro st pos _ h1 h2; omega
  | succ n ih =>
    intro st pos hg hp hn
    rw [readLoop]
    have hk := skip_le (d.drop pos)
    generalize hke : skipTo (d.drop pos) = k at hk ⊢
    rw [List.length_drop] at hk
    obtain ⟨a1, a2, a3, a4, a5, a6, M0, a7, a8⟩ := skip_ok ((d.drop pos).take k) hg
    generalize noteSkipped st ((d.drop pos).take k) = st1 at a1 a2 a3 a4 a5 a6 a7 a8 ⊢
    match hd : d.drop (pos + k) with
    | [] => exact Ok.no
    | [_] => exact Ok.no
    | a :: m :: tl =>
      simp only
      have hlen : pos + k + 2 ≤ d.length := by
        have := congrArg List.length hd
        rw [List.length_drop] at this
        simp only [List.length_cons] at this
        omega
      have hda : d[pos + k]? = some a := by
        rw [← Nat.add_zero (pos + k), ← List.getElem?_drop, hd]; rfl
      have hdm : d[pos + k + 1]? = some m := by
        rw [← List.getElem?_drop, hd]; rfl
      have htl : tl = d.drop (pos + k + 2) := by
        rw [← List.drop_drop, hd]; rfl
      have hsplit : d.drop pos = (d.drop pos).take k ++ ([a, m] ++ d.drop (pos + k + 2)) := by
        conv => lhs; rw [← List.take_append_drop k (d.drop pos)]
        rw [List.drop_drop, hd, htl]; rfl
      refine Ok.check fun h255 => ?_
      by_cases h9 : m = 0xd9
      · subst h9
        have : readMarker d 0xd9 st1 (pos + k + 2) = some (some (st1, pos + k + 2)) := by
          unfold readMarker
          rw [if_neg (by decide), if_neg (by decide), if_neg (by decide), if_pos rfl]
        rw [this]
        simp only [andThen, Option.bind_some, if_true]
        refine Ok.ok ⟨[], [], M0 ++ [0xd9], ?_⟩
        refine ⟨by simp only; omega, hlen, ?_, a1.note _, fun j h => a2 j h.note, ?_, ?_, by simp, fun _ x hx => absurd hx List.not_mem_nil,
          fun _ x hx => absurd hx List.not_mem_nil, ?_, ?_, ?_⟩
        · simp only
          rw [show pos + k + 2 - 2 = pos + k by omega, show pos + k + 2 - 1 = pos + k + 1 by omega, hda, hdm, h255]
          exact ⟨rfl, rfl⟩
        · show st1.jpg.scans = _; rw [a3, List.append_nil]
        · show st1.jpg.markers ++ [0xd9] = _; rw [a7, List.append_assoc]
        · show st1.jpg.pads = _; rw [a4]; simp
        · show _ = some (some ([], st1.jpg.store)); rw [a5]; rfl
        · intro j ws hw htail hpads _ _ hr
          obtain ⟨ws', b1, b2⟩ := a8 j ws hw.note hr
          refine Or.inr ⟨ws'.pads, ?_, ?_⟩
          · rw [b2]
            simp only [writeSections]
            unfold writeSection
            rw [if_neg (by decide), if_neg (by decide), if_neg (by decide), if_pos rfl]
            simp only [andThen, Option.bind_some]
            conv => rhs; rw [hsplit, h255]
            rw [htail, List.append_nil]
          · have := b1.pads
            rw [hpads] at this
            have e : (noteMarker st1 0xd9).jpg.pads.drop st1.jpg.pads.length = [] := List.drop_length
            rw [e] at this
            exact this
      · refine Ok.andThen (step_marker (m := m) (st := st1) hb a1 hlen h9) fun r hr => ?_
        obtain ⟨xs, hs⟩ := hr
        rw [if_neg h9]
        obtain ⟨S, hs1, hs3, hs2⟩ := hs.scans
        have hle := hs.le
        refine (ih (noteMarker r.1 m) r.2 (hs.good.note m) hs.len (by omega)).mono fun z hz => ?_
        obtain ⟨ys, S', M', hz⟩ := hz
        have hle2 := hz.le
        refine ⟨xs ++ ys, S ++ S', M0 ++ ([m] ++ M'), ?_⟩
        refine ⟨by omega, hz.len, hz.mark, hz.good, fun j h => a2 j (hs.back j (hz.back j h).note), ?_, ?_, by simp, ?_, ?_, ?_, ?_, ?_⟩
        · rw [hz.scans]
          show r.1.jpg.scans ++ S' = _
          rw [hs1, a3, List.append_assoc]
        · rw [hz.markers]
          show (r.1.jpg.markers ++ [m]) ++ M' = _
          rw [hs.same, a7]
          simp only [List.append_assoc]
        · intro hS x hx
          rcases List.mem_append.mp hx with hx | hx
          · exact hs2 (fun s h => hS s (List.mem_append_left _ h)) x hx _ (by omega)
          · exact hz.ok (fun s h => hS s (List.mem_append_right _ h)) x hx
        · intro hS x hx
          rcases List.mem_append.mp hx with hx | hx
          · exact hs3 (fun s h => hS s (List.mem_append_left _ h)) x hx
          · exact hz.coarse (fun s h => hS s (List.mem_append_right _ h)) x hx
        · rw [hz.pads]
          show r.1.jpg.pads ++ _ = _
          rw [hs.pads, a4, List.flatMap_append, List.append_assoc]
        · have := hs.parse (ys.map (·.1)) _ hz.parse
          rw [a5, a6] at this
          rw [List.map_append, List.map_append]
          exact this
        · intro j ws hw htail hpads hx hedge hr
          have w1 := hz.back j hw
          have w2 := hs.back j w1.note
          obtain ⟨ws', b1, b2⟩ := a8 j ws w2 hr
          rw [b2, List.singleton_append, writeSections]
          rcases hs.write j ws' w1.note (fun x h => hx x (List.mem_append_left _ h)) hedge b1 with ⟨h1, x, h2, h3⟩ | ⟨ws2, c1, c2⟩
          · rw [h1]
            exact Or.inl ⟨rfl, x, List.mem_append_left _ h2, h3⟩
          rw [c1]
          simp only [andThen, Option.bind_some]
          rcases hz.write j ws2 hw htail hpads (fun x h => hx x (List.mem_append_right _ h)) hedge (c2.note m) with ⟨h1, x, h2, h3⟩ | ⟨p, e1, e2⟩
          · rw [h1]
            exact Or.inl ⟨rfl, x, List.mem_append_right _ h2, h3⟩
          rw [e1]
          simp only [Option.bind_some]
          refine Or.inr ⟨p, ?_, e2⟩
          congr 3
          conv => rhs; rw [hsplit, h255]
          rw [List.append_assoc, join hle]

/-! ## Files -/

theorem start_good : Good ReadState.start := by
  refine ⟨⟨fun _ => Or.inr rfl, fun _ => Or.inr rfl⟩, fun _ _ => List.length_replicate, ⟨List.nodup_nil, ?_⟩, ?_, ?_, fun _ => rfl, ?_⟩
  · intro c hc; exact absurd hc List.not_mem_nil
  · intro h; exact absurd rfl h
  · intro c hc; exact absurd hc List.not_mem_nil
  · intro c hc; exact absurd hc List.not_mem_nil

/-- An accepted file. -/
structure Whole (d : List Nat) (j : Jpg) (fin : ReadState) (q : Nat) (xs : List (ScanIn × ParsedScan)) : Prop where
  run : Run d ReadState.start fin 2 q xs j.scans j.markers
  first : d.take 2 = [255, 0xd8]
  within : Within fin j
  pads : j.pads = fin.jpg.pads
  store : j.store = fin.jpg.store
  tail : j.tail = d.drop q

theorem read_ok {d : List Nat} (hb : ∀ b ∈ d, b < 256) : Ok (readJpeg d) fun j => ∃ fin q xs, Whole d j fin q xs := by
  unfold readJpeg
  match d, hb with
  | [], _ => exact Ok.no
  | [_], _ => exact Ok.no
  | a :: b :: l, hb =>
    refine Ok.check fun h1 => Ok.check fun h2 => ?_
    refine Ok.andThen (loop_ok hb _ _ 2 start_good (by simp only [List.length_cons]; omega) (by omega)) fun r hr => ?_
    obtain ⟨xs, S, M, hr⟩ := hr
    unfold readEnd
    refine Ok.check fun _ => Ok.check fun _ => ?_
    match hf : fixup r.1.jpg.quant r.1.jpg.comps with
    | none => exact Ok.no
    | some cs =>
      refine Ok.check fun _ => Ok.check fun _ => Ok.ok ⟨r.1, r.2, xs, ?_⟩
      have hS : r.1.jpg.scans = S := hr.scans
      have hM : r.1.jpg.markers = M := hr.markers
      refine ⟨?_, by rw [h1, h2]; rfl, ?_, rfl, rfl, rfl⟩
      · simp only
        rw [hS, hM]
        exact hr
      · exact ⟨List.prefix_rfl, List.prefix_rfl, List.prefix_rfl, List.prefix_rfl, List.prefix_rfl, List.prefix_rfl, List.prefix_rfl,
          fun _ => ⟨rfl, rfl, hf⟩, fun _ => rfl, hr.good.quant⟩

theorem Whole.facts {d : List Nat} {j : Jpg} {fin : ReadState} {q : Nat} {xs : List (ScanIn × ParsedScan)} (h : Whole d j fin q xs)
    (hb : ∀ b ∈ d, b < 256) (hA : ∀ s ∈ j.scans, ¬ (s.ah = 15 ∧ s.al = 15)) (hE : Edge j) :
    (∀ x ∈ xs, ScanOk d (q - 2) x.1) ∧
    parseFile d (xs.map (·.1)) (fun _ _ => 0) Store.empty = some (some (xs.map (·.2), j.store)) ∧
    ((writeJpeg j = none ∧ ∃ x ∈ xs, Stuck j.store x) ∨ writeJpeg j = some (some d)) := by
  have hle := h.run.le
  have hends : Ends d (q - 2) := ⟨hb, h.run.mark.1, 0xd9, by rw [show q - 2 + 1 = q - 1 by omega]; exact h.run.mark.2, by decide, by decide⟩
  have hok : ∀ x ∈ xs, ScanOk d (q - 2) x.1 := h.run.ok hA
  have hpar : parseFile d (xs.map (·.1)) (fun _ _ => 0) Store.empty = some (some (xs.map (·.2), j.store)) := by
    rw [h.store]; exact h.run.parse
  refine ⟨hok, hpar, ?_⟩
  obtain ⟨_, _, p3, p4⟩ := parse_file hends _ _ _ _ _ (fun s hs => by
    obtain ⟨x, hx, rfl⟩ := List.mem_map.mp hs
    exact hok x hx) between_start hpar
  have hzip : ∀ x ∈ xs, x ∈ (xs.map (·.1)).zip (xs.map (·.2)) := by
    intro x hx
    have : (xs.map (·.1)).zip (xs.map (·.2)) = xs := by
      rw [List.zip_map', List.map_id']
    rw [this]; exact hx
  have hpads : j.pads = xs.flatMap (·.2.pads) := by
    rw [h.pads, h.run.pads]; rfl
  have hready : Ready j ReadState.start (WriteState.start j) := by
    refine ⟨rfl, rfl, rfl, rfl, rfl, rfl, ?_, ⟨fun _ => Or.inl ⟨rfl, rfl⟩, fun _ => Or.inl ⟨rfl, rfl⟩⟩, rfl, rfl⟩
    show PadsFor j.pads (padSource j.pads)
    rw [← List.append_nil j.pads]
    conv => rhs; rw [List.append_nil]
    apply padsFor_source
    intro b hm
    rw [hpads] at hm
    obtain ⟨x, hx, hbx⟩ := List.mem_flatMap.mp hm
    exact p3 x.2 (List.mem_map.mpr ⟨x, hx, rfl⟩) b hbx
  unfold writeJpeg
  rw [check_true h.run.any]
  rcases h.run.write j (WriteState.start j) h.within h.tail h.pads (fun x hx => ⟨(p4 x (hzip x hx)).2, (p4 x (hzip x hx)).1⟩) hE hready with
    ⟨h1, h2⟩ | ⟨p, h1, h2⟩
  · rw [h1]
    exact Or.inl ⟨rfl, h2⟩
  · rw [h1]
    refine Or.inr ?_
    have hp : p = none ∨ p = some [] := by
      rcases h2 with h2 | ⟨h2, _⟩
      · exact Or.inr h2
      · exact Or.inl h2
    simp only [andThen, Option.bind_some]
    rw [check_true hp, ← h.first, List.take_append_drop]

end Jxl.Jpeg
