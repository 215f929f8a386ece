import Verif.Lemmas.JpegSegments
/-!
# The blocks of a scan and the tables they are read with
-/
namespace Jxl.Jpeg

theorem andThen_iff {α β : Type} {x : Option (Option α)} {f : α → Option (Option β)} {b : β} :
    andThen x f = some (some b) ↔ ∃ a, x = some (some a) ∧ f a = some (some b) := by
  constructor
  · exact andThen_some
  · rintro ⟨a, h1, h2⟩
    rw [h1]; exact h2

theorem always_iff {α : Type} {x : Option α} {a : α} : always x = some (some a) ↔ x = some a := by
  constructor
  · exact always_some
  · intro h; rw [h]; rfl

/-! ## The same walk for parser and writer -/

theorem walk_eq (restart : Nat) (f : Nat × Nat → List ScanUnit) : ∀ (l : List (Nat × Nat)) (go : Nat) (go' : Int),
    (restart > 0 → go' = go) → readerWalk restart f l go = writerWalk restart f l go' := by
  intro l
  induction l with
  | nil => intro go go' _; rfl
  | cons yx l ih =>
    intro go go' h
    rw [readerWalk, writerWalk]
    by_cases hr : restart > 0
    · have hgo := h hr
      rw [if_pos hr]
      by_cases hg : go = 0
      · rw [if_pos hg, if_pos ⟨hr, by omega⟩, ih (restart - 1) ((restart : Int) - 1) (fun _ => by omega)]
      · rw [if_neg hg, if_neg (fun hh => by have := hh.2; omega), ih (go - 1) (go' - 1) (fun _ => by omega)]
    · rw [if_neg hr, if_neg (fun hh => hr hh.1), ih go (go' - 1) (fun hh => absurd hh hr)]

theorem mcus_eq (width height : Nat) (cs : List Comp) (ms : List Member) :
    readerMcus width height cs ms = writerMcus width height cs ms := by
  unfold readerMcus writerMcus
  match ms with
  | [] => simp [Nat.mul_comm]
  | [m] => simp
  | m :: m' :: ms => simp [Nat.mul_comm]

theorem units_eq (width height restart : Nat) (cs : List Comp) (ms : List Member) :
    readerUnits width height restart cs ms = writerUnits width height restart cs ms := by
  unfold readerUnits writerUnits
  rw [mcus_eq]
  exact walk_eq _ _ _ _ _ fun _ => rfl

/-! ## What the units of a walk are -/

theorem mem_walk {restart : Nat} {f : Nat × Nat → List ScanUnit} : ∀ {l : List (Nat × Nat)} {go : Nat} {u : ScanUnit},
    u ∈ readerWalk restart f l go → u = .restart ∨ ∃ yx ∈ l, u ∈ f yx := by
  intro l
  induction l with
  | nil => intro go u h; cases h
  | cons yx l ih =>
    intro go u h
    rw [readerWalk] at h
    have key : ∀ {g}, u ∈ f yx ++ readerWalk restart f l g → u = .restart ∨ ∃ yx' ∈ yx :: l, u ∈ f yx' := by
      intro g h
      rcases List.mem_append.mp h with h | h
      · exact Or.inr ⟨yx, by simp, h⟩
      · rcases ih h with h | ⟨p, h1, h2⟩
        · exact Or.inl h
        · exact Or.inr ⟨p, List.mem_cons_of_mem _ h1, h2⟩
    split at h
    · split at h
      · rcases List.mem_cons.mp h with h | h
        · exact Or.inl h
        · exact key h
      · exact key h
    · exact key h

theorem walk_mem {restart : Nat} {f : Nat × Nat → List ScanUnit} : ∀ {l : List (Nat × Nat)} {go : Nat} {u : ScanUnit} {yx : Nat × Nat},
    yx ∈ l → u ∈ f yx → u ∈ readerWalk restart f l go := by
  intro l
  induction l with
  | nil => intro go u yx h _; exact absurd h List.not_mem_nil
  | cons p l ih =>
    intro go u yx h hu
    rw [readerWalk]
    have key : ∀ {g}, u ∈ f p ++ readerWalk restart f l g := by
      intro g
      rcases List.mem_cons.mp h with rfl | h
      · exact List.mem_append_left _ hu
      · exact List.mem_append_right _ (ih h hu)
    split
    · split
      · exact List.mem_cons_of_mem _ key
      · exact key
    · exact key

theorem blocks_append (a b : List ScanUnit) : blocks (a ++ b) = blocks a ++ blocks b := by
  induction a with
  | nil => rfl
  | cons u a ih =>
    cases u with
    | restart => rw [List.cons_append, blocks, blocks, ih]
    | block => rw [List.cons_append, blocks, blocks, ih]; rfl

theorem blocks_flatMap {f : α → List ScanUnit} (l : List α) : blocks (l.flatMap f) = l.flatMap fun a => blocks (f a) := by
  induction l with
  | nil => rfl
  | cons a l ih => rw [List.flatMap_cons, List.flatMap_cons, blocks_append, ih]

theorem blocks_walk {restart : Nat} {f : Nat × Nat → List ScanUnit} : ∀ (l : List (Nat × Nat)) (go : Nat),
    blocks (readerWalk restart f l go) = l.flatMap fun a => blocks (f a) := by
  intro l
  induction l with
  | nil => intro go; rfl
  | cons yx l ih =>
    intro go
    rw [readerWalk, List.flatMap_cons]
    split
    · split
      · rw [blocks, blocks_append, ih]
      · rw [blocks_append, ih]
    · rw [blocks_append, ih]

theorem nodup_flatMap {α β : Type} {f : α → List β} {l : List α} (hl : l.Nodup) (h1 : ∀ a ∈ l, (f a).Nodup)
    (h2 : ∀ a ∈ l, ∀ b ∈ l, ∀ x, x ∈ f a → x ∈ f b → a = b) : (l.flatMap f).Nodup := by
  induction l with
  | nil => exact List.nodup_nil
  | cons a l ih =>
    obtain ⟨ha, hl⟩ := List.nodup_cons.mp hl
    rw [List.flatMap_cons]
    refine List.nodup_append.mpr ⟨h1 a (by simp), ih hl (fun b hb => h1 b (List.mem_cons_of_mem _ hb))
      (fun b hb c hc => h2 b (List.mem_cons_of_mem _ hb) c (List.mem_cons_of_mem _ hc)), ?_⟩
    intro x hx y hy he
    subst he
    obtain ⟨b, hb, hx2⟩ := List.mem_flatMap.mp hy
    have := h2 a (by simp) b (List.mem_cons_of_mem _ hb) x hx hx2
    subst this
    exact ha hb

theorem blocks_map {α : Type} (g : α → Nat × Nat × Table × Table) (l : List α) :
    blocks (l.map fun a => .block (g a).1 (g a).2.1 (g a).2.2.1 (g a).2.2.2) = l.map fun a => ((g a).1, (g a).2.1) := by
  induction l with
  | nil => rfl
  | cons a l ih => rw [List.map_cons, List.map_cons, blocks, ih]

theorem blocks_member (width : Nat) (cs : List Comp) (inter : Bool) (y x : Nat) (m : Member) :
    blocks (memberUnits width cs inter y x m) =
      (List.range (if inter then m.comp.v else 1)).flatMap fun iy => (List.range (if inter then m.comp.h else 1)).map fun ix =>
        (m.idx, (y * (if inter then m.comp.v else 1) + iy) * blocksWide width cs m.comp + (x * (if inter then m.comp.h else 1) + ix)) := by
  unfold memberUnits
  simp only
  rw [blocks_flatMap]
  congr 1
  funext iy
  rw [blocks_map (fun ix => (m.idx, (y * (if inter then m.comp.v else 1) + iy) * blocksWide width cs m.comp + (x * (if inter then m.comp.h else 1) + ix), m.dc, m.ac))]

theorem mem_member {width : Nat} {cs : List Comp} {inter : Bool} {y x : Nat} {m : Member} {b : Nat × Nat}
    (h : b ∈ blocks (memberUnits width cs inter y x m)) : b.1 = m.idx ∧ ∃ iy ix, iy < (if inter then m.comp.v else 1) ∧
      ix < (if inter then m.comp.h else 1) ∧
      b.2 = (y * (if inter then m.comp.v else 1) + iy) * blocksWide width cs m.comp + (x * (if inter then m.comp.h else 1) + ix) := by
  rw [blocks_member] at h
  obtain ⟨iy, h1, h2⟩ := List.mem_flatMap.mp h
  obtain ⟨ix, h3, h4⟩ := List.mem_map.mp h2
  rw [← h4]
  exact ⟨rfl, iy, ix, List.mem_range.mp h1, List.mem_range.mp h3, rfl⟩

theorem split_unique {a b c d w : Nat} (hb : b < w) (hd : d < w) (h : a * w + b = c * w + d) : a = c ∧ b = d := by
  have hw : 0 < w := by omega
  have h1 : (a * w + b) / w = a := by rw [Nat.mul_comm, Nat.mul_add_div hw, Nat.div_eq_of_lt hb, Nat.add_zero]
  have h2 : (c * w + d) / w = c := by rw [Nat.mul_comm, Nat.mul_add_div hw, Nat.div_eq_of_lt hd, Nat.add_zero]
  have : a = c := by rw [← h1, h, h2]
  subst this
  exact ⟨rfl, by omega⟩

theorem lt_wide {x n ix cols : Nat} (hx : x < cols) (hi : ix < n) : x * n + ix < cols * n := by
  have : (x + 1) * n ≤ cols * n := Nat.mul_le_mul_right n hx
  rw [Nat.add_mul, Nat.one_mul] at this
  omega

theorem divCeil_mul (a b h : Nat) (hb : 0 < b) : divCeil (a * h) b ≤ divCeil a b * h := by
  unfold divCeil
  have h1 : a ≤ (a + b - 1) / b * b := by
    have := Nat.lt_div_mul_add (a := a + b - 1) hb
    omega
  have h2 : a * h ≤ (a + b - 1) / b * h * b := by
    have := Nat.mul_le_mul_right h h1
    rw [Nat.mul_right_comm] at this
    exact this
  generalize (a + b - 1) / b * h = q at h2
  have h3 : (a * h + b - 1) / b < q + 1 := by
    rw [Nat.div_lt_iff_lt_mul hb, Nat.add_mul]
    omega
  omega

theorem divCeil_pos {a b : Nat} (ha : 1 ≤ a) (hb : 0 < b) : 1 ≤ divCeil a b := by
  unfold divCeil
  rw [Nat.le_div_iff_mul_le hb]
  omega

theorem maxH_pos (cs : List Comp) : 0 < maxH cs := by
  unfold maxH
  have : ∀ (l : List Comp) (m : Nat), 0 < m → 0 < l.foldl (fun m c => max m c.h) m := by
    intro l
    induction l with
    | nil => intro m h; exact h
    | cons c l ih => intro m h; exact ih _ (Nat.lt_of_lt_of_le h (Nat.le_max_left ..))
  exact this cs 1 (by omega)

theorem maxV_pos (cs : List Comp) : 0 < maxV cs := by
  unfold maxV
  have : ∀ (l : List Comp) (m : Nat), 0 < m → 0 < l.foldl (fun m c => max m c.v) m := by
    intro l
    induction l with
    | nil => intro m h; exact h
    | cons c l ih => intro m h; exact ih _ (Nat.lt_of_lt_of_le h (Nat.le_max_left ..))
  exact this cs 1 (by omega)

/-- In every column there is room for the blocks of a member. -/
theorem cols_wide (width height : Nat) (cs : List Comp) (ms : List Member) {m : Member} (hm : m ∈ ms) :
    (readerMcus width height cs ms).2 * (if decide (1 < ms.length) then m.comp.h else 1) ≤ blocksWide width cs m.comp := by
  unfold readerMcus blocksWide
  match ms, hm with
  | [m'], hm =>
    rw [List.mem_singleton] at hm
    subst hm
    simp only [List.length_cons, List.length_nil]
    rw [if_neg (by simp), Nat.mul_one, Nat.mul_comm 8]
    exact divCeil_mul _ _ _ (by have := maxH_pos cs; omega)
  | _ :: _ :: ms, hm =>
    rw [if_pos (by simp)]
    exact Nat.le_refl _

theorem units_nodup {width height restart : Nat} {cs : List Comp} {ms : List Member} (hms : (ms.map (·.idx)).Nodup) :
    (blocks (readerUnits width height restart cs ms)).Nodup := by
  unfold readerUnits
  simp only
  rw [blocks_walk]
  generalize hn : (readerMcus width height cs ms) = n
  have hwide : ∀ m ∈ ms, n.2 * (if decide (1 < ms.length) then m.comp.h else 1) ≤ blocksWide width cs m.comp := by
    intro m hm; rw [← hn]; exact cols_wide width height cs ms hm
  generalize hint : decide (1 < ms.length) = inter at hwide
  have hmcu : ∀ yx, blocks (mcuUnits width cs ms yx) = ms.flatMap fun m => blocks (memberUnits width cs inter yx.1 yx.2 m) := by
    intro yx; unfold mcuUnits; rw [blocks_flatMap, hint]
  have hmem : ∀ p, p ∈ mcus n.1 n.2 → p.2 < n.2 := by
    intro p hp
    unfold mcus at hp
    obtain ⟨y, _, h2⟩ := List.mem_flatMap.mp hp
    obtain ⟨x, h3, h4⟩ := List.mem_map.mp h2
    rw [← h4]
    exact List.mem_range.mp h3
  have hinj : ∀ m ∈ ms, ∀ m' ∈ ms, m.idx = m'.idx → m = m' := by
    intro m hm m' hm' he
    obtain ⟨i, hi, e1⟩ := List.getElem_of_mem hm
    obtain ⟨j, hj, e2⟩ := List.getElem_of_mem hm'
    have hij : i = j := by
      have hp := List.pairwise_iff_getElem.mp hms
      have e3 : ∀ k (hk : k < (ms.map (·.idx)).length), (ms.map (·.idx))[k] = (ms[k]'(by simpa using hk)).idx := fun k hk => List.getElem_map ..
      rcases Nat.lt_trichotomy i j with h | h | h
      · refine absurd ?_ (hp i j (by simpa using hi) (by simpa using hj) h)
        rw [e3, e3, e1, e2, he]
      · exact h
      · refine absurd ?_ (hp j i (by simpa using hj) (by simpa using hi) h)
        rw [e3, e3, e1, e2, he]
    subst hij
    rw [← e1, ← e2]
  have hmsn : ms.Nodup := by
    unfold List.Nodup at hms ⊢
    rw [List.pairwise_map] at hms
    exact hms.imp fun h he => h (by rw [he])
  refine nodup_flatMap ?_ (fun p hp => ?_) (fun p hp q hq b h1 h2 => ?_)
  · unfold mcus
    refine nodup_flatMap List.nodup_range (fun y _ => ?_) (fun y _ y' _ b h1 h2 => ?_)
    · unfold List.Nodup
      rw [List.pairwise_map]
      exact List.nodup_range.imp fun h he => h (Prod.mk.inj he).2
    · obtain ⟨x, _, e1⟩ := List.mem_map.mp h1
      obtain ⟨x', _, e2⟩ := List.mem_map.mp h2
      rw [← e2] at e1
      exact (Prod.mk.inj e1).1
  · rw [hmcu]
    refine nodup_flatMap hmsn (fun m hm => ?_) (fun m hm m' hm' b h1 h2 => ?_)
    · rw [blocks_member]
      refine nodup_flatMap List.nodup_range (fun iy _ => ?_) (fun iy _ iy' _ b h1 h2 => ?_)
      · unfold List.Nodup
        rw [List.pairwise_map]
        exact List.nodup_range.imp fun h he => h (by have := (Prod.mk.inj he).2; omega)
      · obtain ⟨ix, k1, e1⟩ := List.mem_map.mp h1
        obtain ⟨ix', k2, e2⟩ := List.mem_map.mp h2
        rw [← e2] at e1
        have e := (Prod.mk.inj e1).2
        have w := hwide m hm
        have b1 := lt_wide (hmem p hp) (List.mem_range.mp k1)
        have b2 := lt_wide (hmem p hp) (List.mem_range.mp k2)
        have := (split_unique (by omega) (by omega) e).1
        omega
    · exact hinj m hm m' hm' (by rw [← (mem_member h1).1, ← (mem_member h2).1])
  · rw [hmcu] at h1 h2
    obtain ⟨m, hm, h1⟩ := List.mem_flatMap.mp h1
    obtain ⟨m', hm', h2⟩ := List.mem_flatMap.mp h2
    obtain ⟨i1, iy, ix, l1, l2, e1⟩ := mem_member h1
    obtain ⟨i2, iy', ix', l3, l4, e2⟩ := mem_member h2
    have := hinj m hm m' hm' (by rw [← i1, ← i2])
    subst this
    have w := hwide m hm
    have b1 := lt_wide (hmem p hp) l2
    have b2 := lt_wide (hmem q hq) l4
    rw [e1] at e2
    obtain ⟨s1, s2⟩ := split_unique (by omega) (by omega) e2
    have s3 := (split_unique l1 l3 s1).1
    have s4 := (split_unique l2 l4 s2).1
    exact Prod.ext s3 s4

theorem mem_units {width height restart : Nat} {cs : List Comp} {ms : List Member} {u : ScanUnit}
    (h : u ∈ readerUnits width height restart cs ms) : u = .restart ∨ ∃ m ∈ ms, ∃ i, u = .block m.idx i m.dc m.ac := by
  unfold readerUnits at h
  rcases mem_walk h with h | ⟨yx, _, h⟩
  · exact Or.inl h
  · unfold mcuUnits at h
    obtain ⟨m, hm, h⟩ := List.mem_flatMap.mp h
    unfold memberUnits at h
    obtain ⟨iy, _, h⟩ := List.mem_flatMap.mp h
    obtain ⟨ix, _, h⟩ := List.mem_map.mp h
    exact Or.inr ⟨m, hm, _, h.symm⟩

theorem mem_blocks {us : List ScanUnit} {b : Nat × Nat} (h : b ∈ blocks us) : ∃ dc ac, .block b.1 b.2 dc ac ∈ us := by
  induction us with
  | nil => exact absurd h List.not_mem_nil
  | cons u us ih =>
    cases u with
    | restart =>
      obtain ⟨dc, ac, h⟩ := ih h
      exact ⟨dc, ac, List.mem_cons_of_mem _ h⟩
    | block c i dc ac =>
      rw [blocks] at h
      rcases List.mem_cons.mp h with rfl | h
      · exact ⟨dc, ac, List.mem_cons_self ..⟩
      · obtain ⟨dc, ac, h⟩ := ih h
        exact ⟨dc, ac, List.mem_cons_of_mem _ h⟩

/-- Every component of a scan has a block. -/
theorem units_mem {width height restart : Nat} {cs : List Comp} {ms : List Member} {m : Member} (hm : m ∈ ms) (hw : 1 ≤ width)
    (hh : 1 ≤ height) (h1 : 1 ≤ m.comp.h) (h2 : 1 ≤ m.comp.v) :
    ∃ i, .block m.idx i m.dc m.ac ∈ readerUnits width height restart cs ms := by
  have p1 := maxH_pos cs
  have p2 := maxV_pos cs
  have hr : 1 ≤ (readerMcus width height cs ms).1 ∧ 1 ≤ (readerMcus width height cs ms).2 := by
    unfold readerMcus
    match ms, hm with
    | [m'], hm =>
      rw [List.mem_singleton] at hm
      subst hm
      exact ⟨divCeil_pos (Nat.mul_le_mul hh h2) (by omega), divCeil_pos (Nat.mul_le_mul hw h1) (by omega)⟩
    | _ :: _ :: ms, hm => exact ⟨divCeil_pos hh (by omega), divCeil_pos hw (by omega)⟩
  refine ⟨(0 * (if decide (1 < ms.length) then m.comp.v else 1) + 0) * blocksWide width cs m.comp + (0 * (if decide (1 < ms.length) then m.comp.h else 1) + 0), ?_⟩
  unfold readerUnits
  refine walk_mem (yx := (0, 0)) ?_ ?_
  · unfold mcus
    exact List.mem_flatMap.mpr ⟨0, List.mem_range.mpr hr.1, List.mem_map.mpr ⟨0, List.mem_range.mpr hr.2, rfl⟩⟩
  · unfold mcuUnits
    refine List.mem_flatMap.mpr ⟨m, hm, ?_⟩
    unfold memberUnits
    refine List.mem_flatMap.mpr ⟨0, List.mem_range.mpr (by split <;> omega), List.mem_map.mpr ⟨0, List.mem_range.mpr (by split <;> omega), rfl⟩⟩

/-! ## Only the codes matter to the writer -/

def strip : ScanUnit → ScanUnit
  | .restart => .restart
  | .block c i dc ac => .block c i (dc.1, []) (ac.1, [])

def Member.strip (m : Member) : Member := { m with dc := (m.dc.1, []), ac := (m.ac.1, []) }

theorem steps_strip (store : Store) : ∀ (us : List ScanUnit) (i : Nat) (ps : List Nat) (zs : List (Nat × Nat)),
    writerSteps store (us.map strip) i ps zs = writerSteps store us i ps zs := by
  intro us
  induction us with
  | nil => intro i ps zs; rfl
  | cons u us ih =>
    intro i ps zs
    cases u with
    | restart => rw [List.map_cons, strip, writerSteps, writerSteps, ih]
    | block c j dc ac => rw [List.map_cons, strip, writerSteps, writerSteps, ih]

theorem walk_strip {restart : Nat} {f : Nat × Nat → List ScanUnit} : ∀ (l : List (Nat × Nat)) (go : Nat),
    readerWalk restart (fun yx => (f yx).map strip) l go = (readerWalk restart f l go).map strip := by
  intro l
  induction l with
  | nil => intro go; rfl
  | cons yx l ih =>
    intro go
    rw [readerWalk, readerWalk]
    split
    · split
      · rw [List.map_cons, List.map_append, ih]; rfl
      · rw [List.map_append, ih]
    · rw [List.map_append, ih]

theorem units_strip (width height restart : Nat) (cs : List Comp) (ms : List Member) :
    readerUnits width height restart cs (ms.map Member.strip) = (readerUnits width height restart cs ms).map strip := by
  unfold readerUnits
  simp only
  have hn : readerMcus width height cs (ms.map Member.strip) = readerMcus width height cs ms := by
    unfold readerMcus
    match ms with
    | [] => rfl
    | [m] => rfl
    | _ :: _ :: _ => rfl
  rw [hn, ← walk_strip]
  congr 1
  funext yx
  unfold mcuUnits
  rw [List.length_map, List.flatMap_map, List.map_flatMap]
  congr 1
  funext m
  unfold memberUnits
  simp only
  rw [List.map_flatMap]
  congr 1
  funext iy
  rw [List.map_map]
  rfl

/-! ## Sampling factors are all that matters -/

theorem maxH_congr : ∀ {cs cs' : List Comp}, (∀ i : Nat, (cs'[i]?).map (fun c : Comp => (c.id, c.h, c.v)) = (cs[i]?).map (fun c : Comp => (c.id, c.h, c.v))) →
    maxH cs' = maxH cs ∧ maxV cs' = maxV cs := by
  intro cs cs' h
  have e : cs'.map (fun c : Comp => (c.id, c.h, c.v)) = cs.map (fun c : Comp => (c.id, c.h, c.v)) := by
    apply List.ext_getElem?
    intro i
    rw [List.getElem?_map, List.getElem?_map]
    exact h i
  have e1 : ∀ l : List Comp, maxH l = (l.map (fun c : Comp => (c.id, c.h, c.v))).foldl (fun m c => max m c.2.1) 1 := by
    intro l; rw [List.foldl_map]; rfl
  have e2 : ∀ l : List Comp, maxV l = (l.map (fun c : Comp => (c.id, c.h, c.v))).foldl (fun m c => max m c.2.2) 1 := by
    intro l; rw [List.foldl_map]; rfl
  exact ⟨by rw [e1, e1, e], by rw [e2, e2, e]⟩

/-- Members that differ in the quantization table of the component only. -/
def SameGeometry (m m' : Member) : Prop := m.idx = m'.idx ∧ m.dc = m'.dc ∧ m.ac = m'.ac ∧ m.comp.h = m'.comp.h ∧ m.comp.v = m'.comp.v

theorem units_congr (width height restart : Nat) {cs cs' : List Comp} (hH : maxH cs' = maxH cs) (hV : maxV cs' = maxV cs)
    {g : Member → Member} (ms : List Member) (hg : ∀ m, SameGeometry m (g m)) :
    readerUnits width height restart cs' (ms.map g) = readerUnits width height restart cs ms := by
  unfold readerUnits
  simp only
  have hn : readerMcus width height cs' (ms.map g) = readerMcus width height cs ms := by
    unfold readerMcus
    rw [hH, hV]
    match ms with
    | [] => rfl
    | [m] => simp only [List.map_cons, List.map_nil]; rw [(hg m).2.2.2.1, (hg m).2.2.2.2]
    | _ :: _ :: _ => rfl
  rw [hn]
  congr 1
  funext yx
  unfold mcuUnits
  rw [List.length_map, List.flatMap_map]
  congr 1
  funext m
  obtain ⟨g1, g2, g3, g4, g5⟩ := hg m
  unfold memberUnits blocksWide
  simp only
  rw [hH, g1, g2, g3, g4, g5]

/-! ## Tables that were used -/

theorem fresh_dc {d : List Nat} {al : Nat} {last : Int} {r : Reader} {x : Int × Reader}
    (h : parseDc d Table.fresh.2 al last r = some (some x)) : False := by
  unfold parseDc at h
  rw [andThen_iff] at h
  obtain ⟨p, h1, h2⟩ := h
  rw [always_iff] at h1
  have := fresh_symbol (d := d) (r := r) (v := p.1) (r' := p.2) h1
  rw [if_pos (by omega)] at h2
  cases h2

theorem fresh_band {d : List Nat} {al : Nat} {allowed : Bool} {cs : List Int} {eob : Int} {r : Reader} {x}
    (h : parseBand d Table.fresh.2 al allowed cs eob r = some (some x)) (he : eob ≤ 0) (hc : cs ≠ []) : False := by
  unfold parseBand at h
  rw [if_neg (by omega), andThen_iff] at h
  obtain ⟨z, h1, _⟩ := h
  rw [parseAc, if_neg hc, andThen_iff] at h1
  obtain ⟨p, h1, h2⟩ := h1
  rw [always_iff] at h1
  have := fresh_symbol (d := d) (r := r) (v := p.1) (r' := p.2) h1
  rw [if_pos (by omega)] at h2
  cases h2

theorem ac_eob {d : List Nat} {t : List LutEntry} {al : Nat} : ∀ (n : Nat) (first : Bool) (cs : List Int) (s : AcState) (z : List Int × AcState),
    parseAc d t al false n first cs s = some (some z) → s.eob ≤ 0 → z.2.eob ≤ 1 := by
  intro n
  induction n with
  | zero =>
    intro first cs s z h he
    rw [parseAc] at h
    split at h
    · injection h with h; injection h with h; subst h; show s.eob ≤ 1; omega
    · cases h
  | succ n ih =>
    intro first cs s z h he
    rw [parseAc] at h
    split at h
    · injection h with h; injection h with h; subst h; show s.eob ≤ 1; omega
    · rw [andThen_iff] at h
      obtain ⟨p, _, h⟩ := h
      split at h
      · cases h
      · simp only at h
        split at h
        · split at h
          · cases h
          · split at h
            · cases h
            · rw [andThen_iff] at h
              obtain ⟨q, _, h⟩ := h
              rw [andThen_iff] at h
              obtain ⟨z', h1, h2⟩ := h
              injection h2 with h2; injection h2 with h2; subst h2
              exact ih _ _ _ z' h1 (by exact he)
        · split at h
          · rw [andThen_iff] at h
            obtain ⟨z', h1, h2⟩ := h
            injection h2 with h2; injection h2 with h2; subst h2
            exact ih _ _ _ z' h1 (by exact he)
          · rw [andThen_iff] at h
            obtain ⟨z', h1, h2⟩ := h
            injection h2 with h2; injection h2 with h2; subst h2
            unfold parseEob at h1
            simp only [Bool.false_eq_true, if_false] at h1
            split at h1
            · cases h1
            · injection h1 with h1; injection h1 with h1; subst h1; exact Int.le_refl _

theorem units_tables {m : Mode} {d : List Nat} : ∀ (us : List ScanUnit) (st st' : ParseState),
    parseUnits m d us st = some (some st') → (blocks us).Nodup → (∀ b ∈ blocks us, (st.store b.1 b.2).length = 64) → (m = .sequential → st.eob ≤ 0) →
    ∀ c i dc ac, ScanUnit.block c i dc ac ∈ us →
      (m.ss = 0 → m.refining = false → dc ≠ Table.fresh) ∧ (m = .sequential → ac ≠ Table.fresh) := by
  intro us
  induction us with
  | nil => intro st st' _ _ _ _ c i dc ac h; exact absurd h List.not_mem_nil
  | cons u us ih =>
    intro st st' h hnd hlen heob c i dc ac hm
    rw [parseUnits, andThen_iff] at h
    obtain ⟨s1, h1, h2⟩ := h
    cases u with
    | restart =>
      have hs : s1.store = st.store ∧ s1.eob = -1 := by
        unfold parseUnit parseRestart at h1
        simp only [andThen_iff] at h1
        obtain ⟨f, _, a, _, h1⟩ := h1
        split at h1
        · rw [andThen_iff] at h1
          obtain ⟨r, _, h1⟩ := h1
          split at h1
          · cases h1
          · injection h1 with h1; injection h1 with h1; subst h1; exact ⟨rfl, rfl⟩
        · cases h1
      refine ih s1 st' h2 hnd (fun b hb => by rw [hs.1]; exact hlen b hb) (fun _ => by rw [hs.2]; decide) c i dc ac ?_
      rcases List.mem_cons.mp hm with hm | hm
      · cases hm
      · exact hm
    | block c0 i0 dc0 ac0 =>
      rw [blocks] at hnd hlen
      obtain ⟨hni, hnd⟩ := List.nodup_cons.mp hnd
      unfold parseUnit at h1
      rw [andThen_iff] at h1
      obtain ⟨b, h1, h3⟩ := h1
      injection h3 with h3; injection h3 with h3
      have hb : (m.ss = 0 → m.refining = false → dc0 ≠ Table.fresh) ∧ (m = .sequential → ac0 ≠ Table.fresh ∧ b.ac.eob ≤ 0) := by
        have key : ∀ ss se al, decodeBlock d dc0.2 ac0.2 ss se al st.eob (st.lastDc c0) (st.store c0 i0) st.r = some (some b) →
            (ss = 0 → dc0 ≠ Table.fresh) ∧ (ss = 0 → se = 63 → st.eob ≤ 0 → ac0 ≠ Table.fresh ∧ b.ac.eob ≤ 0) := by
          intro ss se al hd
          unfold decodeBlock at hd
          by_cases hss : ss = 0
          · rw [if_pos hss, andThen_iff] at hd
            obtain ⟨p, hd1, hd2⟩ := hd
            refine ⟨fun _ he => ?_, fun _ h63 he0 => ?_⟩
            · rw [he] at hd1; exact fresh_dc hd1
            · subst hss; subst h63
              unfold withBand at hd2
              rw [if_neg (by decide), andThen_iff] at hd2
              obtain ⟨z, hz1, hz2⟩ := hd2
              injection hz2 with hz2; injection hz2 with hz2
              refine ⟨fun he => ?_, ?_⟩
              · rw [he] at hz1
                refine fresh_band hz1 he0 (fun hh => ?_)
                have := congrArg List.length hh
                have hl := hlen (c0, i0) (by simp)
                simp only at hl
                rw [List.length_drop, List.length_take, List.length_set, hl] at this
                simp at this
              · rw [← hz2]
                simp only
                unfold parseBand at hz1
                rw [if_neg (by omega), andThen_iff] at hz1
                obtain ⟨y, hy1, hy2⟩ := hz1
                injection hy2 with hy2; injection hy2 with hy2; subst hy2
                have := ac_eob _ _ _ _ _ hy1 he0
                show y.2.eob - 1 ≤ 0
                omega
          · exact ⟨fun h => absurd h hss, fun h => absurd h hss⟩
        cases m with
        | sequential =>
          have := key 0 63 0 h1
          exact ⟨fun _ _ => this.1 rfl, fun _ => this.2 rfl rfl (heob rfl)⟩
        | first ss se al =>
          have := key ss se al h1
          exact ⟨fun hs _ => this.1 hs, (fun h => by cases h)⟩
        | refine ss se al => exact ⟨(fun _ h => by cases h), (fun h => by cases h)⟩
      rcases List.mem_cons.mp hm with hm | hm
      · injection hm with e1 e2 e3 e4
        rw [e3, e4]
        exact ⟨hb.1, fun h => (hb.2 h).1⟩
      · refine ih s1 st' h2 hnd (fun x hx => ?_) (fun hs => ?_) c i dc ac hm
        · have : s1.store = st.store.put c0 i0 b.coeffs := by rw [← h3]
          rw [this]
          unfold Store.put
          rw [if_neg (fun hh => hni (by rw [← hh.1, ← hh.2]; exact hx))]
          exact hlen x (List.mem_cons_of_mem _ hx)
        · rw [← h3]; exact (hb.2 hs).2

theorem scan_tables {m : Mode} {d : List Nat} {us : List ScanUnit} {store : Store} {pos : Nat} {o : ParsedScan}
    (h : parseScan m d us store pos = some (some o)) (hnd : (blocks us).Nodup) (hlen : ∀ c i, (store c i).length = 64)
    {c i : Nat} {dc ac : Table} (hm : ScanUnit.block c i dc ac ∈ us) :
    (m.ss = 0 → m.refining = false → dc ≠ Table.fresh) ∧ (m = .sequential → ac ≠ Table.fresh) := by
  unfold parseScan at h
  rw [andThen_iff] at h
  obtain ⟨r, _, h⟩ := h
  rw [andThen_iff] at h
  obtain ⟨st, h1, _⟩ := h
  exact units_tables us _ st h1 hnd (fun b _ => hlen _ _) (fun _ => by show (-1 : Int) ≤ 0; decide) c i dc ac hm

end Jxl.Jpeg
