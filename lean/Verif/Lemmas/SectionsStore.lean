import Verif.Lemmas.Sections
namespace Jxl.Passes
open Jxl Jxl.Modular Jxl.Modular.Whole Jxl.Modular.Frame

/-! ## One channel -/

/-- A sample. -/
def sampleAt (c : Channel) (y x : Nat) : Option Px := (c.rows[y]?).bind fun r => r[x]?

theorem channel_ext {c t : Channel} (hc : c.Wf) (ht : t.Wf) (hd : c.dims = t.dims) (h : ∀ y < t.h, ∀ x < t.w, sampleAt c y x = sampleAt t y x) : c = t := by
  obtain ⟨w, h', hs, vs, rows⟩ := c
  obtain ⟨w2, h2, hs2, vs2, rows2⟩ := t
  simp only [Channel.dims, Prod.mk.injEq] at hd
  obtain ⟨rfl, rfl, rfl, rfl⟩ := hd
  have hl : rows.length = h' := hc.1
  have hl2 : rows2.length = h' := ht.1
  have : rows = rows2 := by
    refine List.ext_getElem (by omega) fun y h1 h2 => ?_
    have e1 : rows[y].length = w := hc.2 _ (List.getElem_mem h1)
    have e2 : rows2[y].length = w := ht.2 _ (List.getElem_mem h2)
    refine List.ext_getElem (by omega) fun x h3 h4 => ?_
    have := h y (by dsimp only; omega) x (by dsimp only; omega)
    simp only [sampleAt, List.getElem?_eq_getElem h1, List.getElem?_eq_getElem h2, Option.bind_some, List.getElem?_eq_getElem h3, List.getElem?_eq_getElem h4,
      Option.some.injEq] at this
    exact this
  rw [this]

theorem part_spec {shifts : Int × Int} {rect r : FrameDim.Rect} {c : Channel} (h : part shifts rect c = some r) :
    r.x0 = rect.x0 >>> c.hshift.toNat ∧ r.y0 = rect.y0 >>> c.vshift.toNat ∧ r.x0 + r.xs ≤ c.w ∧ r.y0 + r.ys ≤ c.h := by
  unfold part at h
  dsimp only at h
  split at h
  · cases h
  · split at h
    · cases h
    · rename_i hz
      injection h with h
      subst h
      dsimp only [FrameDim.Rect.clamped] at hz ⊢
      refine ⟨rfl, rfl, ?_, ?_⟩
      · unfold FrameDim.clampedSize at hz ⊢
        split <;> grind
      · unfold FrameDim.clampedSize at hz ⊢
        split <;> grind

theorem part_dims {shifts : Int × Int} {rect : FrameDim.Rect} {c t : Channel} (h : c.dims = t.dims) : part shifts rect c = part shifts rect t := by
  simp only [Channel.dims, Prod.mk.injEq] at h
  obtain ⟨h1, h2, h3, h4⟩ := h
  unfold part
  rw [h1, h2, h3, h4]

/-- A section stored in one channel. -/
def put (shifts : Int × Int) (rect : FrameDim.Rect) (c t : Channel) : Channel :=
  match cutChannel shifts rect t with
  | none => c
  | some g => placeChannel (rect.x0 >>> c.hshift.toNat) (rect.y0 >>> c.vshift.toNat) g c

theorem place_dims (x0 y0 : Nat) (g c : Channel) : (placeChannel x0 y0 g c).dims = c.dims := rfl

theorem place_wf (x0 y0 : Nat) (g : Channel) {c : Channel} (h : c.Wf) : (placeChannel x0 y0 g c).Wf := by
  obtain ⟨h1, h2⟩ := h
  refine ⟨by simp [placeChannel, h1], fun r hr => ?_⟩
  simp only [placeChannel] at hr ⊢
  obtain ⟨i, hi, rfl⟩ := List.mem_mapIdx.mp hr
  rw [List.length_mapIdx]
  exact h2 _ (List.getElem_mem _)

theorem put_dims (shifts : Int × Int) (rect : FrameDim.Rect) (c t : Channel) : (put shifts rect c t).dims = c.dims := by
  unfold put
  split
  · rfl
  · exact place_dims _ _ _ _

theorem put_wf {shifts : Int × Int} {rect : FrameDim.Rect} {c t : Channel} (h : c.Wf) : (put shifts rect c t).Wf := by
  unfold put
  split
  · exact h
  · exact place_wf _ _ _ h

theorem place_at (x0 y0 : Nat) (g c : Channel) (y x : Nat) (v : Px) (h : sampleAt c y x = some v) :
    sampleAt (placeChannel x0 y0 g c) y x = some (if y0 ≤ y ∧ y < y0 + g.h ∧ x0 ≤ x ∧ x < x0 + g.w then (sampleAt g (y - y0) (x - x0)).getD v else v) := by
  unfold sampleAt at h
  obtain ⟨r, h1, h2⟩ := Option.bind_eq_some_iff.mp h
  simp only [sampleAt, placeChannel, List.getElem?_mapIdx, h1, h2, Option.map_some, Option.bind_some]

theorem cut_at {shifts : Int × Int} {rect r : FrameDim.Rect} {t : Channel} (h : part shifts rect t = some r) {y x : Nat} (hy : y < r.ys) (hx : x < r.xs) :
    ∃ g, cutChannel shifts rect t = some g ∧ g.w = r.xs ∧ g.h = r.ys ∧ sampleAt g y x = sampleAt t (r.y0 + y) (r.x0 + x) := by
  unfold cutChannel
  rw [h]
  refine ⟨_, rfl, rfl, rfl, ?_⟩
  simp only [sampleAt]
  rw [List.getElem?_map, List.getElem?_range hy, Option.map_some, Option.bind_some, List.getElem?_take, if_pos hx, List.getElem?_drop, List.getD_eq_getElem?_getD]
  cases t.rows[r.y0 + y]? <;> rfl

theorem cut_iff {shifts : Int × Int} {rect : FrameDim.Rect} {t : Channel} : cutChannel shifts rect t = none ↔ part shifts rect t = none := by
  unfold cutChannel
  cases part shifts rect t <;> simp

theorem wf_at {c : Channel} (h : c.Wf) {y x : Nat} (hy : y < c.h) (hx : x < c.w) : ∃ v, sampleAt c y x = some v := by
  have h1 : y < c.rows.length := by rw [h.1]; exact hy
  have h2 : x < c.rows[y].length := by rw [h.2 _ (List.getElem_mem h1)]; exact hx
  exact ⟨c.rows[y][x], by simp [sampleAt, h1, h2]⟩

/-- A sample in the section is now that of the target, any other is as before. -/
theorem put_at {shifts : Int × Int} {rect : FrameDim.Rect} {c t : Channel} (hc : c.Wf) (ht : t.Wf) (hd : c.dims = t.dims) {y x : Nat} (hy : y < t.h) (hx : x < t.w) :
    (∀ r, part shifts rect t = some r → r.x0 ≤ x → x < r.x0 + r.xs → r.y0 ≤ y → y < r.y0 + r.ys → sampleAt (put shifts rect c t) y x = sampleAt t y x) ∧
    (sampleAt c y x = sampleAt t y x → sampleAt (put shifts rect c t) y x = sampleAt t y x) := by
  have hd' := hd
  simp only [Channel.dims, Prod.mk.injEq] at hd'
  obtain ⟨d1, d2, d3, d4⟩ := hd'
  obtain ⟨v, hv⟩ := wf_at hc (y := y) (x := x) (by omega) (by omega)
  obtain ⟨u, hu⟩ := wf_at ht hy hx
  have key : ∀ r, part shifts rect t = some r → sampleAt (put shifts rect c t) y x =
      some (if r.y0 ≤ y ∧ y < r.y0 + r.ys ∧ r.x0 ≤ x ∧ x < r.x0 + r.xs then u else v) := by
    intro r hr
    obtain ⟨e1, e2, e3, e4⟩ := part_spec hr
    have hcut : cutChannel shifts rect t = some ⟨r.xs, r.ys, t.hshift, t.vshift, (List.range r.ys).map fun y => ((t.rows.getD (r.y0 + y) []).drop r.x0).take r.xs⟩ := by
      unfold cutChannel
      rw [hr]
      rfl
    unfold put
    rw [hcut]
    dsimp only
    rw [place_at _ _ _ _ _ _ v hv, d3, d4, ← e1, ← e2]
    dsimp only
    by_cases hin : r.y0 ≤ y ∧ y < r.y0 + r.ys ∧ r.x0 ≤ x ∧ x < r.x0 + r.xs
    · rw [if_pos hin, if_pos hin]
      obtain ⟨g, g1, -, -, g2⟩ := cut_at hr (y := y - r.y0) (x := x - r.x0) (by omega) (by omega)
      rw [hcut] at g1
      injection g1 with g1
      rw [g1, g2, show r.y0 + (y - r.y0) = y from by omega, show r.x0 + (x - r.x0) = x from by omega, hu]
      rfl
    · rw [if_neg hin, if_neg hin]
  constructor
  · intro r hr h1 h2 h3 h4
    rw [key r hr, if_pos ⟨h3, h4, h1, h2⟩, hu]
  · intro he
    cases hp : part shifts rect t with
    | none =>
      unfold put
      rw [cut_iff.mpr hp]
      exact he
    | some r =>
      rw [key r hp]
      rw [hv, hu] at he
      injection he with he
      rw [hu, he]
      split <;> rfl

/-- All sections stored in one channel. -/
def putAll (d : FrameDim.Dims) (p : Passes) (secs : List Sect) (c t : Channel) : Channel := secs.foldl (fun c s => put (s.shifts p) (s.rect d) c t) c

theorem putAll_keep {d : FrameDim.Dims} {p : Passes} {t : Channel} : ∀ (secs : List Sect) (c : Channel), c.Wf → c.dims = t.dims →
    (putAll d p secs c t).Wf ∧ (putAll d p secs c t).dims = t.dims
  | [], c, h, hd => ⟨h, hd⟩
  | s :: ss, c, h, hd => putAll_keep ss (put (s.shifts p) (s.rect d) c t) (put_wf h) (by rw [put_dims]; exact hd)

theorem putAll_at {d : FrameDim.Dims} {p : Passes} {t : Channel} (ht : t.Wf) {y x : Nat} (hy : y < t.h) (hx : x < t.w) : ∀ (secs : List Sect) (c : Channel), c.Wf → c.dims = t.dims →
    (sampleAt c y x = sampleAt t y x ∨ ∃ s ∈ secs, Within d p t x y s) → sampleAt (putAll d p secs c t) y x = sampleAt t y x
  | [], c, _, _, h => by
    rcases h with h | ⟨s, hs, -⟩
    · exact h
    · cases hs
  | s :: ss, c, hc, hd, h => by
    obtain ⟨k1, k2⟩ := put_at (shifts := s.shifts p) (rect := s.rect d) hc ht hd hy hx
    refine putAll_at ht hy hx ss (put (s.shifts p) (s.rect d) c t) (put_wf hc) (by rw [put_dims]; exact hd) ?_
    rcases h with h | ⟨s', hs', hw⟩
    · exact Or.inl (k2 h)
    · rcases List.mem_cons.mp hs' with rfl | hs'
      · obtain ⟨r, h1, h2, h3, h4, h5⟩ := hw
        exact Or.inl (k1 r h1 h2 h3 h4 h5)
      · exact Or.inr ⟨s', hs', hw⟩

theorem putAll_target {d : FrameDim.Dims} {p : Passes} {c t : Channel} (hc : c.Wf) (ht : t.Wf) (hd : c.dims = t.dims) {secs : List Sect}
    (h : ∀ y < t.h, ∀ x < t.w, ∃ s ∈ secs, Within d p t x y s) : putAll d p secs c t = t := by
  obtain ⟨k1, k2⟩ := putAll_keep (d := d) (p := p) secs c hc hd
  exact channel_ext k1 ht k2 fun y hy x hx => putAll_at ht hy hx secs c hc hd (Or.inr (h y hy x hx))

/-! ## All channels -/

theorem groupChannel_part (junk : Nat → Nat → Px) (a b : Int) (rect : FrameDim.Rect) (c : Channel) : (groupChannel junk a b rect c).isSome = (part (a, b) rect c).isSome := by
  unfold groupChannel part
  dsimp only
  split
  · rfl
  · split <;> rfl

theorem placeAll_zip (shifts : Int × Int) (rect : FrameDim.Rect) : ∀ (cs ts : List Channel), cs.map Channel.dims = ts.map Channel.dims →
    placeAll shifts.1 shifts.2 rect cs (ts.filterMap (cutChannel shifts rect)) = List.zipWith (put shifts rect) cs ts
  | [], [], _ => rfl
  | [], _ :: _, h => by cases h
  | _ :: _, [], h => by cases h
  | c :: cs, t :: ts, h => by
    rw [List.map_cons, List.map_cons] at h
    injection h with h1 h2
    have ih := placeAll_zip shifts rect cs ts h2
    have hg := groupChannel_part (fun _ _ => 0) shifts.1 shifts.2 rect c
    rw [show (shifts.1, shifts.2) = shifts from rfl, part_dims h1] at hg
    simp only [placeAll, List.zipWith_cons_cons]
    cases hp : part shifts rect t with
    | none =>
      have hk : cutChannel shifts rect t = none := cut_iff.mpr hp
      rw [hp] at hg
      have hg' : groupChannel (fun _ _ => 0) shifts.1 shifts.2 rect c = none := by simpa using hg
      rw [hg', List.filterMap_cons_none hk]
      dsimp only
      rw [ih]
      unfold put
      rw [hk]
    | some r =>
      obtain ⟨g, hk⟩ : ∃ g, cutChannel shifts rect t = some g := by
        cases hk : cutChannel shifts rect t with
        | none => rw [cut_iff.mp hk] at hp; cases hp
        | some g => exact ⟨g, rfl⟩
      rw [hp] at hg
      obtain ⟨b, hb⟩ := Option.isSome_iff_exists.mp (by rw [hg]; rfl : (groupChannel (fun _ _ => 0) shifts.1 shifts.2 rect c).isSome = true)
      rw [hb, List.filterMap_cons_some hk]
      dsimp only
      rw [ih]
      unfold put
      rw [hk]

/-- Whether a channel is in the first section. -/
def smallC (gd : Nat) (c : Channel) : Bool := decide (c.w ≤ gd ∧ c.h ≤ gd)

theorem small_dims {gd : Nat} {c t : Channel} (h : c.dims = t.dims) : smallC gd c = smallC gd t := by
  simp only [Channel.dims, Prod.mk.injEq] at h
  unfold smallC
  rw [h.1, h.2.1]

theorem split_at {α : Type} {P : α → Bool} : ∀ (A L : List α), (∀ a ∈ A, P a = true) → (∀ a, L.head? = some a → P a = false) → (A ++ L).takeWhile P = A ∧ (A ++ L).dropWhile P = L
  | [], [], _, _ => ⟨rfl, rfl⟩
  | [], l :: L, _, h => by
    have := h l rfl
    simp [this]
  | a :: A, L, h1, h2 => by
    obtain ⟨i1, i2⟩ := split_at A L (fun b hb => h1 b (List.mem_cons_of_mem _ hb)) h2
    have := h1 a List.mem_cons_self
    simp [this, i1, i2]

theorem dropWhile_head {α : Type} {P : α → Bool} : ∀ (l : List α) (a : α), (l.dropWhile P).head? = some a → P a = false
  | [], _, h => by cases h
  | x :: l, a, h => by
    by_cases hx : P x = true
    · rw [List.dropWhile_cons_of_pos hx] at h
      exact dropWhile_head l a h
    · rw [List.dropWhile_cons_of_neg hx] at h
      injection h with h
      subst h
      simpa using hx

theorem takeWhile_all {α : Type} {P : α → Bool} : ∀ (l : List α), ∀ a ∈ l.takeWhile P, P a = true
  | [], _, h => by cases h
  | x :: l, a, h => by
    by_cases hx : P x = true
    · rw [List.takeWhile_cons_of_pos hx] at h
      rcases List.mem_cons.mp h with rfl | h
      · exact hx
      · exact takeWhile_all l a h
    · rw [List.takeWhile_cons_of_neg hx] at h
      cases h

/-- The target with other later channels. -/
def withLater (gd : Nat) (T : Image) (L : List Channel) : Image := ⟨early gd T ++ L, T.nbMeta⟩

theorem withLater_self (gd : Nat) (T : Image) : withLater gd T (later gd T) = T := by
  unfold withLater early later
  rw [List.append_assoc, List.takeWhile_append_dropWhile, List.take_append_drop]

theorem withLater_split {gd : Nat} {T : Image} {L : List Channel} (h : L.map Channel.dims = (later gd T).map Channel.dims) :
    (withLater gd T L).channel.take T.nbMeta = T.channel.take T.nbMeta ∧
    ((withLater gd T L).channel.drop T.nbMeta).takeWhile (smallC gd) = (T.channel.drop T.nbMeta).takeWhile (smallC gd) ∧
    ((withLater gd T L).channel.drop T.nbMeta).dropWhile (smallC gd) = L := by
  have hL : ∀ a, L.head? = some a → smallC gd a = false := by
    intro a ha
    have e : (L.map Channel.dims).head? = ((later gd T).map Channel.dims).head? := by rw [h]
    rw [List.head?_map, List.head?_map, ha, Option.map_some] at e
    obtain ⟨b, h1, h2⟩ := Option.map_eq_some_iff.mp e.symm
    rw [← small_dims h2]
    exact dropWhile_head (P := smallC gd) (T.channel.drop T.nbMeta) b h1
  obtain ⟨s1, s2⟩ := split_at ((T.channel.drop T.nbMeta).takeWhile (smallC gd)) L (takeWhile_all _) hL
  by_cases hn : T.nbMeta ≤ T.channel.length
  · have hl : (T.channel.take T.nbMeta).length = T.nbMeta := by rw [List.length_take]; omega
    have e : (withLater gd T L).channel = T.channel.take T.nbMeta ++ ((T.channel.drop T.nbMeta).takeWhile (smallC gd) ++ L) := by
      unfold withLater early
      rw [List.append_assoc]
      rfl
    rw [e, List.take_left' hl, List.drop_left' hl]
    exact ⟨rfl, s1, s2⟩
  · have hd : T.channel.drop T.nbMeta = [] := List.drop_eq_nil_of_le (by omega)
    have hl : later gd T = [] := by unfold later; rw [hd]; rfl
    rw [hl] at h
    have : L = [] := by simpa using h
    subst this
    rw [← hl, withLater_self, hd]
    exact ⟨rfl, rfl, by rw [hl]; rfl⟩

theorem store_zip {gd : Nat} {shifts : Int × Int} {rect : FrameDim.Rect} {T : Image} {L : List Channel} (h : L.map Channel.dims = (later gd T).map Channel.dims) :
    storeGroup gd shifts.1 shifts.2 rect (withLater gd T L) (cutGroup gd shifts rect T) = withLater gd T (List.zipWith (put shifts rect) L (later gd T)) := by
  obtain ⟨e1, e2, e3⟩ := withLater_split h
  unfold storeGroup
  dsimp only
  rw [show (withLater gd T L).nbMeta = T.nbMeta from rfl]
  show Image.mk (_ ++ (((withLater gd T L).channel.drop T.nbMeta).takeWhile (smallC gd) ++ placeAll _ _ _ (((withLater gd T L).channel.drop T.nbMeta).dropWhile (smallC gd)) _)) _ = _
  rw [e1, e2, e3]
  unfold cutGroup
  dsimp only
  rw [show ((T.channel.drop T.nbMeta).dropWhile fun c => decide (c.w ≤ gd ∧ c.h ≤ gd)) = later gd T from rfl, placeAll_zip _ _ _ _ h, ← List.append_assoc]
  rfl

theorem zip_dims (shifts : Int × Int) (rect : FrameDim.Rect) : ∀ (L ts : List Channel), L.map Channel.dims = ts.map Channel.dims →
    (List.zipWith (put shifts rect) L ts).map Channel.dims = ts.map Channel.dims
  | [], [], _ => rfl
  | [], _ :: _, h => by cases h
  | _ :: _, [], h => by cases h
  | c :: cs, t :: ts, h => by
    rw [List.map_cons, List.map_cons] at h
    injection h with h1 h2
    rw [List.zipWith_cons_cons, List.map_cons, List.map_cons, put_dims, h1, zip_dims shifts rect cs ts h2]

theorem zip_zip {f g : Channel → Channel → Channel} : ∀ (L ts : List Channel), List.zipWith g (List.zipWith f L ts) ts = List.zipWith (fun c t => g (f c t) t) L ts
  | [], _ => by simp
  | _ :: _, [] => by simp
  | c :: cs, t :: ts => by simp [zip_zip cs ts]

theorem zip_left : ∀ (L ts : List Channel), L.map Channel.dims = ts.map Channel.dims → List.zipWith (fun c _ => c) L ts = L
  | [], [], _ => rfl
  | [], _ :: _, h => by cases h
  | _ :: _, [], h => by cases h
  | c :: cs, t :: ts, h => by
    rw [List.map_cons, List.map_cons] at h
    injection h with h1 h2
    rw [List.zipWith_cons_cons, zip_left cs ts h2]

theorem storeAll_zip {d : FrameDim.Dims} {p : Passes} {T : Image} : ∀ (secs : List Sect) (L : List Channel), L.map Channel.dims = (later d.groupDim T).map Channel.dims →
    storeAll d p T secs (withLater d.groupDim T L) = withLater d.groupDim T (List.zipWith (putAll d p secs) L (later d.groupDim T))
  | [], L, h => by
    show withLater _ _ L = _
    rw [show putAll d p [] = fun c _ => c from rfl, zip_left _ _ h]
  | s :: ss, L, h => by
    show storeAll d p T ss (storeGroup d.groupDim (s.shifts p).1 (s.shifts p).2 (s.rect d) (withLater d.groupDim T L) (cutGroup d.groupDim (s.shifts p) (s.rect d) T)) = _
    rw [store_zip h, storeAll_zip ss _ (zip_dims _ _ _ _ h), zip_zip]
    rfl

theorem zip_target {f : Channel → Channel → Channel} : ∀ (L ts : List Channel), L.map Channel.dims = ts.map Channel.dims → (∀ c ∈ L, c.Wf) →
    (∀ t ∈ ts, ∀ c : Channel, c.Wf → c.dims = t.dims → f c t = t) → List.zipWith f L ts = ts
  | [], [], _, _, _ => rfl
  | [], _ :: _, h, _, _ => by cases h
  | _ :: _, [], h, _, _ => by cases h
  | c :: cs, t :: ts, h, hw, hf => by
    rw [List.map_cons, List.map_cons] at h
    injection h with h1 h2
    rw [List.zipWith_cons_cons, hf t List.mem_cons_self c (hw c List.mem_cons_self) h1,
      zip_target cs ts h2 (fun c hc => hw c (List.mem_cons_of_mem _ hc)) (fun t ht => hf t (List.mem_cons_of_mem _ ht))]

theorem early_later {gd : Nat} {T I : Image} (hl : SameLayout I T) (he : early gd I = early gd T) :
    I = withLater gd T (later gd I) ∧ (later gd I).map Channel.dims = (later gd T).map Channel.dims := by
  have a : I.channel = early gd I ++ later gd I := congrArg Image.channel (withLater_self gd I).symm
  have b : T.channel = early gd T ++ later gd T := congrArg Image.channel (withLater_self gd T).symm
  constructor
  · show I = ⟨early gd T ++ later gd I, T.nbMeta⟩
    rw [← he, ← a, ← hl.2]
  · have := hl.1
    rw [a, b, he, List.map_append, List.map_append] at this
    exact List.append_cancel_left this

/-- All sections give the target. -/
theorem storeAll_target {d : FrameDim.Dims} {p : Passes} {T I : Image} {secs : List Sect} (hT : T.Wf) (hI : I.Wf) (hl : SameLayout I T) (he : early d.groupDim I = early d.groupDim T)
    (h : ∀ t ∈ later d.groupDim T, ∀ y < t.h, ∀ x < t.w, ∃ s ∈ secs, Within d p t x y s) : storeAll d p T secs I = T := by
  obtain ⟨e1, e2⟩ := early_later hl he
  have lmem : ∀ {i : Image} {c : Channel}, c ∈ later d.groupDim i → c ∈ i.channel := fun hc => (List.drop_sublist _ _).subset ((List.dropWhile_sublist _).subset hc)
  rw [e1, storeAll_zip secs _ e2, zip_target _ _ e2 (fun c hc => hI c (lmem hc)) (fun t ht c hc hd => putAll_target hc (hT t (lmem ht)) hd (h t ht)), withLater_self]

/-! ## Reading all sections -/

theorem later_layout {gd : Nat} {I T : Image} (h : SameLayout I T) : (later gd I).map Channel.dims = (later gd T).map Channel.dims := by
  have key : ∀ i : Image, (later gd i).map Channel.dims = ((i.channel.map Channel.dims).drop i.nbMeta).dropWhile fun e => decide (e.1 ≤ gd ∧ e.2.1 ≤ gd) := by
    intro i
    rw [← List.map_drop, List.dropWhile_map]
    rfl
  rw [key, key, h.1, h.2]

theorem groupChannel_dims {junk : Nat → Nat → Px} {a b : Int} {rect : FrameDim.Rect} {c t : Channel} (h : c.dims = t.dims) : groupChannel junk a b rect c = groupChannel junk a b rect t := by
  simp only [Channel.dims, Prod.mk.injEq] at h
  obtain ⟨h1, h2, h3, h4⟩ := h
  unfold groupChannel
  rw [h1, h2, h3, h4]

theorem groupImage_layout {junk : Nat → Nat → Nat → Px} {gd : Nat} {a b : Int} {rect : FrameDim.Rect} {I T : Image} (h : SameLayout I T) :
    groupImage junk gd a b rect I = groupImage junk gd a b rect T := by
  have hl := later_layout (gd := gd) h
  have : (later gd I).mapIdx (fun i c => groupChannel (junk i) a b rect c) = (later gd T).mapIdx (fun i c => groupChannel (junk i) a b rect c) := by
    apply List.ext_getElem?
    intro i
    rw [List.getElem?_mapIdx, List.getElem?_mapIdx]
    have e : ((later gd I).map Channel.dims)[i]? = ((later gd T).map Channel.dims)[i]? := by rw [hl]
    rw [List.getElem?_map, List.getElem?_map] at e
    cases h1 : (later gd I)[i]? <;> cases h2 : (later gd T)[i]? <;> rw [h1, h2] at e
    · cases e
    · cases e
    · injection e with e
      rw [Option.map_some, Option.map_some, groupChannel_dims e]
  unfold groupImage
  show Image.mk (((later gd I).mapIdx _).filterMap id) 0 = Image.mk (((later gd T).mapIdx _).filterMap id) 0
  rw [this]

theorem something_layout {gd : Nat} {I T : Image} (h : SameLayout I T) : haveSomething gd I = haveSomething gd T := by
  have key : ∀ i : Image, haveSomething gd i = ((i.channel.map Channel.dims).drop i.nbMeta).any fun e => decide (e.1 ≤ gd ∧ e.2.1 ≤ gd) := by
    intro i
    rw [← List.map_drop, List.any_map]
    rfl
  rw [key, key, h.1, h.2]

theorem readGroup_layout {env : Stream.Env} {u : Build} {junk : Nat → Nat → Nat → Px} {gd : Nat} {g : Global} {i : Image} {stream : Nat} {a b : Int} {rect : FrameDim.Rect}
    {s : List Bool} (h : SameLayout i g.img) : readGroup env u junk gd { g with img := i } stream a b rect s = readGroup env u junk gd g stream a b rect s := by
  unfold readGroup
  dsimp only
  rw [groupImage_layout h, show useFull gd { g with img := i } = useFull gd g from by unfold useFull; dsimp only; rw [something_layout h]]

theorem withLater_layout {gd : Nat} {T : Image} {L : List Channel} (h : L.map Channel.dims = (later gd T).map Channel.dims) : SameLayout (withLater gd T L) T := by
  refine ⟨?_, rfl⟩
  have e := congrArg (fun i : Image => i.channel.map Channel.dims) (withLater_self gd T)
  dsimp only [withLater] at e ⊢
  rw [List.map_append, h, ← List.map_append, e]

theorem readSections_store {env : Stream.Env} {u : Build} {junk : Nat → Nat → Nat → Px} {d : FrameDim.Dims} {p : Passes} {T : Image} {g : Global} (hg : SameLayout g.img T) :
    ∀ (secs : List (Sect × List Bool)) (L : List Channel), L.map Channel.dims = (later d.groupDim T).map Channel.dims →
      (∀ q ∈ secs, ∃ rest, readGroup env u junk d.groupDim g (q.1.stream.id d) (q.1.shifts p).1 (q.1.shifts p).2 (q.1.rect d) q.2 =
        .ok (cutGroup d.groupDim (q.1.shifts p) (q.1.rect d) T, rest)) →
      readSections env u junk d p { g with img := withLater d.groupDim T L } secs = .ok { g with img := storeAll d p T (secs.map (·.1)) (withLater d.groupDim T L) }
  | [], L, _, _ => rfl
  | (s, b) :: secs, L, h, hs => by
    obtain ⟨rest, hr⟩ := hs (s, b) List.mem_cons_self
    have hl : SameLayout (withLater d.groupDim T L) g.img := ⟨(withLater_layout h).1.trans hg.1.symm, (withLater_layout h).2.trans hg.2.symm⟩
    rw [readSections, readGroup_layout hl]
    dsimp only at hr
    rw [hr]
    show readSections env u junk d p { g with img := storeGroup d.groupDim (s.shifts p).1 (s.shifts p).2 (s.rect d) (withLater d.groupDim T L) (cutGroup d.groupDim (s.shifts p) (s.rect d) T) } secs = _
    rw [store_zip h, readSections_store hg secs _ (zip_dims _ _ _ _ h) (fun q hq => hs q (List.mem_cons_of_mem _ hq)), ← store_zip h]
    rfl

theorem readSections_target {env : Stream.Env} {u : Build} {junk : Nat → Nat → Nat → Px} {d : FrameDim.Dims} {p : Passes} {T : Image} {g : Global} {secs : List (Sect × List Bool)}
    (hT : T.Wf) (hI : g.img.Wf) (hl : SameLayout g.img T) (he : early d.groupDim g.img = early d.groupDim T)
    (h : ∀ t ∈ later d.groupDim T, ∀ y < t.h, ∀ x < t.w, ∃ q ∈ secs, Within d p t x y q.1)
    (hr : ∀ q ∈ secs, ∃ rest, readGroup env u junk d.groupDim g (q.1.stream.id d) (q.1.shifts p).1 (q.1.shifts p).2 (q.1.rect d) q.2 =
        .ok (cutGroup d.groupDim (q.1.shifts p) (q.1.rect d) T, rest)) :
    readSections env u junk d p g secs = .ok { g with img := T } := by
  obtain ⟨e1, e2⟩ := early_later hl he
  have := readSections_store hl secs _ e2 hr
  rw [← e1, storeAll_target hT hI hl he] at this
  · exact this
  · intro t ht y hy x hx
    obtain ⟨q, h1, h2⟩ := h t ht y hy x hx
    exact ⟨q.1, List.mem_map_of_mem h1, h2⟩

/-! ## Passes and resolutions -/

theorem come_iff {d : FrameDim.Dims} {p : Passes} (hp : p.Good) {c : Channel} (h0 : 0 ≤ min c.hshift c.vshift) {x y : Nat} {s : Sect} (hs : s.Of d p) (hw : Within d p c x y s) (n : Nat) :
    s.Come n ↔ target p n ≤ 2 ^ (min c.hshift c.vshift).toNat := by
  have hb : (s.shifts p).1 ≤ min c.hshift c.vshift ∧ min c.hshift c.vshift ≤ (s.shifts p).2 := by
    obtain ⟨r, hr, -⟩ := hw
    unfold part at hr
    dsimp only at hr
    split at hr
    · cases hr
    · omega
  rw [target_level hp, Nat.pow_le_pow_iff_right (by omega)]
  have hr := level_range p n
  cases s with
  | lf g =>
    have h3 : (3 : Int) ≤ min c.hshift c.vshift := hb.1
    exact ⟨fun _ => by omega, fun _ => trivial⟩
  | hf pass g =>
    have hb1 : (bracket p pass).1 ≤ min c.hshift c.vshift ∧ min c.hshift c.vshift ≤ (bracket p pass).2 := hb
    rw [bracket_level hp hs.1] at hb1
    dsimp only at hb1
    show pass < n ↔ _
    constructor
    · intro h
      have := level_mono p (show pass + 1 ≤ n from h)
      omega
    · intro h
      refine Nat.lt_of_not_le fun hn => ?_
      have := level_mono p hn
      omega

/-! ## Streams -/

theorem pair_eq {n a b c e : Nat} (ha : b < n) (he : e < n) (h : n * a + b = n * c + e) : a = c ∧ b = e := by
  have h1 : (n * a + b) / n = a := by rw [Nat.mul_add_div (by omega), Nat.div_eq_of_lt ha]; rfl
  have h2 : (n * c + e) / n = c := by rw [Nat.mul_add_div (by omega), Nat.div_eq_of_lt he]; rfl
  have h3 : a = c := by rw [← h1, h, h2]
  subst h3
  omega

theorem stream_inj {d : FrameDim.Dims} {n : Nat} {a b : Stream} (ha : a.Of d n) (hb : b.Of d n) (h : a.id d = b.id d) : a = b := by
  cases a <;> cases b <;> simp only [Stream.id, Stream.Of] at ha hb h <;> first
    | rfl
    | (exfalso; omega)
    | (congr 1; omega)
    | skip
  rename_i p1 g1 p2 g2
  obtain ⟨h1, h2⟩ := pair_eq ha.2 hb.2 (by omega : d.numGroups * p1 + g1 = d.numGroups * p2 + g2)
  rw [h1, h2]

theorem stream_lt {d : FrameDim.Dims} {n : Nat} {a : Stream} (ha : a.Of d n) : a.id d < numStreams d n := by
  cases a <;> simp only [Stream.id, Stream.Of, numStreams] at ha ⊢ <;> try omega
  rename_i pass g
  have : d.numGroups * (pass + 1) ≤ d.numGroups * n := Nat.mul_le_mul_left _ ha.1
  rw [Nat.mul_add] at this
  omega

end Jxl.Passes
