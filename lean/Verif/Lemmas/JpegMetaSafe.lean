import Verif.Lemmas.JpegMetaDetect
/-!
# Rebuilding metadata from any data stays within the segments
-/
namespace Jxl.JpegMeta

/-- No undefined behaviour, and a result that is not refused is as `Q` says. -/
def Ens (Q : β → Prop) : Option (Option β) → Prop
  | none => False
  | some none => True
  | some (some b) => Q b

theorem Ens.of_load {Q : β → Prop} {k : Nat → Option (Option β)} (h : i < m.length)
    (hk : ∀ b, m[i]? = some b → Ens Q (k b)) : Ens Q (load m i k) := by
  unfold load
  cases hm : m[i]? with
  | none => rw [List.getElem?_eq_none_iff] at hm; omega
  | some b => exact hk b hm

/-- Placing bytes that are not the length leaves a segment a segment. -/
theorem Ens.of_place {Q : β → Prop} {k : List Nat → Option (Option β)} (hs : Segment m)
    (hi : (i = 0 ∧ xs.length = 1) ∨ 3 ≤ i) (hl : i + xs.length ≤ m.length)
    (hk : ∀ m', Segment m' → m'.length = m.length → Ens Q (k m')) : Ens Q (place m i xs k) := by
  unfold place
  rw [if_neg (by omega)]
  obtain ⟨t, hi', lo, d, rfl, h1, h2, h3⟩ := hs
  apply hk
  · rcases hi with ⟨rfl, hx⟩ | hi
    · match xs, hx with
      | [x], _ => exact ⟨x, hi', lo, d, rfl, h1, h2, h3⟩
    · obtain ⟨j, rfl⟩ : ∃ j, i = j + 1 + 1 + 1 := ⟨i - 3, by omega⟩
      refine ⟨t, hi', lo, d.take j ++ (xs ++ d.drop (j + xs.length)), ?_, h1, h2, ?_⟩
      · simp only [List.take_succ_cons, List.cons_append]
        rw [show j + 1 + 1 + 1 + xs.length = j + xs.length + 1 + 1 + 1 by omega]
        simp only [List.drop_succ_cons]
      · simp only [List.length_cons, List.length_append, List.length_take, List.length_drop] at hl ⊢
        omega
  · simp only [List.length_append, List.length_take, List.length_drop]; omega

theorem Ens.of_brRead {Q : β → Prop} {k : List Nat → List Nat → Option (Option β)} (hb : ∀ b ∈ data, b < 256)
    (hk : ∀ m rest, m.length = n → (∀ b ∈ m, b < 256) → (∀ b ∈ rest, b < 256) → data = m ++ rest → Ens Q (k m rest)) :
    Ens Q (brRead n data k) := by
  unfold brRead
  split
  · trivial
  · refine hk _ _ ?_ (fun b h => hb b (List.mem_of_mem_take h)) (fun b h => hb b (List.mem_of_mem_drop h))
      (List.take_append_drop n data).symm
    rw [List.length_take]; omega

theorem Ens.of_sizeCheck {Q : β → Prop} {k : Option (Option β)} (hl : 3 ≤ m.length) (hb : ∀ b ∈ m, b < 256)
    (hk : Segment m → Ens Q k) : Ens Q (sizeCheck m k) := by
  match m, hl with
  | t :: hi :: lo :: d, _ =>
    simp only [sizeCheck, load, List.getElem?_cons_zero, List.getElem?_cons_succ]
    split
    · trivial
    · rename_i h
      have h' : hi * 256 + lo = d.length + 2 := by
        rw [List.length_cons, List.length_cons, List.length_cons] at h; omega
      exact hk ⟨t, hi, lo, d, rfl, hb hi (by simp), hb lo (by simp), h'⟩

/-- The length field of an empty segment. -/
theorem Ens.of_header {Q : β → Prop} {k : List Nat → Option (Option β)} (h2 : 3 ≤ size) (h3 : size ≤ 65536)
    (hk : ∀ m, Segment m → m.length = size → Ens Q (k m)) :
    Ens Q (place (List.replicate size 0) 1 [((size - 1) >>> 8) % 256, (size - 1) % 256] k) := by
  unfold place
  rw [if_neg (by simp only [List.length_replicate, List.length_cons, List.length_nil]; omega)]
  apply hk
  · obtain ⟨j, rfl⟩ : ∃ j, size = j + 3 := ⟨size - 3, by omega⟩
    refine ⟨0, ((j + 3 - 1) >>> 8) % 256, (j + 3 - 1) % 256, List.replicate j 0, rfl, ?_, ?_, ?_⟩
    · exact Nat.mod_lt _ (by decide)
    · exact Nat.mod_lt _ (by decide)
    · rw [List.length_replicate, Nat.shiftRight_eq_div_pow]; omega
  · simp only [List.length_append, List.length_take, List.length_drop, List.length_replicate, List.length_cons, List.length_nil]
    omega

theorem Ens.of_fill {Q : β → Prop} (app : List (Nat × Nat)) (h : ∀ a ∈ app, a.1 < 4 ∧ 3 ≤ a.2 ∧ a.2 ≤ 65536)
    (n : Nat) (data : List Nat) (hb : ∀ b ∈ data, b < 256)
    (k : List (List Nat) → Nat → List Nat → Option (Option β))
    (hk : ∀ ms n data', ms.map List.length = app.map Prod.snd → (∀ m ∈ ms, Segment m) → (∀ b ∈ data', b < 256) →
      (∀ a ∈ app, a.1 = 1 → 17 ≤ a.2) → data = (untyped ms (app.map Prod.fst)).flatten ++ data' → Ens Q (k ms n data')) :
    Ens Q (fill app n data k) := by
  induction app generalizing n data k with
  | nil => exact hk [] n data rfl (fun m h => (by cases h)) hb (fun m h => (by cases h)) rfl
  | cons a rest ih =>
    obtain ⟨t, size⟩ := a
    obtain ⟨h1, h2, h3⟩ := h _ List.mem_cons_self
    dsimp only at h1 h2 h3
    have ih := ih (fun a ha => h a (List.mem_cons_of_mem _ ha))
    -- what remains once a segment of this size is there
    have go : ∀ (m : List Nat) n' data', Segment m → m.length = size → (∀ b ∈ data', b < 256) → (t = 1 → 17 ≤ size) →
        data = (if t = 0 then m else []) ++ data' →
        Ens Q (fill rest n' data' fun ms n data => k (m :: ms) n data) := by
      intro m n' data' hm hml hd ht hcat
      apply ih _ _ hd
      intro ms n'' d'' g1 g2 g3 g4 g5
      refine hk _ _ _ (by rw [List.map_cons, List.map_cons, g1, hml]) ?_ g3 ?_ ?_
      rotate_left
      rotate_left
      · rw [hcat, g5, List.map_cons, untyped]
        split
        · rw [List.flatten_cons, List.append_assoc]
        · rw [List.nil_append]
      · intro x hx
        rcases List.mem_cons.mp hx with rfl | hx
        · exact hm
        · exact g2 x hx
      · intro a ha
        rcases List.mem_cons.mp ha with rfl | ha
        · exact ht
        · exact g4 a ha
    rw [fill, if_neg (by omega)]
    split
    · refine Ens.of_header h2 h3 fun m hseg hlen => ?_
      split
      · split
        · trivial
        · rename_i h17
          refine Ens.of_place (i := 0) (xs := [0xE2]) hseg (Or.inl ⟨rfl, rfl⟩) (by rw [hlen]; simp only [List.length_cons, List.length_nil]; omega) fun m1 s1 l1 => ?_
          refine Ens.of_place s1 (Or.inr (by decide)) (by
            rw [l1, hlen]; simp only [iccTag, List.length_cons, List.length_nil]; omega) fun m2 s2 l2 => ?_
          refine Ens.of_place s2 (Or.inr (by decide)) (by
            rw [l2, l1, hlen]; simp only [List.length_cons, List.length_nil]; omega) fun m3 s3 l3 => ?_
          exact go m3 _ _ s3 (by rw [l3, l2, l1, hlen]) hb (fun _ => by omega) (by rw [if_neg (by assumption), List.nil_append])
      · rename_i ht
        exact go _ _ _ hseg hlen hb (fun h => absurd h ht) (by rw [if_neg (by assumption), List.nil_append])
    · rename_i ht
      have ht : t = 0 := Decidable.of_not_not ht
      refine Ens.of_brRead hb fun m rest' hml hbm hbr hcat => ?_
      refine Ens.of_sizeCheck (by omega) hbm fun hseg => ?_
      exact go m _ _ hseg hml hbr (fun h => by omega) (by rw [if_pos ht, hcat])

theorem Ens.of_finishOne {Q : β → Prop} {k : List Nat → Option (Option β)} (hm : Segment m) (h1 : t = 1 → 17 ≤ m.length)
    (hk : ∀ m', Segment m' → m'.length = m.length → (t = 0 → m' = m) → Ens Q (k m')) : Ens Q (finishOne t n m k) := by
  unfold finishOne
  split
  · rename_i h
    exact Ens.of_place hm (Or.inr (by decide)) (by have := h1 h; simp only [List.length_cons, List.length_nil]; omega)
      fun m' s' l' => hk m' s' l' (by omega)
  · split
    · split
      · trivial
      · refine Ens.of_place hm (Or.inl ⟨rfl, rfl⟩) (by simp only [List.length_cons, List.length_nil]; omega) fun m1 s1 l1 => ?_
        exact Ens.of_place s1 (Or.inr (by decide)) (by rw [l1]; simp only [exifTag, List.length_cons, List.length_nil]; omega)
          fun m2 s2 l2 => hk m2 s2 (by omega) (by omega)
    · split
      · split
        · trivial
        · refine Ens.of_place hm (Or.inl ⟨rfl, rfl⟩) (by simp only [List.length_cons, List.length_nil]; omega) fun m1 s1 l1 => ?_
          exact Ens.of_place s1 (Or.inr (by decide)) (by rw [l1]; simp only [xmpTag, List.length_cons, List.length_nil]; omega)
            fun m2 s2 l2 => hk m2 s2 (by omega) (by omega)
      · exact hk m hm rfl (fun _ => rfl)

/-- Segments of given sizes. -/
def Sized (app : List (Nat × Nat)) (ms : List (List Nat)) : Prop :=
  ms.map List.length = app.map Prod.snd ∧ ∀ m ∈ ms, Segment m

theorem Sized.uncons (h : Sized (a :: app) ms) :
    ∃ m rest, ms = m :: rest ∧ m.length = a.2 ∧ Segment m ∧ Sized app rest := by
  obtain ⟨h1, h2⟩ := h
  match ms, h1 with
  | m :: rest, h1 =>
    rw [List.map_cons, List.map_cons] at h1
    injection h1 with h1 h3
    exact ⟨m, rest, rfl, h1, h2 m List.mem_cons_self, h3, fun x hx => h2 x (List.mem_cons_of_mem _ hx)⟩

theorem Sized.cons (hl : m.length = a.2) (hm : Segment m) (h : Sized app rest) : Sized (a :: app) (m :: rest) := by
  refine ⟨by rw [List.map_cons, List.map_cons, hl, h.1], ?_⟩
  intro x hx
  rcases List.mem_cons.mp hx with rfl | hx
  · exact hm
  · exact h.2 x hx

theorem Sized.nil (h : Sized [] ms) : ms = [] := by
  obtain ⟨h1, _⟩ := h
  simpa using h1

theorem untyped_cons (h : t = 0 → m' = m) (hr : untyped ms' ts = untyped ms ts) :
    untyped (m' :: ms') (t :: ts) = untyped (m :: ms) (t :: ts) := by
  simp only [untyped]
  split
  · rename_i h0; rw [h h0, hr]
  · exact hr

theorem Ens.of_finish {Q : β → Prop} (app : List (Nat × Nat)) (h1 : ∀ a ∈ app, a.1 = 1 → 17 ≤ a.2) (ms : List (List Nat))
    (hms : Sized app ms) (n : Nat) (k : List (List Nat) → Option (Option β))
    (hk : ∀ ms', Sized app ms' → untyped ms' (app.map Prod.fst) = untyped ms (app.map Prod.fst) → Ens Q (k ms')) :
    Ens Q (finish n (app.map Prod.fst) ms k) := by
  induction app generalizing ms k with
  | nil =>
    obtain rfl := hms.nil
    exact hk [] ⟨rfl, fun m h => (by cases h)⟩ rfl
  | cons a rest ih =>
    obtain ⟨m, ms', rfl, hl, hm, hr⟩ := hms.uncons
    rw [List.map_cons, finish]
    refine Ens.of_finishOne hm (fun h => hl ▸ h1 a List.mem_cons_self h) fun m' s' l' e' => ?_
    refine ih (fun a ha => h1 a (List.mem_cons_of_mem _ ha)) ms' hr _ fun ms'' h'' e'' => ?_
    exact hk _ (Sized.cons (l'.trans hl) s' h'') (untyped_cons e' e'')

theorem Ens.of_readComs {Q : β → Prop} (com : List Nat) (h : ∀ a ∈ com, 3 ≤ a) (data : List Nat) (hb : ∀ b ∈ data, b < 256)
    (k : List (List Nat) → List Nat → Option (Option β))
    (hk : ∀ ms rest, ms.map List.length = com → (∀ m ∈ ms, Segment m) → (∀ b ∈ rest, b < 256) →
      data = ms.flatten ++ rest → Ens Q (k ms rest)) :
    Ens Q (readComs com data k) := by
  induction com generalizing data k with
  | nil => exact hk [] data rfl (fun m h => (by cases h)) hb rfl
  | cons a rest ih =>
    rw [readComs]
    refine Ens.of_brRead hb fun m rest' hml hbm hbr hcat => ?_
    refine Ens.of_sizeCheck (by rw [hml]; exact h a List.mem_cons_self) hbm fun hseg => ?_
    refine ih (fun a ha => h a (List.mem_cons_of_mem _ ha)) _ hbr _ fun ms r g1 g2 g3 g4 => ?_
    refine hk _ _ (by rw [List.map_cons, g1, hml]) ?_ g3 (by rw [hcat, g4, List.flatten_cons, List.append_assoc])
    intro x hx
    rcases List.mem_cons.mp hx with rfl | hx
    · exact hseg
    · exact g2 x hx

theorem Ens.of_readPlain {Q : β → Prop} (ds : List Nat) (data : List Nat) (hb : ∀ b ∈ data, b < 256)
    (k : List (List Nat) → List Nat → Option (Option β))
    (hk : ∀ ms rest, ms.map List.length = ds → (∀ b ∈ rest, b < 256) → data = ms.flatten ++ rest → Ens Q (k ms rest)) :
    Ens Q (readPlain ds data k) := by
  induction ds generalizing data k with
  | nil => exact hk [] data rfl hb rfl
  | cons a rest ih =>
    rw [readPlain]
    refine Ens.of_brRead hb fun m rest' hml hbm hbr hcat => ?_
    exact ih _ hbr _ fun ms r g1 g2 g3 => hk _ _ (by rw [List.map_cons, g1, hml]) g2
      (by rw [hcat, g3, List.flatten_cons, List.append_assoc])

/-- The metadata have the sizes that were stored. -/
structure Fits (s : Stored) (m : Meta) : Prop where
  app : m.app.map List.length = s.app.map Prod.snd
  com : m.com.map List.length = s.com
  inter : m.inter.map List.length = s.inter
  tail : m.tail.length = s.tail
  data : s.data = (untyped m.app (s.app.map Prod.fst)).flatten ++ (m.com.flatten ++ (m.inter.flatten ++ m.tail))

theorem zip_fst_snd (l : List (α × β)) : List.zip (l.map Prod.fst) (l.map Prod.snd) = l := by
  induction l with
  | nil => rfl
  | cons a l ih => rw [List.map_cons, List.map_cons, List.zip_cons_cons, ih]

/-- What fits is what is stored of it. -/
theorem Fits.stored (h : Fits s m) : store m (s.app.map Prod.fst) = s := by
  cases s
  simp only [store, Stored.mk.injEq]
  exact ⟨by rw [h.app]; exact zip_fst_snd _, h.com, h.inter, h.tail, h.data.symm⟩

theorem decodeMeta_ens (s : Stored) (hw : s.WellFormed) (hb : ∀ b ∈ s.data, b < 256) :
    Ens (fun m => Fits s m ∧ m.WellFormed) (decodeMeta s) := by
  unfold decodeMeta
  refine Ens.of_fill s.app hw.app 0 s.data hb _ fun ms n data g1 g2 g3 g4 g5 => ?_
  refine Ens.of_finish s.app g4 ms ⟨g1, g2⟩ n _ fun app ha hu => ?_
  refine Ens.of_readComs s.com (fun a h => (hw.com a h).1) data g3 _ fun com data' c1 c2 c3 c4 => ?_
  refine Ens.of_readPlain s.inter data' c3 _ fun inter data'' i1 i2 i3 => ?_
  refine Ens.of_brRead i2 fun tail rest t1 _ _ t2 => ?_
  split
  · trivial
  · rename_i h0
    have h0 : rest = [] := Decidable.of_not_not h0
    subst h0
    refine ⟨⟨ha.1, c1, i1, t1, ?_⟩, ha.2, c2⟩
    rw [g5, c4, i3, t2, hu, List.append_nil]

theorem Ens.of_setIcc {Q : β → Prop} (icc : List Nat) (app : List (Nat × Nat)) (ms : List (List Nat)) (hms : Sized app ms)
    (pos : Nat) (k : List (List Nat) → Option (Option β))
    (hk : ∀ ms', Sized app ms' → untyped ms' (app.map Prod.fst) = untyped ms (app.map Prod.fst) → Ens Q (k ms')) :
    Ens Q (setIcc icc (app.map Prod.fst) ms pos k) := by
  induction app generalizing ms pos k with
  | nil =>
    obtain rfl := hms.nil
    rw [List.map_nil, setIcc]
    · split
      · trivial
      · exact hk [] ⟨rfl, fun m h => (by cases h)⟩ rfl
    · intro _ _ _ _ h; cases h
  | cons a rest ih =>
    obtain ⟨m, ms', rfl, hl, hm, hr⟩ := hms.uncons
    rw [List.map_cons, setIcc]
    split
    · exact ih ms' hr _ _ fun ms'' h'' e'' => hk _ (Sized.cons hl hm h'') (untyped_cons (fun _ => rfl) e'')
    · split
      · trivial
      · split
        · trivial
        · refine Ens.of_place hm (Or.inr (by decide)) (by rw [List.length_take, List.length_drop]; omega) fun m' s' l' => ?_
          exact ih ms' hr _ _ fun ms'' h'' e'' => hk _ (Sized.cons (l'.trans hl) s' h'') (untyped_cons (by omega) e'')

theorem Ens.of_setBox {Q : β → Prop} (t : Nat) (tag : List Nat) (skip : Nat) (box : List Nat)
    (app : List (Nat × Nat)) (ht0 : t ≠ 0) (hs : ∀ a ∈ app, a.1 = t → 3 + tag.length ≤ a.2) (ms : List (List Nat))
    (hms : Sized app ms) (k : List (List Nat) → Option (Option β))
    (hk : ∀ ms', Sized app ms' → untyped ms' (app.map Prod.fst) = untyped ms (app.map Prod.fst) → Ens Q (k ms')) :
    Ens Q (setBox t tag skip box (app.map Prod.fst) ms k) := by
  induction app generalizing ms k with
  | nil =>
    rw [hms.nil, List.map_nil, setBox]
    · trivial
    · intro _ _ _ _ h; cases h
  | cons a rest ih =>
    obtain ⟨m, ms', rfl, hl, hm, hr⟩ := hms.uncons
    rw [List.map_cons, setBox]
    split
    · exact ih (fun a ha => hs a (List.mem_cons_of_mem _ ha)) ms' hr _ fun ms'' h'' e'' =>
        hk _ (Sized.cons hl hm h'') (untyped_cons (fun _ => rfl) e'')
    · rename_i ht
      have hsz := hs a List.mem_cons_self (Decidable.of_not_not ht)
      split
      · trivial
      · rename_i hlen
        rw [if_neg (by omega)]
        refine Ens.of_place hm (Or.inl ⟨rfl, rfl⟩) (by simp only [List.length_cons, List.length_nil]; omega) fun m1 s1 l1 => ?_
        refine Ens.of_place s1 (Or.inr (by decide)) (by omega) fun m2 s2 l2 => ?_
        refine Ens.of_place s2 (Or.inr (by omega)) (by rw [List.length_drop]; omega) fun m3 s3 l3 => ?_
        exact hk _ (Sized.cons (by omega) s3 hr) (untyped_cons (by omega) rfl)

theorem boxSize_sizes (h : boxSize t tagLen skip app = some n) : ∀ a ∈ app, a.1 = t → 3 + tagLen ≤ a.2 := by
  intro a ha hat
  have hmem : a.2 ∈ sizesOf t app := by
    unfold sizesOf
    exact List.mem_map.mpr ⟨a, List.mem_filter.mpr ⟨ha, by simp [hat]⟩, rfl⟩
  unfold boxSize at h
  split at h
  · rename_i h0; rw [h0] at hmem; cases hmem
  · rename_i size h0
    rw [h0] at hmem
    split at h
    · cases h
    · rw [List.mem_singleton.mp hmem]; omega
  · cases h

theorem Ens.of_useBox {Q : β → Prop} (t : Nat) (tag : List Nat) (skip : Nat) (box : Option (List Nat))
    (app : List (Nat × Nat)) (ht0 : t ≠ 0) (ms : List (List Nat)) (hms : Sized app ms)
    (k : List (List Nat) → Option (Option β))
    (hk : ∀ ms', Sized app ms' → untyped ms' (app.map Prod.fst) = untyped ms (app.map Prod.fst) → Ens Q (k ms')) :
    Ens Q (useBox t tag skip app box ms k) := by
  unfold useBox
  split
  · trivial
  · exact hk ms hms rfl
  · rename_i hb
    split
    · trivial
    · exact Ens.of_setBox t tag skip _ app ht0 (boxSize_sizes hb) ms hms k hk

theorem rebuild_ens (s : Stored) (hw : s.WellFormed) (hb : ∀ b ∈ s.data, b < 256) (icc : List Nat)
    (exif xmp : Option (List Nat)) :
    Ens (fun m => Fits s m ∧ m.WellFormed) (rebuild s icc exif xmp) := by
  have hd := decodeMeta_ens s hw hb
  unfold rebuild
  cases h : decodeMeta s with
  | none => rw [h] at hd; exact hd
  | some r =>
    cases r with
    | none => trivial
    | some m =>
      rw [h] at hd
      obtain ⟨hf, hm⟩ := hd
      dsimp only
      refine Ens.of_setIcc icc s.app m.app ⟨hf.app, hm.app⟩ 0 _ fun a1 h1 e1 => ?_
      refine Ens.of_useBox 2 exifTag 4 exif s.app (by decide) a1 h1 _ fun a2 h2 e2 => ?_
      refine Ens.of_useBox 3 xmpTag 0 xmp s.app (by decide) a2 h2 _ fun a3 h3 e3 => ?_
      exact ⟨⟨h3.1, hf.com, hf.inter, hf.tail, by rw [hf.data, e3, e2, e1]⟩, h3.2, hm.com⟩

theorem iccStep_safe (app : List Nat) (n total : Nat) : iccStep app n total ≠ none := by
  unfold iccStep
  split
  · simp
  · rename_i h
    match app, h with
    | [], h => exact absurd (by decide) h
    | [_], h => exact absurd (by simp) h
    | [_, _], h => exact absurd (by simp) h
    | m :: hi :: lo :: d, _ =>
      simp only [load, List.getElem?_cons_zero, List.getElem?_cons_succ]
      split
      · simp
      · split
        · simp
        · rename_i hl
          split
          · simp
          · unfold iccChunk
            rw [if_neg (by simp only [List.length_cons] at hl ⊢; omega)]
            split
            · simp
            · simp only [load]
              have h15 : 15 < (m :: hi :: lo :: d).length := by simp only [List.length_cons] at hl ⊢; omega
              have h16 : 16 < (m :: hi :: lo :: d).length := by simp only [List.length_cons] at hl ⊢; omega
              rw [List.getElem?_eq_getElem h15, List.getElem?_eq_getElem h16]
              dsimp only
              split
              · simp
              · intro hh
                split at hh <;> split at hh <;> cases hh

theorem detectIcc_safe (apps : List (List Nat)) (n total : Nat) : detectIcc apps n total ≠ none := by
  induction apps generalizing n total with
  | nil => rw [detectIcc]; split <;> simp
  | cons a rest ih =>
    rw [detectIcc]
    have := iccStep_safe a n total
    split
    · contradiction
    · simp
    · split
      · rename_i h; exact absurd h (ih _ _)
      · simp
      · simp

end Jxl.JpegMeta
