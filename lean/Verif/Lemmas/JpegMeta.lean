import Verif.Spec.JpegMeta
/-!
# The metadata of a JPEG file are rebuilt
-/
namespace Jxl.JpegMeta

/-- Segments with their types, the parts of the profile (numbered from `n + 1` on to `total`), the Exif and the XMP data
they carry. -/
inductive Typed (total : Nat) :
    Nat → List (List Nat) → List Nat → List (List Nat) → List (List Nat) → List (List Nat) → Prop
  | nil : Typed total total [] [] [] [] []
  | plain : Segment app → Typed total n apps ts cs es xs → Typed total n (app :: apps) (0 :: ts) cs es xs
  | icc : Segment (0xE2 :: hi :: lo :: (iccTag ++ ((n + 1) :: total :: c))) → Typed total (n + 1) apps ts cs es xs →
      Typed total n ((0xE2 :: hi :: lo :: (iccTag ++ ((n + 1) :: total :: c))) :: apps) (1 :: ts) (c :: cs) es xs
  | exif : Segment (0xE1 :: hi :: lo :: (exifTag ++ e)) → Typed total n apps ts cs es xs →
      Typed total n ((0xE1 :: hi :: lo :: (exifTag ++ e)) :: apps) (2 :: ts) cs (e :: es) xs
  | xmp : Segment (0xE1 :: hi :: lo :: (xmpTag ++ x)) → Typed total n apps ts cs es xs →
      Typed total n ((0xE1 :: hi :: lo :: (xmpTag ++ x)) :: apps) (3 :: ts) cs es (x :: xs)

theorem Typed.le {total : Nat} (h : Typed total n apps ts cs es xs) : n ≤ total := by
  induction h with
  | nil => exact Nat.le_refl _
  | icc _ _ ih => omega
  | _ => assumption

/-- The first `k` bytes, the others zero. -/
def upTo (k : Nat) (app : List Nat) : List Nat := app.take k ++ List.replicate (app.length - k) 0

/-- After the first loop. -/
def mask1 (t : Nat) (app : List Nat) : List Nat :=
  if t = 1 then upTo 16 app else if t = 0 then app else 0 :: upTo 2 (app.drop 1)

/-- After the second loop. -/
def mask2 (t : Nat) (app : List Nat) : List Nat :=
  if t = 1 then upTo 17 app else if t = 2 then upTo 9 app else if t = 3 then upTo 32 app else app

/-- After the injection of the profile. -/
def mask3 (t : Nat) (app : List Nat) : List Nat :=
  if t = 2 then upTo 9 app else if t = 3 then upTo 32 app else app

/-- After the injection of the Exif data. -/
def mask4 (t : Nat) (app : List Nat) : List Nat := if t = 3 then upTo 32 app else app

theorem segment_bytes {seg : List Nat} (h : Segment (m :: hi :: lo :: data)) :
    hi < 256 ∧ lo < 256 ∧ hi * 256 + lo = data.length + 2 := by
  obtain ⟨m', hi', lo', d', h, h1, h2, h3⟩ := h
  cases h
  exact ⟨h1, h2, h3⟩

theorem size_bytes {hi lo n : Nat} (h1 : hi < 256) (h2 : lo < 256) (h3 : hi * 256 + lo = n + 2) :
    ((n + 3 - 1) >>> 8) % 256 = hi ∧ (n + 3 - 1) % 256 = lo := by
  rw [Nat.shiftRight_eq_div_pow]
  omega

theorem or_size {hi lo : Nat} (h2 : lo < 256) : (hi <<< 8 ||| lo) = hi * 256 + lo := by
  rw [← Nat.shiftLeft_add_eq_or_of_lt (by exact h2), Nat.shiftLeft_eq]

theorem place_at (a b c xs : List Nat) (k : List Nat → Option (Option β)) (h : xs.length = b.length) :
    place (a ++ (b ++ c)) a.length xs k = k (a ++ (xs ++ c)) := by
  unfold place
  rw [if_neg (by simp only [List.length_append]; omega), List.take_left' rfl, List.drop_append,
    List.drop_of_length_le (by omega), List.nil_append, h, Nat.add_sub_cancel_left, List.drop_left' rfl]

theorem place_cons (x : Nat) (m xs : List Nat) (k : List Nat → Option (Option β)) :
    place (x :: m) (i + 1) xs k = place m i xs fun m => k (x :: m) := by
  unfold place
  simp only [List.length_cons, List.take_succ_cons, List.cons_append]
  rw [show i + 1 + xs.length = i + xs.length + 1 by omega, List.drop_succ_cons]
  by_cases h : m.length < i + xs.length
  · rw [if_pos (by omega), if_pos h]
  · rw [if_neg (by omega), if_neg h]

theorem replicate_more (j : Nat) (h : j ≤ n) :
    List.replicate n 0 = List.replicate j 0 ++ List.replicate (n - j) 0 := by
  rw [List.replicate_append_replicate]
  congr 1; omega

/-- One segment of the profile in the first loop. -/
theorem place_icc {hi lo i : Nat} (c : List Nat) (k : List Nat → Option (Option β)) :
    (place (List.replicate (17 + c.length) 0) 1 [hi, lo] fun m =>
      place m 0 [0xE2] fun m => place m 3 iccTag fun m => place m 15 [i] k)
      = k (upTo 16 (0xE2 :: hi :: lo :: (iccTag ++ (i :: total :: c)))) := by
  have e : List.replicate (17 + c.length) 0
      = 0 :: 0 :: 0 :: (List.replicate 12 0 ++ (0 :: 0 :: List.replicate c.length 0)) := by
    rw [show 17 + c.length = 3 + (12 + (2 + c.length)) by omega]
    rw [← List.replicate_append_replicate, ← List.replicate_append_replicate (n := 12), ← List.replicate_append_replicate (n := 2)]
    rfl
  rw [e]
  rfl
/-- A segment of the Exif or XMP data in the first loop. -/
theorem place_size {hi lo m : Nat} (c : List Nat) (k : List Nat → Option (Option β)) :
    place (List.replicate (3 + c.length) 0) 1 [hi, lo] k = k (0 :: upTo 2 ((m :: hi :: lo :: c).drop 1)) := by
  have e : List.replicate (3 + c.length) 0 = 0 :: 0 :: 0 :: List.replicate c.length 0 := by
    rw [← List.replicate_append_replicate]; rfl
  rw [e]
  rfl

theorem fill_typed (h : Typed total n apps ts cs es xs) (ht : total < 256) (data : List Nat)
    (k : List (List Nat) → Nat → List Nat → Option (Option β)) :
    fill (List.zip ts (apps.map List.length)) n ((untyped apps ts).flatten ++ data) k
      = k (List.zipWith mask1 ts apps) total data := by
  induction h generalizing k with
  | nil => rfl
  | @plain app n apps ts cs es xs hs _ ih =>
    obtain ⟨m, hi, lo, d, rfl, h1, h2, h3⟩ := hs
    simp only [List.map_cons, List.zip_cons_cons, untyped, if_true, List.flatten_cons, List.append_assoc]
    rw [fill, if_neg (by simp only [List.length_cons]; omega), if_neg (by simp), brRead,
      if_neg (by simp only [List.length_append]; omega), List.take_left' rfl, List.drop_left' rfl]
    simp only [sizeCheck, load, List.getElem?_cons_succ, List.getElem?_cons_zero]
    rw [if_neg (by simp only [List.length_cons]; omega), ih]
    rfl
  | @icc hi lo n c apps ts cs es xs hs hrest ih =>
    have hle := hrest.le
    obtain ⟨h1, h2, h3⟩ := segment_bytes (seg := []) hs
    have hlen : (0xE2 :: hi :: lo :: (iccTag ++ ((n + 1) :: total :: c))).length = 17 + c.length := by
      simp only [List.length_cons, List.length_append, iccTag, List.length_nil]; omega
    have hlen' : (iccTag ++ ((n + 1) :: total :: c)).length = 14 + c.length := by
      simp only [List.length_cons, List.length_append, iccTag, List.length_nil]; omega
    rw [hlen'] at h3
    obtain ⟨e1, e2⟩ := size_bytes h1 h2 h3
    rw [show 14 + c.length + 3 = 17 + c.length by omega] at e1 e2
    simp only [List.map_cons, List.zip_cons_cons, untyped, if_neg (show ¬ (1 : Nat) = 0 by decide), hlen]
    rw [fill, if_neg (by omega), if_pos (by decide), e1, e2, Nat.mod_eq_of_lt (show n + 1 < 256 by omega)]
    simp only [if_true, if_neg (show ¬ 17 + c.length < 17 by omega)]
    rw [place_icc (total := total), ih]
    rfl
  | @exif hi lo e n apps ts cs es xs hs hrest ih =>
    obtain ⟨h1, h2, h3⟩ := segment_bytes (seg := []) hs
    obtain ⟨e1, e2⟩ := size_bytes h1 h2 h3
    simp only [List.map_cons, List.zip_cons_cons, untyped, if_neg (show ¬ (2 : Nat) = 0 by decide), List.length_cons,
      Nat.add_assoc, Nat.reduceAdd]
    rw [fill, if_neg (by omega), if_pos (by decide), e1, e2]
    simp only [if_neg (show ¬ (2 : Nat) = 1 by decide)]
    rw [Nat.add_comm, place_size (m := 0xE1), ih]
    rfl
  | @xmp hi lo e n apps ts cs es xs hs hrest ih =>
    obtain ⟨h1, h2, h3⟩ := segment_bytes (seg := []) hs
    obtain ⟨e1, e2⟩ := size_bytes h1 h2 h3
    simp only [List.map_cons, List.zip_cons_cons, untyped, if_neg (show ¬ (3 : Nat) = 0 by decide), List.length_cons,
      Nat.add_assoc, Nat.reduceAdd]
    rw [fill, if_neg (by omega), if_pos (by decide), e1, e2]
    simp only [if_neg (show ¬ (3 : Nat) = 1 by decide)]
    rw [Nat.add_comm, place_size (m := 0xE1), ih]
    rfl

theorem finish_typed (h : Typed total n apps ts cs es xs) (ht : total < 256)
    (k : List (List Nat) → Option (Option β)) :
    finish total ts (List.zipWith mask1 ts apps) k = k (List.zipWith mask2 ts apps) := by
  induction h generalizing k with
  | nil => rfl
  | plain hs _ ih =>
    simp only [List.zipWith_cons_cons, finish, finishOne, if_neg (show ¬ (0 : Nat) = 1 by decide),
      if_neg (show ¬ (0 : Nat) = 2 by decide), if_neg (show ¬ (0 : Nat) = 3 by decide)]
    rw [ih]; rfl
  | @icc hi lo n c apps ts cs es xs hs hrest ih =>
    simp only [List.zipWith_cons_cons, finish, finishOne, if_true]
    rw [Nat.mod_eq_of_lt ht]
    simp only [ih]
    rfl
  | @exif hi lo e n apps ts cs es xs hs hrest ih =>
    simp only [List.zipWith_cons_cons, finish, finishOne, if_neg (show ¬ (2 : Nat) = 1 by decide), if_true, ih]
    have e0 : mask1 2 (0xE1 :: hi :: lo :: (exifTag ++ e))
        = 0 :: hi :: lo :: (List.replicate 6 0 ++ List.replicate e.length 0) := by
      have : (exifTag ++ e).length = 6 + e.length := by simp [exifTag]; omega
      rw [List.replicate_append_replicate, ← this]; rfl
    rw [e0, if_neg (by simp only [List.length_cons, List.length_append, List.length_replicate]; omega)]
    have e1 : mask2 2 (0xE1 :: hi :: lo :: (exifTag ++ e)) = 0xE1 :: hi :: lo :: (exifTag ++ List.replicate e.length 0) := rfl
    rw [e1]
    rfl
  | @xmp hi lo e n apps ts cs es xs hs hrest ih =>
    simp only [List.zipWith_cons_cons, finish, finishOne, if_neg (show ¬ (3 : Nat) = 1 by decide),
      if_neg (show ¬ (3 : Nat) = 2 by decide), if_true, ih]
    have e0 : mask1 3 (0xE1 :: hi :: lo :: (xmpTag ++ e))
        = 0 :: hi :: lo :: (List.replicate 29 0 ++ List.replicate e.length 0) := by
      have : (xmpTag ++ e).length = 29 + e.length := by simp [xmpTag]; omega
      rw [List.replicate_append_replicate, ← this]; rfl
    rw [e0, if_neg (by simp only [List.length_cons, List.length_append, List.length_replicate]; omega)]
    have e1 : mask2 3 (0xE1 :: hi :: lo :: (xmpTag ++ e)) = 0xE1 :: hi :: lo :: (xmpTag ++ List.replicate e.length 0) := rfl
    rw [e1]
    rfl

theorem mask2_icc : mask2 1 (0xE2 :: hi :: lo :: (iccTag ++ (i :: total :: c)))
    = (0xE2 :: hi :: lo :: (iccTag ++ [i, total])) ++ (List.replicate c.length 0 ++ []) := by
  rw [List.append_nil]; rfl

theorem setIcc_typed (h : Typed total n apps ts cs es xs) (icc pre : List Nat) (k : List (List Nat) → Option (Option β))
    (hicc : icc = pre ++ cs.flatten ∨ (pre = [] ∧ cs.flatten = [])) :
    setIcc icc ts (List.zipWith mask2 ts apps) pre.length k = k (List.zipWith mask3 ts apps) := by
  induction h generalizing k pre with
  | nil =>
    simp only [List.zipWith_nil_left, setIcc]
    rw [if_neg]
    rintro ⟨h1, h2⟩
    rcases hicc with rfl | ⟨rfl, _⟩
    · simp at h1
    · simp at h2
  | plain hs _ ih =>
    simp only [List.zipWith_cons_cons, setIcc, ne_eq, if_pos (show ¬ (0 : Nat) = 1 by decide)]
    rw [ih pre _ hicc]; rfl
  | @icc hi lo n c apps ts cs es xs hs hrest ih =>
    simp only [List.zipWith_cons_cons, setIcc, ne_eq, not_true_eq_false, if_false]
    have hl : (mask2 1 (0xE2 :: hi :: lo :: (iccTag ++ ((n + 1) :: total :: c)))).length = 17 + c.length := by
      rw [mask2_icc, List.append_nil]
      simp only [List.length_append, List.length_cons, List.length_replicate, iccTag, List.length_nil]
    rw [hl, Nat.add_sub_cancel_left, if_neg (by omega), mask2_icc]
    have h17 : 17 = (0xE2 :: hi :: lo :: (iccTag ++ [n + 1, total])).length := by
      simp only [List.length_append, List.length_cons, iccTag, List.length_nil]
    rcases hicc with rfl | ⟨rfl, h0⟩
    · rw [if_neg (by simp only [List.length_append, List.flatten_cons]; omega),
        if_neg (by simp only [List.length_append, List.flatten_cons]; omega), List.drop_left' rfl, List.flatten_cons,
        List.take_left' rfl]
      conv => lhs; rw [h17]
      rw [place_at _ _ _ _ _ (by rw [List.length_replicate])]
      have := ih (pre ++ c) (fun ms => k (((0xE2 :: hi :: lo :: (iccTag ++ [n + 1, total])) ++ (c ++ [])) :: ms))
        (Or.inl (by rw [List.append_assoc, List.flatten_cons]))
      rw [List.length_append, List.flatten_cons] at this
      rw [this, List.append_nil]
      rfl
    · have hc : c = [] := by
        rw [List.flatten_cons] at h0
        exact (List.append_eq_nil_iff.mp h0).1
      subst hc
      rw [if_neg (by simp only [List.length_nil]; omega), if_neg (by simp only [List.length_nil]; omega), List.length_nil,
        List.take_zero]
      conv => lhs; rw [h17]
      rw [place_at _ _ _ _ _ (by rfl)]
      exact ih [] _ (Or.inr ⟨rfl, by simpa using h0⟩)
  | exif hs hrest ih =>
    simp only [List.zipWith_cons_cons, setIcc, ne_eq, if_pos (show ¬ (2 : Nat) = 1 by decide)]
    rw [ih pre _ hicc]; rfl
  | xmp hs hrest ih =>
    simp only [List.zipWith_cons_cons, setIcc, ne_eq, if_pos (show ¬ (3 : Nat) = 1 by decide)]
    rw [ih pre _ hicc]; rfl

theorem mask34_same (h : Typed total n apps ts cs [] xs) :
    List.zipWith mask3 ts apps = List.zipWith mask4 ts apps := by
  generalize he : ([] : List (List Nat)) = es at h
  induction h with
  | nil => rfl
  | exif => cases he
  | _ => rename_i ih; simp only [List.zipWith_cons_cons, ih he]; rfl

theorem mask4_same (h : Typed total n apps ts cs es []) : List.zipWith mask4 ts apps = apps := by
  generalize he : ([] : List (List Nat)) = xs at h
  induction h with
  | nil => rfl
  | xmp => cases he
  | _ => rename_i ih; simp only [List.zipWith_cons_cons, ih he]; rfl

theorem exif_typed (h : Typed total n apps ts cs [e] xs) (k : List (List Nat) → Option (Option β)) :
    setBox 2 exifTag 4 ([0, 0, 0, 0] ++ e) ts (List.zipWith mask3 ts apps) k = k (List.zipWith mask4 ts apps) := by
  generalize he : [e] = es at h
  induction h generalizing k with
  | nil => cases he
  | plain hs _ ih =>
    simp only [List.zipWith_cons_cons, setBox, ne_eq, if_pos (show ¬ (0 : Nat) = 2 by decide)]
    rw [ih _ he]; rfl
  | icc hs _ ih =>
    simp only [List.zipWith_cons_cons, setBox, ne_eq, if_pos (show ¬ (1 : Nat) = 2 by decide)]
    rw [ih _ he]; rfl
  | xmp hs _ ih =>
    simp only [List.zipWith_cons_cons, setBox, ne_eq, if_pos (show ¬ (3 : Nat) = 2 by decide)]
    rw [ih _ he]; rfl
  | @exif hi lo e' n apps ts cs es xs hs hrest ih =>
    cases he
    rw [List.zipWith_cons_cons, List.zipWith_cons_cons, ← mask34_same hrest]
    have e1 : mask3 2 (0xE1 :: hi :: lo :: (exifTag ++ e))
        = (0xE1 :: hi :: lo :: exifTag) ++ (List.replicate e.length 0 ++ []) := by
      rw [List.append_nil]; rfl
    rw [setBox, if_neg (by simp), if_neg (by
      rw [e1]; simp only [List.length_append, List.length_cons, List.length_replicate, exifTag, List.length_nil]; omega),
      if_neg (by simp only [List.length_append, List.length_cons]; omega), e1]
    have : ∀ kk : List Nat → Option (Option β), (place ((0xE1 :: hi :: lo :: exifTag) ++ (List.replicate e.length 0 ++ [])) 0 [0xE1] fun m =>
        place m 3 exifTag kk) = kk ((0xE1 :: hi :: lo :: exifTag) ++ (List.replicate e.length 0 ++ [])) := fun kk => rfl
    rw [this]
    have h9 : 3 + exifTag.length = (0xE1 :: hi :: lo :: exifTag).length := by simp [exifTag]
    have hd4 : ([0, 0, 0, 0] ++ e).drop 4 = e := rfl
    rw [h9, hd4, place_at _ _ _ _ _ (by rw [List.length_replicate]),
      List.append_nil]
    rfl

theorem xmp_typed (h : Typed total n apps ts cs es [x]) (k : List (List Nat) → Option (Option β)) :
    setBox 3 xmpTag 0 x ts (List.zipWith mask4 ts apps) k = k apps := by
  generalize he : [x] = xs at h
  induction h generalizing k with
  | nil => cases he
  | plain hs _ ih =>
    simp only [List.zipWith_cons_cons, setBox, ne_eq, if_pos (show ¬ (0 : Nat) = 3 by decide)]
    rw [ih _ he]; rfl
  | icc hs _ ih =>
    simp only [List.zipWith_cons_cons, setBox, ne_eq, if_pos (show ¬ (1 : Nat) = 3 by decide)]
    rw [ih _ he]; rfl
  | exif hs _ ih =>
    simp only [List.zipWith_cons_cons, setBox, ne_eq, if_pos (show ¬ (2 : Nat) = 3 by decide)]
    rw [ih _ he]; rfl
  | @xmp hi lo e' n apps ts cs es xs hs hrest ih =>
    cases he
    rw [List.zipWith_cons_cons, mask4_same hrest]
    have e1 : mask4 3 (0xE1 :: hi :: lo :: (xmpTag ++ x))
        = (0xE1 :: hi :: lo :: xmpTag) ++ (List.replicate x.length 0 ++ []) := by
      rw [List.append_nil]; rfl
    rw [setBox, if_neg (by simp), if_neg (by
      rw [e1]; simp only [List.length_append, List.length_cons, List.length_replicate, xmpTag, List.length_nil]; omega),
      if_neg (by omega), e1]
    have : ∀ kk : List Nat → Option (Option β), (place ((0xE1 :: hi :: lo :: xmpTag) ++ (List.replicate x.length 0 ++ [])) 0 [0xE1] fun m =>
        place m 3 xmpTag kk) = kk ((0xE1 :: hi :: lo :: xmpTag) ++ (List.replicate x.length 0 ++ [])) := fun kk => rfl
    rw [this]
    have h9 : 3 + xmpTag.length = (0xE1 :: hi :: lo :: xmpTag).length := by simp [xmpTag]
    rw [h9, List.drop_zero, place_at _ _ _ _ _ (by rw [List.length_replicate]), List.append_nil]
    rfl

/-- An empty XMP segment needs no box. -/
theorem xmp_empty (h : Typed total n apps ts cs es [[]]) : List.zipWith mask4 ts apps = apps := by
  generalize he : [[]] = xs at h
  induction h with
  | nil => cases he
  | @xmp hi lo x n apps ts cs es xs hs hrest ih =>
    cases he
    rw [List.zipWith_cons_cons, mask4_same hrest]
    rfl
  | _ => rename_i ih; simp only [List.zipWith_cons_cons, ih he]; rfl

theorem sizes_exif (h : Typed total n apps ts cs es xs) :
    sizesOf 2 (List.zip ts (apps.map List.length)) = es.map fun e => 9 + e.length := by
  induction h with
  | nil => rfl
  | exif hs _ ih =>
    simp only [List.map_cons, List.zip_cons_cons, sizesOf] at ih ⊢
    rw [List.filter_cons_of_pos (by rfl), List.map_cons, ih]
    congr 1
    simp only [List.length_cons, List.length_append, exifTag, List.length_nil]; omega
  | _ =>
    rename_i ih
    simp only [List.map_cons, List.zip_cons_cons, sizesOf] at ih ⊢
    rw [List.filter_cons_of_neg (by simp), ih]

theorem sizes_xmp (h : Typed total n apps ts cs es xs) :
    sizesOf 3 (List.zip ts (apps.map List.length)) = xs.map fun e => 32 + e.length := by
  induction h with
  | nil => rfl
  | xmp hs _ ih =>
    simp only [List.map_cons, List.zip_cons_cons, sizesOf] at ih ⊢
    rw [List.filter_cons_of_pos (by rfl), List.map_cons, ih]
    congr 1
    simp only [List.length_cons, List.length_append, xmpTag, List.length_nil]; omega
  | _ =>
    rename_i ih
    simp only [List.map_cons, List.zip_cons_cons, sizesOf] at ih ⊢
    rw [List.filter_cons_of_neg (by simp), ih]

theorem Typed.lengths (h : Typed total n apps ts cs es xs) : ts.length = apps.length := by
  induction h with
  | nil => rfl
  | _ => rename_i ih; simp only [List.length_cons, ih]

theorem readComs_back (coms : List (List Nat)) (h : ∀ a ∈ coms, Segment a) (data : List Nat)
    (k : List (List Nat) → List Nat → Option (Option β)) :
    readComs (coms.map List.length) (coms.flatten ++ data) k = k coms data := by
  induction coms generalizing k with
  | nil => rfl
  | cons c rest ih =>
    obtain ⟨m, hi, lo, d, rfl, h1, h2, h3⟩ := h c List.mem_cons_self
    simp only [List.map_cons, List.flatten_cons, List.append_assoc]
    rw [readComs, brRead, if_neg (by simp only [List.length_append]; omega), List.take_left' rfl, List.drop_left' rfl]
    simp only [sizeCheck, load, List.getElem?_cons_succ, List.getElem?_cons_zero]
    rw [if_neg (by simp only [List.length_cons]; omega), ih (fun a ha => h a (List.mem_cons_of_mem _ ha))]

theorem readPlain_back (ds : List (List Nat)) (data : List Nat)
    (k : List (List Nat) → List Nat → Option (Option β)) :
    readPlain (ds.map List.length) (ds.flatten ++ data) k = k ds data := by
  induction ds generalizing k with
  | nil => rfl
  | cons c rest ih =>
    simp only [List.map_cons, List.flatten_cons, List.append_assoc]
    rw [readPlain, brRead, if_neg (by simp only [List.length_append]; omega), List.take_left' rfl, List.drop_left' rfl, ih]

theorem zip_fst (h : Typed total n apps ts cs es xs) : (List.zip ts (apps.map List.length)).map Prod.fst = ts := by
  rw [List.map_fst_zip]
  rw [List.length_map, h.lengths]
  exact Nat.le_refl _

theorem boxSize_nil (h : sizesOf t app = []) : boxSize t tagLen skip app = some 0 := by
  unfold boxSize; rw [h]

theorem boxSize_one (h : sizesOf t app = [size]) (hs : 3 + tagLen ≤ size) :
    boxSize t tagLen skip app = some (size + skip - 3 - tagLen) := by
  unfold boxSize; rw [h]; dsimp only; rw [if_neg (by omega)]

theorem useBox_skip (h : boxSize t tag.length skip app = some 0) (k : List (List Nat) → Option (Option β)) :
    useBox t tag skip app box ms k = k ms := by
  unfold useBox; rw [h]; rfl

theorem useBox_set (h : boxSize t tag.length skip app = some n) (hn : n ≠ 0) (k : List (List Nat) → Option (Option β)) :
    useBox t tag skip app (some b) ms k = setBox t tag skip b (app.map Prod.fst) ms k := by
  unfold useBox; rw [h]
  cases n with
  | zero => exact absurd rfl hn
  | succ n => rfl

/-- Segments with types, and what goes with them: the metadata are rebuilt. -/
theorem rebuild_typed (m : Meta) (h : Typed total 0 m.app ts cs es xs) (ht : total < 256) (hcom : ∀ a ∈ m.com, Segment a)
    (hicc : icc = cs.flatten ∨ cs.flatten = [])
    (hexif : es = [] ∨ ∃ e, es = [e] ∧ exif = some ([0, 0, 0, 0] ++ e))
    (hxmp : xs = [] ∨ xs = [[]] ∨ ∃ x, xs = [x] ∧ xmp = some x) :
    rebuild (store m ts) icc exif xmp = some (some m) := by
  have hd : decodeMeta (store m ts) = some (some { m with app := List.zipWith mask2 ts m.app }) := by
    simp only [decodeMeta, store]
    rw [fill_typed h ht, zip_fst h, finish_typed h ht, readComs_back m.com hcom, readPlain_back, brRead,
      if_neg (by omega), List.take_length, List.drop_length, if_neg (by simp)]
  unfold rebuild
  rw [hd]
  dsimp only
  have hz : (store m ts).app.map Prod.fst = ts := zip_fst h
  rw [hz]
  have := setIcc_typed (β := Meta) h icc [] (fun a =>
    useBox 2 exifTag 4 (store m ts).app exif a fun a => useBox 3 xmpTag 0 (store m ts).app xmp a fun a =>
      some (some { m with app := a })) (by
        rcases hicc with h | h
        · exact Or.inl (by simpa using h)
        · exact Or.inr ⟨rfl, h⟩)
  rw [List.length_nil] at this
  rw [this]
  have hx : ∀ a : List (List Nat), a = List.zipWith mask4 ts m.app →
      useBox 3 xmpTag 0 (store m ts).app xmp a (fun a => some (some { m with app := a })) = some (some m) := by
    rintro a rfl
    have hsz : sizesOf 3 (store m ts).app = _ := sizes_xmp h
    rcases hxmp with rfl | rfl | ⟨x, rfl, rfl⟩
    · rw [useBox_skip (boxSize_nil hsz), mask4_same h]
    · rw [useBox_skip (boxSize_one hsz (by simp [xmpTag])), xmp_empty h]
    · by_cases hx0 : x = []
      · subst hx0
        rw [useBox_skip (boxSize_one hsz (by simp [xmpTag])), xmp_empty h]
      · have hx1 : 0 < x.length := List.length_pos_iff.mpr hx0
        rw [useBox_set (tag := xmpTag) (skip := 0) (boxSize_one hsz (by simp [xmpTag])) (by simp only [xmpTag, List.length_cons, List.length_nil]; omega),
          hz, xmp_typed h]
  have hsz : sizesOf 2 (store m ts).app = _ := sizes_exif h
  rcases hexif with rfl | ⟨e, rfl, rfl⟩
  · rw [useBox_skip (boxSize_nil hsz)]
    exact hx _ (mask34_same h)
  · rw [useBox_set (tag := exifTag) (skip := 4) (boxSize_one hsz (by simp [exifTag])) (by simp only [exifTag, List.length_cons, List.length_nil]; omega),
      hz, exif_typed h]
    exact hx _ rfl
end Jxl.JpegMeta
