import Verif.Spec.JpegRecon
import Verif.Lemmas.Coders
/-!
# JPEG reconstruction data: what is written is read back
-/
namespace Jxl.Jpeg

theorem both_some {a b : Option (List Bool)} {x : List Bool} : both a b = some x ↔ ∃ p q, a = some p ∧ b = some q ∧ x = p ++ q := by
  unfold both
  simp only [Option.bind_eq_some_iff, Option.some.injEq]
  constructor
  · rintro ⟨p, h1, q, h2, h3⟩; exact ⟨p, q, h1, h2, h3.symm⟩
  · rintro ⟨p, q, h1, h2, h3⟩; exact ⟨p, h1, q, h2, h3.symm⟩

theorem only_some {b : Bool} {x : List Bool} : only b = some x ↔ b = true ∧ x = [] := by
  unfold only
  cases b <;> simp [eq_comm]

theorem only_dec {p : Prop} [Decidable p] {x : List Bool} : only (decide p) = some x ↔ p ∧ x = [] := by
  rw [only_some, decide_eq_true_iff]

theorem only_both {p : Prop} [Decidable p] {a : Option (List Bool)} {x : List Bool} :
    both (only (decide p)) a = some x ↔ p ∧ a = some x := by
  rw [both_some]
  constructor
  · rintro ⟨_, q, h1, h2, rfl⟩
    obtain ⟨h3, rfl⟩ := only_dec.mp h1
    exact ⟨h3, h2⟩
  · rintro ⟨h1, h2⟩
    exact ⟨[], x, only_dec.mpr ⟨h1, rfl⟩, h2, rfl⟩

theorem both_only {p : Prop} [Decidable p] {a : Option (List Bool)} {x : List Bool} :
    both a (only (decide p)) = some x ↔ p ∧ a = some x := by
  rw [both_some]
  constructor
  · rintro ⟨q, _, h1, h2, rfl⟩
    obtain ⟨h3, rfl⟩ := only_dec.mp h2
    exact ⟨h3, by rw [List.append_nil]; exact h1⟩
  · rintro ⟨h1, h2⟩
    exact ⟨x, [], h2, only_dec.mpr ⟨h1, rfl⟩, (List.append_nil x).symm⟩

theorem field_back {n v : Nat} {b : List Bool} (h : writeBitsField n v = some b) : v < 2 ^ n ∧ ∀ rest, rdBits n (b ++ rest) = some (v, rest) := by
  unfold writeBitsField at h
  split at h
  · cases h
  · cases h; exact ⟨by omega, fun rest => rdBits_append (by omega) rest⟩

theorem bool_back {v : Bool} {b : List Bool} (h : writeBool v = some b) (rest : List Bool) : getBool (b ++ rest) = some (v, rest) := by
  cases h
  unfold getBool
  rw [rdBits_append (by cases v <;> decide)]
  cases v <;> rfl

/-- All values of a distribution are small. -/
def Small (e : U32.Enc) : Prop := ∀ t < 4, U32.isDirect (e.get t) = true ∨ U32.extraBits (e.get t) ≤ 30

instance (e : U32.Enc) : Decidable (Small e) := by unfold Small; infer_instance

theorem u32_back {e : U32.Enc} (he : Small e) {v : Nat} {b : List Bool} (h : U32.write e v = some b) :
    v < 2 ^ 32 ∧ ∀ rest, U32.read e (b ++ rest) = some (v, rest) := by
  have hc : U32.chooseSelector e v ≠ none := fun hc => by rw [U32.write_none.mpr hc] at h; cases h
  obtain ⟨⟨sel, total⟩, hs⟩ := Option.ne_none_iff_exists'.mp hc
  have hv : v < 2 ^ 32 := by
    obtain ⟨h1, _, h3, _⟩ := U32.chooseSelector_some hs
    unfold U32.Represents at h3
    split at h3
    · have := U32.direct_lt (e.get sel); omega
    · rename_i hd
      rcases he sel h1 with h4 | h4
      · exact absurd h4 hd
      · have h5 : U32.offset (e.get sel) ≤ 0x3FFFFFF := Nat.and_le_right
        have h6 : 2 ^ U32.extraBits (e.get sel) ≤ 2 ^ 30 := Nat.pow_le_pow_right (by decide) h4
        have h7 := h3.2
        omega
  refine ⟨hv, fun rest => ?_⟩
  obtain ⟨b', h1, _, h3⟩ := U32.write_read hv hs rest
  rw [h1] at h; cases h; exact h3

/-- What `w` writes, `r` reads. -/
def ReadsBack {α : Type} (w : α → Option (List Bool)) (r : List Bool → Option (α × List Bool)) (a : α) : Prop :=
  ∀ b, w a = some b → ∀ rest, r (b ++ rest) = some (a, rest)

theorem all_back {α : Type} {w : α → Option (List Bool)} {r : List Bool → Option (α × List Bool)} : ∀ {xs : List α} {b : List Bool},
    (∀ x ∈ xs, ReadsBack w r x) → writeAll w xs = some b → ∀ rest, getN r xs.length (b ++ rest) = some (xs, rest)
  | [], b, _, h, rest => by cases h; rfl
  | x :: xs, b, hx, h, rest => by
    rw [writeAll] at h
    simp only [Option.bind_eq_some_iff, Option.some.injEq] at h
    obtain ⟨p, h1, q, h2, rfl⟩ := h
    rw [List.length_cons, getN, List.append_assoc, hx x (by simp) p h1]
    simp only [Option.bind_some]
    rw [all_back (fun y hy => hx y (by simp [hy])) h2]
    rfl

theorem all_back' {α : Type} {w : α → Option (List Bool)} {r : List Bool → Option (α × List Bool)} {n : Nat} {xs : List α} {b : List Bool}
    (hn : n = xs.length) (hx : ∀ x ∈ xs, ReadsBack w r x) (h : writeAll w xs = some b) (rest : List Bool) :
    getN r n (b ++ rest) = some (xs, rest) := by rw [hn]; exact all_back hx h rest

theorem u32_small {n : Nat} (h : n < 2 ^ 32) : u32 n = n := Nat.mod_eq_of_lt h

/-- A difference of `uint32_t`. -/
theorem u32_sub {n k : Nat} (hn : n < 2 ^ 32) (hk : k ≤ 2 ^ 32) (h : u32 (n + 2 ^ 32 - k) < 2 ^ 31) (hkn : k ≤ 2 ^ 31) :
    k ≤ n ∧ u32 (n + 2 ^ 32 - k) = n - k := by
  unfold u32 at *
  omega

theorem marker_back {m : Nat} (hm : m < 2 ^ 32) {b : List Bool} (h : putMarker m = some b) :
    0xc0 ≤ m ∧ ∀ rest, rdBits 6 (b ++ rest) = some (m - 0xc0, rest) := by
  obtain ⟨h1, h2⟩ := field_back h
  obtain ⟨h3, h4⟩ := u32_sub hm (by decide) (Nat.lt_of_lt_of_le h1 (by decide)) (by decide)
  exact ⟨h3, fun rest => by rw [h2, h4]⟩

theorem markerList_back (n : Nat) : ∀ (ms : List Nat) (b : List Bool), (∀ m ∈ ms, m < 256) → ms.getLast? = some 0xd9 → 0xd9 ∉ ms.dropLast →
    ms.length ≤ n → writeAll putMarker ms = some b → ∀ rest, getMarkers n (b ++ rest) = some (ms, rest) := by
  induction n with
  | zero =>
    intro ms b _ hl _ hn
    cases ms with
    | nil => cases hl
    | cons => simp at hn
  | succ n ih =>
    intro ms0 b hm hl hd hn h rest
    obtain ⟨m, ms, rfl⟩ : ∃ m ms, ms0 = m :: ms := by cases ms0 with | nil => cases hl | cons m ms => exact ⟨m, ms, rfl⟩
    rw [writeAll] at h
    simp only [Option.bind_eq_some_iff, Option.some.injEq] at h
    obtain ⟨p, h1, q, h2, rfl⟩ := h
    obtain ⟨h3, h4⟩ := marker_back (Nat.lt_trans (hm m (by simp)) (by decide)) h1
    rw [getMarkers, List.append_assoc, h4]
    simp only [Option.bind_some]
    rw [show m - 0xc0 + 0xc0 = m by omega]
    cases ms with
    | nil =>
      simp only [List.getLast?_singleton, Option.some.injEq] at hl
      subst hl
      cases h2
      rfl
    | cons m' ms =>
      rw [List.getLast?_cons_cons] at hl
      rw [List.dropLast_cons_cons, List.mem_cons] at hd
      have hne : m ≠ 0xd9 := fun h => hd (Or.inl h.symm)
      rw [if_neg hne, ih (m' :: ms) q (fun x hx => hm x (by simp [hx])) hl (fun h => hd (Or.inr h)) (by simp at hn ⊢; omega) h2]
      rfl

theorem markers_back {ms : List Nat} {b : List Bool} (hm : ∀ m ∈ ms, m < 256) (hne : ms ≠ []) (hd : 0xd9 ∉ ms.dropLast)
    (h : putMarkers ms = some b) (rest : List Bool) : getMarkers 16384 (b ++ rest) = some (ms, rest) := by
  unfold putMarkers at h
  obtain ⟨h1, h'⟩ := only_both.mp h
  obtain ⟨b1, _, h2, h3, rfl⟩ := both_some.mp h'
  obtain ⟨h4, rfl⟩ := only_some.mp h3
  simp only [Bool.or_eq_true, beq_iff_eq] at h4
  rw [List.append_nil]
  exact markerList_back _ _ _ hm (h4.resolve_left hne) hd h1 h2 rest

theorem size_back {n : Nat} (hn : n < 2 ^ 32) : ReadsBack putSize getSize n := by
  intro b h rest
  unfold putSize at h
  obtain ⟨h2, h1⟩ := both_only.mp h
  obtain ⟨h3, h4⟩ := field_back h1
  obtain ⟨h5, h6⟩ := u32_sub hn (by decide) (Nat.lt_of_lt_of_le h3 (by decide)) (by decide)
  unfold getSize
  rw [h4, h6]
  simp only [Option.bind_some]
  rw [show n - 1 + 1 = n by omega, if_neg (by omega)]

theorem app_back {a : Nat × Nat} (hn : a.2 < 2 ^ 32) : ReadsBack putApp getApp a := by
  intro b h rest
  unfold putApp at h
  obtain ⟨p, q, h1, h', rfl⟩ := both_some.mp h
  obtain ⟨h2, h3⟩ := only_both.mp h'
  unfold getApp
  rw [List.append_assoc, (u32_back (by decide) h1).2]
  simp only [Option.bind_some]
  rw [if_neg (by omega), size_back hn _ h3]
  rfl

theorem quant_back (q : QuantHead) : ReadsBack putQuant getQuant q := by
  intro b h rest
  unfold putQuant at h
  obtain ⟨_, h'⟩ := only_both.mp h
  obtain ⟨p1, q1, h1, h'', rfl⟩ := both_some.mp h'
  obtain ⟨p2, p3, h2, h3, rfl⟩ := both_some.mp h''
  unfold getQuant
  rw [List.append_assoc, (field_back h1).2]
  simp only [Option.bind_some]
  rw [List.append_assoc, (field_back h2).2]
  simp only [Option.bind_some]
  rw [bool_back h3]
  rfl

theorem quants_back {qs : List QuantHead} (hl : qs.length < 2 ^ 32) : ReadsBack putQuants getQuants qs := by
  intro b h rest
  unfold putQuants at h
  rw [u32_small hl] at h
  obtain ⟨p, q, h1, h', rfl⟩ := both_some.mp h
  obtain ⟨h2, h3⟩ := only_both.mp h'
  unfold getQuants
  rw [List.append_assoc, (u32_back (by decide) h1).2]
  simp only [Option.bind_some]
  rw [if_neg h2, all_back (fun x _ => quant_back x) h3]

theorem compType_cases (ids : List Nat) :
    (compType ids = 0 ∧ ids = [1]) ∨ (compType ids = 1 ∧ ids = [1, 2, 3]) ∨ (compType ids = 2 ∧ ids = [82, 71, 66]) ∨ compType ids = 3 := by
  unfold compType
  split
  · rename_i h; exact Or.inl ⟨rfl, h⟩
  · split
    · rename_i h; exact Or.inr (Or.inl ⟨rfl, h⟩)
    · split
      · rename_i h; exact Or.inr (Or.inr (Or.inl ⟨rfl, h⟩))
      · exact Or.inr (Or.inr (Or.inr rfl))

theorem ids_back {ids : List Nat} (hl : ids.length < 2 ^ 32) : ReadsBack putIds getIds ids := by
  intro b h rest
  unfold putIds at h
  obtain ⟨p, q, h1, h2, rfl⟩ := both_some.mp h
  unfold getIds
  rw [List.append_assoc, (field_back h1).2]
  simp only [Option.bind_some]
  rcases compType_cases ids with ⟨h3, h4⟩ | ⟨h3, h4⟩ | ⟨h3, h4⟩ | h3
  · rw [h3] at h2 ⊢; rw [if_neg (by decide)] at h2; cases h2; rw [h4]; rfl
  · rw [h3] at h2 ⊢; rw [if_neg (by decide)] at h2; cases h2; rw [h4]; rfl
  · rw [h3] at h2 ⊢; rw [if_neg (by decide)] at h2; cases h2; rw [h4]; rfl
  · rw [h3, if_pos rfl] at h2
    rw [u32_small hl] at h2
    obtain ⟨p1, p2, h4, h', rfl⟩ := both_some.mp h2
    obtain ⟨h5, h6⟩ := only_both.mp h'
    rw [h3, if_neg (by decide), if_neg (by decide), if_neg (by decide), List.append_assoc, (u32_back (by decide) h4).2]
    simp only [Option.bind_some]
    rw [if_neg (by omega), all_back (fun x _ b h rest => (field_back h).2 rest) h6]

theorem quantIdx_back (n q : Nat) : ReadsBack (putQuantIdx n) (getQuantIdx n) q := by
  intro b h rest
  unfold putQuantIdx at h
  obtain ⟨h2, h1⟩ := both_only.mp h
  unfold getQuantIdx
  rw [(field_back h1).2]
  simp only [Option.bind_some]
  rw [if_neg (by omega)]

theorem slot_join {s : Nat} (h : s < 32) : ((s >>> 4 != 0).toNat <<< 4) ||| (s &&& 0xF) = s := by
  have : ∀ s < 32, ((s >>> 4 != 0).toNat <<< 4) ||| (s &&& 0xF) = s := by decide
  exact this s h

theorem huffBits_back {h : ReconHuff} (hs : h.slot < 32) (hc : h.counts.length = 17) (hv : h.values.length = h.counts.sum) :
    ReadsBack putHuffBits getHuffBits h := by
  intro b hb rest
  unfold putHuffBits at hb
  obtain ⟨p1, t1, h1, hb1, rfl⟩ := both_some.mp hb
  obtain ⟨p2, t2, h2, hb2, rfl⟩ := both_some.mp hb1
  obtain ⟨p3, t3, h3, hb3, rfl⟩ := both_some.mp hb2
  obtain ⟨p4, p5, h4, h5, rfl⟩ := both_some.mp hb3
  unfold getHuffBits
  rw [List.append_assoc, bool_back h1]
  simp only [Option.bind_some]
  rw [List.append_assoc, (field_back h2).2]
  simp only [Option.bind_some]
  rw [List.append_assoc, bool_back h3]
  simp only [Option.bind_some]
  rw [List.append_assoc, all_back' hc.symm (fun x _ b h rest => (u32_back (by decide) h).2 rest) h4]
  simp only [Option.bind_some, slot_join hs]
  by_cases h0 : h.counts.sum = 0
  · rw [if_pos h0] at h5 ⊢
    cases h5
    rw [h0, List.length_eq_zero_iff] at hv
    rw [← hv]; rfl
  · rw [if_neg h0] at h5 ⊢
    obtain ⟨h6, h7⟩ := only_both.mp h5
    rw [if_neg (by omega), all_back' hv.symm (fun x _ b h rest => (u32_back (by decide) h).2 rest) h7]
    rfl

theorem andThen_ok {α β : Type} {x : Option (Option α)} {f : α → Option (Option β)} {y : β} (h : andThen x f = some (some y)) :
    ∃ a, x = some (some a) ∧ f a = some (some y) := by
  unfold andThen at h
  rw [Option.bind_eq_some_iff] at h
  obtain ⟨a, h1, h2⟩ := h
  cases a with
  | none => cases h2
  | some a => exact ⟨a, h1, h2⟩

theorem always_ok {α : Type} {x : Option α} {y : α} (h : always x = some (some y)) : x = some y := by
  unfold always at h
  rw [Option.bind_eq_some_iff] at h
  obtain ⟨a, h1, h2⟩ := h
  cases h2; exact h1

theorem some_ok {α : Type} {x : Option α} {y : α} (h : some x = some (some y)) : x = some y := by cases h; rfl

theorem huff_back {h : ReconHuff} (hs : h.slot < 32) (hc : h.counts.length = 17) (hv : h.values.length = h.counts.sum) {b : List Bool}
    (hb : putHuff h = some (some b)) (rest : List Bool) : getHuff (b ++ rest) = some (some (h, rest)) := by
  unfold putHuff at hb
  obtain ⟨b', h1, hb⟩ := andThen_ok hb
  obtain ⟨c, h2, hb⟩ := andThen_ok hb
  cases c with
  | false => cases hb
  | true =>
    cases hb
    unfold getHuff
    rw [huffBits_back hs hc hv _ (some_ok h1)]
    show andThen (always (huffOk h)) _ = _
    rw [h2]; rfl

theorem huffs_back : ∀ {hs : List ReconHuff} {b : List Bool}, (∀ h ∈ hs, h.slot < 32) → (∀ h ∈ hs, h.counts.length = 17) →
    (∀ h ∈ hs, h.values.length = h.counts.sum) → putHuffs hs = some (some b) → ∀ rest, getHuffs hs.length (b ++ rest) = some (some (hs, rest))
  | [], b, _, _, _, h, rest => by cases h; rfl
  | x :: xs, b, h1, h2, h3, h, rest => by
    rw [putHuffs] at h
    obtain ⟨p, h4, h⟩ := andThen_ok h
    obtain ⟨q, h5, h⟩ := andThen_ok h
    cases h
    rw [List.length_cons, getHuffs, List.append_assoc, huff_back (h1 x (by simp)) (h2 x (by simp)) (h3 x (by simp)) h4]
    show andThen (getHuffs xs.length (q ++ rest)) _ = _
    rw [huffs_back (fun y hy => h1 y (by simp [hy])) (fun y hy => h2 y (by simp [hy])) (fun y hy => h3 y (by simp [hy])) h5]
    rfl

theorem scanComp_back (n : Nat) (c : ScanComp) : ReadsBack (putScanComp n) (getScanComp n) c := by
  intro b h rest
  unfold putScanComp at h
  obtain ⟨p, q, h1, h', rfl⟩ := both_some.mp h
  obtain ⟨h2, h''⟩ := only_both.mp h'
  obtain ⟨q1, q2, h3, h4, rfl⟩ := both_some.mp h''
  unfold getScanComp
  rw [List.append_assoc, (field_back h1).2]
  simp only [Option.bind_some]
  rw [if_neg (by omega), List.append_assoc, (field_back h3).2]
  simp only [Option.bind_some]
  rw [(field_back h4).2]
  rfl

theorem scanHead_back (n : Nat) (h : ScanHead) : ReadsBack (putScanHead n) (getScanHead n) h := by
  intro b hb rest
  unfold putScanHead at hb
  obtain ⟨p1, t1, h1, hb1, rfl⟩ := both_some.mp hb
  obtain ⟨h2, hb2⟩ := only_both.mp hb1
  obtain ⟨p3, t3, h3, hb3, rfl⟩ := both_some.mp hb2
  obtain ⟨p4, t4, h4, hb4, rfl⟩ := both_some.mp hb3
  obtain ⟨p5, t5, h5, hb5, rfl⟩ := both_some.mp hb4
  obtain ⟨p6, t6, h6, hb6, rfl⟩ := both_some.mp hb5
  obtain ⟨p7, p8, h7, h8, rfl⟩ := both_some.mp hb6
  unfold getScanHead
  rw [List.append_assoc, (u32_back (by decide) h1).2]
  simp only [Option.bind_some]
  rw [if_neg (by omega), List.append_assoc, (field_back h3).2]
  simp only [Option.bind_some]
  rw [List.append_assoc, (field_back h4).2]
  simp only [Option.bind_some]
  rw [List.append_assoc, (field_back h5).2]
  simp only [Option.bind_some]
  rw [List.append_assoc, (field_back h6).2]
  simp only [Option.bind_some]
  rw [List.append_assoc, all_back (fun x _ => scanComp_back n x) h7]
  simp only [Option.bind_some]
  rw [(u32_back (by decide) h8).2]
  rfl

theorem block_max {v : Nat} {b : List Bool} (h : U32.write blockEnc v = some b) : v < 2 ^ 31 := by
  have hc : U32.chooseSelector blockEnc v ≠ none := fun hc => by rw [U32.write_none.mpr hc] at h; cases h
  obtain ⟨⟨sel, total⟩, hs⟩ := Option.ne_none_iff_exists'.mp hc
  obtain ⟨h1, _, h3, _⟩ := U32.chooseSelector_some hs
  unfold U32.Represents at h3
  have hb : ∀ t < 4, U32.direct (blockEnc.get t) < 2 ^ 31 ∧ U32.offset (blockEnc.get t) + 2 ^ U32.extraBits (blockEnc.get t) < 2 ^ 31 ∨
      (U32.isDirect (blockEnc.get t) = true ∧ U32.direct (blockEnc.get t) < 2 ^ 31) := by decide +kernel
  split at h3
  · rcases hb sel h1 with h | h <;> omega
  · rename_i hd
    rcases hb sel h1 with h | h
    · omega
    · exact absurd h.1 hd

theorem block_back {next v : Nat} (hn : next ≤ 2 ^ 31) (hv : v < 2 ^ 32) {b : List Bool} (h : putBlock next v = some b) :
    next ≤ v ∧ ∀ rest, getBlock next (b ++ rest) = some (v, rest) := by
  unfold putBlock at h
  obtain ⟨h1, h2⟩ := u32_sub hv (by omega) (block_max h) hn
  refine ⟨h1, fun rest => ?_⟩
  unfold getBlock
  rw [(u32_back (by decide) h).2, h2, Option.map_some, show v - next + next = v by omega, u32_small hv]

theorem points_back : ∀ {ps : List Nat} {next : Nat} {b : List Bool}, next ≤ 2 ^ 31 → (∀ p ∈ ps, p < 2 ^ 32) → putPoints next ps = some b →
    ∀ rest, getPoints ps.length next (b ++ rest) = some (ps, rest)
  | [], _, b, _, _, h, rest => by cases h; rfl
  | p :: ps, next, b, hn, hp, h, rest => by
    rw [putPoints] at h
    obtain ⟨q1, q3, h1, h', rfl⟩ := both_some.mp h
    obtain ⟨h2, h3⟩ := only_both.mp h'
    rw [List.length_cons, getPoints, List.append_assoc, (block_back hn (hp p (by simp)) h1).2]
    simp only [Option.bind_some]
    rw [if_neg (by omega), points_back (Nat.le_trans h2 (by decide)) (fun y hy => hp y (by simp [hy])) h3]
    rfl

theorem runs_back : ∀ {rs : List (Nat × Nat)} {next : Nat} {b : List Bool}, next ≤ 2 ^ 31 → (∀ r ∈ rs, r.1 < 2 ^ 32) → putRuns next rs = some b →
    ∀ rest, getRuns rs.length next (b ++ rest) = some (rs, rest)
  | [], _, b, _, _, h, rest => by cases h; rfl
  | r :: rs, next, b, hn, hp, h, rest => by
    rw [putRuns] at h
    obtain ⟨q1, t1, h1, h', rfl⟩ := both_some.mp h
    obtain ⟨q2, t2, h2, h'', rfl⟩ := both_some.mp h'
    obtain ⟨⟨h5, h6⟩, h4⟩ := only_both.mp h''
    rw [List.length_cons, getRuns, List.append_assoc, (u32_back (by decide) h1).2]
    simp only [Option.bind_some]
    rw [List.append_assoc, (block_back hn (hp r (by simp)) h2).2]
    simp only [Option.bind_some]
    rw [if_neg (by omega), runs_back (Nat.le_trans (Nat.succ_le_succ h6) (by decide)) (fun y hy => hp y (by simp [hy])) h4]
    rfl

theorem scanTail_back {s : ReconScan} (h : s.points.length < 2 ^ 32 ∧ s.runs.length < 2 ^ 32 ∧ (∀ b ∈ s.points, b < 2 ^ 32) ∧
    ∀ x ∈ s.runs, x.1 < 2 ^ 32) {b : List Bool} (hb : putScanTail s = some b) (rest : List Bool) :
    getScanTail (b ++ rest) = some ((s.points, s.runs), rest) := by
  unfold putScanTail at hb
  obtain ⟨p1, t1, h1, hb1, rfl⟩ := both_some.mp hb
  obtain ⟨p2, t2, h2, hb2, rfl⟩ := both_some.mp hb1
  obtain ⟨p3, p4, h3, h4, rfl⟩ := both_some.mp hb2
  rw [u32_small h.1] at h1
  rw [u32_small h.2.1] at h3
  unfold getScanTail
  rw [List.append_assoc, (u32_back (by decide) h1).2]
  simp only [Option.bind_some]
  rw [List.append_assoc, points_back (by decide) h.2.2.1 h2]
  simp only [Option.bind_some]
  rw [List.append_assoc, (u32_back (by decide) h3).2]
  simp only [Option.bind_some]
  rw [runs_back (by decide) h.2.2.2 h4]
  rfl

theorem scanTails_back : ∀ {ss : List ReconScan} {b : List Bool}, (∀ s ∈ ss, s.points.length < 2 ^ 32 ∧ s.runs.length < 2 ^ 32 ∧
      (∀ b ∈ s.points, b < 2 ^ 32) ∧ ∀ x ∈ s.runs, x.1 < 2 ^ 32) → writeAll putScanTail ss = some b → ∀ rest,
    getN getScanTail ss.length (b ++ rest) = some (ss.map fun s => (s.points, s.runs), rest)
  | [], b, _, h, rest => by cases h; rfl
  | x :: xs, b, hx, h, rest => by
    rw [writeAll] at h
    simp only [Option.bind_eq_some_iff, Option.some.injEq] at h
    obtain ⟨p, h1, q, h2, rfl⟩ := h
    rw [List.length_cons, getN, List.append_assoc, scanTail_back (hx x (by simp)) h1]
    simp only [Option.bind_some]
    rw [scanTails_back (fun y hy => hx y (by simp [hy])) h2]
    rfl

theorem scanHeads_back (n : Nat) : ∀ {ss : List ReconScan} {b : List Bool}, writeAll (fun s => putScanHead n s.head) ss = some b → ∀ rest,
    getN (getScanHead n) ss.length (b ++ rest) = some (ss.map (·.head), rest)
  | [], b, h, rest => by cases h; rfl
  | x :: xs, b, h, rest => by
    rw [writeAll] at h
    simp only [Option.bind_eq_some_iff, Option.some.injEq] at h
    obtain ⟨p, h1, q, h2, rfl⟩ := h
    rw [List.length_cons, getN, List.append_assoc, scanHead_back n x.head _ h1]
    simp only [Option.bind_some]
    rw [scanHeads_back n h2]
    rfl

theorem joinScan_map (ss : List ReconScan) : List.zipWith joinScan (ss.map (·.head)) (ss.map fun s => (s.points, s.runs)) = ss := by
  induction ss with
  | nil => rfl
  | cons s ss ih => simp only [List.map_cons, List.zipWith_cons_cons, ih]; rfl

theorem bools_back : ∀ {bs : List Nat} {b : List Bool}, (∀ x ∈ bs, x ≤ 1) → writeAll (fun b => writeBool (b != 0)) bs = some b → ∀ rest,
    ∃ l, getN getBool bs.length (b ++ rest) = some (l, rest) ∧ l.map Bool.toNat = bs
  | [], b, _, h, rest => by cases h; exact ⟨[], rfl, rfl⟩
  | x :: xs, b, hx, h, rest => by
    rw [writeAll] at h
    simp only [Option.bind_eq_some_iff, Option.some.injEq] at h
    obtain ⟨p, h1, q, h2, rfl⟩ := h
    obtain ⟨l, h3, h4⟩ := bools_back (fun y hy => hx y (by simp [hy])) h2 rest
    refine ⟨(x != 0) :: l, ?_, ?_⟩
    · rw [List.length_cons, getN, List.append_assoc, bool_back h1]
      simp only [Option.bind_some]
      rw [h3]; rfl
    · rw [List.map_cons, h4]
      have := hx x (by simp)
      have : x = 0 ∨ x = 1 := by omega
      rcases this with rfl | rfl <;> rfl

theorem pads_back {p : Option (List Nat)} (hb : ∀ bs, p = some bs → ∀ b ∈ bs, b ≤ 1) (hl : ∀ bs, p = some bs → bs.length < 2 ^ 32) :
    ReadsBack putPads getPads p := by
  intro b h rest
  unfold getPads
  cases p with
  | none =>
    rw [bool_back h]; rfl
  | some bs =>
    unfold putPads at h
    obtain ⟨p1, t1, h1, h', rfl⟩ := both_some.mp h
    obtain ⟨p2, p3, h2, h3, rfl⟩ := both_some.mp h'
    rw [u32_small (hl bs rfl)] at h2
    obtain ⟨l, h4, h5⟩ := bools_back (hb bs rfl) h3 rest
    rw [List.append_assoc, bool_back h1]
    simp only [Option.bind_some, if_true]
    rw [List.append_assoc, (field_back h2).2]
    simp only [Option.bind_some]
    rw [h4]
    simp only [Option.bind_some, h5]

theorem quantOk_weaken {same : Nat → Bool} {used : List Nat} {n : Nat} (h : quantOk same used n = true) :
    quantOk (fun _ => true) used n = true := by
  unfold quantOk at h ⊢
  rw [List.all_eq_true] at h ⊢
  intro i hi
  have := h i hi
  simp only [Bool.or_eq_true, Bool.and_eq_true, Bool.and_true] at this ⊢
  rcases this with h | h
  · exact Or.inl h
  · exact Or.inr h.1

theorem zip_maps (l : List (Nat × Nat)) : (l.map (·.1)).zip (l.map (·.2)) = l := by
  induction l with
  | nil => rfl
  | cons x xs ih => simp only [List.map_cons, List.zip_cons_cons, ih]

/-- The part of the data before the Huffman tables. -/
def frontOf (r : Recon) : Front := ⟨r.markers, r.app, r.com, r.quant, r.comps⟩

/-- The part of the data after the Huffman tables. -/
def backOf (r : Recon) : Back := ⟨r.scans, r.restart, r.inter, r.tail, r.pads⟩

theorem countsOk_iff {r : Recon} : countsOk r = true ↔ numScans r.markers ≠ 0 ∧ r.app.length = numApp r.markers ∧
    r.com.length = numCom r.markers ∧ r.scans.length = numScans r.markers := by
  unfold countsOk
  simp only [Bool.and_eq_true, bne_iff_ne, beq_iff_eq, ne_eq, and_assoc]

theorem front_back {same : Nat → Bool} {r : Recon} (ok : ReconOk r) {b : List Bool} (h : putFront same r = some b) (rest : List Bool) :
    countsOk r = true ∧ getFront (b ++ rest) = some (frontOf r, rest) := by
  unfold putFront at h
  obtain ⟨p1, t1, h1, hb1, rfl⟩ := both_some.mp h
  obtain ⟨p2, t2, h2, hb2, rfl⟩ := both_some.mp hb1
  obtain ⟨p3, t3, h3, hb3, rfl⟩ := both_some.mp hb2
  obtain ⟨p4, t4, h4, hb4, rfl⟩ := both_some.mp hb3
  obtain ⟨p5, t5, h5, hb5, rfl⟩ := both_some.mp hb4
  obtain ⟨p6, t6, h6, hb6, rfl⟩ := both_some.mp hb5
  obtain ⟨p7, t7, h7, hb7, rfl⟩ := both_some.mp hb6
  obtain ⟨p8, p9, h8, h9, rfl⟩ := both_some.mp hb7
  obtain ⟨h3', rfl⟩ := only_some.mp h3
  obtain ⟨h9', rfl⟩ := only_some.mp h9
  refine ⟨h3', ?_⟩
  obtain ⟨c1, c2, c3, c4⟩ := countsOk_iff.mp h3'
  have hne : r.markers ≠ [] := fun h => c1 (by rw [h]; rfl)
  unfold getFront
  rw [List.append_assoc, bool_back h1]
  simp only [Option.bind_some]
  rw [List.append_assoc, markers_back ok.bytes hne ok.eoi h2]
  simp only [Option.bind_some]
  rw [if_neg c1, List.nil_append, List.append_assoc, all_back' c2.symm (fun a ha => app_back (ok.appSmall a ha)) h4]
  simp only [Option.bind_some]
  rw [List.append_assoc, all_back' c3.symm (fun a ha => size_back (ok.comSmall a ha)) h5]
  simp only [Option.bind_some]
  rw [List.append_assoc, quants_back ok.quantFew _ h6]
  simp only [Option.bind_some]
  rw [List.append_assoc, ids_back (by rw [List.length_map]; exact ok.compsFew) _ h7]
  simp only [Option.bind_some]
  rw [List.append_assoc, all_back' (by rw [List.length_map, List.length_map]) (fun a _ => quantIdx_back _ a) h8]
  simp only [Option.bind_some]
  rw [if_pos (quantOk_weaken h9'), zip_maps, List.nil_append]
  rfl

theorem tail_back {n : Nat} (h : n < 2 ^ 32) : ReadsBack putTail (U32.read tailEnc) n := by
  intro b hb rest
  unfold putTail at hb
  rw [u32_small h] at hb
  obtain ⟨_, h1⟩ := only_both.mp hb
  exact (u32_back (by decide) h1).2 rest

theorem inter_back {n : Nat} (h : n < 2 ^ 32) : ReadsBack putInter (rdBits 16) n := by
  intro b hb rest
  unfold putInter at hb
  rw [u32_small h] at hb
  exact (field_back hb).2 rest

theorem restart_back {r : Recon} (ok : ReconOk r) {b : List Bool}
    (h : (if 0xdd ∈ r.markers then writeBitsField 16 r.restart else some []) = some b) (rest : List Bool) :
    (if 0xdd ∈ (frontOf r).markers then rdBits 16 (b ++ rest) else some (0, b ++ rest)) = some (r.restart, rest) := by
  show (if 0xdd ∈ r.markers then rdBits 16 (b ++ rest) else some (0, b ++ rest)) = some (r.restart, rest)
  by_cases hd : 0xdd ∈ r.markers
  · rw [if_pos hd] at h ⊢
    exact (field_back h).2 rest
  · rw [if_neg hd] at h ⊢
    cases h
    rw [ok.restart hd]; rfl

theorem back_back {r : Recon} (ok : ReconOk r) (hc : countsOk r = true) {b : List Bool} (h : putBack r = some b) (rest : List Bool) :
    getBack (frontOf r) (b ++ rest) = some (backOf r, rest) := by
  unfold putBack at h
  obtain ⟨p1, t1, h1, hb1, rfl⟩ := both_some.mp h
  obtain ⟨p2, t2, h2, hb2, rfl⟩ := both_some.mp hb1
  obtain ⟨p3, t3, h3, hb3, rfl⟩ := both_some.mp hb2
  obtain ⟨p4, t4, h4, hb4, rfl⟩ := both_some.mp hb3
  obtain ⟨p5, p6, h5, h6, rfl⟩ := both_some.mp hb4
  obtain ⟨c1, c2, c3, c4⟩ := countsOk_iff.mp hc
  rw [List.take_of_length_le (by rw [ok.inter]; exact Nat.le_refl _)] at h4
  unfold getBack
  have c4' : r.scans.length = numScans (frontOf r).markers := c4
  have c5 : numInter (frontOf r).markers = r.inter.length := ok.inter.symm
  rw [← c4', c5, List.append_assoc, scanHeads_back (frontOf r).comps.length h1]
  simp only [Option.bind_some]
  rw [List.append_assoc, restart_back ok h2]
  simp only [Option.bind_some]
  rw [List.append_assoc, scanTails_back ok.scansFew h3]
  simp only [Option.bind_some]
  rw [List.append_assoc, all_back (fun a ha => inter_back (ok.interSmall a ha)) h4]
  simp only [Option.bind_some]
  rw [List.append_assoc, tail_back ok.tailSmall _ h5]
  simp only [Option.bind_some]
  rw [pads_back ok.bits ok.padsFew _ h6]
  simp only [Option.bind_some, joinScan_map]
  rfl

theorem recon_back {same : Nat → Bool} {r : Recon} (ok : ReconOk r) {b : List Bool} (h : putRecon same r = some (some b)) (rest : List Bool) :
    getRecon (b ++ rest) = some (some (r, rest)) := by
  unfold putRecon at h
  split at h
  · cases h
  obtain ⟨a, h1, g1⟩ := andThen_ok h
  obtain ⟨n, h2, g2⟩ := andThen_ok g1
  obtain ⟨c, h3, g3⟩ := andThen_ok g2
  obtain ⟨d, h4, g4⟩ := andThen_ok g3
  obtain ⟨e, h5, g5⟩ := andThen_ok g4
  cases e with
  | false => cases g5
  | true =>
    simp only [if_true, Option.some.injEq] at g5
    subst g5
    have h2' := some_ok h2
    rw [u32_small ok.huffFew] at h2'
    obtain ⟨hc, hf⟩ := front_back ok (some_ok h1) (n ++ (c ++ d) ++ rest)
    unfold getRecon
    rw [List.append_assoc, hf]
    show andThen (some (U32.read numHuffEnc _)) _ = _
    rw [List.append_assoc, (u32_back (by decide) h2').2]
    show andThen (getHuffs r.huff.length _) _ = _
    rw [List.append_assoc, huffs_back ok.slot ok.counts ok.values h3]
    show andThen (some (getBack (frontOf r) _)) _ = _
    rw [back_back ok hc (some_ok h4)]
    show andThen (always (allDefined r)) _ = _
    rw [h5]
    rfl

end Jxl.Jpeg
