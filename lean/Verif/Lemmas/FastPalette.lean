import Verif.Model.FastPalette
/-!
# Lemmas on the palette of the fast lossless encoder
-/
namespace Jxl.FastCode

/-- `n` bytes at `pos` as a number, the low byte first. -/
def bytesAt (r : List Nat) (pos : Nat) : Nat → Nat
  | 0 => 0
  | n + 1 => bytesAt r pos n + 256 ^ n * r.getD (pos + n) 0

theorem bytesAt_lt {r : List Nat} (hb : ∀ b ∈ r, b < 256) (pos : Nat) : ∀ n, bytesAt r pos n < 256 ^ n
  | 0 => by simp [bytesAt]
  | n + 1 => by
    have h1 := bytesAt_lt hb pos n
    have h2 : r.getD (pos + n) 0 < 256 := by
      rw [List.getD_eq_getElem?_getD]
      cases h : r[pos + n]? with
      | none => simp
      | some b => exact hb b (List.mem_of_getElem? h)
    unfold bytesAt
    rw [Nat.pow_succ]
    have := Nat.mul_le_mul_left (256 ^ n) (show r.getD (pos + n) 0 ≤ 255 by omega)
    omega

theorem loadBytes_eq {r : List Nat} (hb : ∀ b ∈ r, b < 256) (pos : Nat) : ∀ n, pos + n ≤ r.length → loadBytes r pos n = some (bytesAt r pos n)
  | 0, _ => rfl
  | n + 1, h => by
    have h1 := bytesAt_lt hb pos n
    unfold loadBytes bytesAt
    rw [loadBytes_eq hb pos n (by omega), List.getElem?_eq_getElem (by omega), List.getD_eq_getElem?_getD, List.getElem?_eq_getElem (show pos + n < r.length by omega)]
    simp only [Option.bind_eq_bind, Option.bind_some, Option.getD_some, Option.some.injEq]
    have e : (256 : Nat) ^ n = 2 ^ (8 * n) := by rw [Nat.pow_mul]
    rw [e] at h1 ⊢
    have := Nat.two_pow_add_eq_or_of_lt (i := 8 * n) (b := bytesAt r pos n) h1 (r[pos + n]'(by omega))
    rw [Nat.shiftLeft_eq, Nat.or_comm, Nat.mul_comm _ (2 ^ _), ← this]
    omega

theorem bytesAt_mod {r : List Nat} (hb : ∀ b ∈ r, b < 256) (pos m : Nat) : ∀ k, bytesAt r pos (m + k) % 256 ^ m = bytesAt r pos m
  | 0 => Nat.mod_eq_of_lt (bytesAt_lt hb pos m)
  | k + 1 => by
    rw [← Nat.add_assoc, bytesAt, Nat.pow_add, Nat.mul_assoc, Nat.add_mul_mod_self_left, bytesAt_mod hb pos m k]

theorem bytesAt_drop (r : List Nat) (d pos : Nat) : ∀ n, bytesAt (r.drop d) pos n = bytesAt r (d + pos) n
  | 0 => rfl
  | n + 1 => by
    unfold bytesAt
    rw [bytesAt_drop r d pos n, List.getD_eq_getElem?_getD, List.getD_eq_getElem?_getD, List.getElem?_drop, Nat.add_assoc]

theorem loadPixel4_eq {nb : Nat} (h4 : nb ≤ 4) {r : List Nat} (hb : ∀ b ∈ r, b < 256) {x : Nat} (h : x * nb + 4 ≤ r.length) :
    loadPixel4 nb r x = some (bytesAt r (x * nb) nb) := by
  unfold loadPixel4
  rw [loadBytes_eq hb _ 4 h, Option.map_some, Nat.and_two_pow_sub_one_eq_mod, Nat.pow_mul]
  obtain ⟨k, hk⟩ := Nat.exists_eq_add_of_le h4
  have := bytesAt_mod hb (x * nb) nb k
  rw [show nb + k = 4 by omega] at this
  rw [show (2 : Nat) ^ 8 = 256 from rfl, this]

theorem mapM_some {α β : Type} {f : α → Option β} {g : α → β} : ∀ {l : List α}, (∀ a ∈ l, f a = some (g a)) → l.mapM f = some (l.map g)
  | [], _ => rfl
  | a :: l, h => by
    rw [List.mapM_cons, h a (by simp), mapM_some fun b hb => h b (by simp [hb])]
    rfl

/-- The pixels of a row from column `x` on. -/
def rowPixels (nb : Nat) (r : List Nat) (x n : Nat) : List Nat := (List.range' x n).map fun x => bytesAt r (x * nb) nb

theorem detectBlocks_eq {nb : Nat} (h1 : 1 ≤ nb) (h4 : nb ≤ 4) {r : List Nat} (hb : ∀ b ∈ r, b < 256) {width : Nat} (hr : width * nb ≤ r.length) :
    ∀ (fuel x : Nat) (s : (Nat → Nat) × Bool), x ≤ width → ∃ n, x + n ≤ width ∧ detectBlocks nb r width fuel x s = some (x + n, (rowPixels nb r x n).foldl addPixel s)
  | 0, x, s, hx => ⟨0, by omega, by simp [detectBlocks, rowPixels]⟩
  | fuel + 1, x, s, hx => by
    unfold detectBlocks
    by_cases h : x + lookAhead nb < width
    · rw [if_pos h]
      have hla : 7 ≤ lookAhead nb := by unfold lookAhead; omega
      have hin : ∀ i ∈ List.range 8, loadPixel4 nb r (x + i) = some (bytesAt r ((x + i) * nb) nb) := by
        intro i hi
        rw [List.mem_range] at hi
        apply loadPixel4_eq h4 hb
        have hc : nb = 1 ∨ nb = 2 ∨ nb = 3 ∨ nb = 4 := by omega
        rcases hc with rfl | rfl | rfl | rfl <;> simp [lookAhead] at h <;> omega
      rw [mapM_some hin, Option.bind_some]
      obtain ⟨n, q1, q2⟩ := detectBlocks_eq h1 h4 hb hr fuel (x + 8) (((List.range 8).map fun i => bytesAt r ((x + i) * nb) nb).foldl addPixel s) (by omega)
      refine ⟨8 + n, by omega, ?_⟩
      have e : (List.range 8).map (fun i => bytesAt r ((x + i) * nb) nb) ++ rowPixels nb r (x + 8) n = rowPixels nb r x (8 + n) := by
        have e8 : List.range' x (8 + n) = List.range' x 8 ++ List.range' (x + 8) n := by
          have := List.range'_append (s := x) (m := 8) (n := n) (step := 1)
          rw [Nat.one_mul] at this
          rw [← this]
        unfold rowPixels
        rw [e8, List.map_append, List.range'_eq_map_range (n := 8), List.map_map]
        rfl
      rw [q2, ← e, List.foldl_append, Nat.add_assoc]
    · rw [if_neg h]
      exact ⟨0, by omega, by simp [rowPixels]⟩

theorem detectRow_eq {nb : Nat} (h1 : 1 ≤ nb) (h4 : nb ≤ 4) {r : List Nat} (hb : ∀ b ∈ r, b < 256) {width : Nat} (hr : width * nb ≤ r.length) (t : Nat → Nat) :
    detectRow nb r width t = some ((rowPixels nb r 0 width).foldl addPixel (t, false)) := by
  obtain ⟨n, q1, q2⟩ := detectBlocks_eq h1 h4 hb hr width 0 (t, false) (Nat.zero_le _)
  unfold detectRow
  rw [q2, Option.bind_some]
  simp only [Nat.zero_add] at *
  have hin : ∀ x ∈ List.range' n (width - n), loadPixel nb r x = some (bytesAt r (x * nb) nb) := by
    intro x hx
    rw [List.mem_range'_1] at hx
    refine loadBytes_eq hb _ nb (Nat.le_trans ?_ hr)
    have := Nat.mul_le_mul_right nb (show x + 1 ≤ width by omega)
    rwa [Nat.succ_mul] at this
  rw [mapM_some hin, Option.map_some]
  show some (List.foldl addPixel _ (rowPixels nb r n (width - n))) = _
  rw [← List.foldl_append]
  have e : rowPixels nb r 0 n ++ rowPixels nb r n (width - n) = rowPixels nb r 0 width := by
    have := List.range'_append (s := 0) (m := n) (n := width - n) (step := 1)
    rw [Nat.one_mul, Nat.zero_add, show n + (width - n) = width by omega] at this
    unfold rowPixels
    rw [← List.map_append, this]
  rw [e]

/-- What the table knows of the pixels seen so far. -/
def Seen (ps : List Nat) (t : Nat → Nat) : Prop :=
  (∀ p ∈ ps, p ≠ 0 → t (pixelHash p) = p) ∧ ∀ k, t k ≠ 0 → pixelHash (t k) = k ∧ t k ∈ ps

theorem seen_fold : ∀ (ps qs : List Nat) (s : (Nat → Nat) × Bool), Seen qs s.1 → (ps.foldl addPixel s).2 = false →
    s.2 = false ∧ Seen (qs ++ ps) (ps.foldl addPixel s).1
  | [], qs, s, h, hc => ⟨hc, by simpa using h⟩
  | p :: ps, qs, s, h, hc => by
    rw [List.foldl_cons] at hc ⊢
    have hstep : (addPixel s p).2 = false → s.2 = false ∧ Seen (qs ++ [p]) (addPixel s p).1 := by
      intro hc
      simp only [addPixel, Bool.or_eq_false_iff, Bool.and_eq_false_iff, bne_eq_false_iff_eq] at hc
      refine ⟨hc.1, fun q hq hq0 => ?_, fun k hk => ?_⟩
      · simp only [addPixel]
        rcases List.mem_append.mp hq with hq | hq
        · have hold := h.1 q hq hq0
          by_cases e : pixelHash q = pixelHash p
          · rw [if_pos e]
            rw [← e, hold] at hc
            rcases hc.2 with h0 | h0
            · exact absurd h0 hq0
            · exact h0
          · rw [if_neg e, hold]
        · rw [List.mem_singleton] at hq
          subst hq
          rw [if_pos rfl]
      · simp only [addPixel] at hk ⊢
        by_cases e : k = pixelHash p
        · rw [if_pos e] at hk ⊢
          exact ⟨e.symm, by simp⟩
        · rw [if_neg e] at hk ⊢
          obtain ⟨q1, q2⟩ := h.2 k hk
          exact ⟨q1, by simp [q2]⟩
    have hmono : ∀ (ps : List Nat) (s : (Nat → Nat) × Bool), (ps.foldl addPixel s).2 = false → s.2 = false := by
      intro ps
      induction ps with
      | nil => exact fun s h => h
      | cons q ps ih =>
        intro s h
        have := ih _ h
        simp only [addPixel, Bool.or_eq_false_iff] at this
        exact this.1
    obtain ⟨h1, h2⟩ := hstep (hmono ps _ hc)
    obtain ⟨-, h3⟩ := seen_fold ps (qs ++ [p]) _ h2 hc
    exact ⟨h1, by simpa using h3⟩

theorem detectRows_eq {nb : Nat} (h1 : 1 ≤ nb) (h4 : nb ≤ 4) {buf : List Nat} (hb : ∀ b ∈ buf, b < 256) :
    ∀ (rows : List (Nat × Nat)) (t : Nat → Nat) (qs : List Nat), (∀ r ∈ rows, r.1 + r.2 * nb ≤ buf.length) → Seen qs t →
      ∃ s, detectRows nb buf rows t = some s ∧
        (s.2 = false → Seen (qs ++ rows.flatMap fun r => (List.range r.2).map fun x => bytesAt buf (r.1 + x * nb) nb) s.1)
  | [], t, qs, _, h => ⟨_, rfl, fun _ => by simpa using h⟩
  | (pos, xs) :: rows, t, qs, hin, h => by
    have hl := hin (pos, xs) (by simp)
    dsimp only at hl
    unfold detectRows
    have hbd : ∀ b ∈ buf.drop pos, b < 256 := fun b hb' => hb b (List.mem_of_mem_drop hb')
    rw [detectRow_eq h1 h4 hbd (by rw [List.length_drop]; omega), Option.bind_some]
    have e : rowPixels nb (buf.drop pos) 0 xs = (List.range xs).map fun x => bytesAt buf (pos + x * nb) nb := by
      unfold rowPixels
      rw [← List.range_eq_range']
      exact List.map_congr_left fun x _ => bytesAt_drop buf pos _ nb
    rw [e]
    by_cases hc : (((List.range xs).map fun x => bytesAt buf (pos + x * nb) nb).foldl addPixel (t, false)).2
    · rw [if_pos hc]
      exact ⟨_, rfl, fun hf => by rw [hc] at hf; cases hf⟩
    · rw [if_neg hc]
      obtain ⟨-, h2⟩ := seen_fold _ qs (t, false) h (by simpa using hc)
      obtain ⟨s, s1, s2⟩ := detectRows_eq h1 h4 hb rows _ _ (fun r hr => hin r (by simp [hr])) h2
      refine ⟨s, s1, fun hf => ?_⟩
      have := s2 hf
      rw [List.append_assoc] at this
      rw [List.flatMap_cons]
      exact this

/-- All rows of all groups lie inside the buffer, and every pixel is in one. -/
theorem groupRows_inside {nb width height stride : Nat} {len : Nat} (hin : ∀ y < height, y * stride + width * nb ≤ len) :
    ∀ r ∈ groupRows nb width height stride, r.1 + r.2 * nb ≤ len := by
  intro r hr
  unfold groupRows at hr
  obtain ⟨gy, hgy, hr⟩ := List.mem_flatMap.mp hr
  obtain ⟨gx, hgx, hr⟩ := List.mem_flatMap.mp hr
  obtain ⟨y, hy, rfl⟩ := List.mem_map.mp hr
  rw [List.mem_range] at hgy hgx hy
  dsimp only
  have h1 := hin (256 * gy + y) (by omega)
  refine Nat.le_trans ?_ h1
  rw [Nat.add_assoc, Nat.add_le_add_iff_left, ← Nat.add_mul]
  exact Nat.mul_le_mul_right nb (by omega)

theorem groupRows_pixels {nb width height stride : Nat} (f : Nat → Nat) {x y : Nat} (hx : x < width) (hy : y < height) :
    f (y * stride + x * nb) ∈ (groupRows nb width height stride).flatMap fun r => (List.range r.2).map fun x => f (r.1 + x * nb) := by
  refine List.mem_flatMap.mpr ⟨(y * stride + 256 * (x / 256) * nb, min (width - 256 * (x / 256)) 256), ?_, ?_⟩
  · unfold groupRows
    refine List.mem_flatMap.mpr ⟨y / 256, by rw [List.mem_range]; omega, List.mem_flatMap.mpr ⟨x / 256, by rw [List.mem_range]; omega, ?_⟩⟩
    refine List.mem_map.mpr ⟨y % 256, by rw [List.mem_range]; omega, ?_⟩
    rw [Nat.div_add_mod]
  · refine List.mem_map.mpr ⟨x % 256, by rw [List.mem_range]; dsimp only; omega, ?_⟩
    dsimp only
    rw [Nat.add_assoc, ← Nat.add_mul, Nat.div_add_mod]

theorem mem_groupRows_pixels {nb width height stride : Nat} (f : Nat → Nat) {v : Nat}
    (h : v ∈ (groupRows nb width height stride).flatMap fun r => (List.range r.2).map fun x => f (r.1 + x * nb)) :
    ∃ x y, x < width ∧ y < height ∧ v = f (y * stride + x * nb) := by
  obtain ⟨r, hr, hv⟩ := List.mem_flatMap.mp h
  obtain ⟨x, hx, rfl⟩ := List.mem_map.mp hv
  unfold groupRows at hr
  obtain ⟨gy, hgy, hr⟩ := List.mem_flatMap.mp hr
  obtain ⟨gx, hgx, hr⟩ := List.mem_flatMap.mp hr
  obtain ⟨y, hy, rfl⟩ := List.mem_map.mp hr
  rw [List.mem_range] at hgy hgx hy hx
  dsimp only at hx ⊢
  refine ⟨256 * gx + x, 256 * gy + y, by omega, by omega, ?_⟩
  rw [Nat.add_assoc, ← Nat.add_mul]

theorem pixelHash_lt (p : Nat) : pixelHash p < 2 ^ 16 := by
  unfold pixelHash
  rw [Nat.shiftRight_eq_div_pow]
  omega

theorem mem_entries {ps : List Nat} {t : Nat → Nat} (h : Seen ps t) {p : Nat} : p ∈ paletteEntries t ↔ p ≠ 0 ∧ t (pixelHash p) = p := by
  unfold paletteEntries
  rw [List.mem_filterMap]
  constructor
  · rintro ⟨k, -, hk⟩
    split at hk
    · cases hk
    · rename_i h0
      injection hk with hk
      subst hk
      exact ⟨h0, by rw [(h.2 k h0).1]⟩
  · rintro ⟨h0, ht⟩
    exact ⟨pixelHash p, by rw [List.mem_range]; exact pixelHash_lt p, by rw [ht, if_neg h0]⟩

theorem entries_nodup {ps : List Nat} {t : Nat → Nat} (h : Seen ps t) : ((paletteEntries t).map pixelHash).Nodup := by
  have e : (paletteEntries t).map pixelHash = (List.range (2 ^ 16)).filter fun k => t k ≠ 0 := by
    unfold paletteEntries
    rw [List.map_filterMap]
    generalize List.range (2 ^ 16) = l
    induction l with
    | nil => rfl
    | cons k l ih =>
      rw [List.filterMap_cons, List.filter_cons]
      by_cases hk : t k = 0
      · simpa [hk] using ih
      · simp only [hk, if_false, Option.map_some, ne_eq, not_false_eq_true, decide_true, if_true]
        rw [(h.2 k hk).1]
        congr 1
  rw [e]
  exact List.nodup_range.filter _

theorem lookupOf_miss : ∀ (ps : List Nat) (i : Nat) (l : Nat → Nat) (h : Nat), (∀ p ∈ ps, pixelHash p ≠ h) → lookupOf i ps l h = l h
  | [], _, _, _, _ => rfl
  | p :: ps, i, l, h, hn => by
    unfold lookupOf
    rw [lookupOf_miss ps _ _ h fun q hq => hn q (by simp [hq]), if_neg fun e => hn p (by simp) e.symm]

theorem lookupOf_hit : ∀ (ps : List Nat) (i : Nat) (l : Nat → Nat) (j p : Nat), (ps.map pixelHash).Nodup → ps[j]? = some p → lookupOf i ps l (pixelHash p) = i + j
  | [], _, _, _, _, _, h => by simp at h
  | q :: ps, i, l, 0, p, hn, h => by
    simp only [List.getElem?_cons_zero, Option.some.injEq] at h
    subst h
    rw [List.map_cons, List.nodup_cons] at hn
    unfold lookupOf
    rw [lookupOf_miss ps _ _ _ fun r hr e => hn.1 (by rw [← e]; exact List.mem_map_of_mem hr), if_pos rfl]
    rfl
  | q :: ps, i, l, j + 1, p, hn, h => by
    rw [List.getElem?_cons_succ] at h
    rw [List.map_cons, List.nodup_cons] at hn
    unfold lookupOf
    rw [lookupOf_hit ps (i + 1) _ j p hn.2 h]
    omega

end Jxl.FastCode
