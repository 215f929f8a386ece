import Verif.Lemmas.IccIter
/-! # The 128-byte header of the profile -/
namespace Jxl.Icc

open VarInt.Spec (varint)

/-- Predicting the header only looks at the bytes before the position. -/
theorem predictHeader_take (icc h : Bytes) (i : Nat) (hi : i ≤ icc.length) :
    predictHeader (icc.take i) (icc.take i).length h i = predictHeader icc icc.length h i := by
  rw [len_take hi]
  unfold predictHeader
  by_cases h8 : i = 8
  · subst h8
    simp only [rd_take icc 8 4 (by omega), rd_take icc 8 5 (by omega), rd_take icc 8 6 (by omega), rd_take icc 8 7 (by omega), hi,
      ge_iff_le, Nat.le_refl, and_self, if_true]
  · by_cases h41 : i = 41
    · subst h41
      simp [rd_take icc 41 40 (by omega), hi]
    · by_cases h42 : i = 42
      · subst h42
        simp [rd_take icc 42 40 (by omega), rd_take icc 42 41 (by omega), hi]
      · simp [h8, h41, h42]

theorem predictHeader_ok (icc h : Bytes) (i : Nat) (hi : i ≤ icc.length) : ∃ h', predictHeader icc icc.length h i = .ok h' ∧ h'.length = h.length ∨
    predictHeader icc icc.length h i = .fail := by
  have hs := predictHeader_safe icc h icc.length i (Nat.le_refl _) hi
  cases hh : predictHeader icc icc.length h i with
  | ub => rw [hh] at hs; exact hs.elim
  | fail => exact ⟨[], .inr rfl⟩
  | ok h' => rw [hh] at hs; exact ⟨h', .inl ⟨rfl, hs⟩⟩

theorem predictHeader_nofail (icc h : Bytes) (size i : Nat) : predictHeader icc size h i ≠ .fail := by
  have hr : ∀ l : Bytes, ∀ j, rd l j ≠ .fail := by
    intro l j; unfold rd; split <;> simp
  have hb : ∀ {α : Type} (l : Bytes) (j : Nat) (f : UInt8 → R α), (∀ x, f x ≠ .fail) → (rd l j >>= f) ≠ .fail := by
    intro α l j f hf
    cases h : rd l j with
    | ub => simp
    | fail => exact absurd h (hr l j)
    | ok x => exact hf x
  unfold predictHeader
  split
  · exact hb _ _ _ fun _ => hb _ _ _ fun _ => hb _ _ _ fun _ => hb _ _ _ fun _ => by simp
  · split
    · exact hb _ _ _ fun _ => by simp
    · split
      · exact hb _ _ _ fun _ => hb _ _ _ fun _ => by simp
      · simp

theorem encHeader_ok (icc : Bytes) : ∀ (n i : Nat) (h : Bytes), i + n ≤ icc.length → i + n ≤ 128 → h.length = 128 →
    ∃ r, encHeader icc n i h = .ok r ∧ r.length = n ∧ ∀ (enc tl : Bytes) (m pos : Nat), enc.drop pos = r ++ tl →
      ∃ h', decHeader enc icc.length (n + m) i h pos (icc.take i) = decHeader enc icc.length m (i + n) h' (pos + n) (icc.take (i + n))
  | 0, i, h, hl, hm, hh => ⟨[], rfl, rfl, fun enc tl m pos _ => ⟨h, by rw [Nat.zero_add]; rfl⟩⟩
  | n + 1, i, h, hl, hm, hh => by
    obtain ⟨h1, hp⟩ := predictHeader_ok icc h i (by omega)
    rcases hp with ⟨p1, p2⟩ | hp
    · obtain ⟨r, e1, e2, e3⟩ := encHeader_ok icc n (i + 1) h1 (by omega) (by omega) (by omega)
      rw [encHeader, p1, bind_ok, rd_ok (show i < icc.length by omega), bind_ok, rd_ok (show i < h1.length by omega), bind_ok, e1, bind_ok]
      refine ⟨_, rfl, by simp [e2], ?_⟩
      intro enc tl m pos hd
      rw [List.cons_append] at hd
      obtain ⟨d1, d2⟩ := drop_get hd
      obtain ⟨h', e⟩ := e3 enc tl m (pos + 1) (drop_one hd)
      refine ⟨h', ?_⟩
      rw [show n + 1 + m = (n + m) + 1 by omega, decHeader, len_take (by omega), if_neg (by omega)]
      have ht := predictHeader_take icc h i (by omega)
      rw [len_take (by omega)] at ht
      rw [ht, p1, bind_ok, if_neg (by omega), rd_some d2, bind_ok, rd_ok (show i < h1.length by omega), bind_ok, UInt8.sub_add_cancel,
        ← List.take_succ_eq_append_getElem (by omega), e, show i + 1 + n = i + (n + 1) by omega, show pos + 1 + n = pos + (n + 1) by omega]
    · exact absurd hp (predictHeader_nofail _ _ _ _)

/-- Each tag needs at most four bytes of data. -/
theorem tagLoop_data (icc : Bytes) (num : Nat) : ∀ (f i p a b : Nat) (o : TagsOut), tagLoop icc num f i p a b = .ok o → p + o.data.length ≤ o.pos
  | 0, i, p, a, b, o, h => by rw [tagLoop] at h; cases h
  | f + 1, i, p, a, b, o, h => by
    rw [tagLoop] at h
    by_cases hend : ¬ i < num ∨ p + 12 > icc.length
    · rw [if_pos hend] at h
      injection h with h
      subst h
      simp
    · rw [if_neg hend] at h
      dsimp only at h
      obtain ⟨trc, h1, -⟩ := isTrc_ok icc p (by omega)
      rw [h1, bind_ok] at h
      generalize (if trc = true ∨ isXyz icc (kw icc p) (u32 icc (p + 4)) (u32 icc (p + 8)) (p + 12) = true then 2 else 0) = e at h
      cases hr : tagLoop icc num f (i + 1 + e) (p + 12 + 12 * e) (u32 icc (p + 4)) (u32 icc (p + 8)) with
      | ub => rw [hr, bind_ub] at h; cases h
      | fail => rw [hr, bind_fail] at h; cases h
      | ok r =>
        rw [hr, bind_ok] at h
        injection h with h
        have ih := tagLoop_data icc num f _ _ _ _ r hr
        subst h
        have hk := kw_length icc p
        unfold tagOut
        dsimp only
        rw [List.length_append]
        have hle : ∀ (c : Prop) [Decidable c], (if c then kw icc p else []).length ≤ 4 := by
          intro c _; split
          · omega
          · simp
        have := hle ((if trc = true then 2 else if isXyz icc (kw icc p) (u32 icc (p + 4)) (u32 icc (p + 8)) (p + 12) = true then 3
          else tagCode (kw icc p)) = 1)
        omega

end Jxl.Icc
