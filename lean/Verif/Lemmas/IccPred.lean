import Verif.Lemmas.IccShuffle
/-! # Linear prediction looks only at earlier bytes -/
namespace Jxl.Icc

theorem rd_take (l : Bytes) (n i : Nat) (h : i < n) : rd (l.take n) i = rd l i := by
  unfold rd; rw [List.getElem?_take_of_lt h]

theorem slice_ok {l : Bytes} {p k : Nat} (h : p + k ≤ l.length) : slice l p k = .ok ((l.drop p).take k) := by
  unfold slice; rw [if_pos h]

theorem take_drop_take (l : Bytes) (n p k : Nat) (h : p + k ≤ n) : ((l.take n).drop p).take k = (l.drop p).take k := by
  rw [List.drop_take, List.take_take, Nat.min_eq_left (by omega)]

theorem slice_take (l : Bytes) (n p k : Nat) (h : p + k ≤ n) (hn : n ≤ l.length) : slice (l.take n) p k = slice l p k := by
  unfold slice
  rw [List.length_take, Nat.min_eq_left hn, if_pos h, if_pos (by omega), take_drop_take l n p k h]

theorem sub_ok {a b : Nat} (h : b ≤ a) : sub a b = .ok (a - b) := by
  unfold sub; rw [if_pos h]

theorem u16R_take (l : Bytes) (n p off : Nat) (h1 : 2 ≤ off) (h2 : p ≤ n) : u16R (l.take n) p off = u16R l p off := by
  unfold u16R
  by_cases h : off ≤ p
  · rw [sub_ok h, bind_ok, bind_ok, rd_take l n _ (by omega), rd_take l n _ (by omega)]
  · unfold sub; rw [if_neg h]; rfl

theorem u16R_ok (l : Bytes) (p off : Nat) (h1 : 2 ≤ off) (h2 : off ≤ p) (h3 : p ≤ l.length) : ∃ v, u16R l p off = .ok v := by
  unfold u16R
  rw [sub_ok h2, bind_ok, rd_ok (show p - off < l.length by omega), bind_ok, rd_ok (show p - off + 1 < l.length by omega), bind_ok]
  exact ⟨_, rfl⟩

theorem u32R_take (l : Bytes) (n p : Nat) (hn : n ≤ l.length) : u32R (l.take n) n p = u32R l n p := by
  unfold u32R
  by_cases h : p + 4 > n
  · rw [if_pos h, if_pos h]
  · rw [if_neg h, if_neg h, slice_take l n p 4 (by omega) hn]

theorem u32R_ok (l : Bytes) (n p : Nat) (hn : n ≤ l.length) : ∃ v, u32R l n p = .ok v := by
  unfold u32R
  by_cases h : p + 4 > n
  · rw [if_pos h]; exact ⟨_, rfl⟩
  · rw [if_neg h, slice_ok (by omega)]; exact ⟨_, rfl⟩

theorem linPred_take (data : Bytes) (start i stride width order : Nat) (hw : width = 1 ∨ width = 2 ∨ width = 4) (hs : width ≤ stride)
    (h4 : stride * 4 < start) (hl : start + i ≤ data.length) :
    linPred (data.take (start + i)) start i stride width order = linPred data start i stride width order := by
  unfold linPred
  rcases hw with hw | hw | hw
  · subst hw
    rw [if_pos rfl, if_pos rfl, sub_ok (show stride ≤ start + i by omega), sub_ok (show stride * 2 ≤ start + i by omega),
      sub_ok (show stride * 3 ≤ start + i by omega)]
    simp only [bind_ok]
    rw [rd_take _ _ _ (by omega), rd_take _ _ _ (by omega), rd_take _ _ _ (by omega)]
  · subst hw
    rw [if_neg (by decide), if_pos rfl, if_neg (by decide), if_pos rfl,
      u16R_take _ _ _ _ (by omega) (by omega), u16R_take _ _ _ _ (by omega) (by omega), u16R_take _ _ _ _ (by omega) (by omega)]
  · subst hw
    rw [if_neg (by decide), if_neg (by decide), if_neg (by decide), if_neg (by decide)]
    rw [sub_ok (show stride ≤ start + i / 4 * 4 by omega), sub_ok (show stride * 2 ≤ start + i / 4 * 4 by omega),
      sub_ok (show stride * 3 ≤ start + i / 4 * 4 by omega)]
    simp only [bind_ok]
    rw [u32R_take _ _ _ hl, u32R_take _ _ _ hl, u32R_take _ _ _ hl]

theorem linPred_ok (data : Bytes) (start i stride width order : Nat) (hw : width = 1 ∨ width = 2 ∨ width = 4) (hs : width ≤ stride)
    (h4 : stride * 4 < start) (hl : start + i ≤ data.length) : ∃ p, linPred data start i stride width order = .ok p := by
  unfold linPred
  rcases hw with hw | hw | hw
  · subst hw
    rw [if_pos rfl, sub_ok (show stride ≤ start + i by omega), sub_ok (show stride * 2 ≤ start + i by omega),
      sub_ok (show stride * 3 ≤ start + i by omega)]
    simp only [bind_ok]
    rw [rd_ok (show start + i - stride < data.length by omega), rd_ok (show start + i - stride * 2 < data.length by omega),
      rd_ok (show start + i - stride * 3 < data.length by omega)]
    exact ⟨_, rfl⟩
  · subst hw
    rw [if_neg (by decide), if_pos rfl]
    obtain ⟨a, ha⟩ := u16R_ok data (start + i / 2 * 2) stride (by omega) (by omega) (by omega)
    obtain ⟨b, hb⟩ := u16R_ok data (start + i / 2 * 2) (stride * 2) (by omega) (by omega) (by omega)
    obtain ⟨c, hc⟩ := u16R_ok data (start + i / 2 * 2) (stride * 3) (by omega) (by omega) (by omega)
    rw [ha, hb, hc]
    exact ⟨_, rfl⟩
  · subst hw
    rw [if_neg (by decide), if_neg (by decide)]
    rw [sub_ok (show stride ≤ start + i / 4 * 4 by omega), sub_ok (show stride * 2 ≤ start + i / 4 * 4 by omega),
      sub_ok (show stride * 3 ≤ start + i / 4 * 4 by omega)]
    simp only [bind_ok]
    obtain ⟨a, ha⟩ := u32R_ok data (start + i) (start + i / 4 * 4 - stride) hl
    obtain ⟨b, hb⟩ := u32R_ok data (start + i) (start + i / 4 * 4 - stride * 2) hl
    obtain ⟨c, hc⟩ := u32R_ok data (start + i) (start + i / 4 * 4 - stride * 3) hl
    rw [ha, hb, hc]
    exact ⟨_, rfl⟩

theorem take_succ_get (l : Bytes) (n : Nat) (h : n < l.length) : l.take n ++ [l[n]] = l.take (n + 1) := by
  rw [List.take_succ_eq_append_getElem h]

theorem encPred_ok (icc : Bytes) (start stride width order : Nat) (hw : width = 1 ∨ width = 2 ∨ width = 4) (hs : width ≤ stride)
    (h4 : stride * 4 < start) : ∀ (n i : Nat), start + i + n ≤ icc.length →
      ∃ r, encPred icc start stride width order n i = .ok r ∧ r.length = n ∧
        decPred start stride width order r i (icc.take (start + i)) = .ok (icc.take (start + i + n))
  | 0, i, _ => ⟨[], rfl, rfl, rfl⟩
  | n + 1, i, hl => by
    obtain ⟨p, hp⟩ := linPred_ok icc start i stride width order hw hs h4 (by omega)
    have hlt : start + i < icc.length := by omega
    obtain ⟨r, h1, h2, h3⟩ := encPred_ok icc start stride width order hw hs h4 n (i + 1) (by omega)
    refine ⟨(icc[start + i] - p) :: r, ?_, by simp [h2], ?_⟩
    · rw [encPred, hp, bind_ok, rd_ok hlt, bind_ok, h1]; rfl
    · rw [decPred, linPred_take icc start i stride width order hw hs h4 (by omega), hp, bind_ok]
      have e : p + (icc[start + i] - p) = icc[start + i] := by
        rw [UInt8.add_comm, UInt8.sub_add_cancel]
      rw [e, take_succ_get icc _ hlt]
      have := h3
      rw [show start + (i + 1) = start + i + 1 by omega] at this
      rw [this, show start + i + 1 + n = start + i + (n + 1) by omega]

theorem decPred_ok (start stride width order : Nat) (hw : width = 1 ∨ width = 2 ∨ width = 4) (hs : width ≤ stride)
    (h4 : stride * 4 < start) : ∀ (xs : Bytes) (i : Nat) (res : Bytes), res.length = start + i →
      ∃ r, decPred start stride width order xs i res = .ok r ∧ r.length = res.length + xs.length
  | [], i, res, _ => ⟨res, rfl, rfl⟩
  | x :: xs, i, res, hl => by
    obtain ⟨p, hp⟩ := linPred_ok res start i stride width order hw hs h4 (by omega)
    rw [decPred, hp, bind_ok]
    obtain ⟨r, h1, h2⟩ := decPred_ok start stride width order hw hs h4 xs (i + 1) (res ++ [p + x]) (by simp; omega)
    exact ⟨r, h1, by rw [h2]; simp; omega⟩

theorem checkOob_ok {a b n : Nat} (hn : n < 2 ^ 64) (h : a + b ≤ n) : checkOob a b n = .ok () := by
  unfold checkOob
  rw [Nat.mod_eq_of_lt (by omega), if_neg (by omega), if_neg (by omega)]

theorem checkOob_inv {a b n : Nat} (hn : n < 2 ^ 64) (ha : a ≤ n) (hb : b < 2 ^ 64) (h : checkOob a b n = .ok ()) : a + b ≤ n := by
  unfold checkOob at h
  split at h
  · cases h
  · split at h
    · cases h
    · rename_i h1 h2
      by_cases hc : a + b < 2 ^ 64
      · rw [Nat.mod_eq_of_lt hc] at h1; omega
      · have : (a + b) % 2 ^ 64 = a + b - 2 ^ 64 := by
          rw [Nat.mod_eq_sub_mod (by omega), Nat.mod_eq_of_lt (by omega)]
        omega

theorem checkOob_ne (a b n : Nat) : checkOob a b n = .ok () ∨ checkOob a b n = .fail := by
  unfold checkOob; split
  · exact .inr rfl
  · split
    · exact .inr rfl
    · exact .inl rfl

theorem check32_ok {v : Nat} (h : v < 2 ^ 32) : check32 v = .ok () := by
  unfold check32; rw [if_neg (by omega)]

theorem check32_ne (v : Nat) : check32 v = .ok () ∨ check32 v = .fail := by
  unfold check32; split
  · exact .inr rfl
  · exact .inl rfl

/-- The encoder's prediction of `num` bytes at `pos` succeeds and is undone by unshuffling and adding the prediction. -/
theorem predictAndShuffle_ok (icc : Bytes) (pos stride width order num : Nat) (hw : width = 1 ∨ width = 2 ∨ width = 4) (hs : width ≤ stride)
    (h4 : stride * 4 < pos) (hl : pos + num ≤ icc.length) (hn : icc.length < 2 ^ 64) :
    ∃ d r, predictAndShuffle stride width order num icc pos = .ok d ∧ d.length = num ∧
      unshuf d width = .ok r ∧ decPred pos stride width order r 0 (icc.take pos) = .ok (icc.take (pos + num)) := by
  obtain ⟨r, h1, h2, h3⟩ := encPred_ok icc pos stride width order hw hs h4 num 0 (by omega)
  rw [Nat.add_zero] at h3
  unfold predictAndShuffle
  rw [checkOob_ok hn hl]
  simp only [bind_ok]
  rw [if_neg (by omega), if_neg (by omega), h1, bind_ok]
  by_cases hw1 : width > 1
  · rw [if_pos hw1]
    obtain ⟨u, h5, h6, h7⟩ := unshuffle_ok r width (by omega)
    exact ⟨u, r, h5, by omega, by rw [unshuf, if_pos hw1, h7], h3⟩
  · rw [if_neg hw1]
    exact ⟨r, r, rfl, h2, by rw [unshuf, if_neg hw1], h3⟩

end Jxl.Icc
