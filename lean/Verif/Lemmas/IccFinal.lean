import Verif.Lemmas.IccHeader
import Verif.Spec.Icc
/-! # From profile to compressed bytes and back -/
namespace Jxl.Icc

open VarInt.Spec (varint)

/-- Commands and data behind the two lengths. -/
def pack (L : Nat) (cs ds : Bytes) : Bytes := varint L ++ varint cs.length ++ cs ++ ds

theorem pack_length (L : Nat) (cs ds : Bytes) : (pack L cs ds).length = (varint L).length + (varint cs.length).length + cs.length + ds.length := by
  unfold pack; simp only [List.length_append]

theorem pack_bound {L : Nat} {cs ds : Bytes} (hL : L < 2 ^ 32) (hc : cs.length < 2 ^ 32) (hd : ds.length < 2 ^ 32) : (pack L cs ds).length < 2 ^ 64 := by
  rw [pack_length]
  have h1 := VarInt.varint_length_le 4 L (by omega)
  have h2 := VarInt.varint_length_le 4 cs.length (by omega)
  omega

/-- The two lengths are read back. -/
theorem unpredict_pack {L : Nat} {cs ds : Bytes} (hL : L < 2 ^ 32) (hc : cs.length < 2 ^ 32) (hd : ds.length < 2 ^ 32) :
    ∃ p, p = (varint L).length + (varint cs.length).length ∧ (pack L cs ds).take (p + cs.length) = varint L ++ varint cs.length ++ cs ∧
      ((pack L cs ds).take (p + cs.length)).drop p = cs ∧ (pack L cs ds).drop (p + cs.length) = ds ∧
      unpredictIcc (pack L cs ds) = (decHeader (pack L cs ds) L 128 0 (initHeader L) (p + cs.length) [] >>= fun h =>
        if h.1 then
          if p ≠ p + cs.length then .fail
          else if h.2.1 ≠ (pack L cs ds).length then .fail
          else .ok h.2.2
        else do
          let s ← decTags (pack L cs ds) (p + cs.length) L ⟨p, h.2.1, h.2.2⟩
          let s ← decMain (pack L cs ds) (p + cs.length) L ((pack L cs ds).length + 1) s
          if s.pos ≠ (pack L cs ds).length then .fail
          else if s.res.length ≠ L then .fail
          else .ok s.res) := by
  have hb := pack_bound hL hc hd
  refine ⟨_, rfl, ?_, ?_, ?_, ?_⟩
  · exact List.take_left' (by simp only [List.length_append])
  · unfold pack
    rw [List.take_left' (by simp only [List.length_append])]
    exact List.drop_left' (by simp only [List.length_append])
  · exact List.drop_left' (by simp only [List.length_append])
  · have v1 : varIntAt (pack L cs ds) (pack L cs ds).length 0 = .ok (L, 0 + (varint L).length) :=
      varIntAt_ok (rest := varint cs.length ++ cs ++ ds) (by rw [List.take_length]; unfold pack; simp) (by omega)
    have v2 : varIntAt (pack L cs ds) (pack L cs ds).length (0 + (varint L).length) = .ok (cs.length, 0 + (varint L).length + (varint cs.length).length) := by
      refine varIntAt_ok (rest := cs ++ ds) ?_ (by omega)
      rw [List.take_length, Nat.zero_add]
      unfold pack
      rw [List.append_assoc, List.append_assoc, List.drop_left' rfl]
    have hoob : 0 + (varint L).length + (varint cs.length).length + cs.length ≤ (pack L cs ds).length := by rw [pack_length]; omega
    unfold unpredictIcc
    rw [v1, bind_ok]
    dsimp only
    rw [check32_ok (by omega), bind_ok, v2, bind_ok]
    dsimp only
    rw [check32_ok (by omega), bind_ok, checkOob_ok hb hoob, bind_ok]
    simp only [Nat.zero_add]

/-- Short profiles are a header only. -/
theorem short_ok (icc hd : Bytes) (h : icc.length ≤ 128) (he : encHeader icc (min 128 icc.length) 0 (initHeader icc.length) = .ok hd) :
    unpredictIcc (varint icc.length ++ varint 0 ++ hd) = .ok icc := by
  rw [Nat.min_eq_right h] at he
  obtain ⟨r, e1, e2, e3⟩ := encHeader_ok icc icc.length 0 (initHeader icc.length) (by omega) (by omega) (initHeader_length _)
  rw [he] at e1
  injection e1 with e1
  subst e1
  obtain ⟨p, hp, -, -, u3, u4⟩ := unpredict_pack (L := icc.length) (cs := []) (ds := hd) (by omega) (by simp) (by omega)
  have hpk : varint icc.length ++ varint 0 ++ hd = pack icc.length [] hd := by simp [pack]
  rw [hpk, u4]
  simp only [List.length_nil, Nat.add_zero] at u3 ⊢
  obtain ⟨h', e⟩ := e3 (pack icc.length [] hd) [] (128 - icc.length) p (by rw [u3, List.append_nil])
  rw [show icc.length + (128 - icc.length) = 128 by omega, List.take_zero, Nat.zero_add, List.take_length] at e
  rw [e]
  have hlen : p + icc.length = (pack icc.length [] hd).length := by
    rw [pack_length]; simp only [List.length_nil] at hp ⊢; omega
  have hdone : ∀ n i h p, decHeader (pack icc.length [] hd) icc.length n i h p icc = .ok (true, p, icc) := by
    intro n i h p; rw [decHeader.eq_def]; exact if_pos rfl
  rw [hdone, bind_ok]
  simp [hlen]

/-- The tag list is read back, or refused. -/
theorem tags_ok (icc : Bytes) (hL : icc.length < 2 ^ 30) (h128 : 128 < icc.length) :
    ∃ tg, encTags icc = .ok tg ∧ 128 ≤ tg.pos ∧ tg.pos ≤ icc.length ∧ tg.cmds.length ≤ tg.pos ∧ tg.data.length ≤ tg.pos ∧ 0 < tg.cmds.length ∧
      ∀ (enc : Bytes) (cend cpos pos : Nat) (cs ds : Bytes), enc.length < 2 ^ 64 → cend ≤ enc.length → pos ≤ enc.length →
        (enc.take cend).drop cpos = tg.cmds ++ cs → enc.drop pos = tg.data ++ ds →
        ((132 ≤ icc.length ∧ OverFrom icc (u32 icc 128) 0) → decTags enc cend icc.length ⟨cpos, pos, icc.take 128⟩ = .fail) ∧
        (¬ (132 ≤ icc.length ∧ OverFrom icc (u32 icc 128) 0) → decTags enc cend icc.length ⟨cpos, pos, icc.take 128⟩ =
          .ok ⟨cpos + tg.cmds.length, pos + tg.data.length, icc.take tg.pos⟩) := by
  unfold encTags
  by_cases h132 : 128 + 4 ≤ icc.length
  · rw [if_pos h132]
    dsimp only
    have hu := u32_lt icc 128
    obtain ⟨o, h1, h2, h3, h4⟩ := tagLoop_ok icc (u32 icc 128) (icc.length + 1) 0 132 (128 + u32 icc 128 * 12) 0 (by omega) (by omega) (by omega)
    have h5 := tagLoop_data _ _ _ _ _ _ _ o h1
    rw [h1, bind_ok]
    have hv := VarInt.varint_length_le 4 (u32 icc 128 + 1) (by omega)
    refine ⟨_, rfl, by dsimp only; omega, h3, by dsimp only; simp only [List.length_append, List.length_cons, List.length_nil]; omega, by dsimp only; omega,
      by dsimp only; simp only [List.length_append, List.length_cons]; omega, ?_⟩
    intro enc cend cpos pos cs ds hn hc hp hcs hds
    dsimp only at hcs hds ⊢
    rw [List.append_assoc, List.append_assoc] at hcs
    have hpos := VarInt.varint_length_pos (u32 icc 128 + 1)
    have hlt : cpos < cend := by
      have := congrArg List.length hcs
      simp only [List.length_drop, List.length_take, List.length_append] at this
      omega
    have hd := h4 enc cend (cpos + (varint (u32 icc 128 + 1)).length) pos (enc.length + 1) cs ds hn hc hp (drop_add hcs) hds (by
      have := congrArg List.length hcs
      simp only [List.length_drop, List.length_take, List.length_append] at this
      omega)
    unfold decTags
    rw [if_neg (by dsimp only; omega)]
    dsimp only
    rw [varIntAt_ok hcs (by omega), bind_ok]
    dsimp only
    rw [if_neg (by omega), Nat.add_sub_cancel, check32_ok (by omega), bind_ok, put_u32 icc 128 (by omega), take_app]
    refine ⟨fun h => hd.1 h.2, fun h => ?_⟩
    rw [hd.2 (fun h' => h ⟨by omega, h'⟩)]
    simp only [List.length_append, List.length_cons, List.length_nil]
    congr 2
    omega
  · rw [if_neg h132]
    refine ⟨_, rfl, by dsimp only; omega, by dsimp only; omega, by dsimp only; simp, by dsimp only; simp, by dsimp only; simp, ?_⟩
    intro enc cend cpos pos cs ds hn hc hp hcs hds
    dsimp only at hcs hds ⊢
    refine ⟨fun h => absurd h.1 h132, fun _ => ?_⟩
    have hlt : cpos < cend := by
      have := congrArg List.length hcs
      simp only [List.length_drop, List.length_take, List.length_append, List.length_cons] at this
      omega
    unfold decTags
    rw [if_neg (by dsimp only; omega)]
    dsimp only
    have hv0 : varint 0 = [0] := by simp [VarInt.Spec.varint]
    rw [varIntAt_ok (v := 0) (rest := cs) (by rw [hv0]; exact hcs) (by omega), bind_ok]
    simp [hv0]

theorem value_u32 (l : Bytes) (p : Nat) (h : p + 4 ≤ l.length) : Spec.value (Spec.bytes l p 4) = u32 l p := by
  have h4 : ((l.drop p).take 4).length = 4 := len_slice h
  unfold u32 Spec.bytes
  rw [if_neg (by omega)]
  generalize (l.drop p).take 4 = b at *
  match b, h4 with
  | [x, y, z, w], _ =>
    simp [Spec.value, get32]
    omega

theorem over_iff (icc : Bytes) : (132 ≤ icc.length ∧ OverFrom icc (u32 icc 128) 0) ↔ Spec.Overrun icc := by
  constructor
  · rintro ⟨h, k, off, -, h1, h2, h3, h4, h5⟩
    exact ⟨k, off, by rw [value_u32 _ _ h]; exact h1, h2, h3, h4, h5⟩
  · rintro ⟨k, off, h1, h2, h3, h4, h5⟩
    rw [value_u32 _ _ (by omega)] at h1
    exact ⟨by omega, k, off, by omega, h1, h2, h3, h4, h5⟩

/-- What the encoder makes of a profile, and what the decoder makes of that. -/
theorem round_trip (junk icc : Bytes) (hL : icc.length ≤ sizeLimit) :
    ∃ cs ds, predictIcc junk icc = .ok (pack icc.length cs ds) ∧ cs.length < 2 ^ 32 ∧ ds.length ≤ 2 * icc.length ∧
      (Spec.Overrun icc → unpredictIcc (pack icc.length cs ds) = .fail) ∧
      (¬ Spec.Overrun icc → unpredictIcc (pack icc.length cs ds) = .ok icc) := by
  have hL' : icc.length < 2 ^ 30 := by unfold sizeLimit at hL; omega
  unfold predictIcc
  rw [if_neg (by omega)]
  obtain ⟨hd, e1, e2, e3⟩ := encHeader_ok icc (min 128 icc.length) 0 (initHeader icc.length) (by omega) (by omega) (initHeader_length _)
  rw [e1, bind_ok]
  by_cases hs : icc.length ≤ 128
  · rw [if_pos hs]
    have hsh := short_ok icc hd hs e1
    have hpk : varint icc.length ++ varint 0 ++ hd = pack icc.length [] hd := by simp [pack]
    rw [hpk] at hsh ⊢
    refine ⟨[], hd, rfl, by simp, by omega, fun h => ?_, fun _ => hsh⟩
    have := (over_iff icc).2 h
    omega
  · rw [if_neg hs]
    obtain ⟨tg, t1, t2, t3, t4, t5, t6, t7⟩ := tags_ok icc hL' (by omega)
    rw [t1, bind_ok]
    obtain ⟨m, m1, m2, m3, m4⟩ := mainLoop_ok (tags := tg.tags) hL' (icc.length + 2) tg.pos { pos := tg.pos, last1 := tg.pos, tag := junk }
      (by dsimp only; omega) (by dsimp only; omega) (by dsimp only; omega) (.inl ⟨t3, Nat.le_refl _⟩)
    rw [m1, bind_ok]
    have hcl : (tg.cmds ++ m.1).length < 2 ^ 32 := by rw [List.length_append]; omega
    have hdl : (hd ++ tg.data ++ m.2).length ≤ 2 * icc.length := by rw [List.length_append, List.length_append]; omega
    refine ⟨tg.cmds ++ m.1, hd ++ tg.data ++ m.2, by simp [pack], hcl, hdl, ?_⟩
    obtain ⟨p, hp, u1, u2, u3, u4⟩ := unpredict_pack (L := icc.length) (cs := tg.cmds ++ m.1) (ds := hd ++ tg.data ++ m.2) (by omega) hcl (by omega)
    have hb := pack_bound (L := icc.length) (cs := tg.cmds ++ m.1) (ds := hd ++ tg.data ++ m.2) (by omega) hcl (by omega)
    have hlen := pack_length icc.length (tg.cmds ++ m.1) (hd ++ tg.data ++ m.2)
    generalize pack icc.length (tg.cmds ++ m.1) (hd ++ tg.data ++ m.2) = enc at *
    rw [u4]
    rw [List.append_assoc] at u3
    obtain ⟨h', e⟩ := e3 enc (tg.data ++ m.2) 0 (p + (tg.cmds ++ m.1).length) u3
    rw [Nat.min_eq_left (by omega)] at e2 e
    rw [List.take_zero] at e
    simp only [Nat.add_zero, Nat.zero_add] at e
    have hz : decHeader enc icc.length 0 128 h' (p + (tg.cmds ++ m.1).length + 128) (icc.take 128) =
        .ok (false, p + (tg.cmds ++ m.1).length + 128, icc.take 128) := by
      rw [decHeader.eq_def]
      exact if_neg (by rw [len_take (by omega)]; omega)
    rw [e, hz, bind_ok]
    simp only [Bool.false_eq_true, if_false]
    have hlen' : enc.length = p + (tg.cmds ++ m.1).length + 128 + tg.data.length + m.2.length := by
      rw [hlen, hp, show (hd ++ tg.data ++ m.2).length = hd.length + tg.data.length + m.2.length by rw [List.length_append, List.length_append]]
      omega
    have u3' : enc.drop (p + (tg.cmds ++ m.1).length + 128) = tg.data ++ m.2 := by rw [← e2]; exact drop_add u3
    obtain ⟨q1, q2⟩ := t7 enc (p + (tg.cmds ++ m.1).length) p (p + (tg.cmds ++ m.1).length + 128) m.1 m.2 hb (by omega) (by omega) u2 u3'
    rw [over_iff] at q1 q2
    refine ⟨fun h => by rw [q1 h, bind_fail], fun h => ?_⟩
    rw [q2 h, bind_ok]
    obtain ⟨k, k1, k2⟩ := m2 enc (p + (tg.cmds ++ m.1).length) (p + tg.cmds.length) (p + (tg.cmds ++ m.1).length + 128 + tg.data.length) [] [] hb
      (by omega) (by omega) (by rw [List.append_nil]; exact drop_add u2) (by rw [List.append_nil]; exact drop_add u3')
    have hfin := k2 (enc.length + 1 - k)
    rw [List.length_append] at hlen'
    rw [show enc.length + 1 - k + k = enc.length + 1 by omega] at hfin
    obtain ⟨f, hf⟩ : ∃ f, enc.length + 1 - k = f + 1 := ⟨enc.length - k, by omega⟩
    rw [hfin, hf, decMain]
    dsimp only
    rw [if_neg (by omega), if_neg (by rw [List.length_append]; omega), if_pos (by rw [List.length_append]; omega), bind_ok]
    dsimp only
    rw [if_neg (by rw [List.length_append]; omega), if_neg (by omega)]

end Jxl.Icc
