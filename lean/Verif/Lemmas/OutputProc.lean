import Verif.Spec.OutputProc

namespace Jxl.OutProc

structure Inv (s : St) (f : File) (done : List Nat) : Prop where
  held : s.held = false
  pos : s.pos = f.pos
  fin : s.fin = f.fin
  finPos : f.fin ≤ f.pos
  outFin : s.out ≤ s.fin
  used : s.used ≤ s.win.length
  len : done.length + s.used = s.out
  deliv : ∀ i, i < s.out → f.cell i = (done ++ s.win.take s.used)[i]?
  sorted : s.bufs.Pairwise (fun a b => a.start + a.written ≤ b.start)
  wr : ∀ b ∈ s.bufs, 0 < b.written ∧ s.out < b.start + b.written
  own : ∀ b ∈ s.bufs, b.owned ≠ [] →
    b.written ≤ b.owned.length ∧ ∀ j, j < b.written → f.cell (b.start + j) = b.owned[j]?
  dir : ∀ b ∈ s.bufs, b.owned = [] →
    s.used + (b.start + b.written - s.out) ≤ s.win.length ∧
      ∀ i, b.start ≤ i → s.out ≤ i → i < b.start + b.written →
        f.cell i = s.win[s.used + (i - s.out)]?
  cover : ∀ i, s.out ≤ i → f.cell i ≠ none →
    ∃ b ∈ s.bufs, b.start ≤ i ∧ i < b.start + b.written
  finalised : ∀ i, i < f.fin → f.cell i ≠ none

def Flushed (s : St) : Prop := s.out = s.fin ∨ s.avail = 0

theorem Inv.cell_some {s f done} (h : Inv s f done) (b) (hb : b ∈ s.bufs) (i)
    (h1 : b.start ≤ i) (h2 : i < b.start + b.written) : f.cell i ≠ none := by
  have hi : i = b.start + (i - b.start) := by omega
  by_cases ho : b.owned = []
  · obtain ⟨q, r⟩ := h.dir b hb ho
    by_cases hio : i < s.out
    · exact h.finalised i (by have := h.outFin; have := h.fin; omega)
    · rw [r i h1 (by omega) h2, List.getElem?_eq_getElem (by omega)]
      simp
  · obtain ⟨p, r⟩ := h.own b hb ho
    have := r (i - b.start) (by omega)
    rw [hi, this, List.getElem?_eq_getElem (by omega)]
    simp

/-! ### `overwrite` -/

theorem overwrite_length (l off bs) (h : off + bs.length ≤ l.length) :
    (overwrite l off bs).length = l.length := by
  unfold overwrite; simp; omega

theorem overwrite_get (l : List Nat) (off : Nat) (bs : List Nat)
    (h : off + bs.length ≤ l.length) (i : Nat) :
    (overwrite l off bs)[i]? =
      if off ≤ i ∧ i < off + bs.length then bs[i - off]? else l[i]? := by
  unfold overwrite
  have hl : (l.take off).length = off := by simp; omega
  by_cases h1 : i < off
  · rw [if_neg (by omega), List.append_assoc, List.getElem?_append_left (by omega),
      List.getElem?_take_of_lt h1]
  · by_cases h2 : i < off + bs.length
    · rw [if_pos (by omega), List.append_assoc, List.getElem?_append_right (by omega),
        List.getElem?_append_left (by omega), hl]
    · rw [if_neg (by omega), List.getElem?_append_right (by simp; omega),
        List.getElem?_drop]
      congr 1
      simp; omega

theorem overwrite_take (l : List Nat) (off : Nat) (bs : List Nat) (n : Nat) (hn : n ≤ off)
    (h : off ≤ l.length) : (overwrite l off bs).take n = l.take n := by
  unfold overwrite
  rw [List.append_assoc, List.take_append_of_le_length (by simp; omega), List.take_take,
    Nat.min_eq_left hn]

/-! ### The map -/

theorem split_at (bufs : List Buf) (p : Nat)
    (hs : bufs.Pairwise (fun a b => a.start + a.written ≤ b.start))
    (hd : ∀ b ∈ bufs, 0 < b.written ∧ (b.start + b.written ≤ p ∨ p < b.start)) :
    ∃ A B, bufs = A ++ B ∧ (∀ a ∈ A, a.start + a.written ≤ p) ∧ (∀ b ∈ B, p < b.start) ∧
      ∀ x : Buf, x.start = p → emplace x bufs = A ++ x :: B := by
  induction bufs with
  | nil => exact ⟨[], [], rfl, by simp, by simp, fun x _ => rfl⟩
  | cons c cs ih =>
    rw [List.pairwise_cons] at hs
    obtain ⟨hw, hc⟩ := hd c (by simp)
    rcases hc with hc | hc
    · obtain ⟨A, B, h1, h2, h3, h4⟩ := ih hs.2 (fun b hb => hd b (by simp [hb]))
      refine ⟨c :: A, B, by simp [h1], ?_, h3, ?_⟩
      · intro a ha
        rcases List.mem_cons.1 ha with rfl | ha
        · exact hc
        · exact h2 a ha
      · intro x hx
        rw [emplace, if_neg (by omega), if_neg (by omega), h4 x hx]
        rfl
    · refine ⟨[], c :: cs, rfl, by simp, ?_, ?_⟩
      · intro b hb
        rcases List.mem_cons.1 hb with rfl | hb
        · exact hc
        · have := hs.1 b hb
          omega
      · intro x hx
        rw [emplace, if_pos (by omega)]
        rfl

theorem modify_append (p : Nat) (g : Buf → Buf) (A B : List Buf) (x : Buf) (hx : x.start = p)
    (hA : ∀ a ∈ A, 0 < a.written ∧ a.start + a.written ≤ p) (hB : ∀ b ∈ B, p < b.start) :
    modify p g (A ++ x :: B) = A ++ g x :: B := by
  unfold modify
  rw [List.map_append, List.map_cons, if_pos hx]
  congr 1
  · conv => rhs; rw [← List.map_id A]
    apply List.map_congr_left
    intro a ha
    have := hA a ha
    rw [if_neg (by omega)]; rfl
  · congr 1
    conv => rhs; rw [← List.map_id B]
    apply List.map_congr_left
    intro a ha
    have := hB a ha
    rw [if_neg (by omega)]; rfl

theorem nextKey_append (p : Nat) (A B : List Buf) (x : Buf) (hx : x.start = p)
    (hA : ∀ a ∈ A, 0 < a.written ∧ a.start + a.written ≤ p) (hB : ∀ b ∈ B, p < b.start) :
    nextKey p (A ++ x :: B) = B.head?.map Buf.start := by
  unfold nextKey
  have h1 : A.find? (fun y => decide (p < y.start)) = none := by
    rw [List.find?_eq_none]
    intro a ha
    have := hA a ha
    simp; omega
  rw [List.find?_append, h1, Option.none_or, List.find?_cons_of_neg (by simp; omega)]
  cases B with
  | nil => rfl
  | cons b B => rw [List.find?_cons_of_pos (by simpa using hB b (by simp))]; rfl

/-! ### One piece -/

theorem piece_spec {s f done} (h : Inv s f done) (mn req : Nat) (bs : Nat → List Nat)
    (hmn : 0 < mn) (hfree : f.Free mn)
    (hbs : ∀ size, mn ≤ size →
      0 < (bs size).length ∧ (bs size).length ≤ size ∧ f.Free (bs size).length) :
    ∃ size s', mn ≤ size ∧ piece s mn req bs = some (s', (bs size).length) ∧
      Inv s' (f.put (bs size)) done ∧ s'.fin = s.fin ∧ s'.out = s.out ∧ s'.used = s.used ∧ s'.win.length = s.win.length := by
  have hd : ∀ b ∈ s.bufs, 0 < b.written ∧ (b.start + b.written ≤ s.pos ∨ s.pos < b.start) := by
    intro b hb
    refine ⟨(h.wr b hb).1, ?_⟩
    by_cases hc : b.start ≤ s.pos ∧ s.pos < b.start + b.written
    · exact absurd (hfree s.pos (by rw [h.pos]; omega) (by rw [h.pos]; omega))
        (h.cell_some b hb _ hc.1 hc.2)
    · omega
  obtain ⟨A, B, hAB, hA, hB, hemp⟩ := split_at s.bufs s.pos h.sorted hd
  have hA' : ∀ a ∈ A, 0 < a.written ∧ a.start + a.written ≤ s.pos := by
    intro a ha
    exact ⟨(h.wr a (by rw [hAB]; simp [ha])).1, hA a ha⟩
  have hBm : ∀ b ∈ B, b ∈ s.bufs := by intro b hb; rw [hAB]; simp [hb]
  have hAm : ∀ b ∈ A, b ∈ s.bufs := by intro b hb; rw [hAB]; simp [hb]
  -- the next buffer starts after any free run
  have hnext : ∀ n, f.Free n → ∀ b ∈ B, s.pos + n ≤ b.start := by
    intro n hn b hb
    by_cases hc : b.start < s.pos + n
    · have hpb := hB b hb
      exact absurd (hn b.start (by rw [← h.pos]; omega) (by rw [← h.pos]; omega))
        (h.cell_some b (hBm b hb) _ (Nat.le_refl _) (by have := (h.wr b (hBm b hb)).1; omega))
    · omega
  have hpf := h.pos
  have hff := h.fin
  have hfp := h.finPos
  have hof := h.outFin
  have hu := h.used
  -- the released state, for given contents
  have hrel : ∀ (w ow : List Nat) (n : Nat), 0 < n → f.Free n →
      releaseBuffer { s with bufs := A ++ Buf.mk s.pos 0 ow :: B, win := w, held := true } n =
        some { s with bufs := A ++ Buf.mk s.pos n ow :: B, win := w,
                      pos := s.pos + n, held := false } := by
    intro w ow n hn0 hn
    unfold releaseBuffer
    dsimp only
    rw [if_neg (by simp), if_neg (by simp), if_neg (by omega),
      nextKey_append s.pos A B _ rfl hA' hB, modify_append s.pos _ A B _ rfl hA' hB]
    cases B with
    | nil => rfl
    | cons b B =>
      have := hnext n hn b (by simp)
      simp only [List.head?_cons, Option.map_some]
      rw [if_pos this]
  -- sortedness of the result
  have hsort : ∀ (ow : List Nat) (n : Nat), f.Free n →
      (A ++ Buf.mk s.pos n ow :: B).Pairwise (fun a b => a.start + a.written ≤ b.start) := by
    intro ow n hn
    have hs := h.sorted
    rw [hAB, List.pairwise_append] at hs
    rw [List.pairwise_append, List.pairwise_cons]
    refine ⟨hs.1, ⟨fun b hb => hnext n hn b hb, hs.2.1⟩, ?_⟩
    intro a ha b hb
    rcases List.mem_cons.1 hb with rfl | hb
    · exact hA a ha
    · exact hs.2.2 a ha b hb
  -- the cells of the other buffers do not move
  have hcell : ∀ (n : Nat) (xs : List Nat), xs.length = n → f.Free n → ∀ b, b ∈ A ∨ b ∈ B →
      ∀ j, j < b.written → (f.put xs).cell (b.start + j) = f.cell (b.start + j) := by
    intro n xs hx hn b hb j hj
    unfold File.put
    dsimp only
    rw [if_neg]
    rcases hb with hb | hb
    · have := hA b hb; omega
    · have := hnext n hn b hb; omega
  have hcell' : ∀ (n : Nat) (xs : List Nat), xs.length = n → f.Free n → ∀ b, b ∈ A ∨ b ∈ B →
      ∀ i, b.start ≤ i → i < b.start + b.written → (f.put xs).cell i = f.cell i := by
    intro n xs hx hn b hb i h1 h2
    have := hcell n xs hx hn b hb (i - b.start) (by omega)
    rw [show b.start + (i - b.start) = i by omega] at this
    exact this
  have hcov : ∀ (n : Nat) (ow xs : List Nat), xs.length = n → ∀ i, s.out ≤ i →
      (f.put xs).cell i ≠ none →
      ∃ b ∈ A ++ Buf.mk s.pos n ow :: B, b.start ≤ i ∧ i < b.start + b.written := by
    intro n ow xs hx i hi hc
    unfold File.put at hc
    dsimp only at hc
    split at hc
    next hr => exact ⟨Buf.mk s.pos n ow, by simp, by dsimp only; omega, by dsimp only; omega⟩
    next hr =>
      obtain ⟨b, hb, h1, h2⟩ := h.cover i hi hc
      refine ⟨b, ?_, h1, h2⟩
      rw [hAB] at hb
      simp only [List.mem_append, List.mem_cons] at hb ⊢
      exact hb.elim Or.inl (fun hb => Or.inr (Or.inr hb))
  have hfinal : ∀ xs : List Nat, ∀ i, i < f.fin → (f.put xs).cell i ≠ none := by
    intro xs i hi
    unfold File.put
    dsimp only
    rw [if_neg (by omega)]
    exact h.finalised i hi
  have hlow : ∀ xs : List Nat, ∀ i, i < s.out → (f.put xs).cell i = f.cell i := by
    intro xs i hi
    unfold File.put
    dsimp only
    rw [if_neg (by omega)]
  have hmid : ∀ xs : List Nat, ∀ j, j < xs.length → (f.put xs).cell (s.pos + j) = xs[j]? := by
    intro xs j hj
    unfold File.put
    dsimp only
    rw [if_pos (by omega)]
    congr 1
    omega
  unfold piece getBuffer
  rw [if_neg (by omega), h.held, if_neg Bool.false_ne_true, if_neg (by omega)]
  by_cases hdir : mn + (s.pos - s.out) < s.avail
  · -- straight into the caller's buffer
    rw [if_pos hdir]
    have hav : s.avail = s.win.length - s.used := rfl
    obtain ⟨hb0, hbl, hbf⟩ := hbs (s.avail - (s.pos - s.out)) (by omega)
    generalize hxs : bs (s.avail - (s.pos - s.out)) = xs at hb0 hbl hbf
    refine ⟨s.avail - (s.pos - s.out),
      { s with bufs := A ++ Buf.mk s.pos xs.length [] :: B,
               win := overwrite s.win (s.used + (s.pos - s.out)) xs,
               pos := s.pos + xs.length, held := false }, by omega, ?_, ?_, rfl, rfl, rfl, ?_⟩
    · rw [hxs, hemp _ rfl]
      dsimp only [Option.bind_some]
      unfold append
      dsimp only
      rw [hxs, if_pos hbl, if_pos (by omega), Option.bind_some, hrel _ _ _ hb0 hbf]
      rfl
    · rw [hxs]
      have hfit : s.used + (s.pos - s.out) + xs.length ≤ s.win.length := by omega
      have hget := overwrite_get s.win (s.used + (s.pos - s.out)) xs hfit
      have hlen := overwrite_length s.win (s.used + (s.pos - s.out)) xs hfit
      constructor
      · rfl
      · show s.pos + xs.length = f.pos + xs.length
        omega
      · exact h.fin
      · show f.fin ≤ f.pos + xs.length
        omega
      · exact h.outFin
      · show s.used ≤ (overwrite _ _ _).length
        omega
      · exact h.len
      · intro i hi
        rw [hlow xs i hi, h.deliv i hi]
        show _ = (done ++ (overwrite _ _ _).take s.used)[i]?
        rw [overwrite_take _ _ _ _ (by omega) (by omega)]
      · exact hsort _ _ hbf
      · intro b hb
        simp only [List.mem_append, List.mem_cons] at hb
        rcases hb with hb | rfl | hb
        · exact h.wr b (hAm b hb)
        · exact ⟨hb0, by show s.out < s.pos + xs.length; omega⟩
        · exact h.wr b (hBm b hb)
      · intro b hb hbo
        simp only [List.mem_append, List.mem_cons] at hb
        rcases hb with hb | rfl | hb
        · obtain ⟨p, r⟩ := h.own b (hAm b hb) hbo
          exact ⟨p, fun j hj => by rw [hcell _ xs rfl hbf b (Or.inl hb) j hj]; exact r j hj⟩
        · exact absurd rfl hbo
        · obtain ⟨p, r⟩ := h.own b (hBm b hb) hbo
          exact ⟨p, fun j hj => by rw [hcell _ xs rfl hbf b (Or.inr hb) j hj]; exact r j hj⟩
      · intro b hb hbo
        simp only [List.mem_append, List.mem_cons] at hb
        rcases hb with hb | rfl | hb
        · obtain ⟨q, r⟩ := h.dir b (hAm b hb) hbo
          have hab := hA b hb
          refine ⟨by show _ ≤ (overwrite _ _ _).length; rw [hlen]; exact q, ?_⟩
          intro i h1 h2 h3
          have h2' : s.out ≤ i := h2
          rw [hcell' _ xs rfl hbf b (Or.inl hb) i h1 h3, r i h1 h2 h3]
          show _ = (overwrite _ _ _)[_]?
          rw [hget, if_neg]
          show ¬ (s.used + (s.pos - s.out) ≤ s.used + (i - s.out) ∧
            s.used + (i - s.out) < s.used + (s.pos - s.out) + xs.length)
          omega
        · refine ⟨?_, fun i h1 h2 h3 => ?_⟩
          · show s.used + (s.pos + xs.length - s.out) ≤ (overwrite _ _ _).length
            omega
          · show (f.put xs).cell i = (overwrite _ _ _)[s.used + (i - s.out)]?
            have h1' : s.pos ≤ i := h1
            have h3' : i < s.pos + xs.length := h3
            have hi : i = s.pos + (i - s.pos) := by omega
            rw [hi, hmid xs (i - s.pos) (by omega), hget, if_pos (by omega)]
            congr 1
            omega
        · obtain ⟨q, r⟩ := h.dir b (hBm b hb) hbo
          have hab := hnext _ hbf b hb
          refine ⟨by show _ ≤ (overwrite _ _ _).length; rw [hlen]; exact q, ?_⟩
          intro i h1 h2 h3
          have h2' : s.out ≤ i := h2
          rw [hcell' _ xs rfl hbf b (Or.inr hb) i h1 h3, r i h1 h2 h3]
          show _ = (overwrite _ _ _)[_]?
          rw [hget, if_neg]
          show ¬ (s.used + (s.pos - s.out) ≤ s.used + (i - s.out) ∧
            s.used + (i - s.out) < s.used + (s.pos - s.out) + xs.length)
          omega
      · exact hcov _ _ xs rfl
      · exact hfinal xs
    · show (overwrite _ _ _).length = _
      rw [overwrite_length _ _ _ (by omega)]
  · -- into a buffer of our own
    rw [if_neg hdir, hemp _ rfl, nextKey_append s.pos A B _ rfl hA' hB]
    have halloc : ∃ n, mn ≤ n ∧
        allocSize (B.head?.map Buf.start) s.pos mn (max mn req) = some n := by
      cases B with
      | nil => exact ⟨max mn req, by omega, rfl⟩
      | cons b B =>
        have := hnext mn hfree b (by simp)
        refine ⟨min (max mn req) (b.start - s.pos), by omega, ?_⟩
        unfold allocSize
        simp only [List.head?_cons, Option.map_some]
        rw [if_pos (by omega)]
    obtain ⟨n, hn, hal⟩ := halloc
    obtain ⟨hb0, hbl, hbf⟩ := hbs n hn
    rw [hal]
    dsimp only [Option.bind_some]
    rw [modify_append s.pos _ A B _ rfl hA' hB]
    dsimp only
    generalize hxs : bs n = xs at hb0 hbl hbf
    have hrl : (resize [] n).length = n := by unfold resize; simp
    refine ⟨n,
      { s with bufs := A ++ Buf.mk s.pos xs.length (overwrite (resize [] n) 0 xs) :: B,
               pos := s.pos + xs.length, held := false }, hn, ?_, ?_, rfl, rfl, rfl, rfl⟩
    · unfold append
      dsimp only
      rw [hxs, if_pos hbl]
      dsimp only [Option.bind_some]
      rw [modify_append s.pos _ A B _ rfl hA' hB]
      dsimp only
      rw [hrel s.win _ _ hb0 hbf]
      rfl
    · rw [hxs]
      have hget := overwrite_get (resize [] n) 0 xs (by omega)
      have hlen := overwrite_length (resize [] n) 0 xs (by omega)
      constructor
      · rfl
      · show s.pos + xs.length = f.pos + xs.length
        omega
      · exact h.fin
      · show f.fin ≤ f.pos + xs.length
        omega
      · exact h.outFin
      · exact hu
      · exact h.len
      · intro i hi
        rw [hlow xs i hi, h.deliv i hi]
      · exact hsort _ _ hbf
      · intro b hb
        simp only [List.mem_append, List.mem_cons] at hb
        rcases hb with hb | rfl | hb
        · exact h.wr b (hAm b hb)
        · exact ⟨hb0, by show s.out < s.pos + xs.length; omega⟩
        · exact h.wr b (hBm b hb)
      · intro b hb hbo
        simp only [List.mem_append, List.mem_cons] at hb
        rcases hb with hb | rfl | hb
        · obtain ⟨p, r⟩ := h.own b (hAm b hb) hbo
          exact ⟨p, fun j hj => by rw [hcell _ xs rfl hbf b (Or.inl hb) j hj]; exact r j hj⟩
        · refine ⟨by show xs.length ≤ (overwrite _ _ _).length; omega, fun j hj => ?_⟩
          have hj' : j < xs.length := hj
          show (f.put xs).cell (s.pos + j) = (overwrite _ _ _)[j]?
          rw [hmid xs j hj', hget, if_pos (by omega), Nat.sub_zero]
        · obtain ⟨p, r⟩ := h.own b (hBm b hb) hbo
          exact ⟨p, fun j hj => by rw [hcell _ xs rfl hbf b (Or.inr hb) j hj]; exact r j hj⟩
      · intro b hb hbo
        simp only [List.mem_append, List.mem_cons] at hb
        rcases hb with hb | rfl | hb
        · obtain ⟨q, r⟩ := h.dir b (hAm b hb) hbo
          exact ⟨q, fun i h1 h2 h3 => by
            rw [hcell' _ xs rfl hbf b (Or.inl hb) i h1 h3]; exact r i h1 h2 h3⟩
        · exfalso
          have h0 : (overwrite (resize [] n) 0 xs).length = 0 := by
            have : overwrite (resize [] n) 0 xs = [] := hbo
            rw [this]; rfl
          omega
        · obtain ⟨q, r⟩ := h.dir b (hBm b hb) hbo
          exact ⟨q, fun i h1 h2 h3 => by
            rw [hcell' _ xs rfl hbf b (Or.inr hb) i h1 h3]; exact r i h1 h2 h3⟩
      · exact hcov _ _ xs rfl
      · exact hfinal xs

/-! ### Flushing -/

theorem get_deliv (done win : List Nat) (u i : Nat) (hi : i < done.length + u) :
    (done ++ win.take u)[i]? =
      if i < done.length then done[i]? else win[i - done.length]? := by
  by_cases h : i < done.length
  · rw [if_pos h, List.getElem?_append_left h]
  · rw [if_neg h, List.getElem?_append_right (by omega), List.getElem?_take_of_lt (by omega)]

theorem Inv.head_covers {s f done} (h : Inv s f done) (ho : s.out < s.fin) :
    ∃ b rest, s.bufs = b :: rest ∧ b.start ≤ s.out ∧
      (∀ c ∈ rest, b.start + b.written ≤ c.start) := by
  obtain ⟨c, hc, h1, h2⟩ := h.cover s.out (Nat.le_refl _)
    (h.finalised s.out (by rw [← h.fin]; exact ho))
  cases hb : s.bufs with
  | nil => rw [hb] at hc; simp at hc
  | cons b rest =>
    have hs := h.sorted
    have hw := h.wr b (by rw [hb]; simp)
    rw [hb] at hc hs
    rw [List.pairwise_cons] at hs
    refine ⟨b, rest, rfl, ?_, hs.1⟩
    rcases List.mem_cons.1 hc with rfl | hc
    · exact h1
    · have := hs.1 c hc
      omega

theorem flushStep_spec {s f done} (h : Inv s f done) (ho : s.out < s.fin) (ha : 0 < s.avail) :
    ∃ s', flushStep s = some s' ∧ Inv s' f done ∧ s.out < s'.out ∧ s'.fin = s.fin ∧
      s'.win.length = s.win.length := by
  obtain ⟨b, rest, hb, hbs, hrest⟩ := h.head_covers ho
  have hbm : b ∈ s.bufs := by rw [hb]; simp
  have hrm : ∀ c ∈ rest, c ∈ s.bufs := by intro c hc; rw [hb]; simp [hc]
  obtain ⟨hw0, hwl⟩ := h.wr b hbm
  have hff := h.fin
  have hfp := h.finPos
  have hu := h.used
  have hlen := h.len
  have hav : s.avail = s.win.length - s.used := rfl
  have hsort := h.sorted
  rw [hb, List.pairwise_cons] at hsort
  -- what is left of the map
  have hbufs : ∀ n, ∀ c ∈ (if b.start + b.written = s.out + n then rest else b :: rest),
      (c = b ∧ b.start + b.written ≠ s.out + n) ∨ c ∈ rest := by
    intro n c hc
    split at hc
    · exact Or.inr hc
    next hne =>
      rcases List.mem_cons.1 hc with rfl | hc
      · exact Or.inl ⟨rfl, hne⟩
      · exact Or.inr hc
  have hsorted' : ∀ n, (if b.start + b.written = s.out + n then rest else b :: rest).Pairwise
      (fun a b => a.start + a.written ≤ b.start) := by
    intro n
    split
    · exact hsort.2
    · exact List.pairwise_cons.2 hsort
  have hcover' : ∀ n, ∀ i, s.out + n ≤ i → f.cell i ≠ none →
      ∃ c ∈ (if b.start + b.written = s.out + n then rest else b :: rest),
        c.start ≤ i ∧ i < c.start + c.written := by
    intro n i hi hc
    obtain ⟨c, hc, h1, h2⟩ := h.cover i (by omega) hc
    rw [hb] at hc
    rcases List.mem_cons.1 hc with rfl | hc
    · refine ⟨c, ?_, h1, h2⟩
      rw [if_neg (by omega)]
      simp
    · refine ⟨c, ?_, h1, h2⟩
      split
      · exact hc
      · simp [hc]
  have hwr' : ∀ n, n ≤ b.start + b.written - s.out →
      ∀ c ∈ (if b.start + b.written = s.out + n then rest else b :: rest),
      0 < c.written ∧ s.out + n < c.start + c.written := by
    intro n hn c hc
    rcases hbufs n c hc with ⟨rfl, hne⟩ | hc
    · exact ⟨hw0, by omega⟩
    · have h1 := h.wr c (hrm c hc)
      have h2 := hrest c hc
      exact ⟨h1.1, by omega⟩
  have hown' : ∀ n, ∀ c ∈ (if b.start + b.written = s.out + n then rest else b :: rest),
      c ∈ s.bufs := by
    intro n c hc
    rcases hbufs n c hc with ⟨rfl, _⟩ | hc
    · exact hbm
    · exact hrm c hc
  unfold flushStep
  rw [hb]
  dsimp only
  rw [if_neg (by omega), if_neg (by omega)]
  by_cases hbo : b.owned = []
  · rw [if_neg (by simp [hbo]), if_neg (by omega)]
    obtain ⟨q, r⟩ := h.dir b hbm hbo
    generalize hn : min (b.start + b.written) s.fin - s.out = n
    rw [if_neg (by omega)]
    refine ⟨_, rfl, ?_, by show s.out < s.out + n; omega, rfl, rfl⟩
    constructor
    · exact h.held
    · exact h.pos
    · exact h.fin
    · exact h.finPos
    · show s.out + n ≤ s.fin
      omega
    · show s.used + n ≤ s.win.length
      omega
    · show done.length + (s.used + n) = s.out + n
      omega
    · intro i hi
      have hi' : i < s.out + n := hi
      show f.cell i = (done ++ s.win.take (s.used + n))[i]?
      rw [get_deliv _ _ _ _ (by omega)]
      by_cases hio : i < s.out
      · rw [h.deliv i hio, get_deliv _ _ _ _ (by omega)]
      · rw [if_neg (by omega), r i (by omega) (by omega) (by omega)]
        congr 1
        omega
    · exact hsorted' n
    · exact hwr' n (by omega)
    · intro c hc hco
      exact h.own c (hown' n c hc) hco
    · intro c hc hco
      obtain ⟨q', r'⟩ := h.dir c (hown' n c hc) hco
      have hw' := hwr' n (by omega) c hc
      refine ⟨by show s.used + n + (c.start + c.written - (s.out + n)) ≤ s.win.length; omega, ?_⟩
      intro i h1 h2 h3
      have h2' : s.out + n ≤ i := h2
      show f.cell i = s.win[s.used + n + (i - (s.out + n))]?
      rw [r' i h1 (by omega) h3]
      congr 1
      omega
    · exact hcover' n
    · exact h.finalised
  · rw [if_pos hbo, if_neg (by omega)]
    obtain ⟨q, r⟩ := h.own b hbm hbo
    generalize hn : min (min (b.start + b.written) s.fin - s.out) s.avail = n
    rw [if_neg (by omega)]
    have hxl : ((b.owned.drop (s.out - b.start)).take n).length = n := by
      simp; omega
    generalize hx : (b.owned.drop (s.out - b.start)).take n = xs at hxl
    have hxg : ∀ j, j < n → xs[j]? = f.cell (s.out + j) := by
      intro j hj
      rw [← hx, List.getElem?_take_of_lt hj, List.getElem?_drop, ← r _ (by omega)]
      congr 1
      omega
    have hget := overwrite_get s.win s.used xs (by omega)
    have hol := overwrite_length s.win s.used xs (by omega)
    refine ⟨_, rfl, ?_, by show s.out < s.out + n; omega, rfl, hol⟩
    constructor
    · exact h.held
    · exact h.pos
    · exact h.fin
    · exact h.finPos
    · show s.out + n ≤ s.fin
      omega
    · show s.used + n ≤ (overwrite _ _ _).length
      omega
    · show done.length + (s.used + n) = s.out + n
      omega
    · intro i hi
      have hi' : i < s.out + n := hi
      show f.cell i = (done ++ (overwrite s.win s.used xs).take (s.used + n))[i]?
      rw [get_deliv _ _ _ _ (by omega), hget]
      by_cases hio : i < s.out
      · rw [h.deliv i hio, get_deliv _ _ _ _ (by omega)]
        split
        · rfl
        · rw [if_neg (by omega)]
      · rw [if_neg (by omega), if_pos (by omega), hxg _ (by omega)]
        congr 1
        omega
    · exact hsorted' n
    · exact hwr' n (by omega)
    · intro c hc hco
      exact h.own c (hown' n c hc) hco
    · intro c hc hco
      obtain ⟨q', r'⟩ := h.dir c (hown' n c hc) hco
      have hw' := hwr' n (by omega) c hc
      refine ⟨by
        show s.used + n + (c.start + c.written - (s.out + n)) ≤ (overwrite _ _ _).length
        omega, ?_⟩
      intro i h1 h2 h3
      have h2' : s.out + n ≤ i := h2
      show f.cell i = (overwrite s.win s.used xs)[s.used + n + (i - (s.out + n))]?
      rw [r' i h1 (by omega) h3, hget, if_neg (by omega)]
      congr 1
      omega
    · exact hcover' n
    · exact h.finalised

theorem flushLoop_spec (fuel : Nat) : ∀ {s f done}, Inv s f done → s.fin - s.out ≤ fuel →
    ∃ s', flushLoop fuel s = some s' ∧ Inv s' f done ∧ Flushed s' ∧ s'.fin = s.fin ∧
      s'.win.length = s.win.length := by
  induction fuel with
  | zero =>
    intro s f done h hf
    refine ⟨s, ?_, h, Or.inl (by have := h.outFin; omega), rfl, rfl⟩
    rw [flushLoop, if_neg (by omega)]
  | succ fuel ih =>
    intro s f done h hf
    rw [flushLoop]
    by_cases hc : s.out < s.fin ∧ 0 < s.avail
    · rw [if_pos hc]
      obtain ⟨s1, e1, i1, o1, f1, w1⟩ := flushStep_spec h hc.1 hc.2
      obtain ⟨s2, e2, i2, o2, f2, w2⟩ := ih i1 (by omega)
      exact ⟨s2, by rw [e1]; exact e2, i2, o2, by rw [f2, f1], by rw [w2, w1]⟩
    · rw [if_neg hc]
      refine ⟨s, rfl, h, ?_, rfl, rfl⟩
      have := h.outFin
      unfold Flushed
      omega

theorem flush_spec {s f done} (h : Inv s f done) :
    ∃ s', flush s = some s' ∧ Inv s' f done ∧ Flushed s' ∧ s'.fin = s.fin ∧
      s'.win.length = s.win.length := by
  unfold flush
  rw [h.held, if_neg Bool.false_ne_true]
  exact flushLoop_spec _ h (Nat.le_refl _)

theorem finalize_spec {s f done} (h : Inv s f done) (hok : f.Ok .finalize) :
    ∃ s', finalize s = some s' ∧ Inv s' (f.next .finalize) done ∧ Flushed s' ∧
      s'.win.length = s.win.length := by
  have h' : Inv { s with fin := s.pos } (f.next .finalize) done := by
    constructor
    · exact h.held
    · exact h.pos
    · exact h.pos
    · exact Nat.le_refl _
    · show s.out ≤ s.pos
      have := h.outFin; have := h.fin; have := h.finPos; have := h.pos
      omega
    · exact h.used
    · exact h.len
    · exact h.deliv
    · exact h.sorted
    · exact h.wr
    · exact h.own
    · exact h.dir
    · exact h.cover
    · exact hok
  obtain ⟨s', e, i, fl, _, w⟩ := flush_spec h'
  unfold finalize
  rw [if_neg (by rw [h.held]; exact Bool.false_ne_true)]
  exact ⟨s', e, i, fl, w⟩

/-! ### The operations -/

theorem put_nil (f : File) : f.put [] = f := by
  unfold File.put
  cases f
  congr 1
  funext i
  rw [if_neg]
  simp only [List.length_nil]
  omega

theorem put_append (f : File) (a b : List Nat) : (f.put a).put b = f.put (a ++ b) := by
  unfold File.put
  dsimp only
  congr 1
  · funext i
    simp only [List.length_append]
    by_cases h1 : f.pos ≤ i ∧ i < f.pos + a.length
    · rw [if_neg (by omega), if_pos h1, if_pos (by omega),
        List.getElem?_append_left (by omega)]
    · by_cases h2 : f.pos + a.length ≤ i ∧ i < f.pos + a.length + b.length
      · rw [if_pos h2, if_pos (by omega), List.getElem?_append_right (by omega)]
        congr 1
        omega
      · rw [if_neg h2, if_neg h1, if_neg (by omega)]
  · simp [Nat.add_assoc]

theorem Free.mono {f : File} {n m : Nat} (h : f.Free n) (hm : m ≤ n) : f.Free m :=
  fun i h1 h2 => h i h1 (by omega)

theorem Free.put {f : File} {n : Nat} {bs : List Nat} (h : f.Free (bs.length + n)) :
    (f.put bs).Free n := by
  intro i h1 h2
  unfold File.put at h1 h2 ⊢
  dsimp only at h1 h2 ⊢
  rw [if_neg (by omega)]
  exact h i (by omega) (by omega)

theorem appendData_spec (mn : Nat) (pick : Nat → Nat → Nat) (hmn : 0 < mn)
    (hp : ∀ r size, 0 < r → mn ≤ size →
      0 < pick r size ∧ pick r size ≤ r ∧ pick r size ≤ size) (fuel : Nat) :
    ∀ (bs : List Nat) {s f done}, Inv s f done → bs.length ≤ fuel →
      f.Free (bs.length + mn - 1) →
      ∃ s', appendData mn pick fuel bs s = some s' ∧ Inv s' (f.put bs) done ∧
        s'.fin = s.fin ∧ s'.out = s.out ∧ s'.used = s.used ∧ s'.win.length = s.win.length := by
  induction fuel with
  | zero =>
    intro bs s f done h hl hf
    have : bs = [] := List.length_eq_zero_iff.1 (by omega)
    subst this
    exact ⟨s, by rw [appendData, if_pos rfl], by rw [put_nil]; exact h, rfl, rfl, rfl, rfl⟩
  | succ fuel ih =>
    intro bs s f done h hl hf
    rw [appendData]
    by_cases hb : bs = []
    · subst hb
      exact ⟨s, by rw [if_pos rfl], by rw [put_nil]; exact h, rfl, rfl, rfl, rfl⟩
    · rw [if_neg hb]
      have hb0 : 0 < bs.length := List.length_pos_iff.2 hb
      obtain ⟨size, s1, hsz, e1, i1, f1, o1, a1, b1⟩ := piece_spec h mn bs.length
        (fun size => bs.take (pick bs.length size)) hmn (Free.mono hf (by omega)) (by
          intro size hs
          obtain ⟨p1, p2, p3⟩ := hp bs.length size hb0 hs
          simp only [List.length_take]
          exact ⟨by omega, by omega, Free.mono hf (by omega)⟩)
      obtain ⟨p1, p2, p3⟩ := hp bs.length size hb0 hsz
      rw [e1, Option.bind_some]
      dsimp only at i1 ⊢
      have hn : (bs.take (pick bs.length size)).length = pick bs.length size := by
        simp; omega
      rw [hn]
      obtain ⟨s2, e2, i2, f2, o2, a2, b2⟩ := ih (bs.drop (pick bs.length size)) i1
        (by simp; omega)
        (Free.put (Free.mono hf (by rw [hn]; simp; omega)))
      refine ⟨s2, e2, ?_, by rw [f2, f1], by rw [o2, o1], by rw [a2, a1], by rw [b2, b1]⟩
      rw [put_append, List.take_append_drop] at i2
      exact i2

theorem step_spec {s f done} (h : Inv s f done) (hfl : Flushed s) (op : Op) (hok : f.Ok op) :
    ∃ s', step s op = some s' ∧ Inv s' (f.next op) done ∧ Flushed s' ∧
      s'.win.length = s.win.length := by
  cases op with
  | data mn pick bs =>
    obtain ⟨h1, h2, h3⟩ := hok
    obtain ⟨s', e, i, f1, o1, a1, b1⟩ := appendData_spec mn pick h1 h3 bs.length bs h
      (Nat.le_refl _) h2
    exact ⟨s', e, i, by unfold Flushed St.avail at hfl ⊢; rw [f1, o1, a1, b1]; exact hfl, b1⟩
  | put bs =>
    obtain ⟨h1, h2⟩ := hok
    have h0 : 0 < bs.length := List.length_pos_iff.2 h1
    obtain ⟨sz, s', _, e, i, f1, o1, a1, b1⟩ := piece_spec h bs.length 0 (fun _ => bs) h0 h2
      (fun sz hs => ⟨h0, hs, h2⟩)
    refine ⟨s', ?_, i, by unfold Flushed St.avail at hfl ⊢; rw [f1, o1, a1, b1]; exact hfl, b1⟩
    show (piece s bs.length 0 fun _ => bs).map Prod.fst = _
    rw [e]
    rfl
  | seek p =>
    have hp : f.fin ≤ p := hok
    refine ⟨{ s with pos := p }, ?_, ?_, hfl, rfl⟩
    · show seek s p = _
      unfold seek
      rw [h.held, if_neg Bool.false_ne_true, if_neg (by rw [h.fin]; omega)]
    · constructor
      · exact h.held
      · rfl
      · exact h.fin
      · exact hp
      · exact h.outFin
      · exact h.used
      · exact h.len
      · exact h.deliv
      · exact h.sorted
      · exact h.wr
      · exact h.own
      · exact h.dir
      · exact h.cover
      · exact h.finalised
  | finalize =>
    exact finalize_spec h hok

theorem runOps_spec (ops : List Op) : ∀ {s f done}, Inv s f done → Flushed s → f.OkAll ops →
    ∃ s', runOps ops s = some s' ∧ Inv s' (f.run ops) done ∧ Flushed s' ∧
      s'.win.length = s.win.length := by
  induction ops with
  | nil => intro s f done h hf _; exact ⟨s, rfl, h, hf, rfl⟩
  | cons op ops ih =>
    intro s f done h hf hok
    obtain ⟨s1, e1, i1, f1, w1⟩ := step_spec h hf op hok.1
    obtain ⟨s2, e2, i2, f2, w2⟩ := ih i1 f1 hok.2
    exact ⟨s2, by rw [runOps, e1]; exact e2, i2, f2, by rw [w2, w1]⟩

/-! ### Calls -/

theorem closed_no_direct {s f done} (h : Inv s f done) (hfl : Flushed s) (hc : f.Closed) :
    ∀ b ∈ s.bufs, b.owned ≠ [] := by
  intro b hb ho
  obtain ⟨q, r⟩ := h.dir b hb ho
  obtain ⟨w0, wl⟩ := h.wr b hb
  have hu := h.used
  have hav : s.avail = s.win.length - s.used := rfl
  rcases hfl with hfl | hfl
  · have := hc (b.start + b.written - 1) (by rw [← h.fin]; omega)
    exact h.cell_some b hb (b.start + b.written - 1) (by omega) (by omega) this
  · omega

theorem setAvailOut_spec {s f done} (h : Inv s f done) (hfl : Flushed s) (hc : f.Closed)
    (w : List Nat) :
    ∃ s', setAvailOut s w = some s' ∧ Inv s' f (done ++ s.win.take s.used) ∧ Flushed s' ∧
      s'.win.length = w.length ∧ s'.fin = s.fin := by
  have hnd := closed_no_direct h hfl hc
  have hl := h.len
  have hu := h.used
  have h' : Inv { s with win := w, used := 0 } f (done ++ s.win.take s.used) := by
    constructor
    · exact h.held
    · exact h.pos
    · exact h.fin
    · exact h.finPos
    · exact h.outFin
    · exact Nat.zero_le _
    · show (done ++ s.win.take s.used).length + 0 = s.out
      simp
      omega
    · intro i hi
      show f.cell i = ((done ++ s.win.take s.used) ++ w.take 0)[i]?
      rw [List.take_zero, List.append_nil]
      exact h.deliv i hi
    · exact h.sorted
    · exact h.wr
    · exact h.own
    · intro b hb ho
      exact absurd ho (hnd b hb)
    · exact h.cover
    · exact h.finalised
  obtain ⟨s', e, i, fl, fi, wl⟩ := flush_spec h'
  exact ⟨s', e, i, fl, wl, fi⟩

theorem processLoop_spec (q : List (List Op)) : ∀ {s f done}, Inv s f done → Flushed s →
    f.Closed → f.OkQueue q →
    ∃ s' q' f', processLoop q s = some (s', q') ∧ Inv s' f' done ∧ Flushed s' ∧ f'.Closed ∧
      f'.OkQueue q' ∧ f'.runQueue q' = f.runQueue q ∧ (q' = [] ∨ s'.avail = 0) ∧
      s'.win.length = s.win.length := by
  induction q with
  | nil =>
    intro s f done h hf hc _
    exact ⟨s, [], f, rfl, h, hf, hc, trivial, rfl, Or.inl rfl, rfl⟩
  | cons it q ih =>
    intro s f done h hf hc hok
    rw [processLoop]
    by_cases ha : s.avail = 0
    · rw [if_pos ha]
      exact ⟨s, it :: q, f, rfl, h, hf, hc, hok, rfl, Or.inr ha, rfl⟩
    · rw [if_neg ha]
      obtain ⟨h1, h2, h3⟩ := hok
      obtain ⟨s1, e1, i1, f1, w1⟩ := runOps_spec it h hf h1
      rw [e1, Option.bind_some]
      obtain ⟨s2, q2, f2, a, b, c, d, e, g, i, j⟩ := ih i1 f1 h2 h3
      exact ⟨s2, q2, f2, a, b, c, d, e, g, i, by rw [j, w1]⟩

theorem deliv_length {s f done} (h : Inv s f done) : (done ++ s.win.take s.used).length = s.out := by
  have := h.len
  have := h.used
  simp
  omega

theorem processOutput_spec {s f done} (h : Inv s f done) (hfl : Flushed s) (hc : f.Closed)
    (q : List (List Op)) (hq : f.OkQueue q) (w : List Nat) :
    ∃ s' q' f' ok, processOutput s q w = some (s'.win.take s'.used, ok, s', q') ∧
      Inv s' f' (done ++ s.win.take s.used) ∧ Flushed s' ∧ f'.Closed ∧ f'.OkQueue q' ∧
      f'.runQueue q' = f.runQueue q ∧ s'.win.length = w.length ∧
      (ok = true → q' = [] ∧ s'.out = s'.fin) ∧
      (s'.avail ≠ 0 → q' = [] ∧ s'.out = s'.fin ∧ ok = true) ∧
      (q = [] → s.out = s.fin → ok = true) := by
  obtain ⟨s1, e1, i1, f1, w1, n1⟩ := setAvailOut_spec h hfl hc w
  obtain ⟨s2, q2, f2, e2, i2, fl2, c2, o2, r2, a2, w2⟩ := processLoop_spec q i1 f1 hc hq
  refine ⟨s2, q2, f2, q2.isEmpty && !decide (s2.out < s2.fin), ?_, i2, fl2, c2, o2, r2,
    by rw [w2, w1], ?_, ?_, ?_⟩
  · unfold processOutput
    rw [e1, Option.bind_some, e2, Option.bind_some]
  · intro hk
    have := i2.outFin
    simp only [Bool.and_eq_true, List.isEmpty_iff, Bool.not_eq_true', decide_eq_false_iff_not] at hk
    exact ⟨hk.1, by omega⟩
  · intro ha
    have h1 : q2 = [] := a2.resolve_right ha
    have h2 : s2.out = s2.fin := fl2.resolve_right ha
    refine ⟨h1, h2, ?_⟩
    rw [h1, h2]
    simp
  · intro hq0 ho
    subst hq0
    rw [processLoop] at e2
    simp only [Option.some.injEq, Prod.mk.injEq] at e2
    obtain ⟨rfl, rfl⟩ := e2
    have h1 := deliv_length h
    have h2 := i1.len
    have h3 := i1.outFin
    simp
    omega

/-! ### The file -/

theorem next_keeps {f : File} {op : Op} (hok : f.Ok op) (i : Nat) (hi : f.cell i ≠ none) :
    (f.next op).cell i = f.cell i := by
  have hput : ∀ bs : List Nat, f.Free bs.length → (f.put bs).cell i = f.cell i := by
    intro bs hf
    unfold File.put
    dsimp only
    by_cases hc : f.pos ≤ i ∧ i < f.pos + bs.length
    · exact absurd (hf i hc.1 hc.2) hi
    · rw [if_neg hc]
  cases op with
  | data mn pick bs => exact hput bs (Free.mono hok.2.1 (by have := hok.1; omega))
  | put bs => exact hput bs hok.2
  | seek p => rfl
  | finalize => rfl

theorem run_keeps (ops : List Op) : ∀ {f : File}, f.OkAll ops → ∀ i, f.cell i ≠ none →
    (f.run ops).cell i = f.cell i := by
  induction ops with
  | nil => intro f _ i _; rfl
  | cons op ops ih =>
    intro f hok i hi
    have h1 := next_keeps hok.1 i hi
    rw [File.run, ih hok.2 i (by rw [h1]; exact hi), h1]

theorem runQueue_keeps (q : List (List Op)) : ∀ {f : File}, f.OkQueue q → ∀ i, f.cell i ≠ none →
    (f.runQueue q).cell i = f.cell i := by
  induction q with
  | nil => intro f _ i _; rfl
  | cons it q ih =>
    intro f hok i hi
    have h1 := run_keeps it hok.1 i hi
    rw [File.runQueue, ih hok.2.2 i (by rw [h1]; exact hi), h1]

theorem run_closed_fin (it : List Op) {f : File} (hok : f.OkAll it)
    (hfin : ∀ i, i < f.fin → f.cell i ≠ none) (hc : (f.run it).Closed) :
    f.fin ≤ (f.run it).fin := by
  by_cases h : f.fin ≤ (f.run it).fin
  · exact h
  · have h1 := hfin (f.fin - 1) (by omega)
    have h2 := run_keeps it hok (f.fin - 1) h1
    exact absurd (hc (f.fin - 1) (by omega)) (by rw [h2]; exact h1)

/-! ### All calls -/

theorem fin_le {f f' : File} (hk : ∀ i, f.cell i ≠ none → f'.cell i = f.cell i)
    (hfin : ∀ i, i < f.fin → f.cell i ≠ none) (hc : f'.Closed) : f.fin ≤ f'.fin := by
  by_cases h : f.fin ≤ f'.fin
  · exact h
  · have h1 := hfin (f.fin - 1) (by omega)
    have h2 := hk (f.fin - 1) h1
    exact absurd (hc (f.fin - 1) (by omega)) (by rw [h2]; exact h1)

theorem runQueue_closed (q : List (List Op)) : ∀ {f : File}, f.Closed → f.OkQueue q →
    (f.runQueue q).Closed := by
  induction q with
  | nil => intro f h _; exact h
  | cons it q ih => intro f _ hok; exact ih hok.2.1 hok.2.2

def total (ws : List (List Nat)) : Nat := (ws.map List.length).sum

theorem drain_spec (ws : List (List Nat)) : ∀ {s f done}, Inv s f done → Flushed s →
    f.Closed → ∀ (q : List (List Op)), f.OkQueue q →
    ∀ last, (last = true → q = [] ∧ s.out = s.fin) →
    ∃ bs ok, drain last s q ws = some (bs, ok) ∧
      (f.runQueue q).Starts ((done ++ s.win.take s.used) ++ bs) ∧
      s.out + bs.length = min (s.out + total ws) (f.runQueue q).fin ∧
      (ok = true → s.out + bs.length = (f.runQueue q).fin) ∧
      ((f.runQueue q).fin < s.out + total ws → ok = true) ∧
      (last = true → ok = true) := by
  induction ws with
  | nil =>
    intro s f done h hfl hc q hq last hlast
    have hF := fin_le (runQueue_keeps q hq) h.finalised (runQueue_closed q hc hq)
    have hl := deliv_length h
    have hof := h.outFin
    have hff := h.fin
    refine ⟨[], last, rfl, ?_, ?_, ?_, ?_, id⟩
    · intro i hi
      rw [List.append_nil] at hi ⊢
      rw [hl] at hi
      rw [runQueue_keeps q hq i (h.finalised i (by omega)), h.deliv i hi]
    · simp [total]
      omega
    · intro hk
      obtain ⟨h1, h2⟩ := hlast hk
      subst h1
      simp [File.runQueue]
      omega
    · simp only [total, List.map_nil, List.sum_nil]
      omega
  | cons w ws ih =>
    intro s f done h hfl hc q hq last hlast
    obtain ⟨s1, q1, f1, ok, e1, i1, fl1, c1, o1, r1, w1, k1, k2, k3⟩ :=
      processOutput_spec h hfl hc q hq w
    obtain ⟨bs, ok2, e2, st2, l2, g2, g3, g4⟩ := ih i1 fl1 c1 q1 o1 ok k1
    have hl := deliv_length h
    have hl1 := deliv_length i1
    rw [List.length_append, hl] at hl1
    rw [r1] at st2 l2 g2 g3
    have hF := fin_le (runQueue_keeps q1 o1) i1.finalised (runQueue_closed q1 c1 o1)
    rw [r1] at hF
    have hof := i1.outFin
    have hff := i1.fin
    have hu1 := i1.used
    have hav : s1.avail = s1.win.length - s1.used := rfl
    have htk : (s1.win.take s1.used).length = s1.used := by simp; omega
    have htot : total (w :: ws) = w.length + total ws := by simp [total]
    refine ⟨s1.win.take s1.used ++ bs, ok2, ?_, ?_, ?_, ?_, ?_, ?_⟩
    · rw [drain, e1, Option.bind_some]
      dsimp only
      rw [e2, Option.bind_some]
    · rw [← List.append_assoc]
      exact st2
    · rw [List.length_append, htk, htot]
      by_cases ha : s1.avail = 0
      · omega
      · obtain ⟨hq1, ho, _⟩ := k2 ha
        subst hq1
        rw [← r1, File.runQueue, ← hff] at l2 hF ⊢
        omega
    · rw [List.length_append, htk]
      intro hk
      have := g2 hk
      omega
    · rw [htot]
      intro hk
      by_cases ha : s1.avail = 0
      · exact g3 (by omega)
      · exact g4 (k2 ha).2.2
    · intro hk
      obtain ⟨h1, h2⟩ := hlast hk
      exact g4 (k3 h1 h2)

theorem inv_init : Inv St.init File.empty [] := by
  constructor <;> simp [St.init, File.empty]

theorem flushed_init : Flushed St.init := Or.inl rfl

theorem closed_empty : File.empty.Closed := fun _ _ => rfl

end Jxl.OutProc
