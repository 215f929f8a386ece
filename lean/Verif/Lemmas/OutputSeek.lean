import Verif.Lemmas.OutputExt

namespace Jxl.OutProc

/-- The state with a processor which can seek, as long as no stop was
requested. -/
structure SInv (s : XSt) (f : File) : Prop where
  sk : s.sk = true
  good : Good s
  pos : s.pos = f.pos
  fin : s.fin = f.fin
  finPos : f.fin ≤ f.pos
  out : s.out = s.pos
  upos : s.usr.pos = s.pos
  lent : s.usr.lent = none
  told : s.usr.told = f.fin
  cells : s.usr.cells = f.cell
  sorted : s.bufs.Pairwise (fun a b => a.start + a.written ≤ b.start)
  wr : ∀ b ∈ s.bufs, 0 < b.written ∧ ∀ i, b.start ≤ i → i < b.start + b.written →
    f.cell i ≠ none
  cover : ∀ i, f.cell i ≠ none → ∃ b ∈ s.bufs, b.start ≤ i ∧ i < b.start + b.written

/-- The map after a piece of `n` bytes, and what it takes for the invariant. -/
theorem SInv.after {s f} (h : SInv s f) (A B : List Buf) (ow xs : List Nat) (u : User)
    (hAB : s.bufs = A ++ B) (hA : ∀ a ∈ A, a.start + a.written ≤ s.pos)
    (hnext : ∀ b ∈ B, s.pos + xs.length ≤ b.start) (hx0 : 0 < xs.length)
    (hfree : f.Free xs.length) (hup : u.pos = s.pos + xs.length) (hul : u.lent = none)
    (hut : u.told = f.fin) (huc : u.cells = (f.put xs).cell) (hun : u.Never) :
    SInv { s with bufs := A ++ Buf.mk s.pos xs.length ow :: B, pos := s.pos + xs.length,
                  out := s.pos + xs.length, usr := u } (f.put xs) := by
  have hpf := h.pos
  have hBm : ∀ b ∈ B, b ∈ s.bufs := by intro b hb; rw [hAB]; simp [hb]
  have hAm : ∀ b ∈ A, b ∈ s.bufs := by intro b hb; rw [hAB]; simp [hb]
  constructor
  · exact h.sk
  · exact ⟨h.good.1, hun⟩
  · show s.pos + xs.length = f.pos + xs.length
    omega
  · exact h.fin
  · show f.fin ≤ f.pos + xs.length
    have := h.finPos
    omega
  · rfl
  · exact hup
  · exact hul
  · exact hut
  · exact huc
  · have hs := h.sorted
    rw [hAB, List.pairwise_append] at hs
    show (A ++ _ :: B).Pairwise _
    rw [List.pairwise_append, List.pairwise_cons]
    refine ⟨hs.1, ⟨fun b hb => hnext b hb, hs.2.1⟩, ?_⟩
    intro a ha b hb
    rcases List.mem_cons.1 hb with rfl | hb
    · exact hA a ha
    · exact hs.2.2 a ha b hb
  · intro b hb
    simp only [List.mem_append, List.mem_cons] at hb
    have hold : ∀ b ∈ s.bufs, ∀ i, b.start ≤ i → i < b.start + b.written →
        (f.put xs).cell i ≠ none := by
      intro b hb i h1 h2
      rw [sub_put hfree i ((h.wr b hb).2 i h1 h2)]
      exact (h.wr b hb).2 i h1 h2
    rcases hb with hb | rfl | hb
    · exact ⟨(h.wr b (hAm b hb)).1, hold b (hAm b hb)⟩
    · refine ⟨hx0, fun i h1 h2 => ?_⟩
      have h1' : s.pos ≤ i := h1
      have h2' : i < s.pos + xs.length := h2
      rw [put_cell, if_pos (by omega), List.getElem?_eq_getElem (by omega)]
      simp
    · exact ⟨(h.wr b (hBm b hb)).1, hold b (hBm b hb)⟩
  · intro i hc
    rw [put_cell] at hc
    split at hc
    next hr =>
      exact ⟨Buf.mk s.pos xs.length ow, List.mem_append_right _ (List.mem_cons_self ..),
        by dsimp only; omega, by dsimp only; omega⟩
    next hr =>
      obtain ⟨b, hb, h1, h2⟩ := h.cover i hc
      refine ⟨b, ?_, h1, h2⟩
      rw [hAB] at hb
      simp only [List.mem_append, List.mem_cons] at hb ⊢
      exact hb.elim Or.inl (fun hb => Or.inr (Or.inr hb))

/-- The place of a new piece in the map. -/
theorem SInv.split {s f} (h : SInv s f) (n : Nat) (hn : 0 < n) (hfree : f.Free n) :
    ∃ A B, s.bufs = A ++ B ∧ (∀ a ∈ A, 0 < a.written ∧ a.start + a.written ≤ s.pos) ∧
      (∀ b ∈ B, s.pos < b.start) ∧ (∀ m, f.Free m → ∀ b ∈ B, s.pos + m ≤ b.start) ∧
      ∀ x : Buf, x.start = s.pos → emplace x s.bufs = A ++ x :: B := by
  have hpf := h.pos
  have hd : ∀ b ∈ s.bufs, 0 < b.written ∧ (b.start + b.written ≤ s.pos ∨ s.pos < b.start) := by
    intro b hb
    refine ⟨(h.wr b hb).1, ?_⟩
    by_cases hc : b.start ≤ s.pos ∧ s.pos < b.start + b.written
    · exact absurd (hfree s.pos (by omega) (by omega)) ((h.wr b hb).2 _ hc.1 hc.2)
    · omega
  obtain ⟨A, B, hAB, hA, hB, hemp⟩ := split_at s.bufs s.pos h.sorted hd
  refine ⟨A, B, hAB, fun a ha => ⟨(h.wr a (by rw [hAB]; simp [ha])).1, hA a ha⟩, hB, ?_, hemp⟩
  intro m hm b hb
  by_cases hc : b.start < s.pos + m
  · have hpb := hB b hb
    have hbm : b ∈ s.bufs := by rw [hAB]; simp [hb]
    exact absurd (hm b.start (by omega) (by omega))
      ((h.wr b hbm).2 _ (Nat.le_refl _) (by have := (h.wr b hbm).1; omega))
  · omega

theorem nextOk_append (p n : Nat) (A B : List Buf) (x : Buf) (hx : x.start = p)
    (hA : ∀ a ∈ A, 0 < a.written ∧ a.start + a.written ≤ p) (hB : ∀ b ∈ B, p < b.start)
    (hn : ∀ b ∈ B, p + n ≤ b.start) : nextOk (A ++ x :: B) p n = true := by
  unfold nextOk
  rw [nextKey_append p A B _ hx hA hB]
  cases B with
  | nil => rfl
  | cons b B =>
    have := hn b (by simp)
    simp only [List.head?_cons, Option.map_some, decide_eq_true_eq]
    exact this

/-- Handing over an internal buffer in as many steps as the caller's buffers
take. -/
theorem xappendLoop_spec (fuel : Nat) : ∀ (xs : List Nat) (s : XSt), s.usr.lent = none →
    s.usr.told ≤ s.usr.pos → Good s → xs.length ≤ fuel →
    ∃ u, xappendLoop fuel xs s = some ({ s with usr := u, out := s.out + xs.length }, true) ∧
      u.lent = none ∧ u.told = s.usr.told ∧ u.pos = s.usr.pos + xs.length ∧ u.Never ∧
      ∀ i, u.cells i = if s.usr.pos ≤ i ∧ i < s.usr.pos + xs.length then xs[i - s.usr.pos]?
        else s.usr.cells i := by
  induction fuel with
  | zero =>
    intro xs s hl ht hg hf
    have : xs = [] := List.length_eq_zero_iff.1 (by omega)
    subst this
    refine ⟨s.usr, by rw [xappendLoop, if_pos rfl]; rfl, hl, rfl, rfl, hg.2, fun i => ?_⟩
    rw [if_neg (by simp only [List.length_nil]; omega)]
  | succ fuel ih =>
    intro xs s hl ht hg hf
    rw [xappendLoop]
    by_cases hx : xs = []
    · subst hx
      refine ⟨s.usr, by rw [if_pos rfl]; rfl, hl, rfl, rfl, hg.2, fun i => ?_⟩
      rw [if_neg (by simp only [List.length_nil]; omega)]
    · rw [if_neg hx]
      have hx0 : 0 < xs.length := List.length_pos_iff.2 hx
      have h0 : s.usr.ans 0 ≠ 0 := by have := hg.2 0; omega
      unfold appendExt
      rw [get_eq hl, Option.bind_some]
      dsimp only
      rw [if_neg h0]
      generalize hn : min (s.usr.ans 0) xs.length = n
      have htl : (xs.take n).length = n := by simp; omega
      rw [release_eq (asked_lent h0) (by rw [htl]; omega) ht, Option.bind_some, Option.bind_some]
      dsimp only
      rw [if_neg (by simp), Nat.add_sub_cancel_left]
      obtain ⟨u, e, u1, u2, u3, u4, u5⟩ := ih (xs.drop n)
        { s with usr := s.usr.asked.took (xs.take n), out := s.out + n } rfl
        (by show s.usr.told ≤ s.usr.pos + (xs.take n).length; omega)
        ⟨hg.1, fun k => hg.2 (k + 1)⟩ (by simp; omega)
      have hdl : (xs.drop n).length = xs.length - n := by simp
      refine ⟨u, ?_, u1, u2, ?_, u4, ?_⟩
      · rw [e]
        dsimp only
        rw [hdl, Nat.add_assoc, Nat.add_sub_cancel' (by omega)]
      · rw [u3]
        show s.usr.pos + (xs.take n).length + (xs.drop n).length = _
        omega
      · intro i
        rw [u5]
        show (if s.usr.pos + (xs.take n).length ≤ i ∧
            i < s.usr.pos + (xs.take n).length + (xs.drop n).length then
          (xs.drop n)[i - (s.usr.pos + (xs.take n).length)]?
          else if s.usr.pos ≤ i ∧ i < s.usr.pos + (xs.take n).length then
            (xs.take n)[i - s.usr.pos]? else s.usr.cells i) = _
        rw [htl, hdl]
        by_cases h1 : s.usr.pos + n ≤ i ∧ i < s.usr.pos + n + (xs.length - n)
        · rw [if_pos h1, if_pos (by omega), List.getElem?_drop]
          congr 1
          omega
        · rw [if_neg h1]
          by_cases h2 : s.usr.pos ≤ i ∧ i < s.usr.pos + n
          · rw [if_pos h2, if_pos (by omega), List.getElem?_take_of_lt (by omega)]
          · rw [if_neg h2, if_neg (by omega)]

theorem sown_spec {s f} (h : SInv s f) (mn req : Nat) (bs : Nat → List Nat)
    (hmn : 0 < mn) (hfree : f.Free mn)
    (hbs : ∀ size, mn ≤ size →
      0 < (bs size).length ∧ (bs size).length ≤ size ∧ f.Free (bs size).length) :
    ∃ size s', mn ≤ size ∧ xown s mn req bs = some (s', some (bs size).length) ∧
      SInv s' (f.put (bs size)) := by
  obtain ⟨A, B, hAB, hA', hB, hnext, hemp⟩ := h.split mn hmn hfree
  have hpf := h.pos
  have hff := h.fin
  have hfp := h.finPos
  have halloc : ∃ n, mn ≤ n ∧
      allocSize (B.head?.map Buf.start) s.pos mn (max mn req) = some n := by
    cases B with
    | nil => exact ⟨max mn req, by omega, rfl⟩
    | cons b B =>
      have := hnext mn hfree b (by simp)
      refine ⟨min (max mn req) (b.start - s.pos), by omega, ?_⟩
      unfold allocSize
      simp only [List.head?_cons, Option.map_some]
      rw [if_pos (by omega)]
  obtain ⟨n, hn, hal⟩ := halloc
  obtain ⟨hb0, hbl, hbf⟩ := hbs n hn
  unfold xown
  rw [hemp _ rfl, nextKey_append s.pos A B _ rfl hA' hB, hal, Option.bind_some]
  generalize hxs : bs n = xs at hb0 hbl hbf
  have hne : xs ≠ [] := List.length_pos_iff.1 hb0
  rw [if_neg (by omega), if_neg hne,
    nextOk_append s.pos _ A B _ rfl hA' hB (hnext _ hbf), if_neg (by simp)]
  dsimp only
  rw [if_pos h.sk, modify_append s.pos _ A B _ rfl hA' hB]
  dsimp only
  unfold User.seek
  rw [if_pos ⟨h.lent, by rw [h.told]; omega⟩, Option.bind_some]
  obtain ⟨u, e, u1, u2, u3, u4, u5⟩ := xappendLoop_spec xs.length xs
    { s with
      bufs := A ++ Buf.mk s.pos xs.length (overwrite (resize [] n) 0 xs) :: B,
      pos := s.pos + xs.length, out := s.pos, usr := { s.usr with pos := s.pos } }
    h.lent (by show s.usr.told ≤ s.pos; rw [h.told]; omega) h.good (Nat.le_refl _)
  rw [e, Option.bind_some]
  dsimp only
  rw [if_pos rfl, modify_append s.pos _ A B _ rfl hA' hB]
  dsimp only
  refine ⟨n, _, hn, by rw [hxs], ?_⟩
  rw [hxs]
  refine h.after A B [] xs u hAB (fun a ha => (hA' a ha).2) (hnext _ hbf) hb0 hbf u3 u1
    (by rw [u2]; exact h.told) ?_ u4
  funext i
  rw [u5, put_cell, ← hpf]
  show (if s.pos ≤ i ∧ _ then _ else s.usr.cells i) = _
  rw [h.cells]

theorem sdirect_spec {s f} (h : SInv s f) (size : Nat) (xs : List Nat) (u : User)
    (hu : u = { s.usr with lent := some size, ans := u.ans }) (hun : u.Never)
    (hx0 : 0 < xs.length) (hxl : xs.length ≤ size) (hfree : f.Free xs.length) :
    ∃ s', xdirect s u size xs = some (s', some xs.length) ∧ SInv s' (f.put xs) := by
  obtain ⟨A, B, hAB, hA', hB, hnext, hemp⟩ := h.split xs.length hx0 hfree
  have hpf := h.pos
  have hff := h.fin
  have hfp := h.finPos
  have hout := h.out
  have hul : u.lent = some size := by rw [hu]
  have hup : u.pos = s.pos := by rw [hu]; exact h.upos
  have hut : u.told = f.fin := by rw [hu]; exact h.told
  have huc : u.cells = f.cell := by rw [hu]; exact h.cells
  unfold xdirect
  rw [hemp _ rfl, if_neg (by omega), if_neg (List.length_pos_iff.1 hx0),
    nextOk_append s.pos _ A B _ rfl hA' hB (hnext _ hfree), if_neg (by simp),
    release_eq hul hxl (by omega), Option.bind_some, modify_append s.pos _ A B _ rfl hA' hB]
  dsimp only
  rw [if_pos h.sk, if_pos ⟨by omega, by omega⟩, hout]
  refine ⟨_, rfl, ?_⟩
  refine h.after A B [] xs (u.took xs) hAB (fun a ha => (hA' a ha).2) (hnext _ hfree) hx0 hfree
    (by show u.pos + xs.length = _; omega) rfl hut ?_ hun
  funext i
  show (if u.pos ≤ i ∧ i < u.pos + xs.length then xs[i - u.pos]? else u.cells i) = _
  rw [put_cell, hup, huc, hpf]

theorem spiece_spec {s f} (h : SInv s f) (mn req : Nat) (bs : Nat → List Nat)
    (hmn : 0 < mn) (hfree : f.Free mn)
    (hbs : ∀ size, mn ≤ size →
      0 < (bs size).length ∧ (bs size).length ≤ size ∧ f.Free (bs size).length) :
    ∃ size s', mn ≤ size ∧ xpiece s mn req bs = some (s', some (bs size).length) ∧
      SInv s' (f.put (bs size)) := by
  unfold xpiece
  have hout := h.out
  have h0 : s.usr.ans 0 ≠ 0 := by have := h.good.2 0; omega
  rw [if_neg (by omega), if_neg (by rw [h.good.1]; exact Bool.false_ne_true),
    if_neg (by rw [hout]; simp), if_neg (by omega), if_pos hout.symm, get_eq h.lent,
    Option.bind_some]
  dsimp only
  rw [if_neg h0]
  by_cases hsz : s.usr.ans 0 < mn
  · rw [if_pos hsz, release_eq (xs := []) (asked_lent h0) (by simp)
      (by
        show s.usr.told ≤ s.usr.pos
        rw [h.told, h.upos, h.pos]
        exact h.finPos), Option.bind_some, took_nil]
    refine sown_spec (s := { s with usr := { s.usr.asked with lent := none } }) ?_ mn req bs hmn
      hfree hbs
    constructor
    · exact h.sk
    · exact ⟨h.good.1, fun k => h.good.2 (k + 1)⟩
    · exact h.pos
    · exact h.fin
    · exact h.finPos
    · exact h.out
    · exact h.upos
    · rfl
    · exact h.told
    · exact h.cells
    · exact h.sorted
    · exact h.wr
    · exact h.cover
  · rw [if_neg hsz]
    obtain ⟨b0, b1, b2⟩ := hbs (s.usr.ans 0) (by omega)
    obtain ⟨s', e, i⟩ := sdirect_spec h (s.usr.ans 0) (bs (s.usr.ans 0)) s.usr.asked
      (by unfold User.asked; rw [if_neg h0]) (fun k => h.good.2 (k + 1)) b0 b1 b2
    exact ⟨s.usr.ans 0, s', by omega, e, i⟩

theorem sappendData_spec (mn : Nat) (pick : Nat → Nat → Nat) (hmn : 0 < mn)
    (hp : ∀ r size, 0 < r → mn ≤ size →
      0 < pick r size ∧ pick r size ≤ r ∧ pick r size ≤ size) (fuel : Nat) :
    ∀ (bs : List Nat) {s f}, SInv s f → bs.length ≤ fuel → f.Free (bs.length + mn - 1) →
      ∃ s', xappendData mn pick fuel bs s = some (s', true) ∧ SInv s' (f.put bs) := by
  induction fuel with
  | zero =>
    intro bs s f h hl hf
    have : bs = [] := List.length_eq_zero_iff.1 (by omega)
    subst this
    exact ⟨s, by rw [xappendData, if_pos rfl], by rw [put_nil]; exact h⟩
  | succ fuel ih =>
    intro bs s f h hl hf
    rw [xappendData]
    by_cases hb : bs = []
    · subst hb
      exact ⟨s, by rw [if_pos rfl], by rw [put_nil]; exact h⟩
    · rw [if_neg hb]
      have hb0 : 0 < bs.length := List.length_pos_iff.2 hb
      obtain ⟨size, s1, hsz, e1, i1⟩ := spiece_spec h mn bs.length
        (fun size => bs.take (pick bs.length size)) hmn (Free.mono hf (by omega)) (by
          intro size hs
          obtain ⟨p1, p2, p3⟩ := hp bs.length size hb0 hs
          simp only [List.length_take]
          exact ⟨by omega, by omega, Free.mono hf (by omega)⟩)
      obtain ⟨p1, p2, p3⟩ := hp bs.length size hb0 hsz
      rw [e1, Option.bind_some]
      dsimp only at i1 ⊢
      have hn : (bs.take (pick bs.length size)).length = pick bs.length size := by
        simp; omega
      rw [hn]
      obtain ⟨s2, e2, i2⟩ := ih (bs.drop (pick bs.length size)) i1
        (by simp; omega) (Free.put (Free.mono hf (by rw [hn]; simp; omega)))
      refine ⟨s2, e2, ?_⟩
      rw [put_append, List.take_append_drop] at i2
      exact i2

theorem sstep_spec {s f} (h : SInv s f) (op : Op) (hok : f.Ok op) :
    ∃ s', xstep s op = some (s', true) ∧ SInv s' (f.next op) := by
  cases op with
  | data mn pick bs =>
    obtain ⟨h1, h2, h3⟩ := hok
    exact sappendData_spec mn pick h1 h3 bs.length bs h (Nat.le_refl _) h2
  | put bs =>
    obtain ⟨h1, h2⟩ := hok
    have h0 : 0 < bs.length := List.length_pos_iff.2 h1
    obtain ⟨_, s', _, e, i⟩ := spiece_spec h bs.length 0 (fun _ => bs) h0 h2
      (fun sz hs => ⟨h0, hs, h2⟩)
    refine ⟨s', ?_, i⟩
    show (xpiece s bs.length 0 fun _ => bs).map _ = _
    rw [e]
    rfl
  | seek p =>
    have hp : f.fin ≤ p := hok
    have hff := h.fin
    refine ⟨{ s with pos := p, out := p, usr := { s.usr with pos := p } }, ?_, ?_⟩
    · show (xseek s p).map _ = _
      unfold xseek User.seek
      rw [if_pos h.sk, if_pos ⟨h.lent, by rw [h.told]; exact hp⟩, Option.bind_some,
        if_neg (by omega), if_pos h.sk]
      rfl
    · constructor
      · exact h.sk
      · exact h.good
      · rfl
      · exact h.fin
      · exact hp
      · rfl
      · rfl
      · exact h.lent
      · exact h.told
      · exact h.cells
      · exact h.sorted
      · exact h.wr
      · exact h.cover
  | finalize =>
    have hff := h.fin
    have hpf := h.pos
    refine ⟨{ s with fin := s.pos, usr := { s.usr with told := s.pos } }, ?_, ?_⟩
    · show (xfinalize s).map _ = _
      unfold xfinalize User.setFin
      rw [if_pos h.sk, if_pos ⟨h.lent, by rw [h.told, hpf]; exact h.finPos⟩, Option.bind_some]
      unfold xflush
      dsimp only
      rw [h.out, Nat.sub_self, xflushLoop, if_neg (by dsimp only; omega)]
      rfl
    · constructor
      · exact h.sk
      · exact h.good
      · exact h.pos
      · exact h.pos
      · exact Nat.le_refl _
      · exact h.out
      · exact h.upos
      · exact h.lent
      · exact h.pos
      · exact h.cells
      · exact h.sorted
      · exact h.wr
      · exact h.cover

theorem srunOps_spec (ops : List Op) : ∀ {s f}, SInv s f → f.OkAll ops →
    ∃ s', xrunOps ops s = some (s', true) ∧ SInv s' (f.run ops) := by
  induction ops with
  | nil => intro s f h _; exact ⟨s, rfl, h⟩
  | cons op ops ih =>
    intro s f h hok
    obtain ⟨s1, e1, i1⟩ := sstep_spec h op hok.1
    obtain ⟨s2, e2, i2⟩ := ih i1 hok.2
    exact ⟨s2, by rw [xrunOps, e1, Option.bind_some, if_pos rfl]; exact e2, i2⟩

theorem sflushInput_spec (q : List (List Op)) : ∀ {s f}, SInv s f → f.OkQueue q →
    ∃ s', flushInput q s = some (s', true) ∧ SInv s' (f.runQueue q) := by
  induction q with
  | nil => intro s f h _; exact ⟨s, rfl, h⟩
  | cons it q ih =>
    intro s f h hok
    obtain ⟨s1, e1, i1⟩ := srunOps_spec it h hok.1
    obtain ⟨s2, e2, i2⟩ := ih i1 hok.2.2
    exact ⟨s2, by rw [flushInput, e1, Option.bind_some, if_pos rfl]; exact e2, i2⟩

theorem sinv_init {ans : Nat → Nat} (h : ∀ k, 0 < ans k) :
    SInv (XSt.init true ans) File.empty := by
  constructor <;> simp [XSt.init, File.empty, User.init, Good, User.Never]
  exact h

/-! ### Seeks of boxes -/

theorem box_seeks (f : File) (hf : f.fin = f.pos) (hc : f.Closed) (hdr c : List Nat)
    (hh : hdr ≠ []) : f.OkSeeks (appendBox f.pos hdr [Op.copy c] c.length) := by
  have hrun := box_run f hdr c
  unfold appendBox at hrun ⊢
  simp only [List.singleton_append, List.cons_append, List.nil_append, File.run] at hrun
  simp only [List.singleton_append, List.cons_append, List.nil_append, File.OkSeeks]
  have h0 : 0 < hdr.length := List.length_pos_iff.2 hh
  refine ⟨?_, trivial, ?_, trivial, ?_, trivial, trivial⟩
  · intro q hq
    by_cases hc' : q ≤ f.pos + hdr.length
    · exact hc'
    · exact absurd (hc (f.pos) (by omega)) (hq f.pos (by omega))
  · intro q hq
    by_cases hc' : q ≤ f.pos
    · exact hc'
    · have h1 := hq f.pos (by omega)
      have h2 : (if f.pos + hdr.length ≤ f.pos ∧ f.pos < f.pos + hdr.length + c.length then
        c[f.pos - (f.pos + hdr.length)]? else f.cell f.pos) ≠ none := h1
      rw [if_neg (by omega)] at h2
      exact absurd (hc f.pos (by omega)) h2
  · intro q hq
    by_cases hc' : q ≤ f.pos + hdr.length + c.length
    · exact hc'
    · have h1 := hq (f.pos + hdr.length + c.length) (by omega)
      have hcell := congrArg (fun g => g.cell (f.pos + hdr.length + c.length)) hrun
      have h2 : (f.put (hdr ++ c)).cell (f.pos + hdr.length + c.length) ≠ none := by
        intro hn
        apply h1
        rw [← hn]
        exact hcell
      rw [put_cell, List.length_append, if_neg (by omega)] at h2
      exact absurd (hc _ (by omega)) h2

theorem boxes_seeks (bx : List (List Nat × List Nat)) (hb : ∀ b ∈ bx, b.1 ≠ []) :
    ∀ (f : File), f.fin = f.pos → f.Closed → f.OkSeekQueue (boxQueue f.pos bx) := by
  induction bx with
  | nil => intro f _ _; trivial
  | cons b bx ih =>
    intro f hf hc
    obtain ⟨hdr, c⟩ := b
    have hrun := box_run f hdr c
    refine ⟨box_seeks f hf hc hdr c (hb (hdr, c) (by simp)), ?_⟩
    have := ih (fun b h => hb b (by simp [h]))
      (f.run (appendBox f.pos hdr [Op.copy c] c.length)) (by rw [hrun]; rfl) (by
        rw [hrun]
        intro i hi
        have hi' : f.pos + (hdr ++ c).length ≤ i := hi
        show (f.put (hdr ++ c)).cell i = none
        rw [put_cell, if_neg (by omega)]
        exact hc i (by omega))
    have hp : (f.run (appendBox f.pos hdr [Op.copy c] c.length)).pos =
        f.pos + (hdr ++ c).length := by rw [hrun]; rfl
    rw [hp] at this
    exact this

end Jxl.OutProc
