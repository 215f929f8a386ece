import Verif.Model.OutputExt
import Verif.Lemmas.OutputProcBox

namespace Jxl.OutProc

/-- The caller never asks to stop. -/
def User.Never (u : User) : Prop := ∀ k, 0 < u.ans k

structure XInv (s : XSt) (f : File) : Prop where
  sk : s.sk = false
  pos : s.pos = f.pos
  fin1 : f.fin ≤ s.fin
  fin2 : s.fin ≤ s.pos
  outFin : s.out ≤ s.fin
  finalised : ∀ i, i < s.fin → f.cell i ≠ none
  upos : s.usr.pos = s.out
  lent : s.usr.lent = none
  told : s.usr.told = s.out
  cells : ∀ i, s.usr.cells i = if i < s.out then f.cell i else none
  sorted : s.bufs.Pairwise (fun a b => a.start + a.written ≤ b.start)
  wr : ∀ b ∈ s.bufs, 0 < b.written ∧ s.out < b.start + b.written
  own : ∀ b ∈ s.bufs, b.owned ≠ [] ∧ b.written ≤ b.owned.length ∧
    ∀ j, j < b.written → f.cell (b.start + j) = b.owned[j]?
  cover : ∀ i, s.out ≤ i → f.cell i ≠ none →
    ∃ b ∈ s.bufs, b.start ≤ i ∧ i < b.start + b.written

def XFlushed (s : XSt) : Prop := s.out = s.fin ∨ s.stop = true

/-- No stop so far, and none to come. -/
def Good (s : XSt) : Prop := s.stop = false ∧ s.usr.Never

theorem XInv.cell_some {s f} (h : XInv s f) (b) (hb : b ∈ s.bufs) (i)
    (h1 : b.start ≤ i) (h2 : i < b.start + b.written) : f.cell i ≠ none := by
  have hi : i = b.start + (i - b.start) := by omega
  obtain ⟨_, p, r⟩ := h.own b hb
  have := r (i - b.start) (by omega)
  rw [hi, this, List.getElem?_eq_getElem (by omega)]
  simp

/-- The caller after a request for a buffer. -/
def User.asked (u : User) : User :=
  { u with lent := if u.ans 0 = 0 then none else some (u.ans 0),
           ans := fun k => u.ans (k + 1) }

theorem get_eq {u : User} (h : u.lent = none) : u.get = some (u.asked, u.ans 0) := by
  unfold User.get
  rw [h]
  rfl

theorem never_asked {u : User} (h : u.Never) : u.asked.Never := fun k => h (k + 1)

/-- The caller after `xs` was released. -/
def User.took (u : User) (xs : List Nat) : User :=
  { u with
    cells := fun i =>
      if u.pos ≤ i ∧ i < u.pos + xs.length then xs[i - u.pos]? else u.cells i,
    pos := u.pos + xs.length, lent := none }

theorem release_eq {u : User} {n : Nat} {xs : List Nat} (h : u.lent = some n)
    (hl : xs.length ≤ n) (ht : u.told ≤ u.pos) : u.release xs = some (u.took xs) := by
  unfold User.release
  rw [h]
  dsimp only
  rw [if_pos ⟨hl, Or.inl ht⟩]
  rfl

theorem took_nil (u : User) : u.took [] = { u with lent := none } := by
  unfold User.took
  congr 1
  funext i
  rw [if_neg (by simp only [List.length_nil]; omega)]

theorem asked_lent {u : User} (h : u.ans 0 ≠ 0) : u.asked.lent = some (u.ans 0) := by
  unfold User.asked
  dsimp only
  rw [if_neg h]

/-- Changing only what the caller is going to answer. -/
theorem XInv.usr {s f} (h : XInv s f) (ans : Nat → Nat) (st : Bool) :
    XInv { s with usr := { s.usr with lent := none, ans := ans }, stop := st } f := by
  constructor
  · exact h.sk
  · exact h.pos
  · exact h.fin1
  · exact h.fin2
  · exact h.outFin
  · exact h.finalised
  · exact h.upos
  · rfl
  · exact h.told
  · exact h.cells
  · exact h.sorted
  · exact h.wr
  · exact h.own
  · exact h.cover

theorem asked_stop {s f} (h : XInv s f) (h0 : s.usr.ans 0 = 0) :
    XInv { s with usr := s.usr.asked, stop := true } f := by
  have := h.usr (fun k => s.usr.ans (k + 1)) true
  unfold User.asked
  rw [if_pos h0]
  exact this

/-! ### Flushing -/

theorem XInv.head_covers {s f} (h : XInv s f) (ho : s.out < s.fin) :
    ∃ b rest, s.bufs = b :: rest ∧ b.start ≤ s.out ∧
      (∀ c ∈ rest, b.start + b.written ≤ c.start) := by
  obtain ⟨c, hc, h1, h2⟩ := h.cover s.out (Nat.le_refl _) (h.finalised s.out ho)
  cases hb : s.bufs with
  | nil => rw [hb] at hc; simp at hc
  | cons b rest =>
    have hs := h.sorted
    have hw := h.wr b (by rw [hb]; simp)
    rw [hb] at hc hs
    rw [List.pairwise_cons] at hs
    refine ⟨b, rest, rfl, ?_, hs.1⟩
    rcases List.mem_cons.1 hc with rfl | hc
    · exact h1
    · have := hs.1 c hc
      omega

theorem xflushStep_spec {s f} (h : XInv s f) (ho : s.out < s.fin) :
    ∃ s' c, xflushStep s = some (s', c) ∧ XInv s' f ∧ s'.fin = s.fin ∧
      (c = true → s.out < s'.out ∧ s'.stop = s.stop) ∧ (c = false → s'.stop = true) ∧
      (Good s → c = true ∧ Good s') := by
  obtain ⟨b, rest, hb, hbs, hrest⟩ := h.head_covers ho
  have hbm : b ∈ s.bufs := by rw [hb]; simp
  have hrm : ∀ c ∈ rest, c ∈ s.bufs := by intro c hc; rw [hb]; simp [hc]
  obtain ⟨hw0, hwl⟩ := h.wr b hbm
  obtain ⟨hbo, hol, hoc⟩ := h.own b hbm
  have hsort := h.sorted
  rw [hb, List.pairwise_cons] at hsort
  unfold xflushStep
  rw [hb]
  dsimp only
  rw [if_neg (by omega), if_neg (by omega), if_pos hbo, if_neg (by omega), if_neg (by omega)]
  generalize hm : min (b.start + b.written) s.fin - s.out = m
  have hxl : ((b.owned.drop (s.out - b.start)).take m).length = m := by
    simp; omega
  generalize hx : (b.owned.drop (s.out - b.start)).take m = xs at hxl
  have hxg : ∀ j, j < m → xs[j]? = f.cell (s.out + j) := by
    intro j hj
    rw [← hx, List.getElem?_take_of_lt hj, List.getElem?_drop, ← hoc _ (by omega)]
    congr 1
    omega
  unfold appendExt
  rw [get_eq h.lent, Option.bind_some]
  dsimp only
  by_cases h0 : s.usr.ans 0 = 0
  · rw [if_pos h0, Option.bind_some]
    dsimp only
    rw [if_pos rfl]
    refine ⟨_, false, rfl, asked_stop h h0, rfl, by simp, fun _ => rfl, ?_⟩
    intro hg
    have := hg.2 0
    omega
  · rw [if_neg h0, hxl]
    generalize hn : min (s.usr.ans 0) m = n
    have hn0 : 0 < n := by omega
    have hnm : n ≤ m := by omega
    have htl : (xs.take n).length = n := by simp; omega
    rw [release_eq (asked_lent h0) (by rw [htl]; omega)
      (by show s.usr.told ≤ s.usr.pos; rw [h.told, h.upos]; omega), Option.bind_some,
      Option.bind_some]
    dsimp only
    rw [if_neg (by simp), if_neg (by rw [h.sk]; exact Bool.false_ne_true)]
    unfold User.setFin
    rw [if_pos ⟨rfl, by show s.usr.told ≤ _; rw [h.told]; omega⟩, Option.bind_some]
    refine ⟨_, true, rfl, ?_, rfl, fun _ => ⟨by show s.out < s.out + n; omega, rfl⟩, by simp, ?_⟩
    · have hin : ∀ c ∈ (if b.start + b.written = s.out + n then rest else b :: rest),
          (c = b ∧ b.start + b.written ≠ s.out + n) ∨ c ∈ rest := by
        intro c hc
        split at hc
        · exact Or.inr hc
        next hne =>
          rcases List.mem_cons.1 hc with rfl | hc
          · exact Or.inl ⟨rfl, hne⟩
          · exact Or.inr hc
      constructor
      · exact h.sk
      · exact h.pos
      · exact h.fin1
      · exact h.fin2
      · show s.out + n ≤ s.fin
        omega
      · exact h.finalised
      · show s.usr.pos + (xs.take n).length = s.out + n
        rw [htl, h.upos]
      · rfl
      · rfl
      · intro i
        show (if s.usr.pos ≤ i ∧ i < s.usr.pos + (xs.take n).length then
          (xs.take n)[i - s.usr.pos]? else s.usr.cells i) = if i < s.out + n then f.cell i else none
        rw [htl, h.upos, h.cells]
        by_cases h1 : s.out ≤ i ∧ i < s.out + n
        · rw [if_pos h1, if_pos (by omega), List.getElem?_take_of_lt (by omega), hxg _ (by omega)]
          congr 1
          omega
        · rw [if_neg h1]
          by_cases h2 : i < s.out
          · rw [if_pos h2, if_pos (by omega)]
          · rw [if_neg h2, if_neg (by omega)]
      · show (if b.start + b.written = s.out + n then rest else b :: rest).Pairwise _
        split
        · exact hsort.2
        · exact List.pairwise_cons.2 hsort
      · intro c hc
        show 0 < c.written ∧ s.out + n < c.start + c.written
        rcases hin c hc with ⟨rfl, hne⟩ | hc
        · exact ⟨hw0, by omega⟩
        · have h1 := h.wr c (hrm c hc)
          have h2 := hrest c hc
          exact ⟨h1.1, by omega⟩
      · intro c hc
        rcases hin c hc with ⟨rfl, hne⟩ | hc
        · exact h.own c hbm
        · exact h.own c (hrm c hc)
      · intro i hi hc
        have hi' : s.out + n ≤ i := hi
        obtain ⟨c, hc, h1, h2⟩ := h.cover i (by omega) hc
        rw [hb] at hc
        refine ⟨c, ?_, h1, h2⟩
        show c ∈ (if b.start + b.written = s.out + n then rest else b :: rest)
        rcases List.mem_cons.1 hc with rfl | hc
        · rw [if_neg (by omega)]
          simp
        · split
          · exact hc
          · simp [hc]
    · intro hg
      exact ⟨rfl, hg.1, never_asked hg.2⟩

theorem xflushLoop_spec (fuel : Nat) : ∀ {s f}, XInv s f → s.fin - s.out ≤ fuel →
    ∃ s', xflushLoop fuel s = some s' ∧ XInv s' f ∧ s'.fin = s.fin ∧ XFlushed s' ∧
      (Good s → Good s') := by
  induction fuel with
  | zero =>
    intro s f h hf
    have := h.outFin
    exact ⟨s, by rw [xflushLoop, if_neg (by omega)], h, rfl, Or.inl (by omega), id⟩
  | succ fuel ih =>
    intro s f h hf
    rw [xflushLoop]
    by_cases hc : s.out < s.fin
    · rw [if_pos hc]
      obtain ⟨s1, c, e1, i1, f1, g1, g2, g3⟩ := xflushStep_spec h hc
      rw [e1, Option.bind_some]
      dsimp only
      cases c with
      | true =>
        rw [if_pos rfl]
        obtain ⟨s2, e2, i2, f2, l2, k2⟩ := ih i1 (by have := (g1 rfl).1; omega)
        exact ⟨s2, e2, i2, by rw [f2, f1], l2, fun hg => k2 (g3 hg).2⟩
      | false =>
        rw [if_neg Bool.false_ne_true]
        exact ⟨s1, rfl, i1, f1, Or.inr (g2 rfl), fun hg => absurd (g3 hg).1 (by simp)⟩
    · rw [if_neg hc]
      have := h.outFin
      exact ⟨s, rfl, h, rfl, Or.inl (by omega), id⟩

theorem xfinalize_spec {s f} (h : XInv s f) (hw : ∀ i, i < f.pos → f.cell i ≠ none) :
    ∃ s', xfinalize s = some s' ∧ XInv s' (f.next .finalize) ∧ XFlushed s' ∧
      (Good s → Good s') := by
  have h' : XInv { s with fin := s.pos } (f.next .finalize) := by
    constructor
    · exact h.sk
    · exact h.pos
    · show f.pos ≤ s.pos
      rw [h.pos]
      exact Nat.le_refl _
    · exact Nat.le_refl _
    · show s.out ≤ s.pos
      have := h.outFin; have := h.fin2
      omega
    · intro i hi
      exact hw i (by rw [← h.pos]; exact hi)
    · exact h.upos
    · exact h.lent
    · exact h.told
    · exact h.cells
    · exact h.sorted
    · exact h.wr
    · exact h.own
    · exact h.cover
  obtain ⟨s', e, i, _, fl, g⟩ := xflushLoop_spec _ h' (Nat.le_refl _)
  unfold xfinalize
  rw [if_neg (by rw [h.sk]; exact Bool.false_ne_true), Option.bind_some]
  exact ⟨s', by rw [← e]; rfl, i, fl, g⟩

/-! ### One piece -/

theorem xown_spec {s f} (h : XInv s f) (mn req : Nat) (bs : Nat → List Nat)
    (hmn : 0 < mn) (hfree : f.Free mn)
    (hbs : ∀ size, mn ≤ size →
      0 < (bs size).length ∧ (bs size).length ≤ size ∧ f.Free (bs size).length) :
    ∃ size s', mn ≤ size ∧ xown s mn req bs = some (s', some (bs size).length) ∧
      XInv s' (f.put (bs size)) ∧ (XFlushed s → XFlushed s') ∧ (Good s → Good s') := by
  have hpf := h.pos
  have hf1 := h.fin1
  have hf2 := h.fin2
  have hof := h.outFin
  have hd : ∀ b ∈ s.bufs, 0 < b.written ∧ (b.start + b.written ≤ s.pos ∨ s.pos < b.start) := by
    intro b hb
    refine ⟨(h.wr b hb).1, ?_⟩
    by_cases hc : b.start ≤ s.pos ∧ s.pos < b.start + b.written
    · exact absurd (hfree s.pos (by omega) (by omega)) (h.cell_some b hb _ hc.1 hc.2)
    · omega
  obtain ⟨A, B, hAB, hA, hB, hemp⟩ := split_at s.bufs s.pos h.sorted hd
  have hBm : ∀ b ∈ B, b ∈ s.bufs := by intro b hb; rw [hAB]; simp [hb]
  have hAm : ∀ b ∈ A, b ∈ s.bufs := by intro b hb; rw [hAB]; simp [hb]
  have hA' : ∀ a ∈ A, 0 < a.written ∧ a.start + a.written ≤ s.pos :=
    fun a ha => ⟨(h.wr a (hAm a ha)).1, hA a ha⟩
  have hnext : ∀ n, f.Free n → ∀ b ∈ B, s.pos + n ≤ b.start := by
    intro n hn b hb
    by_cases hc : b.start < s.pos + n
    · have hpb := hB b hb
      exact absurd (hn b.start (by omega) (by omega))
        (h.cell_some b (hBm b hb) _ (Nat.le_refl _) (by have := (h.wr b (hBm b hb)).1; omega))
    · omega
  have hnok : ∀ n, f.Free n → nextOk (A ++ Buf.mk s.pos 0 [] :: B) s.pos n = true := by
    intro n hn
    unfold nextOk
    rw [nextKey_append s.pos A B _ rfl hA' hB]
    cases B with
    | nil => rfl
    | cons b B =>
      have := hnext n hn b (by simp)
      simp only [List.head?_cons, Option.map_some, decide_eq_true_eq]
      exact this
  have halloc : ∃ n, mn ≤ n ∧
      allocSize (B.head?.map Buf.start) s.pos mn (max mn req) = some n := by
    cases B with
    | nil => exact ⟨max mn req, by omega, rfl⟩
    | cons b B =>
      have := hnext mn hfree b (by simp)
      refine ⟨min (max mn req) (b.start - s.pos), by omega, ?_⟩
      unfold allocSize
      simp only [List.head?_cons, Option.map_some]
      rw [if_pos (by omega)]
  obtain ⟨n, hn, hal⟩ := halloc
  obtain ⟨hb0, hbl, hbf⟩ := hbs n hn
  unfold xown
  rw [hemp _ rfl, nextKey_append s.pos A B _ rfl hA' hB, hal, Option.bind_some]
  generalize hxs : bs n = xs at hb0 hbl hbf
  have hne : xs ≠ [] := List.length_pos_iff.1 hb0
  rw [if_neg (by omega), if_neg hne, if_neg (by rw [hnok _ hbf]; simp)]
  dsimp only
  rw [if_neg (by rw [h.sk]; exact Bool.false_ne_true), modify_append s.pos _ A B _ rfl hA' hB]
  dsimp only
  have hrl : (resize [] n).length = n := by unfold resize; simp
  have hget := overwrite_get (resize [] n) 0 xs (by omega)
  have hlen := overwrite_length (resize [] n) 0 xs (by omega)
  refine ⟨n, { s with
    bufs := A ++ Buf.mk s.pos xs.length (overwrite (resize [] n) 0 xs) :: B,
    pos := s.pos + xs.length }, hn, by rw [hxs], ?_, id, id⟩
  rw [hxs]
  have hcell' : ∀ b, b ∈ A ∨ b ∈ B →
      ∀ j, j < b.written → (f.put xs).cell (b.start + j) = f.cell (b.start + j) := by
    intro b hb j hj
    rw [put_cell, if_neg]
    rcases hb with hb | hb
    · have := hA b hb; omega
    · have := hnext _ hbf b hb; omega
  constructor
  · exact h.sk
  · show s.pos + xs.length = f.pos + xs.length
    omega
  · exact h.fin1
  · show s.fin ≤ s.pos + xs.length
    omega
  · exact h.outFin
  · intro i hi
    have hi' : i < s.fin := hi
    rw [put_cell, if_neg (by omega)]
    exact h.finalised i hi'
  · exact h.upos
  · exact h.lent
  · exact h.told
  · intro i
    show s.usr.cells i = if i < s.out then (f.put xs).cell i else none
    rw [h.cells]
    by_cases hi : i < s.out
    · rw [if_pos hi, if_pos hi, put_cell, if_neg (by omega)]
    · rw [if_neg hi, if_neg hi]
  · have hs := h.sorted
    rw [hAB, List.pairwise_append] at hs
    show (A ++ _ :: B).Pairwise _
    rw [List.pairwise_append, List.pairwise_cons]
    refine ⟨hs.1, ⟨fun b hb => hnext _ hbf b hb, hs.2.1⟩, ?_⟩
    intro a ha b hb
    rcases List.mem_cons.1 hb with rfl | hb
    · exact hA a ha
    · exact hs.2.2 a ha b hb
  · intro b hb
    simp only [List.mem_append, List.mem_cons] at hb
    rcases hb with hb | rfl | hb
    · exact h.wr b (hAm b hb)
    · exact ⟨hb0, by show s.out < s.pos + xs.length; omega⟩
    · exact h.wr b (hBm b hb)
  · intro b hb
    simp only [List.mem_append, List.mem_cons] at hb
    rcases hb with hb | rfl | hb
    · obtain ⟨o, p, r⟩ := h.own b (hAm b hb)
      exact ⟨o, p, fun j hj => by rw [hcell' b (Or.inl hb) j hj]; exact r j hj⟩
    · refine ⟨?_, by show xs.length ≤ (overwrite _ _ _).length; omega, fun j hj => ?_⟩
      · intro hbo
        have h0 : (overwrite (resize [] n) 0 xs).length = 0 := by
          have : overwrite (resize [] n) 0 xs = [] := hbo
          rw [this]; rfl
        omega
      · have hj' : j < xs.length := hj
        show (f.put xs).cell (s.pos + j) = (overwrite _ _ _)[j]?
        rw [put_cell, if_pos (by omega), hget, if_pos (by omega)]
        congr 1
        omega
    · obtain ⟨o, p, r⟩ := h.own b (hBm b hb)
      exact ⟨o, p, fun j hj => by rw [hcell' b (Or.inr hb) j hj]; exact r j hj⟩
  · intro i hi hc
    rw [put_cell] at hc
    split at hc
    next hr =>
      exact ⟨Buf.mk s.pos xs.length _, List.mem_append_right _ (List.mem_cons_self ..),
        by dsimp only; omega, by dsimp only; omega⟩
    next hr =>
      obtain ⟨b, hb, h1, h2⟩ := h.cover i hi hc
      refine ⟨b, ?_, h1, h2⟩
      rw [hAB] at hb
      simp only [List.mem_append, List.mem_cons] at hb ⊢
      exact hb.elim Or.inl (fun hb => Or.inr (Or.inr hb))

theorem xdirect_spec {s f} (h : XInv s f) (size : Nat) (xs : List Nat) (ho : s.pos = s.out)
    (u : User) (hu : u = { s.usr with lent := some size, ans := u.ans })
    (hx0 : 0 < xs.length) (hxl : xs.length ≤ size) (hfree : f.Free xs.length) :
    ∃ s', xdirect s u size xs = some (s', some xs.length) ∧
      XInv s' (f.put xs) ∧ XFlushed s' ∧ s'.stop = s.stop ∧ s'.usr.ans = u.ans := by
  have hpf := h.pos
  have hf1 := h.fin1
  have hf2 := h.fin2
  have hof := h.outFin
  have hd : ∀ b ∈ s.bufs, 0 < b.written ∧ (b.start + b.written ≤ s.pos ∨ s.pos < b.start) := by
    intro b hb
    refine ⟨(h.wr b hb).1, ?_⟩
    by_cases hc : b.start ≤ s.pos ∧ s.pos < b.start + b.written
    · exact absurd (hfree s.pos (by omega) (by omega)) (h.cell_some b hb _ hc.1 hc.2)
    · omega
  obtain ⟨A, B, hAB, hA, hB, hemp⟩ := split_at s.bufs s.pos h.sorted hd
  have hA0 : A = [] := by
    cases A with
    | nil => rfl
    | cons a A =>
      have h1 := hA a (by simp)
      have h2 := (h.wr a (by rw [hAB]; simp)).2
      omega
  subst hA0
  rw [List.nil_append] at hAB
  have hnext : ∀ b ∈ B, s.pos + xs.length ≤ b.start := by
    intro b hb
    by_cases hc : b.start < s.pos + xs.length
    · have hpb := hB b hb
      have hbm : b ∈ s.bufs := by rw [hAB]; exact hb
      exact absurd (hfree b.start (by omega) (by omega))
        (h.cell_some b hbm _ (Nat.le_refl _) (by have := (h.wr b hbm).1; omega))
    · omega
  have hul : u.lent = some size := by rw [hu]
  have hup : u.pos = s.out := by rw [hu]; exact h.upos
  have hut : u.told = s.out := by rw [hu]; exact h.told
  have huc : u.cells = s.usr.cells := by rw [hu]
  unfold xdirect
  have hnok : nextOk (emplace ⟨s.pos, 0, []⟩ s.bufs) s.pos xs.length = true := by
    rw [hemp _ rfl]
    unfold nextOk
    rw [nextKey_append s.pos [] B _ rfl (by simp) hB]
    cases B with
    | nil => rfl
    | cons b B =>
      have := hnext b (by simp)
      simp only [List.head?_cons, Option.map_some, decide_eq_true_eq]
      exact this
  rw [if_neg (by omega), if_neg (List.length_pos_iff.1 hx0), hnok, if_neg (by simp),
    release_eq hul hxl (by omega), Option.bind_some, hemp _ rfl,
    modify_append s.pos _ [] B _ rfl (by simp) hB]
  dsimp only [List.nil_append]
  rw [if_neg (by rw [h.sk]; exact Bool.false_ne_true)]
  unfold xfinalize
  dsimp only
  rw [if_neg (by rw [h.sk]; exact Bool.false_ne_true), Option.bind_some]
  unfold xflush
  dsimp only
  have hfuel : s.pos + xs.length - s.out = (xs.length - 1) + 1 := by omega
  have hstop : ∀ fu (t : XSt), t.out = t.fin → xflushLoop fu t = some t := by
    intro fu t ht
    cases fu with
    | zero => rw [xflushLoop, if_neg (by omega)]
    | succ fu => rw [xflushLoop, if_neg (by omega)]
  rw [hfuel, xflushLoop]
  dsimp only
  rw [if_pos (by omega)]
  unfold xflushStep
  dsimp only
  rw [if_neg (by omega), if_neg (by omega), if_neg (by simp), if_neg (by omega),
    Option.bind_some]
  dsimp only
  rw [if_neg (by simp), if_neg (by rw [h.sk]; exact Bool.false_ne_true), Nat.min_self]
  unfold User.setFin
  rw [if_pos ⟨rfl, by show u.told ≤ _; omega⟩, Option.bind_some, Option.bind_some]
  dsimp only
  rw [if_pos rfl, if_pos rfl, hstop _ _ rfl, Option.bind_some]
  dsimp only
  rw [if_pos ⟨rfl, rfl⟩]
  refine ⟨_, rfl, ?_, Or.inl rfl, rfl, rfl⟩
  have hin : ∀ b ∈ B, b ∈ s.bufs := by intro b hb; rw [hAB]; exact hb
  have hsm : ∀ i, i < s.pos → f.cell i ≠ none := by
    intro i hi
    exact h.finalised i (by omega)
  constructor
  · exact h.sk
  · show s.pos + xs.length = f.pos + xs.length
    omega
  · show f.fin ≤ s.pos + xs.length
    omega
  · exact Nat.le_refl _
  · exact Nat.le_refl _
  · intro i hi
    have hi' : i < s.pos + xs.length := hi
    rw [put_cell]
    by_cases hc : f.pos ≤ i ∧ i < f.pos + xs.length
    · rw [if_pos hc, List.getElem?_eq_getElem (by omega)]
      simp
    · rw [if_neg hc]
      exact hsm i (by omega)
  · show u.pos + xs.length = s.pos + xs.length
    omega
  · rfl
  · rfl
  · intro i
    show (if u.pos ≤ i ∧ i < u.pos + xs.length then xs[i - u.pos]? else u.cells i) =
      if i < s.pos + xs.length then (f.put xs).cell i else none
    rw [huc, h.cells, hup, put_cell]
    by_cases h1 : s.out ≤ i ∧ i < s.out + xs.length
    · rw [if_pos h1, if_pos (by omega), if_pos (by omega)]
      congr 1
      omega
    · rw [if_neg h1]
      by_cases h2 : i < s.out
      · rw [if_pos h2, if_pos (by omega), if_neg (by omega)]
      · rw [if_neg h2, if_neg (by omega)]
  · show B.Pairwise _
    have := h.sorted
    rw [hAB] at this
    exact this
  · intro b hb
    show 0 < b.written ∧ s.pos + xs.length < b.start + b.written
    have h1 := hnext b hb
    have h2 := (h.wr b (hin b hb)).1
    exact ⟨h2, by omega⟩
  · intro b hb
    obtain ⟨o, p, r⟩ := h.own b (hin b hb)
    refine ⟨o, p, fun j hj => ?_⟩
    have h1 := hnext b hb
    rw [put_cell, if_neg (by omega)]
    exact r j hj
  · intro i hi hc
    have hi' : s.pos + xs.length ≤ i := hi
    rw [put_cell, if_neg (by omega)] at hc
    obtain ⟨b, hb, h1, h2⟩ := h.cover i (by omega) hc
    rw [hAB] at hb
    exact ⟨b, hb, h1, h2⟩

theorem xpiece_spec {s f} (h : XInv s f) (hfl : XFlushed s) (mn req : Nat) (bs : Nat → List Nat)
    (hmn : 0 < mn) (hfree : f.Free mn)
    (hbs : ∀ size, mn ≤ size →
      0 < (bs size).length ∧ (bs size).length ≤ size ∧ f.Free (bs size).length) :
    ∃ s' r, xpiece s mn req bs = some (s', r) ∧ XFlushed s' ∧
      ((r = none ∧ XInv s' f ∧ ¬ Good s) ∨
       ∃ size, mn ≤ size ∧ r = some (bs size).length ∧ XInv s' (f.put (bs size)) ∧
        (Good s → Good s')) := by
  have hf2 := h.fin2
  have hof := h.outFin
  unfold xpiece
  rw [if_neg (by omega)]
  by_cases hst : s.stop = true
  · rw [if_pos hst]
    exact ⟨s, none, rfl, hfl, Or.inl ⟨rfl, h, fun hg => by rw [hg.1] at hst; simp at hst⟩⟩
  · rw [if_neg hst, if_neg (by rw [h.sk]; simp), if_neg (by omega)]
    by_cases ho : s.pos = s.out
    · rw [if_pos ho, get_eq h.lent, Option.bind_some]
      dsimp only
      by_cases h0 : s.usr.ans 0 = 0
      · rw [if_pos h0]
        refine ⟨_, none, rfl, Or.inr rfl, Or.inl ⟨rfl, asked_stop h h0, fun hg => ?_⟩⟩
        have := hg.2 0
        omega
      · rw [if_neg h0]
        by_cases hsz : s.usr.ans 0 < mn
        · rw [if_pos hsz, release_eq (xs := []) (asked_lent h0) (by simp)
            (by show s.usr.told ≤ s.usr.pos; rw [h.told, h.upos]; omega), Option.bind_some, took_nil]
          obtain ⟨size, s', h1, h2, h3, h4, h5⟩ :=
            xown_spec (h.usr (fun k => s.usr.ans (k + 1)) s.stop) mn req bs hmn hfree hbs
          refine ⟨s', _, h2, h4 hfl, Or.inr ⟨size, h1, rfl, h3, ?_⟩⟩
          intro hg
          exact h5 ⟨hg.1, fun k => hg.2 (k + 1)⟩
        · rw [if_neg hsz]
          obtain ⟨b0, b1, b2⟩ := hbs (s.usr.ans 0) (by omega)
          obtain ⟨s', e, i, fl, st, an⟩ := xdirect_spec h (s.usr.ans 0) (bs (s.usr.ans 0)) ho
            s.usr.asked (by unfold User.asked; rw [if_neg h0]) b0 b1 b2
          refine ⟨s', _, e, fl, Or.inr ⟨s.usr.ans 0, by omega, rfl, i, ?_⟩⟩
          intro hg
          exact ⟨by rw [st]; exact hg.1, fun k => by rw [an]; exact hg.2 (k + 1)⟩
    · rw [if_neg ho]
      obtain ⟨size, s', h1, h2, h3, h4, h5⟩ := xown_spec h mn req bs hmn hfree hbs
      exact ⟨s', _, h2, h4 hfl, Or.inr ⟨size, h1, rfl, h3, h5⟩⟩

/-! ### Operations -/

/-- What the caller has is a beginning of the file. -/
def Holds (u : User) (F : File) : Prop :=
  u.told = u.pos ∧ ∀ i, u.cells i = if i < u.pos then F.cell i else none

/-- The cells of `f` are cells of `F`. -/
def Sub (f F : File) : Prop := ∀ i, f.cell i ≠ none → F.cell i = f.cell i

theorem XInv.holds {s f F} (h : XInv s f) (hs : Sub f F) : Holds s.usr F := by
  refine ⟨by rw [h.told, h.upos], fun i => ?_⟩
  rw [h.cells, h.upos]
  by_cases hi : i < s.out
  · rw [if_pos hi, if_pos hi, hs i (h.finalised i (by have := h.outFin; omega))]
  · rw [if_neg hi, if_neg hi]

theorem Sub.refl (f : File) : Sub f f := fun _ _ => rfl

theorem Sub.trans {f g k : File} (h1 : Sub f g) (h2 : Sub g k) : Sub f k := by
  intro i hi
  have := h1 i hi
  rw [h2 i (by rw [this]; exact hi), this]

theorem sub_put {f : File} {xs : List Nat} (hf : f.Free xs.length) : Sub f (f.put xs) := by
  intro i hi
  rw [put_cell]
  by_cases hc : f.pos ≤ i ∧ i < f.pos + xs.length
  · exact absurd (hf i hc.1 hc.2) hi
  · rw [if_neg hc]

theorem xappendData_spec (mn : Nat) (pick : Nat → Nat → Nat) (hmn : 0 < mn)
    (hp : ∀ r size, 0 < r → mn ≤ size →
      0 < pick r size ∧ pick r size ≤ r ∧ pick r size ≤ size) (fuel : Nat) :
    ∀ (bs : List Nat) {s f}, XInv s f → XFlushed s → bs.length ≤ fuel →
      f.Free (bs.length + mn - 1) →
      ∃ s' c, xappendData mn pick fuel bs s = some (s', c) ∧ XFlushed s' ∧
        ((c = true ∧ XInv s' (f.put bs) ∧ (Good s → Good s')) ∨
         (c = false ∧ ¬ Good s ∧ ∃ g, XInv s' g ∧ Sub g (f.put bs))) := by
  induction fuel with
  | zero =>
    intro bs s f h hfl hl hf
    have : bs = [] := List.length_eq_zero_iff.1 (by omega)
    subst this
    exact ⟨s, true, by rw [xappendData, if_pos rfl], hfl,
      Or.inl ⟨rfl, by rw [put_nil]; exact h, id⟩⟩
  | succ fuel ih =>
    intro bs s f h hfl hl hf
    rw [xappendData]
    by_cases hb : bs = []
    · subst hb
      exact ⟨s, true, by rw [if_pos rfl], hfl, Or.inl ⟨rfl, by rw [put_nil]; exact h, id⟩⟩
    · rw [if_neg hb]
      have hb0 : 0 < bs.length := List.length_pos_iff.2 hb
      obtain ⟨s1, r, e1, fl1, hr⟩ := xpiece_spec h hfl mn bs.length
        (fun size => bs.take (pick bs.length size)) hmn (Free.mono hf (by omega)) (by
          intro size hs
          obtain ⟨p1, p2, p3⟩ := hp bs.length size hb0 hs
          simp only [List.length_take]
          exact ⟨by omega, by omega, Free.mono hf (by omega)⟩)
      rw [e1, Option.bind_some]
      rcases hr with ⟨rfl, i1, ng⟩ | ⟨size, hsz, rfl, i1, g1⟩
      · exact ⟨s1, false, rfl, fl1, Or.inr ⟨rfl, ng, f, i1, sub_put (Free.mono hf (by omega))⟩⟩
      · obtain ⟨p1, p2, p3⟩ := hp bs.length size hb0 hsz
        dsimp only at i1 ⊢
        have hn : (bs.take (pick bs.length size)).length = pick bs.length size := by
          simp; omega
        rw [hn]
        obtain ⟨s2, c, e2, fl2, hc⟩ := ih (bs.drop (pick bs.length size)) i1 fl1
          (by simp; omega) (Free.put (Free.mono hf (by rw [hn]; simp; omega)))
        rw [put_append, List.take_append_drop] at hc
        refine ⟨s2, c, e2, fl2, ?_⟩
        rcases hc with ⟨c1, c2, c3⟩ | ⟨c1, c2, c3⟩
        · exact Or.inl ⟨c1, c2, fun hg => c3 (g1 hg)⟩
        · exact Or.inr ⟨c1, fun hg => c2 (g1 hg), c3⟩

theorem xstep_spec {s f} (h : XInv s f) (hfl : XFlushed s) (op : Op) (hok : f.Ok op)
    (hsk : f.OkSeek op) :
    ∃ s' c, xstep s op = some (s', c) ∧ XFlushed s' ∧
      ((c = true ∧ XInv s' (f.next op) ∧ (Good s → Good s')) ∨
       (c = false ∧ ¬ Good s ∧ ∃ g, XInv s' g ∧ Sub g (f.next op))) := by
  cases op with
  | data mn pick bs =>
    obtain ⟨h1, h2, h3⟩ := hok
    exact xappendData_spec mn pick h1 h3 bs.length bs h hfl (Nat.le_refl _) h2
  | put bs =>
    obtain ⟨h1, h2⟩ := hok
    have h0 : 0 < bs.length := List.length_pos_iff.2 h1
    obtain ⟨s', r, e, fl, hr⟩ := xpiece_spec h hfl bs.length 0 (fun _ => bs) h0 h2
      (fun sz hs => ⟨h0, hs, h2⟩)
    rcases hr with ⟨rfl, i1, ng⟩ | ⟨size, hsz, rfl, i1, g1⟩
    · refine ⟨s', false, ?_, fl, Or.inr ⟨rfl, ng, f, i1, sub_put h2⟩⟩
      show (xpiece s bs.length 0 fun _ => bs).map _ = _
      rw [e]
      rfl
    · refine ⟨s', true, ?_, fl, Or.inl ⟨rfl, i1, g1⟩⟩
      show (xpiece s bs.length 0 fun _ => bs).map _ = _
      rw [e]
      rfl
  | seek p =>
    have hp : s.fin ≤ p := hsk s.fin h.finalised
    refine ⟨{ s with pos := p }, true, ?_, hfl, Or.inl ⟨rfl, ?_, id⟩⟩
    · show (xseek s p).map _ = _
      unfold xseek
      rw [if_neg (by rw [h.sk]; exact Bool.false_ne_true), Option.bind_some,
        if_neg (by omega), if_neg (by rw [h.sk]; exact Bool.false_ne_true)]
      rfl
    · constructor
      · exact h.sk
      · rfl
      · exact h.fin1
      · exact hp
      · exact h.outFin
      · exact h.finalised
      · exact h.upos
      · exact h.lent
      · exact h.told
      · exact h.cells
      · exact h.sorted
      · exact h.wr
      · exact h.own
      · exact h.cover
  | finalize =>
    obtain ⟨s', e, i, fl, g⟩ := xfinalize_spec h hok
    refine ⟨s', true, ?_, fl, Or.inl ⟨rfl, i, g⟩⟩
    show (xfinalize s).map _ = _
    rw [e]
    rfl

theorem sub_run (ops : List Op) {f : File} (h : f.OkAll ops) : Sub f (f.run ops) :=
  fun i hi => run_keeps ops h i hi

theorem sub_runQueue (q : List (List Op)) {f : File} (h : f.OkQueue q) : Sub f (f.runQueue q) :=
  fun i hi => runQueue_keeps q h i hi

theorem xrunOps_spec (ops : List Op) : ∀ {s f}, XInv s f → XFlushed s → f.OkAll ops →
    f.OkSeeks ops →
    ∃ s' c, xrunOps ops s = some (s', c) ∧ XFlushed s' ∧
      ((c = true ∧ XInv s' (f.run ops) ∧ (Good s → Good s')) ∨
       (c = false ∧ ¬ Good s ∧ ∃ g, XInv s' g ∧ Sub g (f.run ops))) := by
  induction ops with
  | nil => intro s f h hfl _ _; exact ⟨s, true, rfl, hfl, Or.inl ⟨rfl, h, id⟩⟩
  | cons op ops ih =>
    intro s f h hfl hok hsk
    obtain ⟨s1, c, e1, fl1, hr⟩ := xstep_spec h hfl op hok.1 hsk.1
    rw [xrunOps, e1, Option.bind_some]
    rcases hr with ⟨rfl, i1, g1⟩ | ⟨rfl, ng, g, i1, sb⟩
    · obtain ⟨s2, c2, e2, fl2, hr2⟩ := ih i1 fl1 hok.2 hsk.2
      refine ⟨s2, c2, by rw [if_pos rfl]; exact e2, fl2, ?_⟩
      rcases hr2 with ⟨c1, c2, c3⟩ | ⟨c1, c2, c3⟩
      · exact Or.inl ⟨c1, c2, fun hg => c3 (g1 hg)⟩
      · exact Or.inr ⟨c1, fun hg => c2 (g1 hg), c3⟩
    · refine ⟨s1, false, by rw [if_neg Bool.false_ne_true], fl1, Or.inr ⟨rfl, ng, g, i1, ?_⟩⟩
      exact sb.trans (sub_run ops hok.2)

theorem flushInput_spec (q : List (List Op)) : ∀ {s f}, XInv s f → XFlushed s → f.OkQueue q →
    f.OkSeekQueue q →
    ∃ s' c, flushInput q s = some (s', c) ∧ XFlushed s' ∧
      ((c = true ∧ XInv s' (f.runQueue q) ∧ (Good s → Good s')) ∨
       (c = false ∧ ¬ Good s ∧ ∃ g, XInv s' g ∧ Sub g (f.runQueue q))) := by
  induction q with
  | nil => intro s f h hfl _ _; exact ⟨s, true, rfl, hfl, Or.inl ⟨rfl, h, id⟩⟩
  | cons it q ih =>
    intro s f h hfl hok hsk
    obtain ⟨s1, c, e1, fl1, hr⟩ := xrunOps_spec it h hfl hok.1 hsk.1
    rw [flushInput, e1, Option.bind_some]
    rcases hr with ⟨rfl, i1, g1⟩ | ⟨rfl, ng, g, i1, sb⟩
    · obtain ⟨s2, c2, e2, fl2, hr2⟩ := ih i1 fl1 hok.2.2 hsk.2
      refine ⟨s2, c2, by rw [if_pos rfl]; exact e2, fl2, ?_⟩
      rcases hr2 with ⟨c1, c2, c3⟩ | ⟨c1, c2, c3⟩
      · exact Or.inl ⟨c1, c2, fun hg => c3 (g1 hg)⟩
      · exact Or.inr ⟨c1, fun hg => c2 (g1 hg), c3⟩
    · refine ⟨s1, false, by rw [if_neg Bool.false_ne_true], fl1, Or.inr ⟨rfl, ng, g, i1, ?_⟩⟩
      exact sb.trans (sub_runQueue q hok.2.2)

theorem xinv_init (ans : Nat → Nat) : XInv (XSt.init false ans) File.empty := by
  constructor <;> simp [XSt.init, File.empty, User.init]

theorem xflushed_init (sk : Bool) (ans : Nat → Nat) : XFlushed (XSt.init sk ans) := Or.inl rfl

end Jxl.OutProc
