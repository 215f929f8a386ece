import Verif.Model.MemoryManager
namespace Jxl.MemMgr

/-- What a memory object is responsible for. -/
def own (a : AM) : Option (Nat × Nat) := a.mgr.bind fun m => a.allocation.map fun p => (m, p)

/-- A memory object with a manager has an allocation, and its address lies there. -/
def AM.Ok (a : AM) : Prop := ∀ m, a.mgr = some m → ∃ p, a.allocation = some p ∧ a.address = some p

def Var.Ok : Var → Prop
  | .raw a => a.Ok
  | .buf b => b.data.Ok ∧ b.size ≤ b.capacity ∧ (b.capacity > 0 → b.data.mgr ≠ none) ∧ ∀ m, b.data.mgr = some m → b.mm = some m

/-- Owners and allocations correspond. -/
structure Own (live : List (Nat × Nat)) (o : Nat → Option (Nat × Nat)) : Prop where
  owned : ∀ v y, o v = some y → y ∈ live
  inj : ∀ u v y, o u = some y → o v = some y → u = v
  cover : ∀ y ∈ live, ∃ v, o v = some y

structure WOk (w : World) : Prop where
  nodup : (w.live.map (·.2)).Nodup
  log : ∀ m p, w.log.count (.alloc m p) = w.log.count (.free m p) + w.live.count (m, p)

theorem WOk.nd {w : World} (h : WOk w) : w.live.Nodup := List.Pairwise.of_map (S := (· ≠ ·)) _ (fun _ _ h e => h (e ▸ rfl)) h.nodup

def freeW (w : World) : Option (Nat × Nat) → World
  | none => w
  | some y => ⟨w.live.erase y, w.log ++ [.free y.1 y.2]⟩

theorem own_none {a : AM} (h : a.Ok) (ho : own a = none) : a.mgr = none := by
  cases hm : a.mgr with
  | none => rfl
  | some m =>
    obtain ⟨p, hp, _⟩ := h m hm
    simp [own, hm, hp] at ho

theorem own_some {a : AM} {y : Nat × Nat} (ho : own a = some y) : a.mgr = some y.1 ∧ a.allocation = some y.2 := by
  unfold own at ho
  rw [Option.bind_eq_some_iff] at ho
  obtain ⟨m, h1, h2⟩ := ho
  rw [Option.map_eq_some_iff] at h2
  obtain ⟨p, h3, rfl⟩ := h2
  exact ⟨h1, h3⟩

theorem destroy_eq (w : World) (a : AM) (h : a.Ok) (hl : ∀ y, own a = some y → y ∈ w.live) : destroy w a = some (freeW w (own a)) := by
  unfold destroy
  cases ho : own a with
  | none => rw [own_none h ho]; rfl
  | some y =>
    obtain ⟨h1, h2⟩ := own_some ho
    rw [h1, h2]
    dsimp only
    rw [World.free, if_pos (hl y ho)]
    rfl

theorem release_eq (w : World) (a : AM) (h : a.Ok) (hl : ∀ y, own a = some y → y ∈ w.live) : release w a = some (freeW w (own a)) := by
  unfold release
  cases ho : own a with
  | none => rw [own_none h ho]; rfl
  | some y =>
    obtain ⟨h1, h2⟩ := own_some ho
    rw [h1, h2]
    dsimp only
    rw [if_pos (by rfl), World.free, if_pos (hl y ho)]
    rfl

theorem own_left (a : AM) : own { a with mgr := none } = none := rfl

theorem ok_left (a : AM) : AM.Ok { a with mgr := none } := by intro m h; cases h

theorem WOk.free {w : World} (h : WOk w) (y : Option (Nat × Nat)) (hy : ∀ x, y = some x → x ∈ w.live) : WOk (freeW w y) := by
  cases y with
  | none => exact h
  | some x =>
    have hx := hy x rfl
    refine ⟨?_, ?_⟩
    · exact List.Nodup.sublist (List.Sublist.map _ List.erase_sublist) h.nodup
    · intro m p
      have := h.log m p
      simp only [freeW, List.count_append]
      have hnd := h.nd
      by_cases e : x = (m, p)
      · subst e
        rw [List.count_erase_self]
        have : w.live.count (m, p) ≥ 1 := List.count_pos_iff.2 hx
        simp
        omega
      · rw [List.count_erase_of_ne (fun h => e h.symm)]
        have : [Event.free x.1 x.2].count (.free m p) = 0 := by
          rw [List.count_eq_zero]
          simp only [List.mem_singleton, Event.free.injEq, not_and]
          intro h1 h2
          exact e (by rw [h1, h2])
        rw [this]
        simp
        omega

theorem WOk.alloc {w : World} (h : WOk w) (m p : Nat) (hf : fresh w (some p) = true) : WOk ⟨(m, p) :: w.live, w.log ++ [.alloc m p]⟩ := by
  simp only [fresh, List.all_eq_true, bne_iff_ne, ne_eq] at hf
  refine ⟨?_, ?_⟩
  · simp only [List.map_cons, List.nodup_cons]
    refine ⟨?_, h.nodup⟩
    intro hm
    obtain ⟨x, hx, he⟩ := List.mem_map.1 hm
    exact hf x hx he
  · intro m' p'
    have := h.log m' p'
    simp only [List.count_append, List.count_cons]
    by_cases e : (m, p) = (m', p')
    · cases e; simp; omega
    · have e2 : ¬ (m = m' ∧ p = p') := by rintro ⟨rfl, rfl⟩; exact e rfl
      simp [e2]; omega

theorem fresh_not_mem {w : World} {m p : Nat} (hf : fresh w (some p) = true) : (m, p) ∉ w.live := by
  simp only [fresh, List.all_eq_true, bne_iff_ne, ne_eq] at hf
  exact fun h => hf _ h rfl

theorem Own.ext {live : List (Nat × Nat)} {o o' : Nat → Option (Nat × Nat)} (h : Own live o) (e : ∀ v, o' v = o v) : Own live o' := by
  have : o' = o := funext e
  rw [this]; exact h

/-- Owner `u` hands over to `v`, who owned nothing. -/
theorem Own.move {live : List (Nat × Nat)} {o : Nat → Option (Nat × Nat)} (h : Own live o) {u v : Nat} (huv : v ≠ u) (hv : o v = none) :
    Own live fun i => if i = v then o u else if i = u then none else o i := by
  refine ⟨?_, ?_, ?_⟩
  · intro i y hi
    split at hi
    · exact h.owned _ _ hi
    · split at hi
      · cases hi
      · exact h.owned _ _ hi
  · intro i j y hi hj
    split at hi <;> split at hj
    · omega
    · split at hj
      · cases hj
      · have := h.inj _ _ _ hi hj; omega
    · split at hi
      · cases hi
      · have := h.inj _ _ _ hi hj; omega
    · split at hi
      · cases hi
      · split at hj
        · cases hj
        · exact h.inj _ _ _ hi hj
  · intro y hy
    obtain ⟨i, hi⟩ := h.cover y hy
    by_cases e : i = u
    · exact ⟨v, by rw [if_pos rfl, ← e, hi]⟩
    · have : i ≠ v := by intro e2; rw [e2, hv] at hi; cases hi
      exact ⟨i, by rw [if_neg this, if_neg e, hi]⟩

theorem Own.swap {live : List (Nat × Nat)} {o : Nat → Option (Nat × Nat)} (h : Own live o) (u v : Nat) :
    Own live fun i => if i = v then o u else if i = u then o v else o i := by
  refine ⟨?_, ?_, ?_⟩
  · intro i y hi
    split at hi
    · exact h.owned _ _ hi
    · split at hi <;> exact h.owned _ _ hi
  · intro i j y hi hj
    split at hi <;> split at hj
    · omega
    · split at hj <;> have := h.inj _ _ _ hi hj <;> omega
    · split at hi <;> have := h.inj _ _ _ hi hj <;> omega
    · split at hi <;> split at hj <;> have := h.inj _ _ _ hi hj <;> omega
  · intro y hy
    obtain ⟨i, hi⟩ := h.cover y hy
    by_cases e : i = u
    · exact ⟨v, by rw [if_pos rfl, ← e, hi]⟩
    · by_cases e2 : i = v
      · refine ⟨u, ?_⟩
        by_cases e3 : u = v
        · omega
        · rw [if_neg e3, if_pos rfl, ← e2, hi]
      · exact ⟨i, by rw [if_neg e2, if_neg e, hi]⟩

theorem Own.free {w : World} (hw : WOk w) {o : Nat → Option (Nat × Nat)} (h : Own w.live o) (v : Nat) :
    Own (freeW w (o v)).live fun i => if i = v then none else o i := by
  cases hv : o v with
  | none =>
    refine h.ext fun i => ?_
    by_cases e : i = v
    · rw [if_pos e, e, hv]
    · rw [if_neg e]
  | some x =>
    have hm : ∀ y, y ∈ w.live.erase x ↔ y ≠ x ∧ y ∈ w.live := fun y => List.Nodup.mem_erase_iff hw.nd
    refine ⟨?_, ?_, ?_⟩
    · intro i y hi
      split at hi
      · cases hi
      · refine (hm y).2 ⟨?_, h.owned _ _ hi⟩
        intro e
        rw [e] at hi
        have := h.inj _ _ _ hi hv
        omega
    · intro i j y hi hj
      split at hi
      · cases hi
      · split at hj
        · cases hj
        · exact h.inj _ _ _ hi hj
    · intro y hy
      obtain ⟨h1, h2⟩ := (hm y).1 hy
      obtain ⟨i, hi⟩ := h.cover y h2
      refine ⟨i, ?_⟩
      rw [if_neg, hi]
      intro e
      rw [e, hv] at hi
      cases hi
      exact h1 rfl

theorem Own.alloc {live : List (Nat × Nat)} {o : Nat → Option (Nat × Nat)} (h : Own live o) {v : Nat} {y : Nat × Nat} (hv : o v = none) (hy : y ∉ live) :
    Own (y :: live) fun i => if i = v then some y else o i := by
  refine ⟨?_, ?_, ?_⟩
  · intro i x hi
    split at hi
    · cases hi; exact List.mem_cons_self
    · exact List.mem_cons_of_mem _ (h.owned _ _ hi)
  · intro i j x hi hj
    split at hi <;> split at hj
    · omega
    · cases hi; exact absurd (h.owned _ _ hj) hy
    · cases hj; exact absurd (h.owned _ _ hi) hy
    · exact h.inj _ _ _ hi hj
  · intro x hx
    rcases List.mem_cons.1 hx with rfl | hx
    · exact ⟨v, by rw [if_pos rfl]⟩
    · obtain ⟨i, hi⟩ := h.cover x hx
      refine ⟨i, ?_⟩
      rw [if_neg, hi]
      intro e; rw [e, hv] at hi; cases hi

def owner (s : State) (v : Nat) : Option (Nat × Nat) := (s.vars v).bind fun x => own x.am

structure Inv (s : State) : Prop where
  w : WOk s.w
  o : Own s.w.live (owner s)
  ok : ∀ v x, s.vars v = some x → x.Ok

theorem Var.Ok.am {x : Var} (h : x.Ok) : x.am.Ok := by
  cases x with
  | raw a => exact h
  | buf b => exact h.1

theorem owner_put (s : State) (v : Nat) (x : Option Var) (i : Nat) :
    owner (s.put v x) i = if i = v then x.bind (fun x => own x.am) else owner s i := by
  unfold owner State.put
  dsimp only
  split <;> rfl

theorem vars_put (s : State) (v : Nat) (x : Option Var) (i : Nat) : (s.put v x).vars i = if i = v then x else s.vars i := rfl

theorem ok_put {s : State} (h : ∀ v x, s.vars v = some x → x.Ok) (v : Nat) (x : Option Var) (hx : ∀ y, x = some y → y.Ok) :
    ∀ u y, (s.put v x).vars u = some y → y.Ok := by
  intro u y hy
  rw [vars_put] at hy
  split at hy
  · exact hx y hy
  · exact h u y hy

theorem owner_live {s : State} (h : Inv s) {v : Nat} {x : Var} (hx : s.vars v = some x) : ∀ y, own x.am = some y → y ∈ s.w.live := by
  intro y hy
  apply h.o.owned v
  simp [owner, hx, hy]

theorem owner_eq {s : State} {v : Nat} {x : Var} (hx : s.vars v = some x) : owner s v = own x.am := by simp [owner, hx]

/-- A world change and new owners. -/
theorem Inv.mk' {s s' : State} (hw : WOk s'.w) (ho : ∃ o, Own s'.w.live o ∧ ∀ i, owner s' i = o i) (hk : ∀ v x, s'.vars v = some x → x.Ok) : Inv s' := by
  obtain ⟨o, h1, h2⟩ := ho
  exact ⟨hw, h1.ext h2, hk⟩

/-- Putting an object that owns nothing in place of nothing. -/
theorem put_new {s : State} (h : Inv s) (v : Nat) (x : Var) (hv : s.vars v = none) (hx : x.Ok) (ho : own x.am = none) : Inv (s.put v (some x)) := by
  refine Inv.mk' (s := s) h.w ⟨owner s, h.o, fun i => ?_⟩ (ok_put h.ok v _ fun y hy => by cases hy; exact hx)
  rw [owner_put]
  by_cases e : i = v
  · rw [if_pos e, e]; simp [ho, owner, hv]
  · rw [if_neg e]

/-- Replacing an object by one with the same ownership. -/
theorem put_same {s : State} (h : Inv s) (v : Nat) (x y : Var) (hv : s.vars v = some x) (hy : y.Ok) (ho : own y.am = own x.am) :
    Inv (s.put v (some y)) := by
  refine Inv.mk' (s := s) h.w ⟨owner s, h.o, fun i => ?_⟩ (ok_put h.ok v _ fun z hz => by cases hz; exact hy)
  rw [owner_put]
  by_cases e : i = v
  · rw [if_pos e, e, owner_eq hv]; simp [ho]
  · rw [if_neg e]

/-- `v` is constructed by moving from `u`. -/
theorem put_move {s : State} (h : Inv s) (v u : Nat) (x y z : Var) (hv : s.vars v = none) (hu : s.vars u = some x) (hy : y.Ok) (hz : z.Ok)
    (hoy : own y.am = own x.am) (hoz : own z.am = none) : Inv ((s.put u (some z)).put v (some y)) := by
  have hne : v ≠ u := by intro e; rw [e, hu] at hv; cases hv
  refine Inv.mk' (s := s) h.w ⟨_, h.o.move hne (by simp [owner, hv]), fun i => ?_⟩
    (ok_put (ok_put h.ok u _ fun q hq => by cases hq; exact hz) v _ fun q hq => by cases hq; exact hy)
  rw [owner_put, owner_put]
  by_cases e : i = v
  · rw [if_pos e, if_pos e, owner_eq hu]; simp [hoy]
  · rw [if_neg e, if_neg e]
    by_cases e2 : i = u
    · rw [if_pos e2, if_pos e2]; simp [hoz]
    · rw [if_neg e2, if_neg e2]

/-- `v` is assigned from `u`: its own memory is freed. -/
theorem put_assign {s : State} (h : Inv s) (v u : Nat) (a x y z : Var) (hne : v ≠ u) (hv : s.vars v = some a) (hu : s.vars u = some x)
    (hy : y.Ok) (hz : z.Ok) (hoy : own y.am = own x.am) (hoz : own z.am = none) :
    Inv (({ s with w := freeW s.w (own a.am) }.put u (some z)).put v (some y)) := by
  have hf := h.o.free h.w v
  rw [owner_eq hv] at hf
  refine Inv.mk' (s := s) (h.w.free _ (owner_live h hv)) ⟨_, hf.move hne (by simp), fun i => ?_⟩
    (ok_put (ok_put h.ok u _ fun q hq => by cases hq; exact hz) v _ fun q hq => by cases hq; exact hy)
  rw [owner_put, owner_put]
  by_cases e : i = v
  · rw [if_pos e, if_pos e, if_neg hne.symm, owner_eq hu]; simp [hoy]
  · rw [if_neg e, if_neg e]
    by_cases e2 : i = u
    · rw [if_pos e2, if_pos e2]; simp [hoz]
    · rw [if_neg e2, if_neg e2, if_neg e]
      rfl

theorem moveAssign_eq (w : World) (a b : AM) (h : a.Ok) (hl : ∀ y, own a = some y → y ∈ w.live) :
    moveAssign w a b = some (freeW w (own a), b, { b with mgr := none }) := by
  rw [moveAssign, release_eq w a h hl, Option.map_some]

theorem swapAM_eq (w : World) (a b : AM) : swapAM w a b = some (w, b, a) := by
  unfold swapAM moveCtor
  simp only [Option.bind_eq_bind]
  rw [moveAssign_eq w _ b (ok_left a) (by intro y hy; cases hy)]
  simp only [Option.bind_some]
  rw [moveAssign_eq _ _ a (ok_left b) (by intro y hy; cases hy)]
  simp only [Option.bind_some]
  rw [destroy_eq _ _ (ok_left a) (by intro y hy; cases hy)]
  rfl

theorem changeCapacity_spec (s : State) (h : Inv s) (v : Nat) (b : Buf) (hv : s.vars v = some (.buf b)) (n : Nat) (hn : b.size ≤ n) (ans : Option Nat)
    (hf : fresh s.w ans = true) :
    ∃ w b' ok, changeCapacity s.w b n ans = some (w, b', ok) ∧ Inv ({ s with w := w }.put v (some (.buf b'))) ∧ b'.size = b.size ∧ b'.mm = b.mm ∧
      (ok = true → n ≤ b'.capacity) := by
  have hb := h.ok v _ hv
  have same : Inv ({ s with w := s.w }.put v (some (.buf b))) := put_same h v _ _ hv hb rfl
  unfold changeCapacity
  dsimp only
  by_cases h1 : max 64 n + 8 ≥ 2 ^ 64
  · rw [if_pos h1]; exact ⟨_, _, _, rfl, same, rfl, rfl, by simp⟩
  · rw [if_neg h1]
    unfold create
    by_cases h2 : max 64 n + 8 + 2048 ≥ 2 ^ 64
    · rw [if_pos h2]; exact ⟨_, _, _, rfl, same, rfl, rfl, by simp⟩
    · rw [if_neg h2]
      cases hm : b.mm with
      | none => exact ⟨_, _, _, rfl, same, rfl, hm, by simp⟩
      | some m =>
        cases ans with
        | none => exact ⟨_, _, _, rfl, same, rfl, hm, by simp⟩
        | some p =>
          dsimp only
          have hw1 := h.w.alloc m p hf
          have hl1 : ∀ y, own b.data = some y → y ∈ (m, p) :: s.w.live := fun y hy => List.mem_cons_of_mem _ (owner_live h hv y hy)
          rw [moveAssign_eq _ _ _ hb.1 hl1]
          simp only [Option.bind_eq_bind, Option.bind_some]
          rw [destroy_eq _ _ (ok_left ⟨some p, none, some p⟩) (by intro y hy; cases hy)]
          simp only [Option.bind_some]
          refine ⟨_, _, _, rfl, ?_, rfl, rfl, fun _ => by dsimp only; omega⟩
          have ho : (freeW ⟨(m, p) :: s.w.live, s.w.log ++ [.alloc m p]⟩ (own b.data)).live = (m, p) :: (freeW s.w (own b.data)).live := by
            cases hob : own b.data with
            | none => rfl
            | some y =>
              simp only [freeW]
              rw [List.erase_cons_tail]
              have : y ∈ s.w.live := owner_live h hv y hob
              intro e
              rw [beq_iff_eq] at e
              rw [← e] at this
              exact fresh_not_mem hf this
          have hfree := h.o.free h.w v
          rw [owner_eq hv] at hfree
          have hnm : (m, p) ∉ (freeW s.w (own b.data)).live := by
            intro hmem
            apply fresh_not_mem (m := m) hf
            cases hob : own b.data with
            | none => rw [hob] at hmem; exact hmem
            | some y => rw [hob] at hmem; exact List.mem_of_mem_erase hmem
          refine Inv.mk' (s := s) (hw1.free _ hl1) ⟨fun i => if i = v then some (m, p) else if i = v then none else owner s i, ?_, fun i => ?_⟩
            (ok_put h.ok v _ fun q hq => ?_)
          · show Own (freeW ⟨(m, p) :: s.w.live, s.w.log ++ [.alloc m p]⟩ (own b.data)).live _
            rw [ho]
            exact hfree.alloc (by simp) hnm
          · rw [owner_put]; dsimp only
            by_cases e : i = v
            · rw [if_pos e, if_pos e]; rfl
            · rw [if_neg e, if_neg e, if_neg e]; rfl
          · cases hq
            refine ⟨?_, ?_, ?_, ?_⟩
            · intro m' _; exact ⟨p, rfl, rfl⟩
            · dsimp only; omega
            · intro _; simp
            · intro m' hm'; exact hm'

theorem step_ok (s : State) (h : Inv s) (op : Op) : ∃ s', step s op = some s' ∧ Inv s' := by
  cases op with
  | rawNew v =>
    simp only [step]
    cases hv : s.vars v with
    | some x => exact ⟨s, by simp, h⟩
    | none => exact ⟨_, rfl, put_new h v _ hv (by intro m hm; cases hm) rfl⟩
  | rawCreate v m size ans =>
    simp only [step]
    by_cases hc : (s.vars v).isNone = true ∧ fresh s.w ans = true
    · rw [if_pos hc]
      unfold create
      by_cases h1 : size + 2048 ≥ 2 ^ 64
      · rw [if_pos h1]; exact ⟨s, rfl, h⟩
      · rw [if_neg h1]
        cases m with
        | none => exact ⟨s, rfl, h⟩
        | some m =>
          cases ans with
          | none => exact ⟨s, rfl, h⟩
          | some p =>
            have hv : s.vars v = none := by simpa using hc.1
            refine ⟨_, rfl, Inv.mk' (s := s) (h.w.alloc m p hc.2) ⟨_, h.o.alloc (v := v) (by simp [owner, hv]) (fresh_not_mem (m := m) hc.2), fun i => ?_⟩
              (ok_put h.ok v _ fun q hq => ?_)⟩
            · rw [owner_put]
              by_cases e : i = v
              · rw [if_pos e, if_pos e]; rfl
              · rw [if_neg e, if_neg e]; rfl
            · cases hq; intro m' _; exact ⟨p, rfl, rfl⟩
    · rw [if_neg hc]; exact ⟨s, rfl, h⟩
  | rawMove v u =>
    simp only [step]
    split
    · next a hv hu => exact ⟨_, rfl, put_move h v u _ _ _ hv hu (h.ok u _ hu) (ok_left a) rfl rfl⟩
    · exact ⟨s, rfl, h⟩
  | rawAssign v u =>
    simp only [step]
    by_cases e : v = u
    · rw [if_pos e]; exact ⟨s, rfl, h⟩
    · rw [if_neg e]
      split
      · next a b hv hu =>
        rw [moveAssign_eq s.w a b (h.ok v _ hv) (owner_live h hv)]
        exact ⟨_, rfl, put_assign h v u _ _ _ _ e hv hu (h.ok u _ hu) (ok_left b) rfl rfl⟩
      · exact ⟨s, rfl, h⟩
  | bufNew v m =>
    simp only [step]
    cases hv : s.vars v with
    | some x => exact ⟨s, by simp, h⟩
    | none => exact ⟨_, rfl, put_new h v (.buf { mm := m }) hv ⟨(by intro m hm; cases hm), (by simp), (by simp), (by simp)⟩ rfl⟩
  | bufMove v u =>
    simp only [step]
    split
    · next b hv hu =>
      exact ⟨_, rfl, put_move h v u _ _ _ hv hu (h.ok u _ hu) ⟨ok_left _, by simp, by simp, by simp [moveCtor]⟩ rfl rfl⟩
    · exact ⟨s, rfl, h⟩
  | bufAssign v u =>
    simp only [step]
    by_cases e : v = u
    · rw [if_pos e]; exact ⟨s, rfl, h⟩
    · rw [if_neg e]
      split
      · next a b hv hu =>
        rw [moveAssign_eq s.w a.data b.data (h.ok v _ hv).1 (owner_live h hv)]
        exact ⟨_, rfl, put_assign h v u _ _ _ _ e hv hu (h.ok u _ hu) ⟨ok_left _, by simp, by simp, by simp⟩ rfl rfl⟩
      · exact ⟨s, rfl, h⟩
  | bufSwap v u =>
    simp only [step]
    by_cases e : v = u
    · rw [if_pos e]; exact ⟨s, rfl, h⟩
    · rw [if_neg e]
      split
      · next a b hv hu =>
        rw [swapAM_eq]
        refine ⟨_, rfl, Inv.mk' (s := s) h.w ⟨_, h.o.swap u v, fun i => ?_⟩
          (ok_put (ok_put h.ok u _ fun q hq => by cases hq; exact h.ok v _ hv) v _ fun q hq => by cases hq; exact h.ok u _ hu)⟩
        rw [owner_put, owner_put]
        by_cases e1 : i = v
        · rw [if_pos e1, if_pos e1, owner_eq hu]; rfl
        · rw [if_neg e1, if_neg e1]
          by_cases e2 : i = u
          · rw [if_pos e2, if_pos e2, owner_eq hv]; rfl
          · rw [if_neg e2, if_neg e2]
      · exact ⟨s, rfl, h⟩
  | bufResize v size ans =>
    simp only [step]
    split
    · next b hv =>
      by_cases hf : fresh s.w ans = true
      · rw [if_pos hf]
        have hb := h.ok v _ hv
        unfold resize reserve
        by_cases h1 : size ≤ b.capacity
        · rw [if_pos h1]
          exact ⟨_, rfl, put_same h v _ _ hv ⟨hb.1, h1, hb.2.2⟩ rfl⟩
        · rw [if_neg h1]
          by_cases h2 : b.capacity + b.capacity / 2 ≥ 2 ^ 64
          · rw [if_pos h2]
            exact ⟨_, rfl, put_same h v _ _ hv hb rfl⟩
          · rw [if_neg h2]
            obtain ⟨w, b', ok, c1, c2, c3, c4, c5⟩ := changeCapacity_spec s h v b hv (max size (b.capacity + b.capacity / 2))
              (by have := hb.2.1; omega) ans hf
            rw [c1]
            refine ⟨_, rfl, ?_⟩
            dsimp only
            cases ok with
            | false => exact c2
            | true =>
              have hc := c5 rfl
              have hx : ({ s with w := w }.put v (some (.buf b'))).vars v = some (.buf b') := by rw [vars_put, if_pos rfl]
              have := put_same c2 v _ (.buf { b' with size := size }) hx
                (by have := c2.ok v _ hx
                    exact ⟨this.1, by dsimp only; omega, this.2.2⟩) rfl
              have eq : ({ s with w := w }.put v (some (.buf b'))).put v (some (.buf { b' with size := size })) =
                  { s with w := w }.put v (some (.buf { b' with size := size })) := by
                unfold State.put
                congr 1
                funext i
                dsimp only
                split <;> rfl
              rw [eq] at this
              exact this
      · rw [if_neg hf]; exact ⟨s, rfl, h⟩
    · exact ⟨s, rfl, h⟩
  | bufShrink v ans =>
    simp only [step]
    split
    · next b hv =>
      by_cases hf : fresh s.w ans = true
      · rw [if_pos hf]
        obtain ⟨w, b', ok, c1, c2, c3, c4, c5⟩ := changeCapacity_spec s h v b hv b.size (Nat.le_refl _) ans hf
        rw [c1]
        exact ⟨_, rfl, c2⟩
      · rw [if_neg hf]; exact ⟨s, rfl, h⟩
    · exact ⟨s, rfl, h⟩
  | destroy v =>
    simp only [step]
    split
    · next x hv =>
      rw [destroy_eq s.w x.am (h.ok v _ hv).am (owner_live h hv)]
      have hf := h.o.free h.w v
      rw [owner_eq hv] at hf
      refine ⟨_, rfl, Inv.mk' (s := s) (h.w.free _ (owner_live h hv)) ⟨_, hf, fun i => ?_⟩ (ok_put h.ok v _ fun q hq => by cases hq)⟩
      rw [owner_put]
      by_cases e : i = v
      · rw [if_pos e, if_pos e]; rfl
      · rw [if_neg e, if_neg e]; rfl
    · exact ⟨s, rfl, h⟩

theorem inv_init : Inv {} := by
  refine ⟨⟨by simp, by simp⟩, ⟨?_, ?_, ?_⟩, ?_⟩
  · intro v y h; cases h
  · intro u v y h; cases h
  · intro y h; cases h
  · intro v x h; cases h

theorem run_ok (ops : List Op) : ∀ s, Inv s → ∃ s', run s ops = some s' ∧ Inv s' := by
  induction ops with
  | nil => intro s h; exact ⟨s, rfl, h⟩
  | cons op ops ih =>
    intro s h
    obtain ⟨s1, a1, a2⟩ := step_ok s h op
    obtain ⟨s2, b1, b2⟩ := ih s1 a2
    refine ⟨s2, ?_, b2⟩
    unfold run at b1 ⊢
    rw [List.foldlM_cons, a1]
    exact b1

end Jxl.MemMgr
