import Verif.Model.ResizablePool
import Verif.Lemmas.ThreadPool
/-!
# Invariant of the resizable thread pool
-/
namespace Jxl.RPool
open Jxl.Pool (cnt inRange cnt_append sum_map_set sum_map_le sum_map_const)

/-- The worker is counted in `num_running_workers_`. -/
def isAct : WPc → Nat
  | .dequeue => 1
  | .running _ => 1
  | .leaving => 1
  | _ => 0

def mAct : MPc → Nat
  | .dequeue => 1
  | .running _ => 1
  | .leaving => 1
  | _ => 0

/-- The worker may still increment the task counter in this run. -/
def fetcher (avail : Bool) : WPc → Nat
  | .dequeue => 1
  | .running _ => 1
  | .check => if avail = true then 1 else 0
  | .waiting => if avail = true then 1 else 0
  | _ => 0

def mFetcher : MPc → Nat
  | .dequeue => 1
  | .running _ => 1
  | _ => 0

theorem fetcher_le (a : Bool) (p : WPc) : fetcher a p ≤ 1 := by
  cases p <;> simp [fetcher] <;> split <;> omega

theorem fetcher_off (p : WPc) (a : Bool) : fetcher false p ≤ fetcher a p := by
  cases p <;> simp [fetcher]

theorem sum_map_mono {α : Type} (f g : α → Nat) {l : List α} (h : ∀ p, f p ≤ g p) : (l.map f).sum ≤ (l.map g).sum := by
  induction l with
  | nil => simp
  | cons a l ih => have := h a; simp; omega

/-- The range is not reversed and far enough from the 32-bit limit. -/
def Fits (w : Nat) (b e : Nat) : Prop := b ≤ e ∧ e + w + 1 < 4294967296

def Complete (s : State) (m : Nat) : Prop := ∀ k, k < m → ∀ h, s.hist[k]? = some h → ∀ t, cnt s.calls k t = inRange h.1 t

structure Base (s : State) : Prop where
  run : ∀ c ∈ s.calls, c.1 < s.hist.length
  thread : ∀ c ∈ s.calls, ∀ h, s.hist[c.1]? = some h → c.2.2 < h.2

/-- No run is going on. -/
structure Quiet (s : State) : Prop where
  num : s.numRunning = 0
  avail : s.avail = false
  act : ∀ p ∈ s.workers, isAct p = 0
  done : Complete s s.hist.length

structure Running (s : State) (b e : Nat) : Prop where
  fits : Fits s.workers.length b e
  mainp : mAct s.main = 1 ∨ s.main = .waitCheck ∨ s.main = .waitingCv
  desired : s.desired = s.workers.length
  live : ∀ p ∈ s.workers, p ≠ .exited
  num : s.numRunning = mAct s.main + (s.workers.map isAct).sum
  bound : s.next + mFetcher s.main + (s.workers.map (fetcher s.avail)).sum ≤ e + s.workers.length + 1
  endt : s.endTask = e
  len : s.hist.length = s.func + 1
  cur : s.hist[s.func]? = some ((b, e), min (s.workers.length + 1) (e - b))
  mx : b < e → s.maxRunning = e - b - 1
  two : b + 1 ≠ e
  low : b ≤ s.next
  over : s.avail = false → e ≤ s.next
  leavW : ∀ p ∈ s.workers, p = .leaving → e ≤ s.next
  leavM : s.main = .leaving → e ≤ s.next
  waitM : s.main = .waitCheck ∨ s.main = .waitingCv → s.avail = false
  cv : s.main = .waitingCv → s.numRunning ≠ 0
  count : ∀ t, cnt s.calls s.func t = inRange (b, min s.next e) t
  joined : ∀ (i : Nat) (p : WPc), s.workers[i]? = some p → isAct p = 1 → i < s.maxRunning
  before : Complete s s.func
  ret : s.returned = s.func

inductive Phase (s : State) : Prop where
  | idle : s.main = .idle → Quiet s → s.desired = s.workers.length → (∀ p ∈ s.workers, p ≠ .exited) → s.returned = s.hist.length → Phase s
  | single (t : Nat) : s.main = .single t → Quiet s → s.desired = s.workers.length → (∀ p ∈ s.workers, p ≠ .exited) → s.returned + 1 = s.hist.length → Phase s
  | joining : s.main = .joining → Quiet s → s.desired ≤ s.workers.length →
      (∀ (i : Nat) (p : WPc), s.workers[i]? = some p → (i < s.desired → p ≠ .exited) ∧ (s.desired ≤ i → p ≠ .waiting)) → s.returned = s.hist.length → Phase s
  | running (b e : Nat) : Running s b e → Phase s

structure Inv (s : State) : Prop where
  base : Base s
  phase : Phase s

theorem init_inv : Inv State.init :=
  ⟨⟨by simp [State.init], by simp [State.init]⟩, Phase.idle rfl ⟨rfl, rfl, by simp [State.init], by simp [Complete, State.init]⟩ rfl (by simp [State.init]) rfl⟩

theorem cnt_fresh {s : State} (h : Base s) (t : Nat) : cnt s.calls s.hist.length t = 0 := by
  unfold cnt
  rw [List.countP_eq_zero]
  intro c hc
  have := h.run c hc
  simp; omega

theorem wake_mem {l : List WPc} {p : WPc} (hp : p ∈ l.map wake) : ∃ q ∈ l, p = wake q := by
  rw [List.mem_map] at hp
  obtain ⟨q, hq, rfl⟩ := hp
  exact ⟨q, hq, rfl⟩

theorem isAct_wake (q : WPc) : isAct (wake q) = isAct q := by cases q <;> rfl

theorem base_call {s : State} (hb : Base s) {t i m : Nat} {r : Nat × Nat} (hlen : s.hist.length = s.func + 1) (hcur : s.hist[s.func]? = some (r, m)) (hi : i < m) :
    (∀ c ∈ s.calls ++ [(s.func, t, i)], c.1 < s.hist.length) ∧ (∀ c ∈ s.calls ++ [(s.func, t, i)], ∀ h, s.hist[c.1]? = some h → c.2.2 < h.2) := by
  refine ⟨?_, ?_⟩
  · intro c hc
    simp only [List.mem_append, List.mem_singleton] at hc
    rcases hc with hc | rfl
    · exact hb.run c hc
    · simp only; omega
  · intro c hc h hh
    simp only [List.mem_append, List.mem_singleton] at hc
    rcases hc with hc | rfl
    · exact hb.thread c hc h hh
    · simp only at hh
      rw [hcur] at hh
      cases hh
      exact hi

theorem base_new {s : State} (hb : Base s) (x : (Nat × Nat) × Nat) :
    (∀ c ∈ s.calls, c.1 < (s.hist ++ [x]).length) ∧ (∀ c ∈ s.calls, ∀ h, (s.hist ++ [x])[c.1]? = some h → c.2.2 < h.2) := by
  refine ⟨?_, ?_⟩
  · intro c hc
    have := hb.run c hc
    simp; omega
  · intro c hc h hh
    rw [List.getElem?_append_left (hb.run c hc)] at hh
    exact hb.thread c hc h hh

theorem start_inv {s : State} {b e : Nat} (hb : Base s) (hq : Quiet s) (hd : s.desired = s.workers.length) (hl : ∀ p ∈ s.workers, p ≠ .exited) (hret : s.returned = s.hist.length)
    (hf : Fits s.workers.length b e) : Inv (startRun s b e) := by
  obtain ⟨hf1, hf2⟩ := hf
  unfold startRun
  by_cases hone : b + 1 = e
  · rw [if_pos (by unfold u32; omega)]
    obtain ⟨n1, n2⟩ := base_new hb ((b, e), 1)
    refine ⟨⟨?_, ?_⟩, Phase.single b rfl ⟨hq.num, hq.avail, hq.act, ?_⟩ hd hl (by simp [hret])⟩
    · intro c hc
      simp only [List.mem_append, List.mem_singleton] at hc
      rcases hc with hc | rfl
      · exact n1 c hc
      · simp
    · intro c hc h hh
      simp only [List.mem_append, List.mem_singleton] at hc
      rcases hc with hc | rfl
      · exact n2 c hc h hh
      · simp at hh; subst hh; simp
    · intro k hk h hh t
      simp only [List.length_append, List.length_cons, List.length_nil] at hk hh
      simp only
      rw [cnt_append]
      by_cases hk' : k < s.hist.length
      · rw [List.getElem?_append_left hk'] at hh
        rw [if_neg (by omega)]
        exact hq.done k hk' h hh t
      · have : k = s.hist.length := by omega
        subst this
        simp at hh; subst hh
        rw [cnt_fresh hb]
        simp only [inRange, true_and]
        by_cases ht : b = t
        · rw [if_pos ht, if_pos (by omega)]
        · rw [if_neg ht, if_neg (by omega)]
  · rw [if_neg (by unfold u32; omega)]
    obtain ⟨n1, n2⟩ := base_new hb ((b, e), min (s.workers.length + 1) (u32 (e + 4294967296 - b)))
    have hu : u32 (e + 4294967296 - b) = e - b := by unfold u32; omega
    have hact : ∀ p ∈ s.workers.map wake, isAct p = 0 := by
      intro p hp
      obtain ⟨q, hq', rfl⟩ := wake_mem hp
      rw [isAct_wake]; exact hq.act q hq'
    refine ⟨⟨n1, n2⟩, Phase.running b e ?_⟩
    exact {
      fits := by simpa using ⟨hf1, hf2⟩
      mainp := Or.inl rfl
      desired := by simpa using hd
      live := by
        intro p hp
        obtain ⟨q, hq', rfl⟩ := wake_mem hp
        have := hl q hq'
        cases q <;> simp_all [wake]
      num := by
        simp only [hq.num, mAct]
        rw [sum_map_const isAct 0 hact]; omega
      bound := by
        have := sum_map_le (fetcher true) (l := s.workers.map wake) (fetcher_le true)
        simp only [List.length_map] at *
        simp only [mFetcher]; omega
      endt := rfl
      len := by simp
      cur := by simp [hu]
      mx := by intro h; simp only [u32]; omega
      two := hone
      low := Nat.le_refl _
      over := by intro h; cases h
      leavW := by
        intro p hp h
        have := hact p hp
        subst h
        simp [isAct] at this
      leavM := by intro h; cases h
      waitM := by rintro (h | h) <;> cases h
      cv := by intro h; cases h
      count := by
        intro t
        simp only [cnt_fresh hb, inRange]
        rw [if_neg (by omega)]
      joined := by
        intro i p hp h
        have := hact p (List.mem_of_getElem? hp)
        omega
      before := by
        intro k hk h hh t
        simp only at hk hh
        rw [List.getElem?_append_left hk] at hh
        exact hq.done k hk h hh t
      ret := hret }

theorem complete_call {s : State} {calls : List (Nat × Nat × Nat)} {m t i : Nat} (h : ∀ k, k < m → ∀ x, s.hist[k]? = some x → ∀ t, cnt s.calls k t = inRange x.1 t) (e : calls = s.calls ++ [(m, t, i)]) :
    ∀ k, k < m → ∀ x, s.hist[k]? = some x → ∀ t, cnt calls k t = inRange x.1 t := by
  intro k hk x hx t'
  rw [e, cnt_append, if_neg (by omega)]
  exact h k hk x hx t'

theorem count_call {calls : List (Nat × Nat × Nat)} {f b e next i : Nat} (h : ∀ t, cnt calls f t = inRange (b, min next e) t) (h1 : next < e) (h2 : b ≤ next) :
    ∀ t, cnt (calls ++ [(f, next, i)]) f t = inRange (b, min (next + 1) e) t := by
  intro t
  rw [cnt_append, h t]
  simp only [inRange, true_and]
  by_cases c1 : next = t
  · rw [if_neg (by omega), if_pos c1, if_pos (by omega)]
  · rw [if_neg c1]
    by_cases c2 : b ≤ t ∧ t < min next e
    · rw [if_pos c2, if_pos (by omega)]
    · rw [if_neg c2, if_neg (by omega)]

theorem count_over {calls : List (Nat × Nat × Nat)} {f b e next : Nat} (h : ∀ t, cnt calls f t = inRange (b, min next e) t) (h1 : e ≤ next) :
    ∀ t, cnt calls f t = inRange (b, min (next + 1) e) t := by
  intro t
  rw [h t, show min (next + 1) e = min next e from by omega]

theorem running_main {s s' : State} {b e : Nat} (hb : Base s) (h : Running s b e) (hs : mainStep s = some s') : Inv s' := by
  obtain ⟨hf1, hf2⟩ := h.fits
  have hbd := h.bound
  unfold mainStep at hs
  cases hm : s.main with
  | idle => rw [hm] at hs; cases hs
  | joining => rw [hm] at hs; cases hs
  | single t =>
    have := h.mainp
    rw [hm] at this
    simp [mAct] at this
  | dequeue =>
    rw [hm] at hs hbd
    simp only [mFetcher] at hbd
    have hnum := h.num
    rw [hm] at hnum
    simp only [mAct] at hnum
    simp only [h.endt] at hs
    have hu : u32 (s.next + 1) = s.next + 1 := Nat.mod_eq_of_lt (by omega)
    rw [hu] at hs
    split at hs
    · rename_i hge
      simp only [Option.some.injEq] at hs
      subst hs
      exact ⟨⟨hb.run, hb.thread⟩, Phase.running b e {
        fits := h.fits, mainp := Or.inl rfl, desired := h.desired, live := h.live
        num := hnum
        bound := by simp only [mFetcher]; omega
        endt := rfl, len := h.len, cur := h.cur, mx := h.mx, two := h.two
        low := by have := h.low; simp only; omega
        over := by intro _; simp only; omega
        leavW := by intro _ _ _; simp only; omega
        leavM := by intro _; simp only; omega
        waitM := by rintro (h | h) <;> cases h
        cv := by intro h; cases h
        count := count_over h.count hge
        joined := h.joined, before := h.before, ret := h.ret }⟩
    · rename_i hlt
      simp only [Option.some.injEq] at hs
      subst hs
      have hlow := h.low
      have h2 := h.two
      obtain ⟨n1, n2⟩ := base_call (t := s.next) (i := 0) hb h.len h.cur (by omega)
      exact ⟨⟨n1, n2⟩, Phase.running b e {
        fits := h.fits, mainp := Or.inl rfl, desired := h.desired, live := h.live
        num := hnum
        bound := by
          have := sum_map_le (fetcher s.avail) (l := s.workers) (fetcher_le _)
          simp only [mFetcher]; omega
        endt := rfl, len := h.len, cur := h.cur, mx := h.mx, two := h.two
        low := by simp only; omega
        over := by intro ha; have := h.over ha; simp only; omega
        leavW := by intro p hp hl; have := h.leavW p hp hl; simp only; omega
        leavM := by intro h; cases h
        waitM := by rintro (h | h) <;> cases h
        cv := by intro h; cases h
        count := count_call h.count (by omega) h.low
        joined := h.joined
        before := complete_call (s := s) h.before rfl
        ret := h.ret }⟩
  | running t =>
    rw [hm] at hs hbd
    have hnum := h.num
    rw [hm] at hnum
    simp only [Option.some.injEq] at hs
    subst hs
    exact ⟨⟨hb.run, hb.thread⟩, Phase.running b e {
      fits := h.fits, mainp := Or.inl rfl, desired := h.desired, live := h.live
      num := hnum
      bound := hbd
      endt := h.endt, len := h.len, cur := h.cur, mx := h.mx, two := h.two, low := h.low, over := h.over, leavW := h.leavW
      leavM := by intro h; cases h
      waitM := by rintro (h | h) <;> cases h
      cv := by intro h; cases h
      count := h.count, joined := h.joined, before := h.before, ret := h.ret }⟩
  | leaving =>
    rw [hm] at hs hbd
    have hnum := h.num
    rw [hm] at hnum
    simp only [mAct] at hnum
    simp only [Option.some.injEq] at hs
    subst hs
    have hover := h.leavM hm
    exact ⟨⟨hb.run, hb.thread⟩, Phase.running b e {
      fits := h.fits, mainp := Or.inr (Or.inl rfl), desired := h.desired, live := h.live
      num := by simp only [signOff, mAct]; omega
      bound := by
        have := sum_map_mono (fetcher false) (fetcher s.avail) (l := s.workers) (fun p => fetcher_off p _)
        simp only [signOff, mFetcher] at *
        omega
      endt := h.endt, len := h.len, cur := h.cur, mx := h.mx, two := h.two, low := h.low
      over := fun _ => hover
      leavW := h.leavW
      leavM := by intro h; cases h
      waitM := fun _ => rfl
      cv := by intro h; cases h
      count := h.count, joined := h.joined, before := h.before, ret := h.ret }⟩
  | waitCheck =>
    rw [hm] at hs hbd
    have hnum := h.num
    rw [hm] at hnum
    simp only [mAct] at hnum
    have hav := h.waitM (Or.inl hm)
    have hover := h.over hav
    simp only at hs
    split at hs
    · rename_i hz
      simp only [Option.some.injEq] at hs
      subst hs
      refine ⟨⟨hb.run, hb.thread⟩, Phase.idle rfl ⟨hz, hav, ?_, ?_⟩ h.desired h.live (by have := h.len; have := h.ret; simp only; omega)⟩
      · intro p hp
        obtain ⟨i, hi, rfl⟩ := List.mem_iff_getElem.mp hp
        have := sum_map_set isAct (q := WPc.check) (List.getElem?_eq_getElem hi)
        simp only [isAct] at *
        omega
      · intro k hk x hx t
        simp only at hk hx
        rw [h.len] at hk
        by_cases hkf : k < s.func
        · exact h.before k hkf x hx t
        · have : k = s.func := by omega
          subst this
          rw [h.cur] at hx
          cases hx
          have := h.count t
          rw [show min s.next e = e from by omega] at this
          exact this
    · rename_i hz
      simp only [Option.some.injEq] at hs
      subst hs
      exact ⟨⟨hb.run, hb.thread⟩, Phase.running b e {
        fits := h.fits, mainp := Or.inr (Or.inr rfl), desired := h.desired, live := h.live
        num := hnum
        bound := hbd
        endt := h.endt, len := h.len, cur := h.cur, mx := h.mx, two := h.two, low := h.low, over := h.over, leavW := h.leavW
        leavM := by intro h; cases h
        waitM := fun _ => hav
        cv := fun _ => hz
        count := h.count, joined := h.joined, before := h.before, ret := h.ret }⟩
  | waitingCv =>
    rw [hm] at hs hbd
    have hnum := h.num
    rw [hm] at hnum
    simp only [Option.some.injEq] at hs
    subst hs
    have hav := h.waitM (Or.inr hm)
    exact ⟨⟨hb.run, hb.thread⟩, Phase.running b e {
      fits := h.fits, mainp := Or.inr (Or.inl rfl), desired := h.desired, live := h.live
      num := hnum
      bound := hbd
      endt := h.endt, len := h.len, cur := h.cur, mx := h.mx, two := h.two, low := h.low, over := h.over, leavW := h.leavW
      leavM := by intro h; cases h
      waitM := fun _ => hav
      cv := by intro h; cases h
      count := h.count, joined := h.joined, before := h.before, ret := h.ret }⟩

theorem mem_set {α : Type} {l : List α} {i : Nat} {q p : α} (h : p ∈ l.set i q) : p ∈ l ∨ p = q := List.mem_or_eq_of_mem_set h

theorem getElem?_set_cases {α : Type} {l : List α} {i j : Nat} {q p : α} (h : (l.set i q)[j]? = some p) : (j = i ∧ p = q) ∨ (j ≠ i ∧ l[j]? = some p) := by
  by_cases hj : j = i
  · subst hj
    by_cases hl : j < l.length
    · rw [List.getElem?_set_self hl] at h
      left; exact ⟨rfl, (Option.some.inj h).symm⟩
    · rw [List.getElem?_eq_none (by simp; omega)] at h; cases h
  · rw [List.getElem?_set_ne (by omega)] at h
    exact Or.inr ⟨hj, h⟩

theorem running_worker {s s' : State} {b e i : Nat} {p : WPc} (hb : Base s) (h : Running s b e) (hp : s.workers[i]? = some p) (hs : workerStep s i p = some s') : Inv s' := by
  have hi : i < s.workers.length := (List.getElem?_eq_some_iff.mp hp).1
  obtain ⟨hf1, hf2⟩ := h.fits
  have hbd := h.bound
  have hnum := h.num
  have hmem := List.mem_of_getElem? hp
  have liveset : ∀ q, q ≠ WPc.exited → ∀ p ∈ s.workers.set i q, p ≠ .exited := by
    intro q hq p hp
    rcases mem_set hp with hp | rfl
    · exact h.live p hp
    · exact hq
  have joinset : ∀ q, (isAct q = 1 → i < s.maxRunning) → ∀ (j : Nat) (p : WPc), (s.workers.set i q)[j]? = some p → isAct p = 1 → j < s.maxRunning := by
    intro q hq j p hp ha
    rcases getElem?_set_cases hp with ⟨rfl, rfl⟩ | ⟨_, hp⟩
    · exact hq ha
    · exact h.joined j p hp ha
  cases p with
  | exited => simp [workerStep] at hs
  | check =>
    simp only [workerStep] at hs
    rw [if_neg (by have := h.desired; omega)] at hs
    split at hs
    · simp only [Option.some.injEq] at hs
      subst hs
      have h1 := sum_map_set isAct (q := .waiting) hp
      have h2 := sum_map_set (fetcher s.avail) (q := .waiting) hp
      simp only [isAct, fetcher] at h1 h2
      exact ⟨⟨hb.run, hb.thread⟩, Phase.running b e {
        fits := by simpa using h.fits
        mainp := h.mainp, desired := by simpa using h.desired
        live := liveset _ (by simp)
        num := by simp only; omega
        bound := by simp only [List.length_set]; omega
        endt := h.endt, len := h.len, cur := by simpa using h.cur
        mx := h.mx, two := h.two, low := h.low, over := h.over
        leavW := by
          intro p hp hl
          rcases mem_set hp with hp | rfl
          · exact h.leavW p hp hl
          · cases hl
        leavM := h.leavM, waitM := h.waitM, cv := h.cv, count := h.count
        joined := joinset _ (by simp [isAct])
        before := h.before, ret := h.ret }⟩
    · rename_i hgo
      simp only [Option.some.injEq] at hs
      subst hs
      have hav : s.avail = true := by cases hx : s.avail <;> simp_all
      have h1 := sum_map_set isAct (q := .dequeue) hp
      have h2 := sum_map_set (fetcher s.avail) (q := .dequeue) hp
      simp only [isAct, fetcher, if_pos hav] at h1 h2
      exact ⟨⟨hb.run, hb.thread⟩, Phase.running b e {
        fits := by simpa using h.fits
        mainp := h.mainp, desired := by simpa using h.desired
        live := liveset _ (by simp)
        num := by simp only; omega
        bound := by simp only [List.length_set]; omega
        endt := h.endt, len := h.len, cur := by simpa using h.cur
        mx := h.mx, two := h.two, low := h.low, over := h.over
        leavW := by
          intro p hp hl
          rcases mem_set hp with hp | rfl
          · exact h.leavW p hp hl
          · cases hl
        leavM := h.leavM, waitM := h.waitM
        cv := by intro _; simp only; omega
        count := h.count
        joined := joinset _ (by intro _; omega)
        before := h.before, ret := h.ret }⟩
  | waiting =>
    simp only [workerStep, Option.some.injEq] at hs
    subst hs
    have h1 := sum_map_set isAct (q := .check) hp
    have h2 := sum_map_set (fetcher s.avail) (q := .check) hp
    simp only [isAct, fetcher] at h1 h2
    exact ⟨⟨hb.run, hb.thread⟩, Phase.running b e {
      fits := by simpa using h.fits
      mainp := h.mainp, desired := by simpa using h.desired
      live := liveset _ (by simp)
      num := by simp only; omega
      bound := by simp only [List.length_set]; omega
      endt := h.endt, len := h.len, cur := by simpa using h.cur
      mx := h.mx, two := h.two, low := h.low, over := h.over
      leavW := by
        intro p hp hl
        rcases mem_set hp with hp | rfl
        · exact h.leavW p hp hl
        · cases hl
      leavM := h.leavM, waitM := h.waitM, cv := h.cv, count := h.count
      joined := joinset _ (by simp [isAct])
      before := h.before, ret := h.ret }⟩
  | dequeue =>
    have hjoin := h.joined i _ hp rfl
    have hF : 1 ≤ (s.workers.map (fetcher s.avail)).sum := by
      have := sum_map_set (fetcher s.avail) (q := .leaving) hp
      simp only [fetcher] at this; omega
    have hu : u32 (s.next + 1) = s.next + 1 := Nat.mod_eq_of_lt (by omega)
    simp only [workerStep, h.endt, hu] at hs
    have hlow := h.low
    split at hs
    · rename_i hge
      simp only [Option.some.injEq] at hs
      subst hs
      have h1 := sum_map_set isAct (q := .leaving) hp
      have h2 := sum_map_set (fetcher s.avail) (q := .leaving) hp
      simp only [isAct, fetcher] at h1 h2
      exact ⟨⟨hb.run, hb.thread⟩, Phase.running b e {
        fits := by simpa using h.fits
        mainp := h.mainp, desired := by simpa using h.desired
        live := liveset _ (by simp)
        num := by simp only; omega
        bound := by simp only [List.length_set]; omega
        endt := rfl, len := h.len, cur := by simpa using h.cur
        mx := h.mx, two := h.two
        low := by simp only; omega
        over := by intro _; simp only; omega
        leavW := by intro _ _ _; simp only; omega
        leavM := by intro _; simp only; omega
        waitM := h.waitM, cv := h.cv
        count := count_over h.count hge
        joined := joinset _ (fun _ => hjoin)
        before := h.before, ret := h.ret }⟩
    · rename_i hlt
      simp only [Option.some.injEq] at hs
      subst hs
      have h1 := sum_map_set isAct (q := .running s.next) hp
      have h2 := sum_map_set (fetcher s.avail) (q := .running s.next) hp
      simp only [isAct, fetcher] at h1 h2
      have hmx := h.mx (by omega)
      obtain ⟨n1, n2⟩ := base_call (t := s.next) (i := i + 1) hb h.len h.cur (by omega)
      exact ⟨⟨n1, n2⟩, Phase.running b e {
        fits := by simpa using h.fits
        mainp := h.mainp, desired := by simpa using h.desired
        live := liveset _ (by simp)
        num := by simp only; omega
        bound := by
          have h3 := sum_map_le (fetcher s.avail) (l := s.workers) (fetcher_le _)
          have h4 : mFetcher s.main ≤ 1 := by cases s.main <;> simp [mFetcher]
          simp only [List.length_set]; omega
        endt := rfl, len := h.len, cur := by simpa using h.cur
        mx := h.mx, two := h.two
        low := by simp only; omega
        over := by intro ha; have := h.over ha; simp only; omega
        leavW := by
          intro p hp hl
          rcases mem_set hp with hp | rfl
          · have := h.leavW p hp hl; simp only; omega
          · cases hl
        leavM := by intro hl; have := h.leavM hl; simp only; omega
        waitM := h.waitM, cv := h.cv
        count := count_call h.count (by omega) h.low
        joined := joinset _ (fun _ => hjoin)
        before := complete_call (s := s) h.before rfl
        ret := h.ret }⟩
  | running t =>
    have hjoin := h.joined i _ hp rfl
    simp only [workerStep, Option.some.injEq] at hs
    subst hs
    have h1 := sum_map_set isAct (q := .dequeue) hp
    have h2 := sum_map_set (fetcher s.avail) (q := .dequeue) hp
    simp only [isAct, fetcher] at h1 h2
    exact ⟨⟨hb.run, hb.thread⟩, Phase.running b e {
      fits := by simpa using h.fits
      mainp := h.mainp, desired := by simpa using h.desired
      live := liveset _ (by simp)
      num := by simp only; omega
      bound := by simp only [List.length_set]; omega
      endt := h.endt, len := h.len, cur := by simpa using h.cur
      mx := h.mx, two := h.two, low := h.low, over := h.over
      leavW := by
        intro p hp hl
        rcases mem_set hp with hp | rfl
        · exact h.leavW p hp hl
        · cases hl
      leavM := h.leavM, waitM := h.waitM, cv := h.cv, count := h.count
      joined := joinset _ (fun _ => hjoin)
      before := h.before, ret := h.ret }⟩
  | leaving =>
    have hover := h.leavW _ hmem rfl
    simp only [workerStep, Option.some.injEq] at hs
    subst hs
    have h1 := sum_map_set isAct (q := .check) hp
    have h2 := sum_map_set (fetcher false) (q := .check) hp
    have h3 := sum_map_mono (fetcher false) (fetcher s.avail) (l := s.workers) (fun p => fetcher_off p _)
    simp only [isAct] at h1
    simp only [fetcher, Bool.false_eq_true, if_false] at h2
    have hm : (if s.numRunning - 1 = 0 ∧ s.main = .waitingCv then MPc.waitCheck else s.main) = s.main ∨
        (s.main = .waitingCv ∧ (if s.numRunning - 1 = 0 ∧ s.main = .waitingCv then MPc.waitCheck else s.main) = .waitCheck) := by
      by_cases hc : s.numRunning - 1 = 0 ∧ s.main = .waitingCv
      · rw [if_pos hc]; exact Or.inr ⟨hc.2, rfl⟩
      · rw [if_neg hc]; exact Or.inl rfl
    have hcv : (if s.numRunning - 1 = 0 ∧ s.main = .waitingCv then MPc.waitCheck else s.main) = .waitingCv → s.numRunning - 1 ≠ 0 := by
      by_cases hc : s.numRunning - 1 = 0 ∧ s.main = .waitingCv
      · rw [if_pos hc]; intro h; cases h
      · rw [if_neg hc]; intro h1 h2; exact hc ⟨h2, h1⟩
    refine ⟨⟨hb.run, hb.thread⟩, Phase.running b e ?_⟩
    unfold signOff
    generalize (if s.numRunning - 1 = 0 ∧ s.main = .waitingCv then MPc.waitCheck else s.main) = m' at *
    have hA : mAct m' = mAct s.main := by
      rcases hm with hm | ⟨h1, h2⟩
      · rw [hm]
      · rw [h1, h2]; rfl
    have hB : mFetcher m' = mFetcher s.main := by
      rcases hm with hm | ⟨h1, h2⟩
      · rw [hm]
      · rw [h1, h2]; rfl
    exact {
      fits := by simpa using h.fits
      mainp := by
        rcases hm with hm | ⟨_, h2⟩
        · simp only [hm]; exact h.mainp
        · exact Or.inr (Or.inl h2)
      desired := by simpa using h.desired
      live := liveset _ (by simp)
      num := by simp only [hA]; omega
      bound := by simp only [List.length_set, hB]; omega
      endt := h.endt, len := h.len, cur := by simpa using h.cur
      mx := h.mx, two := h.two, low := h.low
      over := fun _ => hover
      leavW := by intro _ _ _; exact hover
      leavM := fun _ => hover
      waitM := fun _ => rfl
      cv := hcv
      count := h.count
      joined := joinset _ (by simp [isAct])
      before := h.before, ret := h.ret }

/-- A worker's step when no run is going on. -/
theorem quiet_worker {s s' : State} {i : Nat} {p : WPc} (hq : Quiet s) (hp : s.workers[i]? = some p) (hs : workerStep s i p = some s') :
    ∃ q, s' = { s with workers := s.workers.set i q } ∧ isAct q = 0 ∧ (q = .exited → s.desired ≤ i) ∧ (q = .waiting → i < s.desired) := by
  have h0 := hq.act p (List.mem_of_getElem? hp)
  cases p with
  | check =>
    simp only [workerStep] at hs
    split at hs
    · rename_i hge
      exact ⟨_, (Option.some.inj hs).symm, rfl, fun _ => hge, by intro h; cases h⟩
    · rename_i hge
      rw [if_pos (Or.inl hq.avail)] at hs
      exact ⟨_, (Option.some.inj hs).symm, rfl, (by intro h; cases h), fun _ => by omega⟩
  | waiting => exact ⟨_, (Option.some.inj hs).symm, rfl, (by intro h; cases h), (by intro h; cases h)⟩
  | exited => simp [workerStep] at hs
  | dequeue => simp [isAct] at h0
  | running t => simp [isAct] at h0
  | leaving => simp [isAct] at h0

theorem quiet_set {s : State} {i : Nat} {q : WPc} (hq : Quiet s) (h : isAct q = 0) : Quiet { s with workers := s.workers.set i q } :=
  ⟨hq.num, hq.avail, by
    intro p hp
    rcases mem_set hp with hp | rfl
    · exact hq.act p hp
    · exact h, hq.done⟩

theorem step_inv {s s' : State} {a : Action} (h : Inv s) (ha : ∀ b e, a = .run b e → Fits s.workers.length b e) (hs : step s a = some s') : Inv s' := by
  obtain ⟨hb, hph⟩ := h
  have notidle : ∀ b e, Running s b e → s.main ≠ .idle ∧ s.main ≠ .joining := by
    intro b e h
    have := h.mainp
    constructor <;> (intro hm; rw [hm] at this; simp [mAct] at this)
  cases a with
  | run b e =>
    simp only [step] at hs
    split at hs
    · rename_i hc
      simp only [Option.some.injEq] at hs
      subst hs
      cases hph with
      | idle h1 h2 h3 h4 h5 => exact start_inv hb h2 h3 h4 h5 (ha b e rfl)
      | single t h1 => rw [h1] at hc; cases hc.1
      | joining h1 => rw [h1] at hc; cases hc.1
      | running b e h1 => exact absurd hc.1 (notidle _ _ h1).1
    · cases hs
  | setThreads num =>
    simp only [step] at hs
    split at hs
    · rename_i hc
      simp only [Option.some.injEq] at hs
      subst hs
      cases hph with
      | single t h1 => rw [h1] at hc; cases hc
      | joining h1 => rw [h1] at hc; cases hc
      | running b e h1 => exact absurd hc (notidle _ _ h1).1
      | idle h1 h2 h3 h4 h5 =>
        unfold startResize
        have hget : ∀ (i : Nat) (p : WPc), (s.workers.map wake ++ List.replicate (num - 1 - s.workers.length) WPc.check)[i]? = some p → p ≠ .exited ∧ p ≠ .waiting ∧ isAct p = 0 := by
          intro i p hp
          have hm := List.mem_of_getElem? hp
          rw [List.mem_append] at hm
          rcases hm with hm | hm
          · obtain ⟨q, hq, rfl⟩ := wake_mem hm
            have h6 := h4 q hq
            have h7 := h2.act q hq
            rw [isAct_wake]
            refine ⟨?_, ?_, h7⟩ <;> cases q <;> simp_all [wake]
          · rw [(List.mem_replicate.mp hm).2]
            simp [isAct]
        refine ⟨⟨hb.run, hb.thread⟩, Phase.joining rfl ⟨h2.num, h2.avail, ?_, h2.done⟩ (by simp; omega) ?_ h5⟩
        · intro p hp
          obtain ⟨i, hi, rfl⟩ := List.mem_iff_getElem.mp hp
          exact (hget i _ (List.getElem?_eq_getElem hi)).2.2
        · intro i p hp
          have := hget i p hp
          exact ⟨fun _ => this.1, fun _ => this.2.1⟩
    · cases hs
  | joined =>
    simp only [step] at hs
    split at hs
    · rename_i hc
      simp only [Option.some.injEq] at hs
      subst hs
      cases hph with
      | single t h1 => rw [h1] at hc; cases hc.1
      | idle h1 => rw [h1] at hc; cases hc.1
      | running b e h1 => exact absurd hc.1 (notidle _ _ h1).2
      | joining h1 h2 h3 h4 h5 =>
        refine ⟨⟨hb.run, hb.thread⟩, Phase.idle rfl ⟨h2.num, h2.avail, fun p hp => h2.act p (List.mem_of_mem_take hp), h2.done⟩ (by simp; omega) ?_ h5⟩
        intro p hp
        obtain ⟨i, hi, rfl⟩ := List.mem_iff_getElem.mp hp
        simp only [List.length_take] at hi
        have := (h4 i (s.workers[i]'(by omega)) (List.getElem?_eq_getElem _)).1 (by omega)
        simpa using this
    · cases hs
  | main =>
    simp only [step] at hs
    cases hph with
    | idle h1 => simp [mainStep, h1] at hs
    | joining h1 => simp [mainStep, h1] at hs
    | single t h1 h2 h3 h4 h5 =>
      simp only [mainStep, h1, Option.some.injEq] at hs
      subst hs
      exact ⟨⟨hb.run, hb.thread⟩, Phase.idle rfl ⟨h2.num, h2.avail, h2.act, h2.done⟩ h3 h4 h5⟩
    | running b e h1 => exact running_main hb h1 hs
  | worker i =>
    simp only [step] at hs
    split at hs
    · cases hs
    rename_i p hp
    cases hph with
    | running b e h1 => exact running_worker hb h1 hp hs
    | idle h1 h2 h3 h4 h5 =>
      obtain ⟨q, rfl, k1, k2, k3⟩ := quiet_worker h2 hp hs
      have hi : i < s.workers.length := (List.getElem?_eq_some_iff.mp hp).1
      refine ⟨⟨hb.run, hb.thread⟩, Phase.idle h1 (quiet_set h2 k1) (by simpa using h3) ?_ h5⟩
      intro p hp
      rcases mem_set hp with hp | rfl
      · exact h4 p hp
      · intro hx; have := k2 hx; omega
    | single t h1 h2 h3 h4 h5 =>
      obtain ⟨q, rfl, k1, k2, k3⟩ := quiet_worker h2 hp hs
      have hi : i < s.workers.length := (List.getElem?_eq_some_iff.mp hp).1
      refine ⟨⟨hb.run, hb.thread⟩, Phase.single t h1 (quiet_set h2 k1) (by simpa using h3) ?_ h5⟩
      intro p hp
      rcases mem_set hp with hp | rfl
      · exact h4 p hp
      · intro hx; have := k2 hx; omega
    | joining h1 h2 h3 h4 h5 =>
      obtain ⟨q, rfl, k1, k2, k3⟩ := quiet_worker h2 hp hs
      refine ⟨⟨hb.run, hb.thread⟩, Phase.joining h1 (quiet_set h2 k1) (by simpa using h3) ?_ h5⟩
      intro j p hp
      rcases getElem?_set_cases hp with ⟨rfl, rfl⟩ | ⟨_, hp⟩
      · exact ⟨fun hj hx => by have := k2 hx; simp only at hj; omega, fun hj hx => by have := k3 hx; simp only at hj; omega⟩
      · exact h4 j p hp

end Jxl.RPool
