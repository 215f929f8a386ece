import Verif.Lemmas.ResizablePool
/-!
# C24: the thread pools run every task exactly once
-/
namespace Jxl.Props
open Jxl.Pool (cnt inRange)

/-- C24, fixed-size pool. For every number of workers, every sequence of runs and every
interleaving: at any time no task has been called twice, none outside its range and none with a
thread number beyond the announced one; whenever the calling thread is outside `Runner`, no worker
is inside a call and all runs are complete, every task having been called exactly once; and the pool
never deadlocks. Assumed: condition variables do not wake up spuriously, and ranges keep a distance
from the 32-bit limit. Both are necessary, see the next theorems. -/
theorem C24_fixed_pool_partial (n : Nat) (hn : 0 < n) (acts : List Pool.Action) (s : Pool.State)
    (hr : ∀ b e, Pool.Action.call b e ∈ acts → b < e ∧ e + (n + 1) * max ((e - b) / (n * 4)) 1 ≤ 2 ^ 32) (hs : Pool.exec false (Pool.State.init n) acts = some s) :
    (∀ k t, cnt s.calls k t ≤ (s.hist[k]?.map fun r => inRange r t).getD 0) ∧
    (∀ c ∈ s.calls, c.2.2 < n) ∧
    (s.main = .idle → (∀ p ∈ s.workers, p = .waiting) ∧ ∀ k r, s.hist[k]? = some r → ∀ t, cnt s.calls k t = inRange r t) ∧
    (s.main ≠ .idle → ∃ a, (∀ b e, a ≠ Pool.Action.call b e) ∧ (Pool.step false s a).isSome) := by
  obtain ⟨⟨hb, hph⟩, hlen⟩ := Pool.exec_inv (Pool.init_inv n hn) (by
    intro b e he
    have := hr b e he
    simpa [Pool.State.init, Pool.Fits, Pool.chunk] using this) hs
  have hl : s.workers.length = n := by rw [hlen]; simp [Pool.State.init]
  have outside : ∀ k t, s.hist.length ≤ k → cnt s.calls k t = 0 := by
    intro k t hk
    unfold cnt
    rw [List.countP_eq_zero]
    intro c hc
    have := hb.run c hc
    simp; omega
  have closed : Pool.Complete s s.hist.length → ∀ k t, cnt s.calls k t ≤ (s.hist[k]?.map fun r => inRange r t).getD 0 := by
    intro hc k t
    by_cases hk : k < s.hist.length
    · have := hc k hk _ (List.getElem?_eq_getElem hk) t
      rw [List.getElem?_eq_getElem hk, this]; exact Nat.le_refl _
    · rw [outside k t (by omega)]; exact Nat.zero_le _
  have partly : ∀ r, s.hist.length = s.func + 1 → s.hist[s.func]? = some r → Pool.Complete s s.func → (∀ t, cnt s.calls s.func t ≤ inRange r t) → ∀ k t, cnt s.calls k t ≤ (s.hist[k]?.map fun r => inRange r t).getD 0 := by
    intro r h1 h2 h3 h4 k t
    by_cases hk : k < s.func
    · have hk' : k < s.hist.length := by omega
      have := h3 k hk _ (List.getElem?_eq_getElem hk') t
      rw [List.getElem?_eq_getElem hk', this]; exact Nat.le_refl _
    · by_cases hk2 : k = s.func
      · subst hk2; rw [h2]; exact h4 t
      · rw [outside k t (by omega)]; exact Nat.zero_le _
  have hstep : ∀ (i : Nat) (p : Pool.WPc), s.workers[i]? = some p → p ≠ .waiting → ∃ a, (∀ b e, a ≠ Pool.Action.call b e) ∧ (Pool.step false s a).isSome := by
    intro i p hp hw
    refine ⟨.worker i 0, (by intro b e h; cases h), ?_⟩
    simp only [Pool.step, hp]
    cases p with
    | waiting => exact absurd rfl hw
    | leaving => rfl
    | woken => simp only [Pool.workerStep]; split <;> rfl
    | loading b e => rfl
    | loaded b e z => rfl
    | running b e c d => simp only [Pool.workerStep]; split <;> rfl
  have hbar : s.main = .barrier → s.ready = (s.workers.map Pool.isW).sum → ∃ a, (∀ b e, a ≠ Pool.Action.call b e) ∧ (Pool.step false s a).isSome := by
    intro hm hrd
    by_cases hall : ∀ p ∈ s.workers, p = .waiting
    · refine ⟨.pass, (by intro b e h; cases h), ?_⟩
      have : s.ready = s.workers.length := by
        rw [hrd, Pool.sum_map_const Pool.isW 1 (by intro p hp; rw [hall p hp]; rfl)]; omega
      simp only [Pool.step, hm, this, and_self, if_true]
      split <;> rfl
    · have : ∃ p, p ∈ s.workers ∧ p ≠ .waiting := by
        refine Classical.byContradiction fun hc => hall fun p hp => Classical.byContradiction fun h => hc ⟨p, hp, h⟩
      obtain ⟨p, hp, hw⟩ := this
      obtain ⟨i, hi, rfl⟩ := List.mem_iff_getElem.mp hp
      exact hstep i _ (List.getElem?_eq_getElem hi) hw
  have hth : ∀ c ∈ s.calls, c.2.2 < n := by intro c hc; have := hb.thread c hc; omega
  cases hph with
  | idle h1 h2 h3 h4 h5 =>
    refine ⟨closed h5, hth, fun _ => ⟨h4, ?_⟩, fun h => absurd h1 h⟩
    intro k r hk
    exact h5 k (List.getElem?_eq_some_iff.mp hk).1 r hk
  | starting r h1 h2 h3 h4 h5 h6 h7 h8 h9 h10 =>
    refine ⟨partly r h7 h8 h9 (by intro t; rw [h10]; exact Nat.zero_le _), hth, (fun h => by rw [h1] at h; cases h), fun _ => ⟨.notify, (by intro b e h; cases h), by simp [Pool.step, h1]⟩⟩
  | created h1 h2 h3 h4 h5 h6 =>
    refine ⟨closed (by intro k hk; simp [h5] at hk), hth, (fun h => by rw [h1] at h; cases h), fun _ => hbar h1 h4⟩
  | running r h1 h2 h3 =>
    refine ⟨partly r h3.len h3.cur h3.before ?_, hth, (fun h => by rw [h1] at h; cases h), fun _ => hbar h1 h3.ready⟩
    intro t
    have h4 := h3.count t
    unfold inRange at *
    split at h4
    · rw [if_pos (by simp only at *; omega)]; omega
    · omega

/-- The schedule of the next theorem: two workers, run `[0, 2)`. Worker 1 finishes, wakes up
spuriously while worker 0 is still inside task 0, and is counted twice. -/
def earlyReturn : List Pool.Action :=
  [.worker 0 0, .worker 1 0, .pass, .call 0 2, .notify, .worker 0 0, .worker 1 0, .worker 0 0, .worker 0 0, .worker 1 0, .worker 1 0, .worker 1 0, .worker 1 2, .worker 1 0, .worker 1 0,
   .spurious 1, .worker 1 0, .worker 1 2, .worker 1 0, .worker 1 0, .pass]

/-- With spurious wake-ups, which the C++ standard allows, the claim is false: `Runner` can report
success while a worker is still inside a call, and that worker can then call, in the next run, a
task outside the range. -/
theorem C24_fixed_pool_spurious_wakeup :
    (∃ s, Pool.exec true (Pool.State.init 2) earlyReturn = some s ∧ s.main = .idle ∧ s.codes = [true] ∧ s.workers[0]? = some (.running 0 2 0 1)) ∧
    (∃ s, Pool.exec true (Pool.State.init 2) (earlyReturn ++ [.call 10 12, .notify, .worker 0 0, .worker 0 0, .worker 0 0]) = some s ∧
      s.hist = [(0, 2), (10, 12)] ∧ (1, 0, 0) ∈ s.calls) := by
  refine ⟨⟨_, rfl, by decide, by decide, by decide⟩, ⟨_, rfl, by decide, by decide⟩⟩

/-- Near the 32-bit limit the counter of reserved tasks wraps around and a task outside the range
is called. -/
theorem C24_fixed_pool_wraps : ∃ acts s, Pool.exec false (Pool.State.init 2) acts = some s ∧ s.hist = [(4294967293, 4294967295)] ∧ (0, 0, 1) ∈ s.calls := by
  refine ⟨[.worker 0 0, .worker 1 0, .pass, .call 4294967293 4294967295, .notify, .worker 0 0, .worker 1 0, .worker 0 0, .worker 0 0, .worker 0 0, .worker 0 0, .worker 0 0, .worker 0 0, .worker 0 0, .worker 0 0,
    .worker 1 0, .worker 1 0], _, rfl, by decide, by decide⟩

/-- A call of `Runner` from inside a run is refused; but from then on the pool refuses every
further run, because the nesting counter is not decremented. -/
theorem C24_reentry_disables_pool (s s1 s2 : Pool.State) (b e : Nat) (spur : Bool) (acts : List Pool.Action) (hd : s.depth ≠ 0) (hm : s.main ≠ .idle)
    (h1 : Pool.step spur s (.call b e) = some s1) (h2 : Pool.exec spur s1 acts = some s2) : s2.hist = s.hist := by
  have key : ∀ (acts : List Pool.Action) (u v : Pool.State), u.depth ≥ 1 → (u.main ≠ .idle → u.depth ≥ 2) → Pool.exec spur u acts = some v → v.hist = u.hist := by
    intro acts
    induction acts with
    | nil => intro u v _ _ h; simp only [Pool.exec, Option.some.injEq] at h; rw [h]
    | cons a acts ih =>
      intro u v hd1 hd2 h
      simp only [Pool.exec, Option.bind_eq_some_iff] at h
      obtain ⟨w, hw, h⟩ := h
      have hstep : w.hist = u.hist ∧ w.depth ≥ 1 ∧ (w.main ≠ .idle → w.depth ≥ 2) := by
        cases a with
        | call b e =>
          simp only [Pool.step] at hw
          split at hw
          · cases hw
          rw [if_pos (by omega)] at hw
          simp only [Option.some.injEq] at hw
          subst hw
          exact ⟨rfl, by simp only; omega, fun _ => by simp only; omega⟩
        | notify =>
          simp only [Pool.step] at hw
          split at hw
          · rename_i hm
            simp only [Option.some.injEq] at hw
            subst hw
            exact ⟨rfl, hd1, fun _ => hd2 (by rw [hm]; simp)⟩
          · cases hw
        | pass =>
          simp only [Pool.step] at hw
          split at hw
          · rename_i hm
            have := hd2 (by rw [hm.1]; simp)
            split at hw <;>
            · simp only [Option.some.injEq] at hw
              subst hw
              exact ⟨rfl, by simp only; omega, fun h => absurd rfl h⟩
          · cases hw
        | spurious i =>
          simp only [Pool.step] at hw
          split at hw
          · simp only [Option.some.injEq] at hw
            subst hw
            exact ⟨rfl, hd1, hd2⟩
          · cases hw
        | worker i v =>
          simp only [Pool.step] at hw
          split at hw
          · cases hw
          rename_i p hp
          cases p with
          | leaving => simp only [Pool.workerStep, Option.some.injEq] at hw; subst hw; exact ⟨rfl, hd1, hd2⟩
          | waiting => simp [Pool.workerStep] at hw
          | woken =>
            simp only [Pool.workerStep] at hw
            split at hw <;> (simp only [Option.some.injEq] at hw; subst hw; exact ⟨rfl, hd1, hd2⟩)
          | loading b e => simp only [Pool.workerStep, Option.some.injEq] at hw; subst hw; exact ⟨rfl, hd1, hd2⟩
          | loaded b e size =>
            simp only [Pool.workerStep, Option.some.injEq] at hw; subst hw
            unfold Pool.reserve Pool.enter
            simp only
            split <;> exact ⟨rfl, hd1, hd2⟩
          | running b e cur stop =>
            simp only [Pool.workerStep] at hw
            split at hw <;> (simp only [Option.some.injEq] at hw; subst hw; exact ⟨rfl, hd1, hd2⟩)
      rw [ih w v hstep.2.1 hstep.2.2 h, hstep.1]
  simp only [Pool.step] at h1
  split at h1
  · cases h1
  simp only [Option.some.injEq] at h1
  subst h1
  exact key acts { s with depth := s.depth + 1 } s2 (by simp only; omega) (fun _ => by simp only; omega) h2

/-- Such a state is reached by one run during which a task calls `Runner`. -/
example : ((Pool.exec false (Pool.State.init 1) [.worker 0 0, .pass, .call 0 1, .notify, .worker 0 0, .worker 0 0, .worker 0 0]).map fun s => (s.depth, s.main, s.workers)) =
    some (1, .barrier, [.running 0 1 0 1]) := by decide

/-- Before the workers are started: a reversed range is an error, an empty one succeeds without
calls, a failing `init` stops, and without workers the tasks run in order on the calling thread. -/
theorem C24_fixed_pool_entry (n b e : Nat) (ok : Bool) :
    Pool.runnerEntry n b e ok =
      if e < b then some .error else if b = e then some .success else if ok = false then some .initFailed
      else if n = 0 then some (.ranHere (List.range' b (e - b))) else none := by
  unfold Pool.runnerEntry
  rw [Pool.sequential_eq e _ b (by omega)]
  cases ok <;> simp

/-- Two workers, three tasks: a complete run in which one worker does two tasks. -/
example : ((Pool.exec false (Pool.State.init 2) [.worker 0 0, .worker 1 0, .pass, .call 5 8, .notify, .worker 1 0, .worker 0 0, .worker 0 0, .worker 1 7, .worker 1 0, .worker 0 0, .worker 1 0, .worker 1 1, .worker 1 0,
    .worker 0 0, .worker 0 0, .worker 1 0, .worker 0 0, .worker 0 0, .worker 1 0, .worker 1 0, .worker 1 0, .pass]).map fun s => (s.main, s.calls, s.codes)) =
    some (.idle, [(0, 5, 1), (0, 6, 0), (0, 7, 1)], [true]) := by decide

/-! ### The resizable pool -/

theorem rpool_workers {s s' : RPool.State} {a : RPool.Action} {W : Nat} (h : s.workers.length ≤ W) (ha : ∀ m, a = .setThreads m → m ≤ W + 1) (hs : RPool.step s a = some s') : s'.workers.length ≤ W := by
  cases a with
  | run b e =>
    simp only [RPool.step] at hs
    split at hs
    · simp only [Option.some.injEq] at hs
      subst hs
      unfold RPool.startRun
      split <;> simpa using h
    · cases hs
  | setThreads m =>
    have := ha m rfl
    simp only [RPool.step] at hs
    split at hs
    · simp only [Option.some.injEq] at hs
      subst hs
      simp [RPool.startResize]; omega
    · cases hs
  | joined =>
    simp only [RPool.step] at hs
    split at hs
    · simp only [Option.some.injEq] at hs
      subst hs
      simp; omega
    · cases hs
  | main =>
    have : s'.workers = s.workers := by
      simp only [RPool.step, RPool.mainStep] at hs
      repeat' split at hs
      all_goals first | (cases hs; done) | (simp only [Option.some.injEq] at hs; subst hs; rfl)
    rw [this]; exact h
  | worker i =>
    simp only [RPool.step] at hs
    split at hs
    · cases hs
    rename_i p hp
    have : s'.workers.length = s.workers.length := by
      cases p <;> simp only [RPool.workerStep] at hs <;> (repeat' split at hs) <;> first | (cases hs; done) | (simp only [Option.some.injEq] at hs; subst hs; simp)
    omega

theorem rpool_exec {W : Nat} {acts : List RPool.Action} : ∀ {s s' : RPool.State}, RPool.Inv s → s.workers.length ≤ W → (∀ m, RPool.Action.setThreads m ∈ acts → m ≤ W + 1) →
    (∀ b e, RPool.Action.run b e ∈ acts → b ≤ e ∧ e + W + 1 < 2 ^ 32) → RPool.exec s acts = some s' → RPool.Inv s' := by
  induction acts with
  | nil => intro s s' h _ _ _ hs; simp only [RPool.exec, Option.some.injEq] at hs; subst hs; exact h
  | cons a acts ih =>
    intro s s' h hw h1 h2 hs
    simp only [RPool.exec, Option.bind_eq_some_iff] at hs
    obtain ⟨s1, k1, k2⟩ := hs
    have h3 := RPool.step_inv h (by intro b e he; have := h2 b e (by simp [he]); exact ⟨this.1, by omega⟩) k1
    have h4 := rpool_workers hw (by intro m hm; exact h1 m (by simp [hm])) k1
    exact ih h3 h4 (fun m hm => h1 m (by simp [hm])) (fun b e he => h2 b e (by simp [he])) k2

/-- C24, resizable pool. For every sequence of runs and changes of the number of threads (at most
`W + 1`) and every interleaving, with spurious wake-ups at any time: no task has been called twice,
none outside its range and none with a thread number beyond the one announced to `init` for its run;
a run that has returned has called every task exactly once, and outside `Run` no worker is inside a
call; and neither `Run` nor `SetNumThreads` deadlocks, even if nobody wakes up spuriously. -/
theorem C24_resizable_pool_partial (W : Nat) (acts : List RPool.Action) (s : RPool.State) (hW : ∀ m, RPool.Action.setThreads m ∈ acts → m ≤ W + 1)
    (hr : ∀ b e, RPool.Action.run b e ∈ acts → b ≤ e ∧ e + W + 1 < 2 ^ 32) (hs : RPool.exec RPool.State.init acts = some s) :
    (∀ k t, cnt s.calls k t ≤ (s.hist[k]?.map fun h => inRange h.1 t).getD 0) ∧
    (∀ c ∈ s.calls, ∀ h, s.hist[c.1]? = some h → c.2.2 < h.2) ∧
    (∀ k h, k < s.returned → s.hist[k]? = some h → ∀ t, cnt s.calls k t = inRange h.1 t) ∧
    (s.main = .idle → s.returned = s.hist.length ∧ ∀ p ∈ s.workers, p = .check ∨ p = .waiting) ∧
    (s.main ≠ .idle → (s.main ≠ .waitingCv ∧ (RPool.step s .main).isSome) ∨ (∃ (i : Nat) (p : RPool.WPc), s.workers[i]? = some p ∧ p ≠ .waiting ∧ (RPool.step s (.worker i)).isSome) ∨ (RPool.step s .joined).isSome) := by
  obtain ⟨hb, hph⟩ := rpool_exec RPool.init_inv (Nat.zero_le W) hW hr hs
  have outside : ∀ k t, s.hist.length ≤ k → cnt s.calls k t = 0 := by
    intro k t hk
    unfold cnt
    rw [List.countP_eq_zero]
    intro c hc
    have := hb.run c hc
    simp; omega
  have closed : RPool.Complete s s.hist.length → ∀ k t, cnt s.calls k t ≤ (s.hist[k]?.map fun r => inRange r.1 t).getD 0 := by
    intro hc k t
    by_cases hk : k < s.hist.length
    · have := hc k hk _ (List.getElem?_eq_getElem hk) t
      rw [List.getElem?_eq_getElem hk, this]; exact Nat.le_refl _
    · rw [outside k t (by omega)]; exact Nat.zero_le _
  have fin : RPool.Complete s s.hist.length → ∀ k h, k < s.returned → s.hist[k]? = some h → ∀ t, cnt s.calls k t = inRange h.1 t := by
    intro hc k h _ hk
    exact hc k (List.getElem?_eq_some_iff.mp hk).1 h hk
  have canStep : ∀ (i : Nat) (p : RPool.WPc), s.workers[i]? = some p → p ≠ .exited → (RPool.step s (.worker i)).isSome := by
    intro i p hp hx
    simp only [RPool.step, hp]
    cases p with
    | exited => exact absurd rfl hx
    | check =>
      simp only [RPool.workerStep]
      split
      · rfl
      · split <;> rfl
    | waiting => rfl
    | dequeue => simp only [RPool.workerStep]; split <;> rfl
    | running t => rfl
    | leaving => rfl
  cases hph with
  | idle h1 h2 h3 h4 h5 =>
    refine ⟨closed h2.done, hb.thread, fin h2.done, fun _ => ⟨h5, ?_⟩, fun h => absurd h1 h⟩
    intro p hp
    have k1 := h4 p hp
    have k2 := h2.act p hp
    cases p <;> simp_all [RPool.isAct]
  | single t h1 h2 h3 h4 h5 =>
    refine ⟨closed h2.done, hb.thread, fin h2.done, (fun h => by rw [h1] at h; cases h), fun _ => Or.inl ⟨by rw [h1]; simp, by simp [RPool.step, RPool.mainStep, h1]⟩⟩
  | joining h1 h2 h3 h4 h5 =>
    refine ⟨closed h2.done, hb.thread, fin h2.done, (fun h => by rw [h1] at h; cases h), fun _ => Or.inr ?_⟩
    by_cases hall : ∀ p ∈ s.workers.drop s.desired, p = .exited
    · right
      simp only [RPool.step]
      rw [if_pos ⟨h1, hall⟩]; rfl
    · left
      have : ∃ p, p ∈ s.workers.drop s.desired ∧ p ≠ .exited := by
        refine Classical.byContradiction fun hc => hall fun p hp => Classical.byContradiction fun h => hc ⟨p, hp, h⟩
      obtain ⟨p, hp, hx⟩ := this
      obtain ⟨i, hi, rfl⟩ := List.mem_iff_getElem.mp hp
      rw [List.length_drop] at hi
      have hg : s.workers[s.desired + i]? = some (s.workers.drop s.desired)[i] := by
        rw [List.getElem_drop, List.getElem?_eq_getElem]
      exact ⟨_, _, hg, (h4 _ _ hg).2 (by omega), canStep _ _ hg hx⟩
  | running b e h =>
    have hni : s.main ≠ .idle := by
      intro hm
      have := h.mainp
      rw [hm] at this
      simp [RPool.mAct] at this
    refine ⟨?_, hb.thread, ?_, (fun hm => absurd hm hni), fun _ => ?_⟩
    · intro k t
      by_cases hk : k < s.func
      · have hk' : k < s.hist.length := by have := h.len; omega
        have := h.before k hk _ (List.getElem?_eq_getElem hk') t
        rw [List.getElem?_eq_getElem hk', this]; exact Nat.le_refl _
      · by_cases hk2 : k = s.func
        · subst hk2
          rw [h.cur, h.count t]
          simp only [Option.map_some, Option.getD_some, inRange]
          split
          · rw [if_pos (by omega)]; exact Nat.le_refl _
          · exact Nat.zero_le _
        · rw [outside k t (by have := h.len; omega)]; exact Nat.zero_le _
    · intro k x hk hx
      exact h.before k (by have := h.ret; omega) x hx
    · by_cases hcv : s.main = .waitingCv
      · right; left
        have hn := h.cv hcv
        have hnum := h.num
        rw [hcv] at hnum
        simp only [RPool.mAct] at hnum
        have : ∃ p, p ∈ s.workers ∧ RPool.isAct p ≠ 0 := by
          refine Classical.byContradiction fun hc => ?_
          have : (s.workers.map RPool.isAct).sum = 0 * s.workers.length := Pool.sum_map_const _ 0 (fun p hp => Classical.byContradiction fun h => hc ⟨p, hp, h⟩)
          omega
        obtain ⟨p, hp, ha⟩ := this
        obtain ⟨i, hi, rfl⟩ := List.mem_iff_getElem.mp hp
        refine ⟨i, _, List.getElem?_eq_getElem hi, ?_, canStep i _ (List.getElem?_eq_getElem hi) (h.live _ hp)⟩
        intro hw
        rw [hw] at ha
        exact ha rfl
      · left
        refine ⟨hcv, ?_⟩
        have hmp := h.mainp
        simp only [RPool.step]
        unfold RPool.mainStep
        cases hm : s.main with
        | idle => exact absurd hm hni
        | joining => rw [hm] at hmp; simp [RPool.mAct] at hmp
        | waitingCv => exact absurd hm hcv
        | single t => rfl
        | dequeue => simp only; split <;> rfl
        | running t => rfl
        | leaving => rfl
        | waitCheck => simp only; split <;> rfl

/-- Near the 32-bit limit the task counter wraps around and a task outside the range is called. -/
theorem C24_resizable_pool_wraps : ∃ acts s, RPool.exec RPool.State.init acts = some s ∧ s.hist.map (·.1) = [(4294967293, 4294967295)] ∧ (0, 0, 1) ∈ s.calls := by
  refine ⟨[.setThreads 2, .joined, .run 4294967293 4294967295, .worker 0, .main, .worker 0, .main, .main, .worker 0, .worker 0], _, rfl, by decide, by decide⟩

/-- Unlike the fixed-size pool the resizable one does not refuse a reversed range; one of them even
leads to a call. -/
theorem C24_resizable_pool_reversed : ∃ s, RPool.exec RPool.State.init [.run 4294967295 0] = some s ∧ s.calls = [(0, 4294967295, 0)] := ⟨_, rfl, by decide⟩

/-- Three threads, two runs with a smaller number of threads for the second. -/
example : ((RPool.exec RPool.State.init [.setThreads 3, .joined, .worker 1, .run 5 9, .worker 0, .worker 1, .main, .worker 1, .worker 0, .main, .main, .worker 0, .worker 0, .main, .main, .main, .main, .worker 1, .worker 1, .worker 0, .worker 1, .main,
    .setThreads 2, .worker 1, .joined, .run 0 1, .main]).map fun s => (s.main, s.calls, s.hist, s.returned)) =
    some (.idle, [(0, 5, 0), (0, 6, 2), (0, 7, 1), (0, 8, 0), (1, 0, 0)], [((5, 9), 3), ((0, 1), 1)], 2) := by rfl

end Jxl.Props
