import Verif.Model.ThreadPool
import Verif.Spec.Tasks
/-!
# Invariant of the fixed-size thread pool
-/
namespace Jxl.Pool

theorem sum_map_set {α : Type} (f : α → Nat) {l : List α} : ∀ {i : Nat} {p q : α}, l[i]? = some p → ((l.set i q).map f).sum + f p = (l.map f).sum + f q := by
  induction l with
  | nil => intro i p q h; simp at h
  | cons a l ih =>
    intro i p q h
    cases i with
    | zero => simp at h; subst h; simp; omega
    | succ i => simp at h; have := ih (q := q) h; simp only [List.set_cons_succ, List.map_cons, List.sum_cons]; omega

theorem sum_map_le {α : Type} (f : α → Nat) {l : List α} (h : ∀ p, f p ≤ 1) : (l.map f).sum ≤ l.length := by
  induction l with
  | nil => simp
  | cons a l ih => have := h a; simp; omega

theorem sum_map_full {α : Type} (f : α → Nat) {l : List α} (h : ∀ p, f p ≤ 1) (hs : (l.map f).sum = l.length) : ∀ p ∈ l, f p = 1 := by
  induction l with
  | nil => intro p hp; simp at hp
  | cons a l ih =>
    have h1 := h a
    have h2 := sum_map_le f (l := l) h
    simp at hs
    intro p hp
    rcases List.mem_cons.mp hp with rfl | hp
    · omega
    · exact ih (by omega) p hp

theorem sum_map_const {α : Type} (f : α → Nat) (c : Nat) {l : List α} (h : ∀ p ∈ l, f p = c) : (l.map f).sum = c * l.length := by
  induction l with
  | nil => simp
  | cons a l ih =>
    have h1 := h a (by simp)
    have h2 := ih (fun p hp => h p (by simp [hp]))
    simp only [List.map_cons, List.sum_cons, List.length_cons, Nat.mul_add]
    omega

/-! ### Counting -/

def isW : WPc → Nat
  | .waiting => 1
  | _ => 0

def notLeft : WPc → Nat
  | .leaving => 0
  | .waiting => 0
  | _ => 1

/-- The worker has reserved task `t` and not begun it. -/
def pend (t : Nat) : WPc → Nat
  | .running _ _ cur stop => if cur < t ∧ t < stop then 1 else 0
  | _ => 0

theorem cnt_append (calls : List (Nat × Nat × Nat)) (k' t' i k t : Nat) : cnt (calls ++ [(k', t', i)]) k t = cnt calls k t + (if k' = k ∧ t' = t then 1 else 0) := by
  unfold cnt
  rw [List.countP_append]
  simp [List.countP_cons]

/-- The largest number of tasks reserved at a time. -/
def chunk (n : Nat) (r : Nat × Nat) : Nat := max ((r.2 - r.1) / (n * 4)) 1

/-- The range is nonempty and far enough from the 32-bit limit. -/
def Fits (n : Nat) (r : Nat × Nat) : Prop := r.1 < r.2 ∧ r.2 + (n + 1) * chunk n r ≤ 4294967296

theorem mySize_le (n : Nat) (r : Nat × Nat) (v : Nat) : 1 ≤ mySize n r.1 r.2 v ∧ mySize n r.1 r.2 v ≤ chunk n r := by
  unfold mySize chunk
  have : ((r.2 - r.1) - min v (r.2 - r.1)) / (n * 4) ≤ (r.2 - r.1) / (n * 4) := Nat.div_le_div_right (by omega)
  omega

def AllW (s : State) : Prop := ∀ p ∈ s.workers, p = .waiting

def Complete (s : State) (m : Nat) : Prop := ∀ k, k < m → ∀ r, s.hist[k]? = some r → ∀ t, cnt s.calls k t = inRange r t

/-- What is known of one worker during a run of `r`. -/
def WOk (r : Nat × Nat) (reserved c : Nat) : WPc → Prop
  | .leaving => r.2 - r.1 ≤ reserved
  | .waiting => r.2 - r.1 ≤ reserved
  | .woken => True
  | .loading b e => (b, e) = r
  | .loaded b e size => (b, e) = r ∧ 1 ≤ size ∧ size ≤ c
  | .running b e cur stop => (b, e) = r ∧ r.1 ≤ cur ∧ cur < stop ∧ stop ≤ r.2

structure Base (s : State) : Prop where
  pos : 0 < s.workers.length
  thread : ∀ c ∈ s.calls, c.2.2 < s.workers.length
  run : ∀ c ∈ s.calls, c.1 < s.hist.length

/-- A run of `r` is going on. -/
structure Running (s : State) (r : Nat × Nat) : Prop where
  fits : Fits s.workers.length r
  len : s.hist.length = s.func + 1
  cur : s.hist[s.func]? = some r
  before : Complete s s.func
  ready : s.ready = (s.workers.map isW).sum
  ok : ∀ p ∈ s.workers, WOk r s.reserved (chunk s.workers.length r) p
  count : ∀ t, cnt s.calls s.func t + (s.workers.map (pend t)).sum = inRange (r.1, r.1 + min s.reserved (r.2 - r.1)) t
  bound : s.reserved + chunk s.workers.length r * (s.workers.map notLeft).sum + 1 ≤ (r.2 - r.1) + chunk s.workers.length r * (s.workers.length + 1)

inductive Phase (s : State) : Prop where
  | idle : s.main = .idle → s.cmd = none → s.ready = 0 → AllW s → Complete s s.hist.length → Phase s
  | starting (r : Nat × Nat) : s.main = .starting → s.cmd = some r → s.ready = 0 → AllW s → s.reserved = 0 → Fits s.workers.length r → s.hist.length = s.func + 1 →
      s.hist[s.func]? = some r → Complete s s.func → (∀ t, cnt s.calls s.func t = 0) → Phase s
  | created : s.main = .barrier → s.cmd = none → (∀ p ∈ s.workers, p = .leaving ∨ p = .waiting) → s.ready = (s.workers.map isW).sum → s.hist = [] → s.calls = [] → Phase s
  | running (r : Nat × Nat) : s.main = .barrier → s.cmd = some r → Running s r → Phase s

structure Inv (s : State) : Prop where
  base : Base s
  phase : Phase s

theorem init_inv (n : Nat) (hn : 0 < n) : Inv (State.init n) := by
  refine ⟨⟨by simpa [State.init] using hn, by simp [State.init], by simp [State.init]⟩, Phase.created rfl rfl ?_ ?_ rfl rfl⟩
  · intro p hp
    left
    exact (List.mem_replicate.mp hp).2
  · rw [sum_map_const isW 0 (by intro p hp; rw [(List.mem_replicate.mp hp).2]; rfl)]
    simp [State.init]

theorem isW_le (p : WPc) : isW p ≤ 1 := by cases p <;> simp [isW]
theorem notLeft_le (p : WPc) : notLeft p ≤ 1 := by cases p <;> simp [notLeft]

theorem notLeft_sum_le (l : List WPc) : (l.map notLeft).sum ≤ l.length := sum_map_le _ notLeft_le

theorem mem_set {α : Type} {l : List α} {i : Nat} {q p : α} (h : p ∈ l.set i q) : p ∈ l ∨ p = q := List.mem_or_eq_of_mem_set h

theorem cnt_fresh {s : State} (h : Base s) (t : Nat) : cnt s.calls s.hist.length t = 0 := by
  unfold cnt
  rw [List.countP_eq_zero]
  intro c hc
  have := h.run c hc
  simp; omega

/-- Adding a call of the current run does not change the earlier runs. -/
theorem complete_append {s : State} (h : Complete s s.func) {t i : Nat} {ws : List WPc} {rd rs : Nat} : Complete { s with workers := ws, ready := rd, reserved := rs, calls := s.calls ++ [(s.func, t, i)] } s.func := by
  intro k hk r hr t'
  have := h k hk r hr t'
  simp only
  rw [cnt_append, if_neg (by omega)]
  exact this

theorem running_worker {s s' : State} {r : Nat × Nat} {i v : Nat} {p : WPc} (hb : Base s) (hm : s.main = .barrier) (hc : s.cmd = some r) (h : Running s r)
    (hp : s.workers[i]? = some p) (hs : workerStep s i v p = some s') : Inv s' := by
  have hi : i < s.workers.length := (List.getElem?_eq_some_iff.mp hp).1
  have hok := h.ok p (List.mem_of_getElem? hp)
  have hfit := h.fits
  cases p with
  | waiting => simp [workerStep] at hs
  | leaving =>
    simp only [workerStep, Option.some.injEq] at hs
    subst hs
    refine ⟨⟨by simpa using hb.pos, by simpa using hb.thread, hb.run⟩, Phase.running r hm hc ⟨by simpa using h.fits, h.len, h.cur, h.before, ?_, ?_, ?_, ?_⟩⟩
    · have := sum_map_set isW (q := .waiting) hp
      have := h.ready
      simp only [isW] at *; omega
    · intro q hq
      simp only [List.length_set]
      rcases mem_set hq with hq | rfl
      · exact h.ok q hq
      · exact hok
    · intro t
      have := sum_map_set (pend t) (q := .waiting) hp
      have := h.count t
      simp only [pend] at *; omega
    · have := sum_map_set notLeft (q := .waiting) hp
      simp only [notLeft, Nat.add_zero] at this
      simp only [List.length_set, this]
      exact h.bound
  | woken =>
    simp only [workerStep, hc, Option.some.injEq] at hs
    subst hs
    refine ⟨⟨by simpa using hb.pos, by simpa using hb.thread, hb.run⟩, Phase.running r hm rfl ⟨by simpa using h.fits, h.len, h.cur, h.before, ?_, ?_, ?_, ?_⟩⟩
    · have := sum_map_set isW (q := .loading r.1 r.2) hp
      have := h.ready
      simp only [isW] at *; omega
    · intro q hq
      simp only [List.length_set]
      rcases mem_set hq with hq | rfl
      · exact h.ok q hq
      · rfl
    · intro t
      have := sum_map_set (pend t) (q := .loading r.1 r.2) hp
      have := h.count t
      simp only [pend] at *; omega
    · have := sum_map_set notLeft (q := .loading r.1 r.2) hp
      simp only [notLeft, Nat.add_right_cancel_iff] at this
      simp only [List.length_set, this]
      exact h.bound
  | loading b e =>
    simp only [workerStep, Option.some.injEq] at hs
    subst hs
    have hr : (b, e) = r := hok
    subst hr
    refine ⟨⟨by simpa using hb.pos, by simpa using hb.thread, hb.run⟩, Phase.running (b, e) hm hc ⟨by simpa using h.fits, h.len, h.cur, h.before, ?_, ?_, ?_, ?_⟩⟩
    · have := sum_map_set isW (q := .loaded b e (mySize s.workers.length b e v)) hp
      have := h.ready
      simp only [isW] at *; omega
    · intro q hq
      simp only [List.length_set]
      rcases mem_set hq with hq | rfl
      · exact h.ok q hq
      · exact ⟨rfl, mySize_le _ (b, e) _⟩
    · intro t
      have := sum_map_set (pend t) (q := .loaded b e (mySize s.workers.length b e v)) hp
      have := h.count t
      simp only [pend] at *; omega
    · have := sum_map_set notLeft (q := .loaded b e (mySize s.workers.length b e v)) hp
      simp only [notLeft, Nat.add_right_cancel_iff] at this
      simp only [List.length_set, this]
      exact h.bound
  | loaded b e size =>
    simp only [workerStep, Option.some.injEq] at hs
    obtain ⟨hr, hz1, hz2⟩ := hok
    subst hr
    have hbd := h.bound
    have hnl : 1 ≤ (s.workers.map notLeft).sum := by
      have := sum_map_set notLeft (q := .waiting) hp
      simp only [notLeft] at this; omega
    have hmul : chunk s.workers.length (b, e) ≤ chunk s.workers.length (b, e) * (s.workers.map notLeft).sum := Nat.le_mul_of_pos_right _ hnl
    have hf1 := hfit.1
    have hf2 := hfit.2
    rw [Nat.mul_comm] at hf2
    simp only at hf1 hf2 hbd
    have e1 : u32 (b + s.reserved) = b + s.reserved := Nat.mod_eq_of_lt (by omega)
    have e2 : u32 (b + s.reserved + size) = b + s.reserved + size := Nat.mod_eq_of_lt (by omega)
    have e3 : u32 (s.reserved + size) = s.reserved + size := Nat.mod_eq_of_lt (by omega)
    unfold reserve at hs
    simp only [e1, e2, e3] at hs
    have hchunkpos : 1 ≤ chunk s.workers.length (b, e) := by unfold chunk; omega
    by_cases hbig : e - b ≤ s.reserved
    · rw [if_pos (by omega)] at hs
      subst hs
      refine ⟨⟨by simpa using hb.pos, by simpa using hb.thread, hb.run⟩, Phase.running (b, e) hm hc ⟨by simpa using h.fits, h.len, h.cur, h.before, ?_, ?_, ?_, ?_⟩⟩
      · have := sum_map_set isW (q := .leaving) hp
        have := h.ready
        simp only [isW] at *; omega
      · intro q hq
        simp only [List.length_set]
        rcases mem_set hq with hq | rfl
        · have := h.ok q hq
          cases q <;> simp only [WOk] at * <;> first | omega | exact this
        · simp only [WOk]; omega
      · intro t
        have := sum_map_set (pend t) (q := .leaving) hp
        have := h.count t
        simp only [pend] at *
        rw [show min (s.reserved + size) (e - b) = min s.reserved (e - b) from by omega]
        omega
      · have := sum_map_set notLeft (q := .leaving) hp
        simp only [notLeft, Nat.add_zero] at this
        rw [← this, Nat.mul_add, Nat.mul_one] at hbd
        simp only [List.length_set]
        omega
    · rw [if_neg (by omega)] at hs
      subst hs
      unfold enter
      refine ⟨⟨by simpa using hb.pos, ?_, ?_⟩, Phase.running (b, e) hm hc ⟨by simpa using h.fits, h.len, h.cur, complete_append h.before, ?_, ?_, ?_, ?_⟩⟩
      · intro c hc'
        simp only [List.mem_append, List.mem_singleton] at hc'
        simp only [List.length_set]
        rcases hc' with hc' | rfl
        · exact hb.thread c hc'
        · exact hi
      · intro c hc'
        simp only [List.mem_append, List.mem_singleton] at hc'
        rcases hc' with hc' | rfl
        · exact hb.run c hc'
        · have := h.len; simp only; omega
      · have := sum_map_set isW (q := .running b e (b + s.reserved) (min (b + s.reserved + size) e)) hp
        have := h.ready
        simp only [isW] at *; omega
      · intro q hq
        simp only [List.length_set]
        rcases mem_set hq with hq | rfl
        · have := h.ok q hq
          cases q <;> simp only [WOk] at * <;> first | omega | exact this
        · simp only [WOk]; exact ⟨trivial, by omega, by omega, by omega⟩
      · intro t
        have h1 := sum_map_set (pend t) (q := .running b e (b + s.reserved) (min (b + s.reserved + size) e)) hp
        have h2 := h.count t
        simp only [pend, inRange, Nat.add_zero, cnt_append, true_and] at *
        rw [h1]
        by_cases c1 : b + s.reserved = t
        · rw [if_pos c1, if_neg (by omega)]
          rw [if_neg (by omega)] at h2
          rw [if_pos (by omega)]
          omega
        · rw [if_neg c1]
          by_cases c2 : b + s.reserved < t ∧ t < min (b + s.reserved + size) e
          · rw [if_pos c2]
            rw [if_neg (by omega)] at h2
            rw [if_pos (by omega)]
            omega
          · rw [if_neg c2]
            by_cases c3 : b ≤ t ∧ t < b + min s.reserved (e - b)
            · rw [if_pos c3] at h2
              rw [if_pos (by omega)]; omega
            · rw [if_neg c3] at h2
              rw [if_neg (by omega)]; omega
      · have := sum_map_set notLeft (q := .running b e (b + s.reserved) (min (b + s.reserved + size) e)) hp
        simp only [notLeft, Nat.add_right_cancel_iff] at this
        simp only [List.length_set, this]
        have h3 := Nat.mul_le_mul_left (chunk s.workers.length (b, e)) (notLeft_sum_le s.workers)
        rw [Nat.mul_add, Nat.mul_one]
        omega
  | running b e cur stop =>
    obtain ⟨hr, h1, h2, h3⟩ := hok
    subst hr
    simp only [workerStep] at hs
    split at hs
    · rename_i hlt
      simp only [Option.some.injEq] at hs
      subst hs
      unfold enter
      refine ⟨⟨by simpa using hb.pos, ?_, ?_⟩, Phase.running (b, e) hm hc ⟨by simpa using h.fits, h.len, h.cur, complete_append h.before, ?_, ?_, ?_, ?_⟩⟩
      · intro c hc'
        simp only [List.mem_append, List.mem_singleton] at hc'
        simp only [List.length_set]
        rcases hc' with hc' | rfl
        · exact hb.thread c hc'
        · exact hi
      · intro c hc'
        simp only [List.mem_append, List.mem_singleton] at hc'
        rcases hc' with hc' | rfl
        · exact hb.run c hc'
        · have := h.len; simp only; omega
      · have := sum_map_set isW (q := .running b e (cur + 1) stop) hp
        have := h.ready
        simp only [isW] at *; omega
      · intro q hq
        simp only [List.length_set]
        rcases mem_set hq with hq | rfl
        · exact h.ok q hq
        · simp only [WOk]; exact ⟨trivial, by omega, by omega, by omega⟩
      · intro t
        have k1 := sum_map_set (pend t) (q := .running b e (cur + 1) stop) hp
        have k2 := h.count t
        simp only [pend, cnt_append, true_and] at *
        rw [← k2]
        by_cases c1 : cur + 1 = t
        · rw [if_pos c1]
          rw [if_pos (by omega), if_neg (by omega)] at k1
          omega
        · rw [if_neg c1]
          by_cases c2 : cur < t ∧ t < stop
          · rw [if_pos c2, if_pos (by omega)] at k1; omega
          · rw [if_neg c2, if_neg (by omega)] at k1; omega
      · have := sum_map_set notLeft (q := .running b e (cur + 1) stop) hp
        simp only [notLeft, Nat.add_right_cancel_iff] at this
        simp only [List.length_set, this]
        exact h.bound
    · rename_i hlt
      simp only [Option.some.injEq] at hs
      subst hs
      refine ⟨⟨by simpa using hb.pos, by simpa using hb.thread, hb.run⟩, Phase.running (b, e) hm hc ⟨by simpa using h.fits, h.len, h.cur, h.before, ?_, ?_, ?_, ?_⟩⟩
      · have := sum_map_set isW (q := .loading b e) hp
        have := h.ready
        simp only [isW] at *; omega
      · intro q hq
        simp only [List.length_set]
        rcases mem_set hq with hq | rfl
        · exact h.ok q hq
        · rfl
      · intro t
        have k1 := sum_map_set (pend t) (q := .loading b e) hp
        have k2 := h.count t
        simp only [pend] at *
        rw [if_neg (by omega)] at k1
        omega
      · have := sum_map_set notLeft (q := .loading b e) hp
        simp only [notLeft, Nat.add_right_cancel_iff] at this
        simp only [List.length_set, this]
        exact h.bound

theorem all_waiting {s : State} (h : s.ready = (s.workers.map isW).sum) (hr : s.ready = s.workers.length) : AllW s := by
  intro p hp
  have := sum_map_full isW isW_le (by omega) p hp
  cases p <;> simp [isW] at this ⊢

theorem step_inv {s s' : State} {a : Action} (h : Inv s) (ha : ∀ b e, a = .call b e → Fits s.workers.length (b, e)) (hs : step false s a = some s') : Inv s' := by
  obtain ⟨hb, hph⟩ := h
  cases a with
  | call b e =>
    have hf := ha b e rfl
    simp only [step] at hs
    split at hs
    · cases hs
    split at hs
    · simp only [Option.some.injEq] at hs
      subst hs
      refine ⟨⟨hb.pos, hb.thread, hb.run⟩, ?_⟩
      cases hph with
      | idle h1 h2 h3 h4 h5 => exact Phase.idle h1 h2 h3 h4 h5
      | starting r h1 h2 h3 h4 h5 h6 h7 h8 h9 h10 => exact Phase.starting r h1 h2 h3 h4 h5 h6 h7 h8 h9 h10
      | created h1 h2 h3 h4 h5 h6 => exact Phase.created h1 h2 h3 h4 h5 h6
      | running r h1 h2 h3 => exact Phase.running r h1 h2 ⟨h3.fits, h3.len, h3.cur, h3.before, h3.ready, h3.ok, h3.count, h3.bound⟩
    · split at hs
      · rename_i hmain
        simp only [Option.some.injEq] at hs
        subst hs
        cases hph with
        | idle h1 h2 h3 h4 h5 =>
          refine ⟨⟨hb.pos, hb.thread, ?_⟩, Phase.starting (b, e) rfl rfl h3 h4 rfl hf (by simp) (by simp) ?_ ?_⟩
          · intro c hc
            have := hb.run c hc
            simp; omega
          · intro k hk r hr t
            simp only at hk hr
            rw [List.getElem?_append_left hk] at hr
            exact h5 k hk r hr t
          · intro t
            exact cnt_fresh hb t
        | starting r h1 => rw [h1] at hmain; cases hmain
        | created h1 => rw [h1] at hmain; cases hmain
        | running r h1 => rw [h1] at hmain; cases hmain
      · cases hs
  | notify =>
    simp only [step] at hs
    split at hs
    · rename_i hmain
      simp only [Option.some.injEq] at hs
      subst hs
      cases hph with
      | idle h1 => rw [h1] at hmain; cases hmain
      | created h1 => rw [h1] at hmain; cases hmain
      | running r h1 => rw [h1] at hmain; cases hmain
      | starting r h1 h2 h3 h4 h5 h6 h7 h8 h9 h10 =>
        have hwk : ∀ p ∈ s.workers.map wake, p = .woken := by
          intro p hp
          rw [List.mem_map] at hp
          obtain ⟨q, hq, rfl⟩ := hp
          rw [h4 q hq]; rfl
        have hlen : (s.workers.map wake).length = s.workers.length := by simp
        refine ⟨⟨by simpa using hb.pos, by simpa using hb.thread, hb.run⟩, Phase.running r rfl h2 ⟨by simpa using h6, h7, h8, h9, ?_, ?_, ?_, ?_⟩⟩
        · rw [sum_map_const isW 0 (by intro p hp; rw [hwk p hp]; rfl)]
          simp only; omega
        · intro p hp
          rw [hwk p hp]; trivial
        · intro t
          simp only
          rw [sum_map_const (pend t) 0 (by intro p hp; rw [hwk p hp]; rfl), h10 t, h5]
          simp only [inRange]
          rw [if_neg (by omega)]; omega
        · simp only
          rw [sum_map_const notLeft 1 (by intro p hp; rw [hwk p hp]; rfl), h5, hlen]
          have := h6.1
          rw [Nat.one_mul, Nat.mul_add]
          have : 1 ≤ chunk s.workers.length r := by unfold chunk; omega
          omega
    · cases hs
  | pass =>
    simp only [step] at hs
    split at hs
    · rename_i hmain
      cases hph with
      | idle h1 => rw [h1] at hmain; cases hmain.1
      | starting r h1 => rw [h1] at hmain; cases hmain.1
      | created h1 h2 h3 h4 h5 h6 =>
        rw [if_pos h2] at hs
        simp only [Option.some.injEq] at hs
        subst hs
        have hall : AllW s := all_waiting h4 hmain.2
        refine ⟨⟨hb.pos, hb.thread, hb.run⟩, Phase.idle rfl h2 rfl hall ?_⟩
        intro k hk
        simp [h5] at hk
      | running r h1 h2 h3 =>
        rw [if_neg (by rw [h2]; simp)] at hs
        simp only [Option.some.injEq] at hs
        subst hs
        have hall : AllW s := all_waiting h3.ready hmain.2
        refine ⟨⟨hb.pos, hb.thread, hb.run⟩, Phase.idle rfl rfl rfl hall ?_⟩
        intro k hk r' hr' t
        simp only at hk hr'
        rw [h3.len] at hk
        by_cases hkf : k < s.func
        · exact h3.before k hkf r' hr' t
        · have hkf : k = s.func := by omega
          subst hkf
          rw [h3.cur] at hr'
          cases hr'
          have hc := h3.count t
          rw [sum_map_const (pend t) 0 (by intro p hp; rw [hall p hp]; rfl)] at hc
          have hres : r.2 - r.1 ≤ s.reserved := by
            have hp : s.workers[0]'hb.pos ∈ s.workers := List.getElem_mem _
            have := h3.ok _ hp
            rw [hall _ hp] at this
            exact this
          have := h3.fits.1
          rw [show r.1 + min s.reserved (r.2 - r.1) = r.2 from by omega] at hc
          simpa using hc
    · cases hs
  | worker i v =>
    simp only [step] at hs
    split at hs
    · cases hs
    rename_i p hp
    have hmem := List.mem_of_getElem? hp
    cases hph with
    | idle h1 h2 h3 h4 h5 => rw [h4 p hmem] at hs; simp [workerStep] at hs
    | starting r h1 h2 h3 h4 => rw [h4 p hmem] at hs; simp [workerStep] at hs
    | created h1 h2 h3 h4 h5 h6 =>
      rcases h3 p hmem with rfl | rfl
      · simp only [workerStep, Option.some.injEq] at hs
        subst hs
        refine ⟨⟨by simpa using hb.pos, by simpa using hb.thread, hb.run⟩, Phase.created h1 h2 ?_ ?_ h5 h6⟩
        · intro q hq
          rcases mem_set hq with hq | rfl
          · exact h3 q hq
          · exact Or.inr rfl
        · have := sum_map_set isW (q := .waiting) hp
          simp only [isW] at *; omega
      · simp [workerStep] at hs
    | running r h1 h2 h3 => exact running_worker hb h1 h2 h3 hp hs
  | spurious i => simp [step] at hs

theorem step_workers {spur : Bool} {s s' : State} {a : Action} (hs : step spur s a = some s') : s'.workers.length = s.workers.length := by
  cases a with
  | call b e =>
    simp only [step] at hs
    repeat' split at hs
    all_goals first | (cases hs; done) | (simp only [Option.some.injEq] at hs; subst hs; rfl)
  | notify =>
    simp only [step] at hs
    split at hs
    · simp only [Option.some.injEq] at hs; subst hs; simp
    · cases hs
  | pass =>
    simp only [step] at hs
    repeat' split at hs
    all_goals first | (cases hs; done) | (simp only [Option.some.injEq] at hs; subst hs; rfl)
  | spurious i =>
    simp only [step] at hs
    split at hs
    · simp only [Option.some.injEq] at hs; subst hs; simp
    · cases hs
  | worker i v =>
    simp only [step] at hs
    split at hs
    · cases hs
    rename_i p hp
    cases p with
    | leaving => simp only [workerStep, Option.some.injEq] at hs; subst hs; simp
    | waiting => simp [workerStep] at hs
    | woken =>
      simp only [workerStep] at hs
      split at hs <;> (simp only [Option.some.injEq] at hs; subst hs; simp)
    | loading b e => simp only [workerStep, Option.some.injEq] at hs; subst hs; simp
    | loaded b e size =>
      simp only [workerStep, Option.some.injEq] at hs; subst hs
      unfold reserve enter
      simp only
      split <;> simp
    | running b e cur stop =>
      simp only [workerStep] at hs
      split at hs <;> (simp only [Option.some.injEq] at hs; subst hs; simp [enter])

theorem exec_inv {acts : List Action} : ∀ {s s' : State}, Inv s → (∀ b e, Action.call b e ∈ acts → Fits s.workers.length (b, e)) → exec false s acts = some s' → Inv s' ∧ s'.workers.length = s.workers.length := by
  induction acts with
  | nil => intro s s' h _ hs; simp only [exec, Option.some.injEq] at hs; subst hs; exact ⟨h, rfl⟩
  | cons a acts ih =>
    intro s s' h hf hs
    simp only [exec, Option.bind_eq_some_iff] at hs
    obtain ⟨s1, h1, h2⟩ := hs
    have hl := step_workers h1
    have h3 := step_inv h (by intro b e he; exact hf b e (by simp [he])) h1
    obtain ⟨h4, h5⟩ := ih h3 (by intro b e he; rw [hl]; exact hf b e (by simp [he])) h2
    exact ⟨h4, by omega⟩

theorem sequential_eq (e : Nat) : ∀ (fuel b : Nat), e - b < fuel → sequential e fuel b = List.range' b (e - b) := by
  intro fuel
  induction fuel with
  | zero => intro b h; omega
  | succ fuel ih =>
    intro b h
    rw [sequential]
    split
    · rw [ih (b + 1) (by omega), show e - b = (e - (b + 1)) + 1 from by omega, List.range'_succ]
    · rw [show e - b = 0 from by omega]; rfl

end Jxl.Pool
