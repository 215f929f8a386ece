import Verif.Lemmas.MemoryManager
/-!
# C38: memory manager contract
-/
namespace Jxl.Props
open Jxl.MemMgr

/-- Whatever happens to memory objects and byte buffers (construction, moves including self-moves, swaps, resizes, failed allocations,
destruction, in any order): nothing is ever freed that is not allocated from the same manager at that moment; every allocation is freed at
most once, and is not freed if and only if some living object is responsible for it, exactly one; and a buffer with content owns the
memory its content lies in. -/
theorem C38_ownership (ops : List Op) :
    ∃ s, run {} ops = some s ∧
      (∀ m p, s.w.log.count (.alloc m p) = s.w.log.count (.free m p) + (if (m, p) ∈ s.w.live then 1 else 0)) ∧
      (∀ m p, (m, p) ∈ s.w.live ↔ ∃ v x, s.vars v = some x ∧ x.am.mgr = some m ∧ x.am.allocation = some p) ∧
      (∀ u v x y m p, s.vars u = some x → s.vars v = some y → x.am.mgr = some m → x.am.allocation = some p → y.am.mgr = some m →
        y.am.allocation = some p → u = v) ∧
      (∀ v b, s.vars v = some (.buf b) → b.size > 0 →
        ∃ m p, b.mm = some m ∧ b.data.mgr = some m ∧ b.data.address = some p ∧ (m, p) ∈ s.w.live) := by
  obtain ⟨s, h1, h⟩ := run_ok ops {} inv_init
  have hown : ∀ v x m p, s.vars v = some x → x.am.mgr = some m → x.am.allocation = some p → owner s v = some (m, p) := by
    intro v x m p hx hm hp
    simp [owner_eq hx, own, hm, hp]
  refine ⟨s, h1, ?_, ?_, ?_, ?_⟩
  · intro m p
    rw [h.w.log m p]
    congr 1
    split
    · next hm => exact h.w.nd.count.trans (if_pos hm)
    · next hm => exact List.count_eq_zero.2 hm
  · intro m p
    constructor
    · intro hm
      obtain ⟨v, hv⟩ := h.o.cover _ hm
      unfold owner at hv
      rw [Option.bind_eq_some_iff] at hv
      obtain ⟨x, hx, ho⟩ := hv
      obtain ⟨a, b⟩ := own_some ho
      exact ⟨v, x, hx, a, b⟩
    · rintro ⟨v, x, hx, hm, hp⟩
      exact h.o.owned v _ (hown v x m p hx hm hp)
  · intro u v x y m p hx hy a b c d
    exact h.o.inj u v _ (hown u x m p hx a b) (hown v y m p hy c d)
  · intro v b hb hs
    obtain ⟨k1, k2, k3, k4⟩ := h.ok v _ hb
    cases hm : b.data.mgr with
    | none => exact absurd hm (k3 (by omega))
    | some m =>
      obtain ⟨p, p1, p2⟩ := k1 m hm
      exact ⟨m, p, k4 m hm, rfl, p2, h.o.owned v _ (hown v _ m p hb hm p1)⟩

/-- Once every object is gone, everything taken has been given back. -/
theorem C38_no_leak (ops : List Op) (s : State) (h : run {} ops = some s) (hd : ∀ v, s.vars v = none) :
    s.w.live = [] ∧ ∀ m p, s.w.log.count (.alloc m p) = s.w.log.count (.free m p) := by
  obtain ⟨s', h1, h2, h3, _⟩ := C38_ownership ops
  rw [h] at h1
  cases h1
  have hl : s.w.live = [] := by
    rw [List.eq_nil_iff_forall_not_mem]
    rintro ⟨m, p⟩ hm
    obtain ⟨v, x, hx, _⟩ := (h3 m p).1 hm
    rw [hd v] at hx
    cases hx
  refine ⟨hl, fun m p => ?_⟩
  rw [h2 m p, hl]
  simp

/-- Buffers 0 and 1 on managers 7 and 8: growth, move, self-move, swap, reuse of a moved-from buffer and of a freed address, a refused
allocation, and destruction. -/
def memOps : List Op :=
  [.bufNew 0 (some 7), .bufResize 0 100 (some 1000), .bufResize 0 500 (some 2000), .bufNew 1 (some 8), .bufResize 1 10 (some 3000),
   .bufAssign 1 0, .bufAssign 1 1, .bufResize 0 20 (some 1000), .bufSwap 0 1, .bufResize 1 90000 none, .bufMove 2 1, .rawCreate 3 (some 7) 64 (some 3000),
   .rawNew 4, .rawAssign 4 3, .rawAssign 3 4, .destroy 0, .destroy 1, .destroy 2, .destroy 4, .destroy 3]

example : ((run {} memOps).map fun s => (s.w.live, s.w.log)) = some ([], [.alloc 7 1000, .alloc 7 2000, .free 7 1000, .alloc 8 3000, .free 8 3000,
    .alloc 7 1000, .alloc 7 3000, .free 7 2000, .free 7 1000, .free 7 3000]) := by decide +kernel

/-- A manager is taken exactly if it defines both functions or neither; then both functions used come from the same place. -/
theorem C38_manager_accepted (m : Option Funcs) :
    (init m = none ↔ ∃ f, m = some f ∧ (f.alloc = none ↔ f.free ≠ none)) ∧
      ∀ a r, init m = some (a, r) →
        (a = defaultFunc ∧ r = defaultFunc ∧ ∀ f, m = some f → f.alloc = none ∧ f.free = none) ∨ m = some ⟨some a, some r⟩ := by
  constructor
  · cases m with
    | none => simp [init, given]
    | some f =>
      obtain ⟨a, b⟩ := f
      cases a <;> cases b <;> simp [init, given]
  · intro a r h
    cases m with
    | none => simp [init, given] at h; left; simp [h.1.symm, h.2.symm]
    | some f =>
      obtain ⟨a', b'⟩ := f
      cases a' <;> cases b' <;> simp [init, given] at h
      · left; simp [h.1.symm, h.2.symm]
      · right; simp [h.1, h.2]

example : init (some ⟨some 5, none⟩) = none ∧ init none = some (0, 0) ∧ init (some ⟨some 5, some 6⟩) = some (5, 6) := by decide

end Jxl.Props
