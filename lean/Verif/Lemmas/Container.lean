import Verif.Model.DecInput
import Verif.Spec.Container
/-! Facts about the whole-file reading of the container format. -/
namespace Jxl.Container
open DecInput (loadBE parseHdr checkHdr Hdr)

theorem loadBE_aux (l : List UInt8) : ∀ a : Nat,
    l.foldl (fun a b => 256 * a + b.toNat) a = a * 256 ^ l.length + be l := by
  induction l with
  | nil => intro a; simp [be]
  | cons b t ih =>
    intro a
    rw [List.foldl_cons, ih]
    simp only [be, List.length_cons, Nat.pow_succ]
    grind

theorem loadBE_eq (l : List UInt8) : loadBE l = be l := by
  rw [loadBE, loadBE_aux]; simp

/-- Only the first sixteen bytes matter for a header. -/
theorem boxHeader_append (r t : List UInt8) (x) (h : boxHeader r = some x) :
    boxHeader (r ++ t) = some x := by
  unfold boxHeader at h ⊢
  by_cases h8 : r.length < 8
  · rw [if_pos h8] at h; cases h
  rw [if_neg h8] at h
  have e4 : (r ++ t).take 4 = r.take 4 := by
    rw [List.take_append_of_le_length (by omega)]
  have e44 : ((r ++ t).drop 4).take 4 = (r.drop 4).take 4 := by
    rw [List.drop_append_of_le_length (by omega),
      List.take_append_of_le_length (by rw [List.length_drop]; omega)]
  rw [if_neg (by rw [List.length_append]; omega), e4, e44]
  by_cases h1 : be (r.take 4) = 1
  · rw [if_pos h1] at h ⊢
    by_cases h16 : r.length < 16
    · rw [if_pos h16] at h; cases h
    · rw [if_neg h16] at h
      rw [if_neg (by rw [List.length_append]; omega)]
      have e88 : ((r ++ t).drop 8).take 8 = (r.drop 8).take 8 := by
        rw [List.drop_append_of_le_length (by omega),
          List.take_append_of_le_length (by rw [List.length_drop]; omega)]
      rw [e88]; exact h
  · rw [if_neg h1] at h ⊢; exact h

theorem boxHeader_len (r : List UInt8) (ty h sz) (e : boxHeader r = some (ty, h, sz)) :
    8 ≤ h ∧ h ≤ r.length := by
  unfold boxHeader at e
  grind

theorem parseHdr_eq (r : List UInt8) (p : Nat) :
    parseHdr r p = match boxHeader r with
      | none => .need
      | some (ty, h, sz) => if 0 < sz ∧ sz < h ∨ 2 ^ 64 ≤ p + sz then .bad else .ok sz h ty := by
  unfold parseHdr boxHeader checkHdr
  simp only [loadBE_eq]
  by_cases h8 : r.length < 8
  · simp [h8]
  · simp only [h8, if_false]
    by_cases h1 : be (r.take 4) = 1
    · simp only [h1, if_true]
      by_cases h16 : r.length < 16
      · simp [h16]
      · simp only [h16, if_false]
        grind
    · simp only [h1, if_false]
      grind

/-! ### Fuel -/

theorem codeBody_congr {len r a k k'} (h : ∀ a, k a = k' a) :
    codeBody len r a k = codeBody len r a k' := by
  have : k = k' := funext h
  rw [this]

theorem walk_fuel : ∀ (f g : Nat) (at' n : Nat) (a : Asm) (r : List UInt8),
    r.length < f → r.length < g → walk f at' n a r = walk g at' n a r := by
  intro f
  induction f with
  | zero => intro g at' n a r h; omega
  | succ f ih =>
    intro g at' n a r hf hg
    cases g with
    | zero => omega
    | succ g =>
      rw [walk, walk]
      cases e : boxHeader r with
      | none => rfl
      | some x =>
        obtain ⟨ty, h, sz⟩ := x
        have hl := boxHeader_len r ty h sz e
        dsimp only
        by_cases c1 : 0 < sz ∧ sz < h ∨ 2 ^ 64 ≤ at' + sz
        · rw [if_pos c1, if_pos c1]
        · rw [if_neg c1, if_neg c1]
          have hk : (fun a' => if sz = 0 then (a', false) else walk f (at' + sz) (n + 1) a' (r.drop sz))
              = (fun a' => if sz = 0 then (a', false) else walk g (at' + sz) (n + 1) a' (r.drop sz)) := by
            funext a'
            by_cases h0 : sz = 0
            · rw [if_pos h0, if_pos h0]
            · rw [if_neg h0, if_neg h0]
              apply ih
              · rw [List.length_drop]; omega
              · rw [List.length_drop]; omega
          rw [hk]

/-! ### The output only grows -/

theorem drain_out : ∀ (f : Nat) (a : Asm) (o : List UInt8), o <+: a.out → o <+: (drain f a).out
  | 0, a, o, h => h
  | f + 1, a, o, ho => by
    rw [drain]
    cases h : a.early.find? (fun p => p.idx == a.next) with
    | none => exact ho
    | some p =>
      dsimp only
      exact drain_out f _ _ (ho.trans (List.prefix_append _ _))

def Ext (k : Asm → Out) : Prop := ∀ (o : List UInt8) (a : Asm), o <+: a.out → o <+: (k a).1.out

theorem codeBody_out {len r a k} (hk : Ext k) (o : List UInt8) (ho : o <+: a.out) :
    o <+: (codeBody len r a k).1.out := by
  unfold codeBody
  cases len with
  | none => exact ho.trans (List.prefix_append _ _)
  | some n =>
    dsimp only
    by_cases h : n ≤ r.length
    · rw [if_pos h]
      exact hk _ _ (drain_out _ _ _ (ho.trans (List.prefix_append _ _)))
    · rw [if_neg h]; exact ho.trans (List.prefix_append _ _)

theorem earlyBody_out {len r p a k} (hk : Ext k) (o : List UInt8) (ho : o <+: a.out) :
    o <+: (earlyBody len r p a k).1.out := by
  unfold earlyBody
  cases len with
  | none => exact ho
  | some n =>
    dsimp only
    by_cases h : n ≤ r.length
    · rw [if_pos h]; exact hk _ _ ho
    · rw [if_neg h]; exact ho

theorem partialBody_out {len r a k} (hk : Ext k) (o : List UInt8) (ho : o <+: a.out) :
    o <+: (partialBody len r a k).1.out := by
  unfold partialBody
  dsimp only
  repeat' split
  all_goals first
    | exact ho
    | exact codeBody_out hk _ ho
    | exact earlyBody_out hk _ ho

theorem ftypBody_out {len r a k} (hk : Ext k) (o : List UInt8) (ho : o <+: a.out) :
    o <+: (ftypBody len r a k).1.out := by
  unfold ftypBody
  repeat' split
  all_goals first
    | exact ho
    | exact hk _ _ ho

theorem boxBody_out {ty len r a k} (hk : Ext k) (o : List UInt8) (ho : o <+: a.out) :
    o <+: (boxBody ty len r a k).1.out := by
  unfold boxBody
  repeat' split
  all_goals first
    | exact ho
    | exact ftypBody_out hk _ ho
    | exact partialBody_out hk _ ho
    | exact codeBody_out hk _ ho
    | exact hk _ _ ho

theorem walk_out : ∀ (f at' n : Nat) (r : List UInt8), Ext (fun a => walk f at' n a r)
  | 0, at', n, r => fun o a h => h
  | f + 1, at', n, r => by
    intro o a ho
    dsimp only
    rw [walk]
    cases e : boxHeader r with
    | none => exact ho
    | some x =>
      obtain ⟨ty, h, sz⟩ := x
      dsimp only
      have hk : Ext (fun a' => if sz = 0 then (a', false) else
          walk f (at' + sz) (n + 1) a' (r.drop sz)) := by
        intro o a h
        dsimp only
        by_cases h0 : sz = 0
        · rw [if_pos h0]; exact h
        · rw [if_neg h0]; exact walk_out f _ _ _ _ _ h
      by_cases c1 : 0 < sz ∧ sz < h ∨ 2 ^ 64 ≤ at' + sz
      · rw [if_pos c1]; exact ho
      rw [if_neg c1]
      by_cases c2 : ty = chars "brob" ∧ r.length < h + 4
      · rw [if_pos c2]; exact ho
      rw [if_neg c2]
      by_cases c3 : (n = 1 ∧ ty ≠ chars "ftyp") ∨ (n ≠ 1 ∧ ty = chars "ftyp")
      · rw [if_pos c3]; exact ho
      rw [if_neg c3]
      exact boxBody_out hk _ ho

/-! ### Consuming part of a body -/

theorem codeBody_some {n r a k} (m : Nat) (hm : m ≤ n) (hr : m ≤ r.length) :
    codeBody (some n) r a k
      = codeBody (some (n - m)) (r.drop m) { a with out := a.out ++ r.take m } k := by
  unfold codeBody
  dsimp only
  by_cases h : n ≤ r.length
  · rw [if_pos h, if_pos (by rw [List.length_drop]; omega)]
    congr 2
    simp only [List.append_assoc]
    congr 2
    have : n = m + (n - m) := by omega
    conv => lhs; rw [this, List.take_add]
  · rw [if_neg h, if_neg (by rw [List.length_drop]; omega)]
    simp [List.append_assoc, List.take_append_drop]

theorem codeBody_none {r a k} (m : Nat) :
    codeBody none r a k = codeBody none (r.drop m) { a with out := a.out ++ r.take m } k := by
  unfold codeBody
  simp [List.append_assoc, List.take_append_drop]

theorem earlyBody_some {n r p a k} (m : Nat) (hm : m ≤ n) (hr : m ≤ r.length) :
    earlyBody (some n) r p a k
      = earlyBody (some (n - m)) (r.drop m) (fun l => p (r.take m ++ l)) a k := by
  unfold earlyBody
  dsimp only
  by_cases h : n ≤ r.length
  · rw [if_pos h, if_pos (by rw [List.length_drop]; omega)]
    have : n = m + (n - m) := by omega
    conv => lhs; rw [this, List.take_add]
  · rw [if_neg h, if_neg (by rw [List.length_drop]; omega)]

theorem settle_none {a : Asm} (h : a.early.find? (fun p => p.idx == a.next) = none) :
    settle a = a := by
  unfold settle
  cases hl : a.early.length with
  | zero => rfl
  | succ n => rw [drain, h]

theorem settle_some {a : Asm} {p} (h : a.early.find? (fun p => p.idx == a.next) = some p) :
    settle a = settle { a with
        next := a.next + 1, early := a.early.eraseP (fun p => p.idx == a.next)
        last := a.last || p.isLast, out := a.out ++ p.payload } := by
  unfold settle
  have hm := List.mem_of_find?_eq_some h
  have hp := List.find?_some h
  have hlen : (a.early.eraseP (fun p => p.idx == a.next)).length = a.early.length - 1 :=
    List.length_eraseP_of_mem hm hp
  have hpos : 0 < a.early.length := List.length_pos_of_mem hm
  have e : a.early.length = (a.early.length - 1) + 1 := by omega
  conv => lhs; rw [e, drain, h]
  dsimp only
  rw [hlen]

/-! ### The file format version is settled by the second box -/

theorem drain_version : ∀ (f : Nat) (a : Asm), (drain f a).version = a.version
  | 0, a => rfl
  | f + 1, a => by
    rw [drain]
    cases h : a.early.find? (fun p => p.idx == a.next) with
    | none => rfl
    | some p => dsimp only; rw [drain_version f]

def VExt (k : Asm → Out) : Prop := ∀ a : Asm, (k a).1.version = a.version

theorem codeBody_version {len r a k} (hk : VExt k) : (codeBody len r a k).1.version = a.version := by
  unfold codeBody
  cases len with
  | none => rfl
  | some n =>
    dsimp only
    by_cases h : n ≤ r.length
    · rw [if_pos h, hk, settle, drain_version]
    · rw [if_neg h]

theorem earlyBody_version {len r p a k} (hk : VExt k) :
    (earlyBody len r p a k).1.version = a.version := by
  unfold earlyBody
  cases len with
  | none => rfl
  | some n =>
    dsimp only
    by_cases h : n ≤ r.length
    · rw [if_pos h, hk]
    · rw [if_neg h]

theorem partialBody_version {len r a k} (hk : VExt k) :
    (partialBody len r a k).1.version = a.version := by
  unfold partialBody
  dsimp only
  repeat' split
  all_goals first
    | rfl
    | (rw [codeBody_version hk])
    | (rw [earlyBody_version hk])

theorem boxBody_version {ty len r a k} (hk : VExt k) (ht : ty ≠ chars "ftyp") :
    (boxBody ty len r a k).1.version = a.version := by
  unfold boxBody
  rw [if_neg ht]
  repeat' split
  all_goals first
    | rfl
    | exact partialBody_version hk
    | (rw [codeBody_version hk])
    | exact hk _

theorem walk_version : ∀ (f at' n : Nat) (r : List UInt8), 2 ≤ n →
    VExt (fun a => walk f at' n a r)
  | 0, at', n, r, _ => fun a => rfl
  | f + 1, at', n, r, hn => by
    intro a
    dsimp only
    rw [walk]
    cases e : boxHeader r with
    | none => rfl
    | some x =>
      obtain ⟨ty, h, sz⟩ := x
      dsimp only
      have hk : VExt (fun a' => if sz = 0 then (a', false) else
          walk f (at' + sz) (n + 1) a' (r.drop sz)) := by
        intro a
        dsimp only
        by_cases h0 : sz = 0
        · rw [if_pos h0]
        · rw [if_neg h0]; exact walk_version f _ _ _ (by omega) _
      by_cases c1 : 0 < sz ∧ sz < h ∨ 2 ^ 64 ≤ at' + sz
      · rw [if_pos c1]
      rw [if_neg c1]
      by_cases c2 : ty = chars "brob" ∧ r.length < h + 4
      · rw [if_pos c2]
      rw [if_neg c2]
      by_cases c3 : (n = 1 ∧ ty ≠ chars "ftyp") ∨ (n ≠ 1 ∧ ty = chars "ftyp")
      · rw [if_pos c3]
      rw [if_neg c3]
      exact boxBody_version hk (fun h => c3 (.inr ⟨by omega, h⟩))

end Jxl.Container
