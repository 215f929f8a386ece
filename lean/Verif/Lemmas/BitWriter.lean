import Verif.Spec.BitWriter
import Verif.Lemmas.BitReader
import Verif.Lemmas.PaddedBytes
namespace Jxl
open BitReader (leVal leVal_eq)

theorem leVal_append (a b : List UInt8) : leVal (a ++ b) = leVal a + 256 ^ a.length * leVal b := by
  induction a with
  | nil => simp [leVal]
  | cons x a ih =>
    simp only [List.cons_append, leVal, ih, List.length_cons, Nat.pow_succ, Nat.mul_add]
    rw [Nat.mul_comm (256 ^ a.length) 256, Nat.mul_assoc]; omega

theorem leVal_lt (l : List UInt8) : leVal l < 256 ^ l.length := by
  induction l with
  | nil => simp [leVal]
  | cons b l ih =>
    have := b.toNat_lt
    simp only [leVal, List.length_cons, Nat.pow_succ]; omega

/-- little-endian bytes, any count -/
def leN : Nat → Nat → List UInt8
  | 0, _ => []
  | n + 1, v => UInt8.ofNat (v % 256) :: leN n (v / 256)

@[simp] theorem leN_length (n v : Nat) : (leN n v).length = n := by
  induction n generalizing v with
  | zero => rfl
  | succ n ih => simp [leN, ih]

theorem leN_take (n k v : Nat) (h : k ≤ n) : (leN n v).take k = leN k v := by
  induction k generalizing n v with
  | zero => simp [leN]
  | succ k ih =>
    cases n with
    | zero => omega
    | succ n => simp only [leN, List.take_succ_cons]; rw [ih _ _ (by omega)]

theorem leVal_leN (n v : Nat) : leVal (leN n v) = v % 256 ^ n := by
  induction n generalizing v with
  | zero => simp [leN, leVal, Nat.mod_one]
  | succ n ih =>
    simp only [leN, leVal, ih]
    have h1 : v % 256 ^ (n + 1) = v % 256 + 256 * (v / 256 % 256 ^ n) := by
      rw [Nat.pow_succ, Nat.mul_comm (256 ^ n), Nat.mod_mul]
    rw [h1, UInt8.toNat_ofNat']; simp

theorem le64_eq (v : Nat) : BitWriter.le64 v = leN 8 v := by
  simp [BitWriter.le64, leN, List.range_succ, Nat.div_div_eq_div_mul]

namespace BitWriter

/-- What the innermost-first stack still allows, counted from bit position `cur`. -/
def slack (cur : Nat) : List (Nat × Nat) → Nat
  | [] => 0
  | (prev, mx) :: rest => (mx - (cur - prev)) + slack prev rest

/-- The stack of the code corresponds to the budgets of the specification. -/
def StackRel (cur : Nat) : List (Nat × Nat) → List Nat → Prop
  | [], [] => True
  | (prev, mx) :: rest, b :: bs => prev ≤ cur ∧ cur - prev ≤ mx ∧ b = mx - (cur - prev) ∧ StackRel prev rest bs
  | _, _ => False

structure Inv (w : BitWriter) (s : Spec.St) : Prop where
  wf : w.st.WF
  bits : w.bits = s.bs.length
  stack : StackRel w.bits w.stack s.budgets
  room : w.bits + slack w.bits w.stack ≤ 8 * w.st.size
  val : leVal (w.st.mem.take (w.bits / 8 + 1)) = ofBits s.bs
  alloc : s.started = true → w.st.mem ≠ []
  start : s.started = false → w.st.mem = []

theorem Inv.mem_len {w : BitWriter} {s} (h : Inv w s) (hs : s.started = true) :
    w.st.mem.length = w.st.cap + 8 := by
  rcases h.wf.mem_len with ⟨h1, _⟩ | h1
  · exact absurd h1 (h.alloc hs)
  · exact h1

theorem Inv.size_ge {w : BitWriter} {s} (h : Inv w s) : w.bits ≤ 8 * w.st.size := by
  have := h.room; omega

/-- The value of the finished bytes alone. -/
theorem val_aligned (mem : List UInt8) (bs : List Bool) (hm : bs.length / 8 ≤ mem.length)
    (h : leVal (mem.take (bs.length / 8 + 1)) = ofBits bs) (h8 : bs.length % 8 = 0) :
    leVal (mem.take (bs.length / 8)) = ofBits bs := by
  have hlt := ofBits_lt bs
  rw [← h] at hlt ⊢
  rw [List.take_add_one, leVal_append] at hlt ⊢
  have hl : (mem.take (bs.length / 8)).length = bs.length / 8 := by simp; omega
  rw [hl] at hlt ⊢
  have he : (256 : Nat) ^ (bs.length / 8) = 2 ^ bs.length := by
    rw [show (256 : Nat) = 2 ^ 8 from rfl, ← Nat.pow_mul]; congr 1; omega
  rw [he] at hlt ⊢
  rcases Nat.eq_zero_or_pos (leVal mem[bs.length / 8]?.toList) with h0 | h0
  · rw [h0]; simp
  · have : 2 ^ bs.length ≤ 2 ^ bs.length * leVal mem[bs.length / 8]?.toList := Nat.le_mul_of_pos_right _ h0
    omega

theorem write_inv (w : BitWriter) (s : Spec.St) (n v : Nat) (h : Inv w s) (hs : s.started = true)
    (hv : v < 2 ^ n) (hn : n ≤ 56) (hroom : w.bits + n ≤ 8 * w.st.size) :
    ∃ st, w.write n v = some { w with st := st, bits := w.bits + n } ∧ st.WF ∧ st.size = w.st.size ∧ st.mem ≠ [] ∧
      leVal (st.mem.take ((w.bits + n) / 8 + 1)) = ofBits (s.bs ++ bitsOf n v) := by
  have hml := h.mem_len hs
  have hsz := h.wf.size_le
  have hoff : w.bits / 8 < w.st.mem.length := by omega
  have hval := h.val
  have htk : (w.st.mem.take (w.bits / 8)).length = w.bits / 8 := by simp; omega
  have hdec : leVal (w.st.mem.take (w.bits / 8)) + 256 ^ (w.bits / 8) * w.st.mem[w.bits / 8].toNat = ofBits s.bs := by
    rw [← hval, List.take_add_one, leVal_append, htk, List.getElem?_eq_getElem hoff]
    simp [leVal]
  have he : (256 : Nat) ^ (w.bits / 8) * 2 ^ (w.bits % 8) = 2 ^ w.bits := by
    rw [show (256 : Nat) = 2 ^ 8 from rfl, ← Nat.pow_mul, ← Nat.pow_add]; congr 1; omega
  have hp : w.st.mem[w.bits / 8].toNat < 2 ^ (w.bits % 8) := by
    have hlt := ofBits_lt s.bs
    rw [← h.bits, ← he] at hlt
    exact Nat.lt_of_mul_lt_mul_left (a := 256 ^ (w.bits / 8)) (by omega)
  generalize hpp : w.st.mem[w.bits / 8].toNat = p at *
  have hx1 : v <<< (w.bits % 8) < 2 ^ 64 := by
    rw [Nat.shiftLeft_eq]
    calc v * 2 ^ (w.bits % 8) < 2 ^ n * 2 ^ (w.bits % 8) :=
          Nat.mul_lt_mul_of_pos_right hv (Nat.two_pow_pos _)
      _ = 2 ^ (n + w.bits % 8) := by rw [Nat.pow_add]
      _ ≤ 2 ^ 64 := Nat.pow_le_pow_right (by omega) (by omega)
  have hor : p ||| (v <<< (w.bits % 8)) % 2 ^ 64 = p + 2 ^ (w.bits % 8) * v := by
    rw [Nat.mod_eq_of_lt hx1, Nat.or_comm, ← Nat.shiftLeft_add_eq_or_of_lt hp, Nat.shiftLeft_eq]
    rw [Nat.mul_comm]; omega
  have hlt2 : p + 2 ^ (w.bits % 8) * v < 256 ^ ((w.bits + n) / 8 + 1 - w.bits / 8) := by
    have h1 : p + 2 ^ (w.bits % 8) * v < 2 ^ (w.bits % 8 + n) := by
      have h2 : 2 ^ (w.bits % 8) * (v + 1) ≤ 2 ^ (w.bits % 8) * 2 ^ n := Nat.mul_le_mul_left _ hv
      rw [Nat.pow_add]; rw [Nat.mul_add] at h2; omega
    refine Nat.lt_of_lt_of_le h1 ?_
    rw [show (256 : Nat) = 2 ^ 8 from rfl, ← Nat.pow_mul]
    exact Nat.pow_le_pow_right (by omega) (by omega)
  have hblen : w.bits / 8 + (leN 8 (p + 2 ^ (w.bits % 8) * v)).length ≤ w.st.mem.length := by simp; omega
  refine ⟨{ w.st with mem := PaddedBytes.blit w.st.mem (w.bits / 8) (leN 8 (p + 2 ^ (w.bits % 8) * v)) }, ?_, ?_, rfl, ?_, ?_⟩
  · simp only [write]
    rw [if_pos ⟨hv, hn⟩, List.getElem?_eq_getElem hoff]
    simp only
    rw [if_pos ⟨by omega, by rw [hpp, Nat.shiftRight_eq_div_pow, Nat.div_eq_of_lt hp]⟩, hpp, hor, le64_eq]
  · refine ⟨hsz, Or.inr ?_⟩
    simp only; rw [PaddedBytes.blit_length _ _ _ hblen]; exact hml
  · intro hx
    have := congrArg List.length hx
    simp only [PaddedBytes.blit_length _ _ _ hblen, List.length_nil] at this
    omega
  · simp only
    have hk : (w.bits + n) / 8 + 1 = w.bits / 8 + ((w.bits + n) / 8 + 1 - w.bits / 8) := by omega
    have htake : (PaddedBytes.blit w.st.mem (w.bits / 8) (leN 8 (p + 2 ^ (w.bits % 8) * v))).take ((w.bits + n) / 8 + 1)
        = w.st.mem.take (w.bits / 8) ++ leN ((w.bits + n) / 8 + 1 - w.bits / 8) (p + 2 ^ (w.bits % 8) * v) := by
      rw [PaddedBytes.blit, List.take_append_of_le_length (by simp; omega), List.take_append, htk,
        List.take_of_length_le (by simp; omega), leN_take _ _ _ (by omega)]
    rw [htake, leVal_append, leVal_leN, Nat.mod_eq_of_lt hlt2, htk, ofBits_append, ofBits_bitsOf_lt hv, ← hdec,
      ← h.bits, ← he, Nat.mul_add, Nat.mul_assoc]
    omega

theorem resize_take (b : PaddedBytes) (a : Alloc) (n k : Nat) (h : b.WF) (hk1 : k ≤ b.size) (hk2 : k ≤ n)
    (hok : (b.resize a n).1 = true) : (b.resize a n).2.mem.take k = b.mem.take k := by
  obtain ⟨_, _, h3⟩ := PaddedBytes.resize_props b a n h
  obtain ⟨e1, e2⟩ := h3 hok
  have := congrArg (List.take k) e2
  simp only [PaddedBytes.contents, List.take_take, e1] at this
  rw [Nat.min_eq_left (by omega), Nat.min_eq_left (by omega)] at this
  exact this

/-- When the storage was reallocated the first byte after the old contents is zero, otherwise nothing moved. -/
theorem resize_cases (b : PaddedBytes) (a : Alloc) (n : Nat) (h : b.WF) (hok : (b.resize a n).1 = true) :
    (b.resize a n).2.mem = b.mem ∨ ((b.resize a n).2.mem ≠ [] ∧ (b.resize a n).2.mem[b.size]? = some 0) := by
  unfold PaddedBytes.resize at hok ⊢
  unfold PaddedBytes.reserve at hok ⊢
  by_cases h1 : n ≤ b.cap
  · left; simp [h1]
  · rw [if_neg h1] at hok ⊢
    by_cases h2 : b.cap + b.cap / 2 < sizeMax
    · rw [if_pos h2] at hok ⊢
      have hs := h.size_le
      obtain ⟨_, _, _, _, h5⟩ := PaddedBytes.changeCapacity_props b a (max n (b.cap + b.cap / 2)) h (by omega)
      generalize b.changeCapacity a (max n (b.cap + b.cap / 2)) = p at hok h5 ⊢
      obtain ⟨s, b'⟩ := p
      cases s with
      | false => simp at hok
      | true => exact Or.inr (h5 rfl).2
    · rw [if_neg h2] at hok; simp at hok

/-- Growing the storage keeps the written bits and keeps the current byte zero above them. -/
theorem grow_val (w : BitWriter) (s : Spec.St) (a : Alloc) (n : Nat) (h : Inv w s) (hn : w.st.size ≤ n)
    (hok : (w.st.resize a n).1 = true) :
    leVal ((w.st.resize a n).2.mem.take (w.bits / 8 + 1)) = ofBits s.bs := by
  rcases resize_cases w.st a n h.wf hok with he | ⟨hne, h0⟩
  · rw [he]; exact h.val
  · have hge := h.size_ge
    by_cases hlt : w.bits / 8 + 1 ≤ w.st.size
    · rw [resize_take _ _ _ _ h.wf hlt (by omega) hok]; exact h.val
    · have heq : w.st.size = w.bits / 8 := by omega
      have h8 : w.bits % 8 = 0 := by omega
      have hbl : s.bs.length / 8 = w.st.size := by rw [← h.bits]; omega
      rw [List.take_add_one, leVal_append, ← heq, h0, resize_take _ _ _ _ h.wf (Nat.le_refl _) hn hok]
      have hml : w.st.size ≤ w.st.mem.length := by
        rcases h.wf.mem_len with ⟨h1, h2⟩ | h1
        · have := h.wf.size_le; omega
        · have := h.wf.size_le; omega
      have := val_aligned w.st.mem s.bs (by omega) (by rw [← h.bits]; exact h.val) (by rw [← h.bits]; exact h8)
      rw [hbl] at this
      rw [this]; simp [leVal]

theorem step_inv (w : BitWriter) (s s' : Spec.St) (op : Op) (h : Inv w s) (hs : Spec.step s op = some s') :
    ∃ ok w', w.step op = some (ok, w') ∧ (ok = true → Inv w' s') := by
  have hge := h.size_ge
  cases op with
  | openAllot a m =>
    simp only [Spec.step, Option.some.injEq] at hs
    refine ⟨(w.openAllotment a m).1, (w.openAllotment a m).2, rfl, ?_⟩
    obtain ⟨h1, h2, h3⟩ := PaddedBytes.resize_props w.st a (w.st.size + (m + 7) / 8) h.wf
    have hgv := fun hok => grow_val w s a (w.st.size + (m + 7) / 8) h (by omega) hok
    have hrc := fun hok => resize_cases w.st a (w.st.size + (m + 7) / 8) h.wf hok
    unfold openAllotment
    rcases hp : w.st.resize a (w.st.size + (m + 7) / 8) with ⟨ok, st⟩
    rw [hp] at h1 h2 h3 hgv hrc
    cases ok with
    | false => simp
    | true =>
      intro _
      simp only at *
      obtain ⟨e1, e2⟩ := h3 trivial
      have hroom := h.room
      subst hs
      refine ⟨h1, h.bits, ⟨Nat.le_refl _, by dsimp only; omega, by dsimp only; omega, h.stack⟩, ?_, hgv trivial, ?_, ?_⟩
      · simp only [slack, e1]; omega
      · simp only [Bool.or_eq_true, decide_eq_true_eq]
        intro hor
        rcases hrc trivial with he | he
        · rcases hor with h' | h'
          · rw [he]; exact h.alloc h'
          · intro hm
            rcases h1.mem_len with ⟨_, hc⟩ | hc
            · have := h1.size_le; omega
            · rw [hm] at hc; simp at hc
        · exact he.1
      · simp only [Bool.or_eq_false_iff, decide_eq_false_iff_not]
        rintro ⟨hst, hm0⟩
        have hm := h.start hst
        rcases hrc trivial with he | he
        · rw [he]; exact hm
        · have hsize : w.st.size = 0 := by
            have := h.wf.size_le
            rcases h.wf.mem_len with ⟨_, hc⟩ | hc
            · omega
            · rw [hm] at hc; simp at hc
          have : m = 0 := by omega
          subst this
          have hc : w.st.cap = 0 := by
            rcases h.wf.mem_len with ⟨_, hc⟩ | hc
            · omega
            · rw [hm] at hc; simp at hc
          exfalso
          unfold PaddedBytes.resize PaddedBytes.reserve at hp
          rw [if_pos (by omega)] at hp
          simp only [Prod.mk.injEq, true_and] at hp
          rw [← hp] at he
          exact he.1 hm
  | write n v =>
    simp only [Spec.step] at hs
    split at hs
    · rename_i b rest hb
      split at hs
      · rename_i hc
        obtain ⟨hv, hn, hnb, hst⟩ := hc
        simp only [Option.some.injEq] at hs
        have hstk := h.stack
        rw [hb] at hstk
        rcases hws : w.stack with _ | ⟨⟨prev, mx⟩, rst⟩
        · rw [hws] at hstk; exact absurd hstk (by simp [StackRel])
        · rw [hws] at hstk
          obtain ⟨g1, g2, g3, g4⟩ := hstk
          have hroom := h.room
          rw [hws] at hroom
          simp only [slack] at hroom
          obtain ⟨st, e, wf, hsz, hne, hval⟩ := write_inv w s n v h hst hv hn (by omega)
          refine ⟨true, _, by rw [step, e]; rfl, fun _ => ?_⟩
          subst hs
          refine ⟨wf, ?_, ?_, ?_, hval, fun _ => hne, ?_⟩
          · simp [h.bits]
          · simp only [hws]; exact ⟨by omega, by omega, by omega, g4⟩
          · simp only [hws, slack, hsz]; omega
          · simp only [hst]; intro hf; cases hf
      · cases hs
    · cases hs
  | pad =>
    simp only [Spec.step] at hs
    have hrem : (w.bits + 7) / 8 * 8 - w.bits = (8 - s.bs.length % 8) % 8 := by rw [h.bits]; omega
    simp only [step, zeroPadToByte, hrem]
    split at hs
    · rename_i h0
      rw [if_pos h0]
      simp only [Option.some.injEq] at hs
      subst hs
      exact ⟨true, w, rfl, fun _ => h⟩
    · rename_i h0
      rw [if_neg h0]
      split at hs
      · rename_i b rest hb
        split at hs
        · rename_i hc
          obtain ⟨hnb, hst⟩ := hc
          simp only [Option.some.injEq] at hs
          have hstk := h.stack
          rw [hb] at hstk
          rcases hws : w.stack with _ | ⟨⟨prev, mx⟩, rst⟩
          · rw [hws] at hstk; exact absurd hstk (by simp [StackRel])
          · rw [hws] at hstk
            obtain ⟨g1, g2, g3, g4⟩ := hstk
            have hroom := h.room
            rw [hws] at hroom
            simp only [slack] at hroom
            obtain ⟨st, e, wf, hsz, hne, hval⟩ :=
              write_inv w s ((8 - s.bs.length % 8) % 8) 0 h hst (Nat.two_pow_pos _) (by omega) (by omega)
            refine ⟨true, _, by rw [e]; rfl, fun _ => ?_⟩
            subst hs
            refine ⟨wf, ?_, ?_, ?_, ?_, fun _ => hne, ?_⟩
            · simp [h.bits]
            · simp only [hws]; exact ⟨by omega, by omega, by omega, g4⟩
            · simp only [hws, slack, hsz]; omega
            · rw [hval]
              simp only [ofBits_append, ofBits_bitsOf, Nat.zero_mod, ofBits_replicate_false]
            · simp only [hst]; intro hf; cases hf
        · cases hs
      · cases hs
  | closeAllot =>
    simp only [Spec.step] at hs
    split at hs
    · rename_i b rest hb
      simp only [Option.some.injEq] at hs
      have hstk := h.stack
      rw [hb] at hstk
      rcases hws : w.stack with _ | ⟨⟨prev, mx⟩, rst⟩
      · rw [hws] at hstk; exact absurd hstk (by simp [StackRel])
      · rw [hws] at hstk
        obtain ⟨g1, g2, g3, g4⟩ := hstk
        have hroom := h.room
        rw [hws] at hroom
        simp only [slack] at hroom
        have hsz := h.wf.size_le
        have hres : w.st.resize none (w.st.size - (mx - (w.bits - prev)) / 8)
            = (true, { w.st with size := w.st.size - (mx - (w.bits - prev)) / 8 }) := by
          unfold PaddedBytes.resize PaddedBytes.reserve
          rw [if_pos (by omega)]
        have e : w.closeAllotment = some { w with
            st := { w.st with size := w.st.size - (mx - (w.bits - prev)) / 8 }
            stack := rst.map fun p => (p.1 + (w.bits - prev), p.2) } := by
          unfold closeAllotment
          rw [hws]
          simp only
          rw [if_pos ⟨g1, g2, by omega⟩, hres]
        refine ⟨true, _, by rw [step, e]; rfl, fun _ => ?_⟩
        subst hs
        have key : ∀ (rs : List (Nat × Nat)) (bs : List Nat) (c d : Nat), StackRel c rs bs →
            StackRel (c + d) (rs.map fun p => (p.1 + d, p.2)) bs ∧
            slack (c + d) (rs.map fun p => (p.1 + d, p.2)) = slack c rs := by
          intro rs
          induction rs with
          | nil => intro bs c d hr; cases bs with
            | nil => exact ⟨trivial, rfl⟩
            | cons b bs => exact absurd hr (by simp [StackRel])
          | cons p rs ih =>
            intro bs c d hr
            obtain ⟨p1, p2⟩ := p
            cases bs with
            | nil => exact absurd hr (by simp [StackRel])
            | cons b bs =>
              obtain ⟨a1, a2, a3, a4⟩ := hr
              obtain ⟨i1, i2⟩ := ih bs p1 d a4
              simp only [List.map_cons, StackRel, slack]
              refine ⟨⟨by omega, by omega, by omega, i1⟩, ?_⟩
              rw [i2]; congr 1; omega
        obtain ⟨k1, k2⟩ := key rst rest prev (w.bits - prev) g4
        rw [show prev + (w.bits - prev) = w.bits by omega] at k1 k2
        refine ⟨⟨?_, h.wf.mem_len⟩, h.bits, k1, ?_, h.val, h.alloc, h.start⟩
        · simp only; omega
        · simp only [k2]; omega
    · cases hs
  | append a span =>
    simp only [Spec.step] at hs
    split at hs
    · rename_i hc
      obtain ⟨hb0, hb8⟩ := hc
      simp only [Option.some.injEq] at hs
      refine ⟨(w.appendByteAligned a span).1, (w.appendByteAligned a span).2, rfl, ?_⟩
      unfold appendByteAligned
      by_cases hsp : span = []
      · subst hsp
        simp only [if_true]
        intro _
        subst hs
        simp only [bitsOfBytes_nil, List.append_nil, List.isEmpty_nil, Bool.not_true, Bool.or_false]
        exact h
      · rw [if_neg hsp]
        have hlen : 0 < span.length := List.length_pos_iff.mpr hsp
        obtain ⟨h1, h2, h3⟩ := PaddedBytes.resize_props w.st a (w.st.size + span.length + 1) h.wf
        have hgv := fun hok => grow_val w s a (w.st.size + span.length + 1) h (by omega) hok
        rcases hp : w.st.resize a (w.st.size + span.length + 1) with ⟨ok, st⟩
        rw [hp] at h1 h2 h3 hgv
        cases ok with
        | false => simp
        | true =>
          simp only at *
          obtain ⟨e1, e2⟩ := h3 trivial
          have hsz := h1.size_le
          have hml : st.mem.length = st.cap + 8 := by
            rcases h1.mem_len with ⟨_, hc⟩ | hc
            · omega
            · exact hc
          have hb8' : w.bits % 8 = 0 := by rw [h.bits]; exact hb8
          rw [if_pos hb8']
          rw [if_pos (by omega)]
          intro _
          have hbl : w.bits / 8 + span.length ≤ st.mem.length := by omega
          have hstk := h.stack
          rw [hb0] at hstk
          have hws : w.stack = [] := by
            cases hw : w.stack with
            | nil => rfl
            | cons p l => rw [hw] at hstk; exact absurd hstk (by cases p; simp [StackRel])
          subst hs
          refine ⟨⟨hsz, Or.inr ?_⟩, ?_, ?_, ?_, ?_, fun _ => ?_, ?_⟩
          · simp [PaddedBytes.blit_length _ _ _ hbl, hml]
          · simp [h.bits]; omega
          · simp only [hws, hb0]; trivial
          · simp only [hws, slack]; omega
          · simp only
            rw [show (w.bits + span.length * 8) / 8 + 1 = w.bits / 8 + span.length + 1 by omega, List.take_add_one,
              List.take_set_of_le (Nat.le_refl _), PaddedBytes.blit_take _ _ _ hbl,
              List.getElem?_set_self (by rw [PaddedBytes.blit_length _ _ _ hbl]; omega)]
            rw [leVal_append, leVal_append]
            have hv := val_aligned st.mem s.bs (by rw [← h.bits]; omega) (by rw [← h.bits]; exact hgv trivial) hb8
            rw [← h.bits] at hv
            rw [hv, ofBits_append, ← leVal_eq, ← h.bits]
            have he : (256 : Nat) ^ (st.mem.take (w.bits / 8)).length = 2 ^ w.bits := by
              rw [show (256 : Nat) = 2 ^ 8 from rfl, ← Nat.pow_mul]; congr 1; simp; omega
            rw [he]; simp [leVal]
          · intro hx; have := congrArg List.length hx; simp [PaddedBytes.blit_length _ _ _ hbl] at this
            rw [this] at hml; simp at hml
          · simp only [Bool.or_eq_false_iff]
            rintro ⟨_, hf⟩
            cases span with
            | nil => exact absurd rfl hsp
            | cons x l => simp at hf
    · cases hs
  | shrink a =>
    simp only [Spec.step] at hs
    split at hs
    · rename_i hst
      simp only [Option.some.injEq] at hs
      subst hs
      refine ⟨(w.st.shrinkToFit a).1, { w with st := (w.st.shrinkToFit a).2 }, rfl, ?_⟩
      obtain ⟨h1, h2, h3, h4, h5⟩ := PaddedBytes.changeCapacity_props w.st a w.st.size h.wf (Nat.le_refl _)
      rw [PaddedBytes.shrinkToFit]
      intro hok
      obtain ⟨h6, h7, h8⟩ := h5 hok
      refine ⟨h1, h.bits, h.stack, by simp only [h2]; exact h.room, ?_, fun _ => h7, fun hf => by rw [hst] at hf; cases hf⟩
      simp only
      have hml := h.mem_len hst
      by_cases hlt : w.bits / 8 + 1 ≤ w.st.size
      · have := congrArg (List.take (w.bits / 8 + 1)) h3
        simp only [PaddedBytes.contents, List.take_take, h2, Nat.min_eq_left hlt] at this
        rw [this]; exact h.val
      · have heq : w.st.size = w.bits / 8 := by omega
        have hbl : s.bs.length / 8 = w.st.size := by rw [← h.bits]; omega
        have hsz := h.wf.size_le
        have hva := val_aligned w.st.mem s.bs (by omega) (by rw [← h.bits]; exact h.val) (by rw [← h.bits]; omega)
        rw [hbl] at hva
        simp only [PaddedBytes.contents, h2] at h3
        rw [List.take_add_one, leVal_append, ← heq, h8, h3, hva]; simp [leVal]
    · cases hs

theorem Inv.init : Inv {} {} := by
  refine ⟨PaddedBytes.WF.init, rfl, trivial, by simp [slack], by simp [leVal], by simp, by simp⟩

theorem run_inv (ops : List Op) (w : BitWriter) (s s' : Spec.St) (h : Inv w s) (hs : Spec.run s ops = some s') :
    (w.run ops = some none) ∨ ∃ w', w.run ops = some (some w') ∧ Inv w' s' := by
  induction ops generalizing w s with
  | nil =>
    simp only [Spec.run, Option.some.injEq] at hs
    subst hs
    exact Or.inr ⟨w, rfl, h⟩
  | cons op ops ih =>
    simp only [Spec.run] at hs
    obtain ⟨s1, e1, hs1⟩ := Option.bind_eq_some_iff.mp hs
    obtain ⟨ok, w1, e2, hi⟩ := step_inv w s s1 op h e1
    simp only [run, e2]
    cases ok with
    | false => exact Or.inl rfl
    | true => exact ih w1 s1 (hi rfl) hs1

theorem getSpan_of_inv (w : BitWriter) (s : Spec.St) (h : Inv w s) (h8 : s.bs.length % 8 = 0) :
    ∃ bytes, w.getSpan = some bytes ∧ bitsOfBytes bytes = s.bs := by
  refine ⟨_, by rw [getSpan, if_pos (by rw [h.bits]; exact h8)], ?_⟩
  have hge := h.size_ge
  have hsz := h.wf.size_le
  have hml : w.bits / 8 ≤ w.st.mem.length := by
    rcases h.wf.mem_len with ⟨h1, h2⟩ | h1 <;> omega
  have hva := val_aligned w.st.mem s.bs (by rw [← h.bits]; exact hml) (by rw [← h.bits]; exact h.val) h8
  rw [← h.bits] at hva
  have hl : (bitsOfBytes (w.st.mem.take (w.bits / 8))).length = s.bs.length := by
    simp; rw [Nat.min_eq_left hml, h.bits]; omega
  rw [leVal_eq] at hva
  rw [← bitsOf_ofBits (bitsOfBytes (w.st.mem.take (w.bits / 8))), hl, hva, bitsOf_ofBits]

end BitWriter
end Jxl
