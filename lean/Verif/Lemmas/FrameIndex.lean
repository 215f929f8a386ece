import Verif.Lemmas.VarInt
namespace Jxl.VarInt
open Spec PaddedBytes

/-- Positions of the marked entries, counted from `i`. -/
def marksFrom : List Entry → Nat → List Nat
  | [], _ => []
  | e :: rest, i => if e.indexed then i :: marksFrom rest (i + 1) else marksFrom rest (i + 1)

theorem marksFrom_eq (es : List Entry) (rest : List Entry) (i : Nat) (h : es.drop i = rest) :
    marksFrom rest i = (List.range' i rest.length).filter fun j => (es.map (·.indexed)).getD j false := by
  induction rest generalizing i with
  | nil => rfl
  | cons e rest ih =>
    have hi : es[i]? = some e := by
      have := congrArg List.head? h; simpa [List.head?_drop] using this
    have hd : es.drop (i + 1) = rest := by
      have := congrArg List.tail h; simpa [List.tail_drop] using this
    rw [marksFrom, ih _ hd, List.length_cons, List.range'_succ, List.filter_cons]
    simp only [List.getD_eq_getElem?_getD, List.getElem?_map, hi, Option.map_some, Option.getD_some]

theorem listed_eq (e : Entry) (rest : List Entry) :
    listed ((e :: rest).map (·.indexed)) = 0 :: marksFrom rest 1 := by
  rw [marksFrom_eq (e :: rest) rest 1 rfl, listed, List.length_map, List.length_cons, List.range_eq_range', List.range'_succ,
    List.filter_cons]
  simp only [Nat.zero_add, decide_true, true_or, if_true]
  congr 1
  apply List.filter_congr
  intro j hj
  have := (List.mem_range'_1.mp hj).1
  simp only [show ¬ j = 0 by omega, false_or, Bool.decide_eq_true]

theorem numIndexed_eq (es : List Entry) : numIndexed es = (listed (es.map (·.indexed))).length := by
  cases es with
  | nil => rfl
  | cons e rest =>
    rw [listed_eq, numIndexed, List.length_cons, Nat.add_comm]
    congr 1
    have : ∀ i, (rest.filter (·.indexed)).length = (marksFrom rest i).length := by
      induction rest with
      | nil => intro i; rfl
      | cons e rest ih =>
        intro i
        rw [marksFrom, List.filter_cons]
        split
        · simp [ih (i + 1)]
        · exact ih (i + 1)
    exact this 1

/-- What the code writes as ticks for frame `p`: the durations of the marked frames strictly between frame 0 and `p`. -/
def writtenTicks (es : List Entry) (p : Nat) : BitVec 32 :=
  ((es.take p).drop 1).foldl (fun acc e => if e.indexed then acc + e.duration else acc) 0

theorem writtenTicks_succ (es : List Entry) (i : Nat) (e : Entry) (hi : 1 ≤ i) (h : es[i]? = some e) :
    writtenTicks es (i + 1) = if e.indexed then writtenTicks es i + e.duration else writtenTicks es i := by
  have hl := (List.getElem?_eq_some_iff.mp h).1
  have : (es.take (i + 1)).drop 1 = (es.take i).drop 1 ++ [e] := by
    rw [List.take_add_one, h, Option.toList_some, List.drop_append_of_le_length (by simp; omega)]
  rw [writtenTicks, this, List.foldl_append]
  rfl

theorem signExtend_small (x : Nat) (h : x < 2 ^ 31) : ((BitVec.ofNat 32 x).signExtend 64).toNat = x := by
  have hm : (BitVec.ofNat 32 x).msb = false := by
    rw [BitVec.msb_eq_false_iff_two_mul_lt, BitVec.toNat_ofNat]; omega
  rw [BitVec.signExtend_eq_setWidth_of_msb_false hm]
  simp; omega

/-- The offset recorded. -/
def offDelta (es : List Entry) (s : IdxSt) : Nat :=
  match s.prevPrev with
  | none => (offAt es s.prev).toNat
  | some q => (offAt es s.prev).toNat - (offAt es q).toNat

theorem records_spec (es : List Entry) (hn : es.length < 2 ^ 31)
    (hoff : ∀ i j, i ≤ j → j < es.length → (offAt es i).toNat ≤ (offAt es j).toNat) (rest : List Entry) (i : Nat) (s : IdxSt)
    (hr : es.drop i = rest) (hi : 1 ≤ i) (hil : i ≤ es.length) (hp : s.prev < i) (hpp : ∀ q, s.prevPrev = some q → q < s.prev)
    (ht : s.tPrev = writtenTicks es s.prev) (ht2 : s.t = writtenTicks es i) :
    records es rest i s = recordsFrom es.length (fun p => (offAt es p).toNat)
      (fun p _ => ((writtenTicks es p).signExtend 64).toNat) s.prevPrev (s.prev :: marksFrom rest i) := by
  have hrec : ∀ k, i ≤ k → k ≤ es.length → record es s k = [offDelta es s, ((writtenTicks es s.prev).signExtend 64).toNat, k - s.prev] := by
    intro k hk hk2
    unfold record
    rw [signExtend_small _ (by omega), ht]
    cases hq : s.prevPrev with
    | none => simp only [offDelta, hq]
    | some q =>
      have h1 := hoff q s.prev (by have := hpp q hq; omega) (by omega)
      simp only [offDelta, hq]
      rw [BitVec.toNat_sub_of_le (by rw [BitVec.le_def]; exact h1)]
  induction rest generalizing i s with
  | nil =>
    have : es.length ≤ i := by
      have := congrArg List.length hr; simp at this; omega
    rw [records, hrec i (by omega) hil, marksFrom, recordsFrom, show i = es.length by omega]
    simp only [List.headD_nil, recordsFrom, List.append_nil]
    cases hq : s.prevPrev <;> simp only [offDelta, hq, relOffset]
  | cons e rest ih =>
    have hei : es[i]? = some e := by
      have := congrArg List.head? hr; simpa [List.head?_drop] using this
    have hl := (List.getElem?_eq_some_iff.mp hei).1
    have hd : es.drop (i + 1) = rest := by
      have := congrArg List.tail hr; simpa [List.tail_drop] using this
    have hs := writtenTicks_succ es i e hi hei
    rw [records, marksFrom]
    by_cases he : e.indexed = true
    · rw [if_pos he, if_pos he, hrec i (Nat.le_refl _) hil]
      have key := ih (i + 1) { prevPrev := some s.prev, prev := i, tPrev := s.t, t := s.t + e.duration } hd (by omega) (by omega)
        (by simp) (by simp; exact hp) ht2 (by simp only; rw [hs, if_pos he, ht2])
      rw [key]
      · conv => rhs; rw [recordsFrom]
        simp only [List.headD_cons]
        cases hq : s.prevPrev <;> simp only [offDelta, hq, relOffset]
      · intro k hk hk2
        unfold record
        simp only [offDelta]
        rw [signExtend_small _ (by omega), ht2]
        have h1 := hoff s.prev i (by omega) (by omega)
        rw [BitVec.toNat_sub_of_le (by rw [BitVec.le_def]; exact h1)]
    · rw [if_neg he, if_neg he]
      apply ih (i + 1) s hd (by omega) (by omega) (by omega) hpp ht
      · rw [hs, if_neg he, ht2]
      · intro k hk hk2
        exact hrec k (by omega) hk2

theorem blit_blit (mem : List UInt8) (pos : Nat) (a b : List UInt8) (h : pos + a.length ≤ mem.length) :
    blit (blit mem pos a) (pos + a.length) b = blit mem pos (a ++ b) := by
  unfold blit
  have e1 : (List.take pos mem ++ a).length = pos + a.length := by simp; omega
  rw [List.take_append_of_le_length (by simp; omega), List.take_of_length_le (by simp; omega), List.drop_append,
    List.drop_eq_nil_of_le (by simp; omega), e1, List.drop_drop, List.length_append]
  simp only [List.nil_append, List.append_assoc]
  congr 4
  omega

theorem encMany_spec (outSize : Nat) (vs : List Nat) (mem : List UInt8) (pos : Nat)
    (h1 : pos + (vs.flatMap varint).length ≤ outSize) (h2 : pos + (vs.flatMap varint).length ≤ mem.length) :
    encMany outSize (true, mem, pos) vs = some (true, blit mem pos (vs.flatMap varint), pos + (vs.flatMap varint).length) := by
  induction vs generalizing mem pos with
  | nil => simp [encMany, blit]
  | cons v vs ih =>
    simp only [List.flatMap_cons, List.length_append] at h1 h2
    rw [encMany]
    rw [encLoop_spec _ _ _ _ (by omega) (by omega)]
    simp only [Bool.and_self]
    rw [ih _ _ (by omega) (by rw [blit_length _ _ _ (by omega)]; omega), blit_blit _ _ _ _ (by omega)]
    simp only [List.flatMap_cons, List.length_append, Nat.add_assoc]

theorem flatMap_length_le (vs : List Nat) (h : ∀ v ∈ vs, v < 2 ^ 64) : (vs.flatMap varint).length ≤ 10 * vs.length := by
  induction vs with
  | nil => simp
  | cons v vs ih =>
    have h1 := varint_length_le 9 v (by have := h v (by simp); omega)
    have h2 := ih (fun v hv => h v (by simp [hv]))
    simp only [List.flatMap_cons, List.length_append, List.length_cons]
    omega

theorem record_bound (es : List Entry) (s : IdxSt) (i : Nat) : (record es s i).length = 3 ∧ ∀ v ∈ record es s i, v < 2 ^ 64 := by
  refine ⟨rfl, ?_⟩
  intro v hv
  simp only [record, List.mem_cons, List.not_mem_nil, or_false] at hv
  rcases hv with rfl | rfl | rfl <;> exact BitVec.isLt _

theorem records_bound (es rest : List Entry) (i : Nat) (s : IdxSt) :
    (records es rest i s).length = 3 * (1 + (rest.filter (·.indexed)).length) ∧ ∀ v ∈ records es rest i s, v < 2 ^ 64 := by
  induction rest generalizing i s with
  | nil => exact ⟨by rw [records]; exact (record_bound ..).1, by rw [records]; exact (record_bound ..).2⟩
  | cons e rest ih =>
    rw [records, List.filter_cons]
    split
    · have h1 := record_bound es s i
      have h2 := ih (i + 1) { prevPrev := some s.prev, prev := i, tPrev := s.t, t := s.t + e.duration }
      refine ⟨?_, ?_⟩
      · rw [List.length_append, h1.1, h2.1]; simp; omega
      · intro v hv
        rcases List.mem_append.mp hv with hv | hv
        · exact h1.2 v hv
        · exact h2.2 v hv
    · exact ih (i + 1) s

theorem be32_eq (x : BitVec 32) : be32 x = u32be x.toNat := by
  simp only [be32, u32be, Nat.shiftRight_eq_div_pow]
  have h : ∀ n : Nat, UInt8.ofNat n = UInt8.ofNat (n % 256) := by
    intro n
    apply UInt8.toNat_inj.mp
    simp [UInt8.toNat_ofNat']
  rw [← h, ← h, ← h]

/-- The bytes of the box, in terms of the numbers recorded. -/
theorem frameIndexBox_bytes (e : Entry) (rest : List Entry) (tnum tden : BitVec 32) (hs : 18 + 30 * numIndexed (e :: rest) < 2 ^ 31) :
    frameIndexBox (e :: rest) tnum tden = some (some (varint (numIndexed (e :: rest)) ++ u32be tnum.toNat ++ u32be tden.toNat ++
      (records (e :: rest) rest 1 {}).flatMap varint)) := by
  have hb := records_bound (e :: rest) rest 1 {}
  have hnf : numIndexed (e :: rest) = 1 + (rest.filter (·.indexed)).length := rfl
  have hl := flatMap_length_le _ hb.2
  rw [hb.1, ← hnf] at hl
  have hv := varint_length_le 9 (numIndexed (e :: rest)) (by omega)
  generalize hnn : numIndexed (e :: rest) = nf at *
  unfold frameIndexBox
  simp only [hnn]
  rw [if_neg (by omega), encLoop_spec _ _ _ _ (by omega) (by simp; omega)]
  simp only [Nat.zero_add, store]
  have l4 : ∀ x, (be32 x).length = 4 := fun _ => rfl
  have b1 : (blit (List.replicate (18 + nf * 30) 0) 0 (varint nf)).length = 18 + nf * 30 := by
    rw [blit_length _ _ _ (by simp; omega)]; simp
  rw [if_pos (by rw [b1, l4]; omega)]
  simp only
  have e1 := blit_blit (List.replicate (18 + nf * 30) 0) 0 (varint nf) (be32 tnum) (by simp; omega)
  rw [Nat.zero_add] at e1
  rw [e1]
  have b2 : (blit (List.replicate (18 + nf * 30) 0) 0 (varint nf ++ be32 tnum)).length = 18 + nf * 30 := by
    rw [blit_length _ _ _ (by simp [l4]; omega)]; simp
  rw [if_pos (by rw [b2, l4]; omega)]
  simp only
  have e2 := blit_blit (List.replicate (18 + nf * 30) 0) 0 (varint nf ++ be32 tnum) (be32 tden) (by simp [l4]; omega)
  rw [Nat.zero_add, List.length_append, l4] at e2
  rw [e2]
  have b3 : (blit (List.replicate (18 + nf * 30) 0) 0 (varint nf ++ be32 tnum ++ be32 tden)).length = 18 + nf * 30 := by
    rw [blit_length _ _ _ (by simp [l4]; omega)]; simp
  rw [encMany_spec _ _ _ _ (by omega) (by rw [b3]; omega)]
  simp only
  have e3 := blit_blit (List.replicate (18 + nf * 30) 0) 0 (varint nf ++ be32 tnum ++ be32 tden) ((records (e :: rest) rest 1 {}).flatMap varint)
    (by simp [l4]; omega)
  rw [Nat.zero_add, List.length_append, List.length_append, l4, l4] at e3
  rw [show (varint nf).length + 8 = (varint nf).length + 4 + 4 from rfl, e3]
  simp only [blit, List.take_zero, List.nil_append]
  rw [List.take_append_of_le_length (by simp only [List.length_append, l4]; omega),
    List.take_of_length_le (by simp only [List.length_append, l4]; omega)]
  simp only [be32_eq]

end Jxl.VarInt
