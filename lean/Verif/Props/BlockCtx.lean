import Verif.Lemmas.BlockCtx
/-! # C74: the map of block contexts is read back, and choosing a context never leaves it -/
namespace Jxl.Props
open BlockCtx
open Jxl.AcTokens (BlockCtxMap)

/-- **C74, round trip.**  Every map of block contexts within the limits of the format is stored, whatever form is chosen for its entries (a single
context, plain, entropy coded with or without move to front), and reading returns it and leaves what follows. -/
theorem C74_round_trip (mem : Nat → List Alias.Entry) (hmem : ∀ la, (mem la).length = 2 ^ la) (m : Ctx) (hm : Fits m) (layers : List Stream.Layer)
    (useMtf simple : Bool) (hc : Choice layers useMtf simple m) :
    ∃ b, write mem layers useMtf simple m = some b ∧ ∀ env, Stream.EnvOk env → ∀ rest, read env (b ++ rest) = .ok (m, rest) := by
  obtain ⟨b, h1, h2⟩ := written hmem hm hc
  exact ⟨_, h1, h2⟩

/-- Two intervals of the first channel, three of the quantisation, seven contexts. -/
def ctxExample : Ctx := ⟨[-40000], [], [], ⟨[7, 300], (List.range 234).map (· % 7), 7, 2⟩⟩

theorem ctxExample_fits : Fits ctxExample where
  few := by decide
  dc := by decide
  qf := by decide
  dcs := by decide
  combinations := by decide
  size := by decide +kernel
  entries := by decide +kernel
  used := by decide +kernel
  contexts := by decide

example : ∃ b, write (fun la => List.replicate (2 ^ la) ⟨0, 0, 0, 0, 0⟩) [] false true ctxExample = some b :=
  let ⟨b, h, _⟩ := C74_round_trip (fun la => List.replicate (2 ^ la) ⟨0, 0, 0, 0, 0⟩) (by simp) ctxExample ctxExample_fits [] false true (.inl (.inr (by decide)))
  ⟨b, h⟩

/-- A stream of one context with a flat prefix code for the 15 numbers of contexts. -/
def ctxLayer : Stream.Layer := ⟨⟨none, [0], [⟨4, 0, 0⟩], .huff [List.replicate 15 1], false, false⟩, defaultMap.map fun y => ⟨false, 0, y⟩⟩

theorem ctxLayer_choice : Choice [ctxLayer] false false default := by
  refine .inr ⟨ctxLayer, [], defaultMap, rfl, ?_, rfl, rfl, ?_⟩
  · rw [Stream.Sound]
    refine ⟨⟨?_, ?_, rfl, ?_, by simp [ctxLayer], ?_, ?_, by decide⟩, fun h => absurd h (by decide)⟩
    · intro z hz; cases hz
    · decide
    · show ∀ c ∈ [List.replicate 15 1], _; decide
    · decide
    · decide
  · have := Splines.tokenised_plain (p := ctxLayer.plan) rfl (vs := defaultMap.map fun y => (0, y)) (by decide +kernel) (by decide)
    rw [List.map_map] at this
    exact this

/-- The default map has 15 contexts, too many for the plain form: its entries are entropy coded. -/
example (env : Stream.Env) (he : Stream.EnvOk env) : ∃ b, read env b = .ok (default, [true]) :=
  let ⟨b, _, h⟩ := C74_round_trip (fun la => List.replicate (2 ^ la) ⟨0, 0, 0, 0, 0⟩) (by simp) default default_fits [ctxLayer] false false ctxLayer_choice
  ⟨b ++ [true], h env he [true]⟩

/-- **C74, any bits.**  From arbitrary bits the decoder either refuses or gets a map within the limits of the format; nothing outside a table is read.
Such a map meets what C49 needs of it. -/
theorem C74_any_bits (env : Stream.Env) (he : Stream.EnvOk env) (s : List Bool) :
    read env s = .bad ∨ ∃ m rest, read env s = .ok (m, rest) ∧ Fits m ∧ AcTokens.Spec.MapOk m.map := by
  have h := read_safe he s
  match hr : read env s with
  | .ub => rw [hr] at h; exact h.elim
  | .deep => rw [hr] at h; exact h.elim
  | .bad => exact .inl rfl
  | .ok (m, rest) =>
    rw [hr] at h
    have h : Fits m := h
    refine .inr ⟨m, rest, rfl, h, ⟨?_, h.entries⟩⟩
    rw [h.size, Nat.mul_assoc, Nat.mul_comm m.map.numDcCtxs]

/-- The single bit of the default map is accepted. -/
example (env : Stream.Env) : read env [true, false] = .ok (default, [false]) := rfl

/-- **C74, lookup.**  With a map within the limits, for all DC values of a block, all values of the quantisation, every order and channel, the number kept for
the DC values fits its byte and the entry looked up is one of at most 16 contexts. -/
theorem C74_lookup (m : Ctx) (hm : Fits m) (x y b : Int) (qf ord c : Nat) (ho : ord < 13) :
    bucket m x y b < 64 ∧ ∃ k, m.map.context (bucket m x y b) qf ord c = .ok k ∧ k < m.map.numCtxs ∧ k < 16 := by
  have hb := (bucket_eq hm x y b).2
  have h64 : m.map.numDcCtxs ≤ 64 := Nat.le_trans (Nat.le_mul_of_pos_right _ (by omega)) hm.combinations
  have hmap : AcTokens.Spec.MapOk m.map := ⟨by rw [hm.size, Nat.mul_assoc, Nat.mul_comm m.map.numDcCtxs], hm.entries⟩
  have hq : (m.map.qfThresholds.filter fun t => decide (qf > t)).length < m.map.qfThresholds.length + 1 :=
    Nat.lt_succ_of_le (List.length_filter_le _ _)
  have hi := digit_lt (digit_lt (digit_lt (channel_lt (c := c)) ho) hq) hb
  rw [← hmap.size] at hi
  have hk := List.getElem?_eq_getElem hi
  have he := hm.entries _ (List.mem_of_getElem? hk)
  have h16 := hm.contexts
  refine ⟨by omega, _, ?_, he, by omega⟩
  · unfold BlockCtxMap.context AcTokens.get
    dsimp only
    rw [hk]

example : (match ctxExample.map.context (bucket ctxExample (-39999) 5 5) 8 3 2 with | .ok k => k == (29 * 3 + 1) * 2 % 7 + 1 | _ => false) = true := by
  decide +kernel

/-- **C74, all distinctions.**  For all thresholds within the limits and every wish which context a block gets, depending on channel, order, and the intervals of
its quantisation and its three DC values, there is a map that looks up exactly that: blocks that differ in any of these never share an entry. -/
theorem C74_any_assignment (tx ty tb : List Int) (tq : List Nat) (h64 : (tx.length + 1) * (ty.length + 1) * (tb.length + 1) * (tq.length + 1) ≤ 64)
    (f : Nat → Nat → Nat → Nat → Nat → Nat → Nat) :
    ∃ entries : List Nat, entries.length = 39 * ((tx.length + 1) * (ty.length + 1) * (tb.length + 1) * (tq.length + 1)) ∧
      ∀ (numCtxs : Nat) (x y b : Int) (qf ord c : Nat), ord < 13 → c < 3 →
        let m : Ctx := ⟨tx, ty, tb, ⟨tq, entries, numCtxs, (tx.length + 1) * (ty.length + 1) * (tb.length + 1)⟩⟩
        m.map.context (bucket m x y b) qf ord c = .ok (f c ord (tq.countP (· < qf)) (interval tx x) (interval ty y) (interval tb b)) := by
  refine ⟨(List.range (39 * ((tx.length + 1) * (ty.length + 1) * (tb.length + 1) * (tq.length + 1)))).map
    (entry (tx.length + 1) (ty.length + 1) (tb.length + 1) (tq.length + 1) f), by simp, fun numCtxs x y b qf ord c ho hc => ?_⟩
  have hx := Nat.lt_succ_of_le (interval_le tx x)
  have hy := Nat.lt_succ_of_le (interval_le ty y)
  have hb := Nat.lt_succ_of_le (interval_le tb b)
  have hq : tq.countP (· < qf) < tq.length + 1 := Nat.lt_succ_of_le List.countP_le_length
  have hn : (tx.length + 1) * (ty.length + 1) * (tb.length + 1) = (tx.length + 1) * (tb.length + 1) * (ty.length + 1) := by
    rw [Nat.mul_assoc, Nat.mul_comm (ty.length + 1), ← Nat.mul_assoc]
  have hdc := digit_lt (digit_lt hx hb) hy
  simp only [Nat.succ_eq_add_one] at hx hy hb hdc
  have hle : (tx.length + 1) * (ty.length + 1) * (tb.length + 1) ≤ 64 := Nat.le_trans (Nat.le_mul_of_pos_right _ (by omega)) h64
  have hi := digit_lt (digit_lt (digit_lt (channel_lt (c := c)) ho) hq) hdc
  have hlen : 3 * 13 * (tq.length + 1) * ((tx.length + 1) * (tb.length + 1) * (ty.length + 1)) =
      39 * ((tx.length + 1) * (ty.length + 1) * (tb.length + 1) * (tq.length + 1)) := by
    rw [hn, Nat.mul_assoc, Nat.mul_comm (tq.length + 1)]
  rw [hlen] at hi
  have hf : (tq.filter fun t => decide (qf > t)).length = tq.countP (· < qf) := by rw [List.countP_eq_length_filter]
  have hbk : ∀ entries, bucket ⟨tx, ty, tb, ⟨tq, entries, numCtxs, (tx.length + 1) * (ty.length + 1) * (tb.length + 1)⟩⟩ x y b =
      (interval tx x * (tb.length + 1) + interval tb b) * (ty.length + 1) + interval ty y := by
    intro entries
    unfold bucket
    dsimp only
    split
    · rw [hn] at *; omega
    · simp only [above_interval]
      rw [Nat.mod_eq_of_lt (by rw [hn] at hle; omega)]
  dsimp only
  rw [hbk]
  unfold BlockCtxMap.context AcTokens.get
  dsimp only
  rw [hf]
  have e : ∀ {k : Nat} (_ : k < 39 * ((tx.length + 1) * (ty.length + 1) * (tb.length + 1) * (tq.length + 1))),
      ((List.range (39 * ((tx.length + 1) * (ty.length + 1) * (tb.length + 1) * (tq.length + 1)))).map
        (entry (tx.length + 1) (ty.length + 1) (tb.length + 1) (tq.length + 1) f))[k]? =
      some (entry (tx.length + 1) (ty.length + 1) (tb.length + 1) (tq.length + 1) f k) := by
    intro k hk
    rw [List.getElem?_map, List.getElem?_range hk]; rfl
  rw [hn] at e hi ⊢
  rw [e hi, entry_index f hc ho hq hx hy hb]

/-- Three thresholds in the first channel, one in the others, three of the quantisation: the limit is met. -/
example : (3 + 1) * (1 + 1) * (1 + 1) * (3 + 1) ≤ 64 := by decide

/-- **C74, the default map.**  The encoder has a form of one bit for the default map, but uses it for no map within the limits, not even for the default map
itself, because it compares the number of entries with 21 and there are at least 39. -/
theorem C74_default_written_in_full (mem : Nat → List Alias.Entry) (m : Ctx) (hm : Fits m) (layers : List Stream.Layer) (useMtf simple : Bool) :
    write mem layers useMtf simple m ≠ some [true] ∧ Fits default ∧ ∀ env rest, read env (true :: rest) = .ok (default, rest) := by
  refine ⟨?_, default_fits, fun _ _ => rfl⟩
  rw [write, not_default hm, if_neg (by decide)]
  intro h
  simp only [Option.bind_eq_bind, Option.bind_eq_some_iff] at h
  obtain ⟨x, _, y, _, b, _, q, _, c, _, h⟩ := h
  injection h with h
  simp [bitsOf] at h

example : Fits default ∧ Fits ctxExample := ⟨default_fits, ctxExample_fits⟩

end Jxl.Props
