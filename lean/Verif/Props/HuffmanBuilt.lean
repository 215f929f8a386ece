import Verif.Lemmas.HuffmanSmall
import Verif.Props.Huffman
import Verif.Props.HuffmanSimple
/-!
# C54: prefix codes chosen by the encoder are read back by the decoder
-/
namespace Jxl.Props
open Jxl.Huffman

/-- Reading `readSymbols` from a table that decodes a canonical code. -/
theorem decode_words {lens : List Nat} (h : Prefix.Complete lens) {t : List Entry}
    (ht : ∀ s : List Bool, ∃ (y l : Nat), lens[y]? = some l ∧ 0 < l ∧ (s ++ List.replicate 15 false).take l = Prefix.word lens y ∧
      readSymbol t s = some (y, s.drop l)) (rest : List Bool) : ∀ syms : List Nat, (∀ y ∈ syms, lens.getD y 0 ≠ 0) →
    readSymbols t syms.length (syms.flatMap (fun y => bitsOf (lens.getD y 0) ((symbols lens).getD y 0)) ++ rest) = some (syms, rest) := by
  intro syms
  induction syms with
  | nil => intro _; rfl
  | cons y ys ih =>
    intro hs
    have hy0 := hs y (by simp)
    have hy : lens[y]? = some (lens.getD y 0) := by
      rw [List.getD_eq_getElem?_getD, List.getElem?_eq_getElem (getD_ne_lt hy0)]; rfl
    obtain ⟨b, hb1, hb2⟩ := C15_encoder_writes_canonical_words lens h.1 hy (by omega)
    have hw : bitsOf (lens.getD y 0) ((symbols lens).getD y 0) = Prefix.word lens y := by
      rw [List.getD_eq_getElem?_getD (l := symbols lens), hb1]; exact hb2
    have hwl := word_length lens hy
    have ih' := ih fun z hz => hs z (by simp [hz])
    generalize hr : ys.flatMap (fun y => bitsOf (lens.getD y 0) ((symbols lens).getD y 0)) ++ rest = s at ih'
    rw [List.flatMap_cons, hw, List.append_assoc, hr]
    obtain ⟨z, m, hz, hm, h5, h6⟩ := ht (Prefix.word lens y ++ s)
    have hzy : z = y := C15_words_prefix_free lens h hz hy hm (by omega) _ h5 (by
      rw [List.append_assoc, List.take_left' hwl])
    subst hzy
    rw [hy] at hz; injection hz with hz; subst hz
    rw [List.drop_left' hwl] at h6
    show (readSymbol _ _).bind _ = _
    rw [h6, Option.bind_some, ih']; rfl

theorem decode_single {t : List Entry} {y : Nat} (ht : ∀ s, readSymbol t s = some (y, s)) (rest : List Bool) : ∀ syms : List Nat,
    (∀ z ∈ syms, z = y) → readSymbols t syms.length rest = some (syms, rest) := by
  intro syms
  induction syms with
  | nil => intro _; rfl
  | cons z zs ih =>
    intro h
    show (readSymbol _ _).bind _ = _
    rw [ht, Option.bind_some, ih fun a ha => h a (by simp [ha]), h z (by simp)]; rfl

theorem usedSyms_length (data : List Nat) : (usedSyms data).length = data.countP (· ≠ 0) := by
  have : data = (List.range data.length).map fun i => data.getD i 0 := by
    refine List.ext_getElem (by simp) fun i h1 h2 => ?_
    rw [List.getElem_map, List.getElem_range, List.getD_eq_getElem?_getD, List.getElem?_eq_getElem h1]; rfl
  conv => rhs; rw [this]
  rw [List.countP_map, List.countP_eq_length_filter]
  rfl

/-- The header of a simple code as `StoreSimpleHuffmanTree` lays it out. -/
theorem simpleHeader_of {n w : Nat} {syms : List Nat} (h1 : 1 ≤ syms.length) (h4 : syms.length ≤ 4) (hlt : ∀ y ∈ syms, y < n) (hw : n ≤ 2 ^ w)
    (hnd : syms.Nodup) (skew : Bool) (hsk : skew = true → syms.length = 4) (rest : List Bool) :
    SimpleHeader n w (bitsOf 2 (syms.length - 1) ++ (syms.flatMap (bitsOf w) ++ ((if syms.length = 4 then bitsOf 1 skew.toNat else []) ++ rest)))
      syms skew rest := by
  have hfl : ∀ l : List Nat, (l.flatMap (bitsOf w)).length = w * l.length := by
    intro l
    induction l with
    | nil => rfl
    | cons a l ih => rw [List.flatMap_cons, List.length_append, ih, bitsOf_length, List.length_cons, Nat.mul_succ]; omega
  have hdrop : ∀ s : List Bool, (bitsOf 2 (syms.length - 1) ++ s).drop 2 = s := fun s => List.drop_left' (by simp)
  refine ⟨?_, ?_, ?_, ?_, hlt, hnd⟩
  · rw [List.take_left' (by simp), ofBits_bitsOf_lt (by omega)]; omega
  · intro i y hi
    obtain ⟨hil, hiy⟩ := List.getElem?_eq_some_iff.mp hi
    have hsplit : syms = syms.take i ++ y :: syms.drop (i + 1) := by
      rw [← hiy, List.getElem_cons_drop, List.take_append_drop]
    have hyw : y < 2 ^ w := by
      have := hlt y (List.mem_of_getElem? hi); omega
    rw [← List.drop_drop, hdrop]
    generalize (if syms.length = 4 then bitsOf 1 skew.toNat else []) ++ rest = tail
    rw [hsplit, List.flatMap_append, List.flatMap_cons, List.append_assoc, List.append_assoc, List.drop_left' (by rw [hfl, List.length_take]; congr 1; omega),
      List.take_left' (by simp), ofBits_bitsOf_lt hyw]
  · by_cases h : syms.length = 4
    · rw [h, if_pos rfl, ← List.drop_drop, ← h, hdrop, ← List.append_assoc, List.append_assoc, List.drop_left' (by rw [hfl])]
      cases skew <;> simp [bitsOf]
    · have : skew = false := by cases skew <;> simp_all
      subst this; simp [h]
  · by_cases h : syms.length = 4
    · rw [if_pos h, if_pos h, Nat.add_assoc, ← List.drop_drop, hdrop, ← List.drop_drop, List.drop_left' (by rw [hfl]), List.drop_left' (by simp)]
    · rw [if_neg h, if_neg h, Nat.add_zero, List.nil_append, ← List.drop_drop, hdrop, List.drop_left' (by rw [hfl])]

theorem bitWidth_spec (n : Nat) (hn : 1 ≤ n) : n ≤ 2 ^ bitWidth (n - 1) ∧ ∀ v, n ≤ 2 ^ v → bitWidth (n - 1) ≤ v := by
  have : bitWidth (n - 1) = maxBits n := by
    unfold bitWidth maxBits
    by_cases h : n > 1
    · rw [if_pos h, if_neg (by omega)]
    · rw [if_neg h, if_pos (by omega)]
  rw [this]
  exact maxBits_spec n hn

/-- A header with its table. -/
theorem simple_read_back {n : Nat} (hn : 1 ≤ n) (hn2 : n ≤ 2 ^ 15) {syms : List Nat} (h1 : 1 ≤ syms.length) (h4 : syms.length ≤ 4) (hlt : ∀ y ∈ syms, y < n)
    (hnd : syms.Nodup) (skew : Bool) (hsk : skew = true → syms.length = 4) (t5 : List Entry) (rest : List Bool) :
    ∃ t, readCode t5 n (bitsOf 2 1 ++ (bitsOf 2 (syms.length - 1) ++ (syms.flatMap (bitsOf (bitWidth (n - 1))) ++
      ((if syms.length = 4 then bitsOf 1 skew.toNat else []) ++ rest)))) = some (some (t, rest)) ∧ SimpleTable n syms skew t := by
  obtain ⟨hw, hmin⟩ := bitWidth_spec n hn
  have hh := simpleHeader_of h1 h4 hlt hw hnd skew hsk rest
  generalize hs : bitsOf 2 (syms.length - 1) ++ (syms.flatMap (bitsOf (bitWidth (n - 1))) ++
      ((if syms.length = 4 then bitsOf 1 skew.toNat else []) ++ rest)) = s at hh
  have hc := C15_simple_codes (List.replicate 256 ⟨0, 0⟩) List.length_replicate n _ hn hw hmin s
  obtain ⟨t, ht⟩ := hc.2 syms skew rest hh
  obtain ⟨syms', skew', hh', ht'⟩ := hc.1 t rest ht
  have e1 : syms' = syms := by
    refine List.ext_getElem (by rw [hh'.count, hh.count]) fun i h1 h2 => ?_
    rw [hh'.announced i _ (List.getElem?_eq_getElem h1), hh.announced i _ (List.getElem?_eq_getElem h2)]
  have e2 : skew' = skew := by rw [hh'.shape, hh.shape, e1]
  refine ⟨t, ?_, by rw [← e1, ← e2]; exact ht'⟩
  unfold readCode
  rw [if_neg (by omega), List.take_left' (by simp), if_pos (by decide), List.drop_left' (by simp), ht]

/-- What the decoder must do with a code the encoder has built. -/
def ReadBack (data : List Nat) (b : Built) : Prop :=
  ∀ t5 : List Entry, t5.length = 32 → ∀ s : List Bool, ∃ t, readCode t5 data.length (b.header ++ s) = some (some (t, s)) ∧
    ∀ syms : List Nat, (∀ y ∈ syms, data.getD y 0 ≠ 0) → ∀ rest : List Bool,
      readSymbols t syms.length (syms.flatMap (fun y => bitsOf (b.depth.getD y 0) (b.bits.getD y 0)) ++ rest) = some (syms, rest)

theorem used_of_code {data depth : List Nat} {limit : Nat} (hc : Code data limit depth) (i : Nat) : depth.getD i 0 ≠ 0 ↔ i ∈ usedSyms data := by
  rw [usedSyms_mem]
  constructor
  · intro h
    have hi := getD_ne_lt h
    exact (hc.used i (by rw [← hc.length]; exact hi)).mp h
  · intro h
    exact (hc.used i (getD_ne_lt h)).mpr h

theorem readBack_simple {data depth : List Nat} (hn : 1 ≤ data.length) (hn2 : data.length ≤ 2 ^ 15) (hc : Code data 15 depth)
    (h2 : 2 ≤ (usedSyms data).length) (h4 : (usedSyms data).length ≤ 4) :
    ReadBack data ⟨storeSimple depth (usedSyms data) (bitWidth (data.length - 1)), depth, symbols depth⟩ := by
  have hcomp : Prefix.Complete depth := ⟨hc.small, hc.full⟩
  have hmem := used_of_code hc
  have hnd := usedSyms_nodup data
  have hlt : ∀ y ∈ usedSyms data, y < data.length := fun y hy => getD_ne_lt ((usedSyms_mem _ _).mp hy)
  have hd15 : ∀ y ∈ usedSyms data, 1 ≤ depth.getD y 0 ∧ depth.getD y 0 ≤ 15 := by
    intro y hy
    have h0 := (hmem y).mpr hy
    refine ⟨by omega, hc.small _ ?_⟩
    rw [List.getD_eq_getElem?_getD, List.getElem?_eq_getElem (getD_ne_lt h0)]
    exact List.getElem_mem _
  have hsorted : ∃ s skew, (sortPairs (usedSyms data).length).foldl (sortStep depth) (usedSyms data) = s ∧ s.Perm (usedSyms data) ∧
      (skew = true → s.length = 4) ∧ (s.length = 4 → skew = decide (depth.getD (s.getD 0 0) 0 = 1)) ∧ s.map (fun y => depth.getD y 0) = simpleLens s.length skew := by
    have hw : ∀ s : List Nat, s.Perm (usedSyms data) → (s.map fun y => 2 ^ (15 - depth.getD y 0)).sum = 2 ^ 15 ∧
        ∀ y ∈ s, 1 ≤ depth.getD y 0 ∧ depth.getD y 0 ≤ 15 := by
      intro s hp
      refine ⟨?_, fun y hy => hd15 y (hp.mem_iff.mp hy)⟩
      rw [← weight_used (hp.nodup_iff.mpr hnd) fun i => by rw [hmem, hp.mem_iff]]
      exact hc.full
    generalize usedSyms data = u at *
    match u, h2, h4 with
    | [a, b], _, _ =>
      obtain ⟨a', b', e, p, o⟩ := sort2 depth a b
      obtain ⟨w1, w2⟩ := hw _ p
      have hf := full2 (w2 a' (by simp)) (w2 b' (by simp)) (by simpa using w1)
      refine ⟨[a', b'], false, e, p, by simp, by simp, ?_⟩
      simp only [List.map_cons, List.map_nil, hf.1, hf.2]; rfl
    | [a, b, c], _, _ =>
      obtain ⟨a', b', c', e, p, o, o'⟩ := sort3 depth a b c
      obtain ⟨w1, w2⟩ := hw _ p
      have hf := full3 (w2 a' (by simp)) (w2 b' (by simp)) (w2 c' (by simp)) o o' (by
        simp only [List.map_cons, List.map_nil, List.sum_cons, List.sum_nil] at w1; omega)
      refine ⟨[a', b', c'], false, e, p, by simp, by simp, ?_⟩
      simp only [List.map_cons, List.map_nil, hf.1, hf.2]; rfl
    | [a, b, c, d], _, _ =>
      obtain ⟨a', b', c', d', e, p, o, o', o''⟩ := sort4' depth a b c d
      obtain ⟨w1, w2⟩ := hw _ p
      have hf := full4 (w2 a' (by simp)) (w2 b' (by simp)) (w2 c' (by simp)) (w2 d' (by simp)) o o' o'' (by
        simp only [List.map_cons, List.map_nil, List.sum_cons, List.sum_nil] at w1; omega)
      rcases hf with hf | hf
      · refine ⟨[a', b', c', d'], true, e, p, by simp, fun _ => by rw [List.getD_cons_zero, hf.1]; rfl, ?_⟩
        simp only [List.map_cons, List.map_nil, hf.1, hf.2]; rfl
      · refine ⟨[a', b', c', d'], false, e, p, by simp, fun _ => by rw [List.getD_cons_zero, hf.1]; rfl, ?_⟩
        simp only [List.map_cons, List.map_nil, hf.1, hf.2]; rfl
    | [], h, _ => simp at h
    | [a], h, _ => simp at h
    | _ :: _ :: _ :: _ :: _ :: _, _, h => simp at h
  obtain ⟨s, skew, e, p, k1, k2, k3⟩ := hsorted
  have hsl := p.length_eq
  intro t5 _ rest
  obtain ⟨t, r1, r2⟩ := simple_read_back hn hn2 (syms := s) (by omega) (by omega) (fun y hy => hlt y (p.mem_iff.mp hy)) (p.nodup_iff.mpr hnd) skew k1 t5 rest
  have hhead : storeSimple depth (usedSyms data) (bitWidth (data.length - 1)) ++ rest =
      bitsOf 2 1 ++ (bitsOf 2 (s.length - 1) ++ (s.flatMap (bitsOf (bitWidth (data.length - 1))) ++
      ((if s.length = 4 then bitsOf 1 skew.toNat else []) ++ rest))) := by
    unfold storeSimple
    dsimp only
    rw [e, ← hsl]
    have : (if s.length = 4 then bitsOf 1 (if depth.getD (s.getD 0 0) 0 = 1 then 1 else 0) else []) = if s.length = 4 then bitsOf 1 skew.toNat else [] := by
      by_cases h : s.length = 4
      · rw [if_pos h, if_pos h, k2 h]; split <;> simp_all
      · rw [if_neg h, if_neg h]
    rw [this]; simp only [List.append_assoc]
  rw [hhead]
  refine ⟨t, r1, ?_⟩
  rcases r2 with ⟨y, hy, _⟩ | ⟨_, lens, l1, l2, l3, l4, l5⟩
  · rw [hy] at hsl; simp at hsl; omega
  · have hlens : lens = depth := by
      refine List.ext_getElem? fun i => ?_
      by_cases hi : i < data.length
      · by_cases hs : i ∈ s
        · obtain ⟨j, hj⟩ := List.getElem?_of_mem hs
          rw [l3 j i hj, ← k3, List.getElem?_map, hj, Option.map_some, List.getD_eq_getElem?_getD,
            List.getElem?_eq_getElem (by rw [hc.length]; exact hi)]; rfl
        · rw [l4 i hi hs]
          have h0 : depth.getD i 0 = 0 := Classical.byContradiction fun h => hs (p.mem_iff.mpr ((hmem i).mp h))
          rw [List.getD_eq_getElem?_getD, List.getElem?_eq_getElem (by rw [hc.length]; exact hi), Option.getD_some] at h0
          rw [List.getElem?_eq_getElem (by rw [hc.length]; exact hi), h0]
      · rw [List.getElem?_eq_none (by omega), List.getElem?_eq_none (by rw [hc.length]; omega)]
    rw [hlens] at l5
    intro syms hs rest
    exact decode_words hcomp l5 rest syms fun y hy => (hmem y).mpr ((usedSyms_mem _ _).mpr (hs y hy))

theorem readBack_general {data depth : List Nat} (hn2 : data.length ≤ 2 ^ 15) (hc : Code data 15 depth) :
    ∃ h, storeTree depth = some h ∧ ReadBack data ⟨h, depth, symbols depth⟩ := by
  have hcomp : Prefix.Complete depth := ⟨hc.small, hc.full⟩
  obtain ⟨h, s1, s2⟩ := storeTree_read (by rw [hc.length]; exact hn2) hcomp
  refine ⟨h, s1, fun t5 ht5 s => ?_⟩
  obtain ⟨size, t, b1, b2, _, b4⟩ := C15_table_decodes_canonical_code depth hcomp (by rw [hc.length]; exact hn2)
    (List.replicate (depth.length + 376) ⟨0, 0⟩) (by simp)
  have := s2 t5 ht5 s size t b1 (by omega)
  rw [hc.length] at this
  refine ⟨_, this, fun syms hs rest => ?_⟩
  exact decode_words hcomp b4 rest syms fun y hy => (used_of_code hc y).mpr ((usedSyms_mem _ _).mpr (hs y hy))

/-- **C54.**  Whatever the counts of the symbols — up to `2^15` symbols of which at most 1292 occur, together at most `2^30` times — the
encoder succeeds in building a prefix code and writing its header, without leaving its buffers; the code of at least two symbols that occur is
complete, has words of at most 15 bits and has words exactly for the symbols that occur; the decoder accepts the header whatever
follows, stops right behind it, and with the table it has built decodes every sequence of symbols that occur from the bits the encoder
writes for it, whatever follows. -/
theorem C54_prefix_codes_read_back_partial (data : List Nat) (hn : 1 ≤ data.length) (hn2 : data.length ≤ 2 ^ 15) (hsum : data.sum ≤ 2 ^ 30)
    (hN : data.countP (· ≠ 0) ≤ 1292) :
    ∃ b, buildStore data = some b ∧ b.depth.length = data.length ∧ ReadBack data b ∧
      (2 ≤ data.countP (· ≠ 0) → Prefix.Complete b.depth ∧ ∀ i : Nat, b.depth.getD i 0 ≠ 0 ↔ data.getD i 0 ≠ 0) := by
  rw [← usedSyms_length] at hN ⊢
  unfold buildStore
  dsimp only
  by_cases h1 : (usedSyms data).length ≤ 1
  · rw [if_pos h1]
    refine ⟨_, rfl, by simp, ?_, fun h => by omega⟩
    intro t5 _ s
    have hy : (usedSyms data).getD 0 0 < data.length ∧ ∀ y, data.getD y 0 ≠ 0 → y = (usedSyms data).getD 0 0 := by
      have hm := usedSyms_mem data
      generalize usedSyms data = u at h1 hm
      match u, h1 with
      | [], _ => exact ⟨hn, fun y hy => absurd ((hm y).mpr hy) List.not_mem_nil⟩
      | [a], _ => exact ⟨getD_ne_lt ((hm a).mp (by simp)), fun y hy => by simpa using (hm y).mpr hy⟩
    generalize (usedSyms data).getD 0 0 = y at hy
    obtain ⟨t, r1, r2⟩ := simple_read_back hn hn2 (syms := [y]) (by simp) (by simp) (by simpa using hy.1) (by simp) false (by simp) t5 s
    have hhead : bitsOf 4 1 ++ bitsOf (bitWidth (data.length - 1)) y ++ s = bitsOf 2 1 ++ (bitsOf 2 ([y].length - 1) ++
        ([y].flatMap (bitsOf (bitWidth (data.length - 1))) ++ ((if [y].length = 4 then bitsOf 1 false.toNat else []) ++ s))) := by
      rw [bitsOf_add 2 2]; simp
    dsimp only
    rw [hhead]
    refine ⟨t, r1, fun syms hs rest => ?_⟩
    rcases r2 with ⟨z, hz, ht⟩ | ⟨h2, _⟩
    · injection hz with hz
      subst hz
      have hnil : ∀ l : List Nat, l.flatMap (fun y => bitsOf ((List.replicate data.length 0).getD y 0) ((List.replicate data.length 0).getD y 0)) = [] := by
        intro l
        have h0 : ∀ y, (List.replicate data.length 0).getD y 0 = 0 := by
          intro y; rw [List.getD_eq_getElem?_getD, List.getElem?_replicate]; split <;> rfl
        simp only [h0, bitsOf_zero]
        induction l with
        | nil => rfl
        | cons a l ih => rw [List.flatMap_cons, ih]; rfl
      rw [hnil, List.nil_append]
      exact decode_single ht rest syms fun z hz => hy.2 z (hs z hz)
    · simp at h2
  · rw [if_neg h1]
    generalize hNN : (usedSyms data).length = N at *
    obtain ⟨depth, d1, d2⟩ := createTree_ok (data := data) (limit := 15) hn2 (by omega) (by omega) (by omega) hsum
      (by
        intro lim h
        rw [hNN] at h ⊢
        rw [show 15 + 3 = 18 from rfl, fib_18] at h
        have hm : N * lim ≤ 1292 * lim := Nat.mul_le_mul_right _ hN
        have hm2 : N * (2 * lim + 1) ≤ 1292 * (2 * lim + 1) := Nat.mul_le_mul_right _ hN
        have : sentinel = 4294967295 := rfl
        omega)
      (by
        intro lim h
        rw [hNN] at h
        rw [show 15 + 3 = 18 from rfl, fib_18] at h
        have hm : N * lim ≤ 1292 * lim := Nat.mul_le_mul_right _ hN
        omega)
    rw [d1, Option.bind_some]
    have hfull : Prefix.Complete depth ∧ ∀ i : Nat, depth.getD i 0 ≠ 0 ↔ data.getD i 0 ≠ 0 :=
      ⟨⟨d2.small, d2.full⟩, fun i => by rw [used_of_code d2, usedSyms_mem]⟩
    by_cases h4 : N ≤ 4
    · rw [if_pos h4]
      exact ⟨_, rfl, d2.length, readBack_simple hn hn2 d2 (by omega) (by omega), fun _ => hfull⟩
    · rw [if_neg h4]
      obtain ⟨h, s1, s2⟩ := readBack_general hn2 d2
      rw [s1]
      exact ⟨_, rfl, d2.length, s2, fun _ => hfull⟩

/-! Witnesses: a histogram whose optimal code is deeper than 15 bits (Fibonacci counts), one with more than 50 symbols and long runs, one with
three symbols and one with a single symbol; the last three headers and words are spelt out. -/

def exFib : List Nat := [1, 1, 2, 3, 5, 8, 13, 21, 34, 55, 89, 144, 233, 377, 610, 987, 1597, 2584, 4181, 6765, 10946]

example : 1 ≤ exFib.length ∧ exFib.length ≤ 2 ^ 15 ∧ exFib.sum ≤ 2 ^ 30 ∧ exFib.countP (· ≠ 0) ≤ 1292 ∧ 2 ≤ exFib.countP (· ≠ 0) := by decide

example : createTree exFib 15 = some [10, 10, 11, 11, 10, 9, 9, 8, 8, 7, 7, 6, 6, 5, 5, 4, 4, 3, 3, 2, 2] := by decide +kernel

def exRuns : List Nat := List.replicate 30 3 ++ List.replicate 40 0 ++ [9, 9, 9, 100] ++ List.replicate 20 1

example : 1 ≤ exRuns.length ∧ exRuns.length ≤ 2 ^ 15 ∧ exRuns.sum ≤ 2 ^ 30 ∧ exRuns.countP (· ≠ 0) ≤ 1292 := by decide

example : (createTree exRuns 15).map writeTree = some [(6, 0), (16, 1), (16, 0), (7, 0), (16, 2), (16, 2), (17, 3), (17, 5), (5, 0), (5, 0), (5, 0), (1, 0),
    (8, 0), (16, 3), (16, 0)] := by decide +kernel

example : (buildStore [0, 7, 1, 0, 2]).map (fun b => (b.header.map Bool.toNat, b.depth, b.bits)) =
    some ([1, 0, 0, 1, 1, 0, 0, 0, 1, 0, 0, 0, 1], [0, 1, 2, 0, 2], [0, 0, 1, 0, 3]) := by decide +kernel

example : (buildStore [0, 7, 0, 0, 0]).map (fun b => (b.header.map Bool.toNat, b.depth, b.bits)) =
    some ([1, 0, 0, 0, 1, 0, 0], [0, 0, 0, 0, 0], [0, 0, 0, 0, 0]) := by decide +kernel

end Jxl.Props
