import Verif.Spec.EntropyStream
import Verif.Props.Ans
import Verif.Props.HuffmanBuilt
/-!
# One cluster of an entropy-coded stream: what the encoder stores is read back, and its symbols too
-/
namespace Jxl.Alias

theorem popZeros_last (d : List Nat) (h : 0 < (popZeros d).length) : (popZeros d).getD ((popZeros d).length - 1) 0 ≠ 0 := by
  unfold popZeros at *
  generalize hl : d.reverse.dropWhile (· == 0) = l at *
  match l, h with
  | [], h => simp at h
  | a :: l, _ =>
    have ha : (a == 0) = false := by
      have := List.head_dropWhile_not (· == 0) (l := d.reverse) (by rw [hl]; simp)
      simpa [hl] using this
    rw [List.getD_eq_getElem?_getD, List.length_reverse, List.length_cons, List.reverse_cons, Nat.add_sub_cancel]
    rw [List.getElem?_append_right (by simp)]
    simpa using ha

theorem popZeros_congr {a b : List Nat} (h : ∀ i, a.getD i 0 = b.getD i 0) : popZeros a = popZeros b := by
  have hg : ∀ i, (popZeros a).getD i 0 = (popZeros b).getD i 0 := fun i => by rw [popZeros_getD, popZeros_getD, h]
  have hlen : (popZeros a).length = (popZeros b).length := by
    have key : ∀ x y : List Nat, (∀ i, (popZeros x).getD i 0 = (popZeros y).getD i 0) → ¬ (popZeros x).length < (popZeros y).length := by
      intro x y hxy hlt
      refine popZeros_last y (by omega) ?_
      rw [← hxy, List.getD_eq_getElem?_getD, List.getElem?_eq_none (by omega)]; rfl
    have h1 := key a b hg
    have h2 := key b a fun i => (hg i).symm
    omega
  refine List.ext_getElem hlen fun i h1 h2 => ?_
  have := hg i
  rw [List.getD_eq_getElem?_getD, List.getD_eq_getElem?_getD, List.getElem?_eq_getElem h1, List.getElem?_eq_getElem h2] at this
  exact this

theorem initTable_congr {a b : List Nat} (h : ∀ i, a.getD i 0 = b.getD i 0) (la : Nat) (m : List Entry) : initTable a la m = initTable b la m := by
  unfold initTable
  rw [popZeros_congr h]

end Jxl.Alias

namespace Jxl.Stream
open Ans (Info)

theorem ok_bind {α β : Type} (a : α) (f : α → Out β) : (Out.ok a >>= f) = f a := rfl
theorem bad_bind {α β : Type} (f : α → Out β) : ((Out.bad : Out α) >>= f) = .bad := rfl
theorem chk_some {α : Type} (a : α) : chk (some a) = .ok a := rfl
theorem chk_none {α : Type} : chk (none : Option α) = .bad := rfl
theorem req_some {α : Type} (a : α) : req (some a) = .ok a := rfl

theorem getD_take (l : List Nat) (n i : Nat) (h : ∀ j, n ≤ j → l.getD j 0 = 0) : (l.take n).getD i 0 = l.getD i 0 := by
  by_cases hi : i < n
  · rw [List.getD_eq_getElem?_getD, List.getD_eq_getElem?_getD, List.getElem?_take_of_lt hi]
  · rw [h i (by omega), List.getD_eq_getElem?_getD, List.getElem?_eq_none (by rw [List.length_take]; omega)]; rfl

/-- Encoder and decoder tables of one cluster fit together, for the symbols of positive weight. -/
def AnsFits (la : Nat) (f : Nat → Nat) (info : List Info) (table : List Alias.Entry) : Prop :=
  ∀ y, 0 < f y → y < 2 ^ la ∧ ∃ i, info[y]? = some i ∧ ∀ x, 2 ^ 16 ≤ x ∧ x < 2 ^ 32 →
    ∃ b n x', Ans.putSymbol x i = some (b, n, x') ∧ b < 2 ^ n ∧ n ≤ 16 ∧ 2 ^ 16 ≤ x' ∧ x' < 2 ^ 32 ∧
      ∀ rest, Ans.readSymbol table la x' (bitsOf n b ++ rest) = some (y, x, rest)

@[inherit_doc AnsFits]
def HuffFits (f : Nat → Nat) (info : List (Nat × Nat)) (table : List Huffman.Entry) : Prop :=
  ∀ y, 0 < f y → y < 2 ^ 15 ∧ ∃ depth word, info[y]? = some (depth, word) ∧ depth ≤ 15 ∧ word < 2 ^ depth ∧
    ∀ rest, Huffman.readSymbol table (bitsOf depth word ++ rest) = some (y, rest)

theorem storable_beyond {h : Histo.Hist} (hh : Props.Storable h) (s : Nat) (hs : h.size ≤ s) : h.counts.getD s 0 = 0 := by
  cases hh with
  | flat h0 h1 h2 h3 =>
    rw [h3 s, List.getD_eq_getElem?_getD, List.getElem?_eq_none (by simp [Histo.flat]; omega)]; rfl
  | single h0 h1 h2 h3 h4 h5 => exact h5 s (by omega)
  | pair h0 h1 h2 h3 h4 h5 h6 h7 => exact h7 s (by omega) (by omega)
  | general hg => exact hg.beyond s hs

theorem storeAns_fits {h : Histo.Hist} (hh : Props.Storable h) {la : Nat} (hla : 5 ≤ la ∧ la ≤ 8) (hsz : h.size ≤ 2 ^ la) {mem : List Alias.Entry}
    (hm : mem.length = 2 ^ la) :
    ∃ bits info, storeAns mem la h = some (bits, info) ∧ ∀ mem' : List Alias.Entry, mem'.length = 2 ^ la → ∀ rest,
      ∃ c table, Histo.read (bits ++ rest) = some (c, rest) ∧ c.length ≤ 2 ^ la ∧ Alias.initTable c la mem' = some table ∧
        AnsFits la (fun y => h.counts.getD y 0) info table := by
  have hbey := storable_beyond hh
  have htake : ∀ i, (h.counts.take h.size).getD i 0 = h.counts.getD i 0 := fun i => getD_take _ _ i hbey
  obtain ⟨bits, c0, e1, e2, e3, e4⟩ := Props.C13_round_trip hh []
  have hsum0 := Props.C13_accepted_is_normalised e2
  have hsum : (h.counts.take h.size).sum = 4096 := by
    rw [← hsum0]
    exact (Histo.sum_congr_getD _ _ fun i => by rw [htake, e3 i])
  have hne : h.counts.take h.size ≠ [] := by intro e; rw [e] at hsum; simp at hsum
  have heff : Ans.eff (h.counts.take h.size) = h.counts.take h.size := by rw [Ans.eff, if_neg hne]
  have hlen : (h.counts.take h.size).length ≤ 2 ^ la := by rw [List.length_take]; omega
  obtain ⟨T, I, t1, t2, t3⟩ := Ans.tables_spec (h.counts.take h.size) la mem hla (by rw [heff]; exact hsum) hlen hm
  refine ⟨bits, I, ?_, fun mem' hm' rest => ?_⟩
  · unfold storeAns
    rw [t1, Option.bind_eq_bind, Option.bind_some, t2, Option.bind_eq_bind, Option.bind_some, e1]; rfl
  · obtain ⟨bits', c, g1, g2, g3, g4⟩ := Props.C13_round_trip hh rest
    rw [e1] at g1
    obtain rfl := Option.some.inj g1
    refine ⟨c, T, g2, by omega, ?_, ?_⟩
    · rw [Alias.initTable_congr (b := h.counts.take h.size) (fun i => by rw [htake, g3 i]),
        Props.C11_deterministic (h.counts.take h.size) la mem' mem hla hsum hlen hm' hm, t1]
    · intro y hy
      dsimp only at hy
      rw [heff] at t3
      have hy' : 0 < (h.counts.take h.size).getD y 0 := by rw [htake]; exact hy
      obtain ⟨s1, i, R, s2, s3, s4⟩ := t3 y hy'
      refine ⟨?_, i, s2, fun x hx => ?_⟩
      · rcases Nat.lt_or_ge y h.size with h' | h'
        · omega
        · have := hbey y h'; omega
      · obtain ⟨b, n, x', p1, p2, p3, p4, p5, p6⟩ := Ans.put_read x _ y i R T la hx hy' s1 s3 s4
        exact ⟨b, n, x', p1, p3, by omega, p4, p5, p6⟩

theorem symbols_lt (lens : List Nat) {y l : Nat} (hy : lens[y]? = some l) (hl : 0 < l) : (Huffman.symbols lens).getD y 0 < 2 ^ l := by
  rw [List.getD_eq_getElem?_getD, Huffman.symbols, Huffman.symbolsGo_spec lens _ y l hy hl, Option.getD_some, Huffman.reverseBits_eq _ _ hl]
  exact Huffman.rev_lt _ _

theorem buildStore_shape {data : List Nat} {b : Huffman.Built} (h : Huffman.buildStore data = some b) :
    b.depth = List.replicate data.length 0 ∨ b.bits = Huffman.symbols b.depth := by
  unfold Huffman.buildStore at h
  dsimp only at h
  split at h
  · injection h with h; subst h; exact Or.inl rfl
  · obtain ⟨d, _, h⟩ := Option.bind_eq_some_iff.mp h
    split at h
    · injection h with h; subst h; exact Or.inr rfl
    · obtain ⟨x, _, h⟩ := Option.map_eq_some_iff.mp h
      subst h; exact Or.inr rfl

theorem readSymbol_zero (s : List Bool) : Huffman.readSymbol (List.replicate 256 ⟨0, 0⟩) s = some (0, s) := by
  unfold Huffman.readSymbol
  have hlt : ofBits (s.take 8) < 256 := by
    have := ofBits_lt (s.take 8)
    have h2 : 2 ^ (s.take 8).length ≤ 2 ^ 8 := Nat.pow_le_pow_right (by omega) (by rw [List.length_take]; omega)
    omega
  rw [List.getElem?_replicate, if_pos hlt]
  rfl

theorem storeHuff_fits {counts : List Nat} (h1 : counts.length ≤ 2 ^ 15) (h2 : counts.sum ≤ 2 ^ 30) (h3 : counts.countP (· ≠ 0) ≤ 1292) :
    ∃ bits info, storeHuff counts = some (bits, info) ∧ ∀ env : Env, env.t5.length = 32 → ∀ rest,
      ∃ table, readHuffTable env (max 1 counts.length) (bits ++ rest) = .ok (table, rest) ∧ HuffFits (fun y => counts.getD y 0) info table := by
  by_cases hl : counts.length ≤ 1
  · refine ⟨_, _, by rw [storeHuff, if_pos hl], fun env _ rest => ⟨_, by rw [readHuffTable, if_neg (by omega)]; rfl, fun y hy => ?_⟩⟩
    dsimp only at hy
    have hy1 : y < counts.length := by
      rcases Nat.lt_or_ge y counts.length with h | h
      · exact h
      · rw [List.getD_eq_getElem?_getD, List.getElem?_eq_none h] at hy; exact absurd hy (by simp)
    have hy0 : y = 0 := by omega
    subst hy0
    refine ⟨by omega, 0, 0, ?_, by omega, by omega, fun rest => ?_⟩
    · rw [List.getElem?_replicate, if_pos hy1]
    · rw [bitsOf_zero, List.nil_append]; exact readSymbol_zero rest
  · obtain ⟨b, e1, e2, e3, e4⟩ := Props.C54_prefix_codes_read_back_partial counts (by omega) h1 h2 h3
    refine ⟨_, _, by rw [storeHuff, if_neg hl, e1]; rfl, fun env henv rest => ?_⟩
    obtain ⟨t, t1, t2⟩ := e3 env.t5 henv rest
    refine ⟨t, ?_, fun y hy => ?_⟩
    · rw [readHuffTable, if_pos (by omega), show max 1 counts.length = counts.length by omega, t1]; rfl
    · dsimp only at hy
      have hyl : y < counts.length := Huffman.getD_ne_lt (by omega)
      have hd : b.depth[y]? = some (b.depth.getD y 0) := by
        rw [List.getD_eq_getElem?_getD, List.getElem?_eq_getElem (by omega)]; rfl
      have hread : ∀ rest, Huffman.readSymbol t (bitsOf (b.depth.getD y 0) (b.bits.getD y 0) ++ rest) = some (y, rest) := by
        intro rest
        have := t2 [y] (by intro z hz; simp only [List.mem_singleton] at hz; subst hz; omega) rest
        rw [List.flatMap_cons, List.flatMap_nil, List.append_nil] at this
        change (Huffman.readSymbol _ _).bind _ = _ at this
        obtain ⟨r, r1, r2⟩ := Option.bind_eq_some_iff.mp this
        obtain ⟨z, w⟩ := r
        rw [r1]
        simp only [Props.readSymbols, Option.map_some, Option.some.injEq, Prod.mk.injEq, List.cons.injEq, and_true] at r2
        rw [r2.1, r2.2]
      refine ⟨by omega, b.depth.getD y 0, if b.depth.getD y 0 = 0 then 0 else b.bits.getD y 0, ?_, ?_, ?_, ?_⟩
      · rw [List.getElem?_map, List.getElem?_range hyl]; rfl
      · by_cases hu : 2 ≤ counts.countP (· ≠ 0)
        · exact (e4 hu).1.1 _ (List.mem_of_getElem? hd)
        · have : b.depth.getD y 0 = 0 := by
            rw [← Props.usedSyms_length] at hu
            unfold Huffman.buildStore at e1
            dsimp only at e1
            rw [if_pos (by omega)] at e1
            injection e1 with e1
            rw [← e1, List.getD_eq_getElem?_getD, List.getElem?_replicate]; split <;> rfl
          omega
      · split
        · exact Nat.two_pow_pos _
        · rename_i h0
          rcases buildStore_shape e1 with h | h
          · exfalso; apply h0
            rw [h, List.getD_eq_getElem?_getD, List.getElem?_replicate]; split <;> rfl
          · rw [h]; exact symbols_lt _ hd (by omega)
      · intro rest
        split
        · rename_i h0
          have := hread rest
          rw [h0, bitsOf_zero] at this
          rw [h0, bitsOf_zero]; exact this
        · exact hread rest

end Jxl.Stream
