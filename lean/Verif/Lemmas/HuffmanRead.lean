import Verif.Lemmas.HuffmanBuild
import Verif.Model.HuffmanRead
/-! # Lookup along a bit stream, the words of the encoder, and the reader's checks -/
namespace Jxl.Huffman

/-! ## Words -/

theorem bitsOf_rev (l c : Nat) : bitsOf l (rev l c) = (bitsOf l c).reverse := by
  induction l generalizing c with
  | zero => rfl
  | succ l ih =>
    rw [bitsOf_add l 1]
    have hl := rev_lt l (c / 2)
    have e0 : rev (l + 1) c = (c % 2) * 2 ^ l + rev l (c / 2) := rfl
    have e1 : bitsOf l (rev (l + 1) c) = (bitsOf l (c / 2)).reverse := by
      rw [← bitsOf_mod, e0, Nat.mul_comm, Nat.mul_add_mod, Nat.mod_eq_of_lt hl, ih]
    have e2 : rev (l + 1) c / 2 ^ l = c % 2 := by
      rw [e0, Nat.mul_comm, Nat.mul_add_div (Nat.two_pow_pos l), Nat.div_eq_of_lt hl]; omega
    rw [e1, e2]
    simp [bitsOf]

theorem word_eq (lens : List Nat) {s l : Nat} (hs : lens[s]? = some l) (h15 : l ≤ 15) :
    Prefix.word lens s = bitsOf l (rev l (code (hist lens) l ((lens.take s).count l))) := by
  have hg : lens.getD s 0 = l := by rw [List.getD_eq_getElem?_getD, hs]; rfl
  rw [bitsOf_rev, Prefix.word, hg]
  congr 2
  rw [Prefix.position, hg, ← base_eq_weight]
  have : base (hist lens) l + (lens.take s).count l * 2 ^ (15 - l) =
      pos (hist lens) l ((lens.take s).count l) := rfl
  rw [this, pos_eq _ h15, Nat.mul_div_cancel _ (Nat.two_pow_pos _)]

theorem word_length (lens : List Nat) {s l : Nat} (hs : lens[s]? = some l) :
    (Prefix.word lens s).length = l := by
  rw [Prefix.word, List.length_reverse, bitsOf_length, List.getD_eq_getElem?_getD, hs]; rfl

/-- A stream (with zeros past its end) begins with a word exactly if its leading bits are the word's bits. -/
theorem starts_iff (lens : List Nat) {y l : Nat} (hy : lens[y]? = some l) (h15 : l ≤ 15) (s : List Bool) :
    (s ++ List.replicate 15 false).take l = Prefix.word lens y ↔
      ofBits s % 2 ^ l = rev l (code (hist lens) l ((lens.take y).count l)) := by
  have hx : ofBits ((s ++ List.replicate 15 false).take l) = ofBits s % 2 ^ l := by
    rw [ofBits_take, ofBits_append, ofBits_replicate_false, Nat.mul_zero, Nat.add_zero]
  have hlen : ((s ++ List.replicate 15 false).take l).length = l := by
    rw [List.length_take, List.length_append, List.length_replicate]; omega
  have hrl := rev_lt l (code (hist lens) l ((lens.take y).count l))
  constructor
  · intro h
    rw [← hx, h, word_eq lens hy h15, ofBits_bitsOf_lt hrl]
  · intro h
    have := bitsOf_ofBits ((s ++ List.replicate 15 false).take l)
    rw [hlen, hx, h] at this
    rw [← this, word_eq lens hy h15]

/-- A lookup in the finished table. -/
theorem read_found {symAt : Nat → Nat → Nat} {total : Nat} {t : List Entry} {l k : Nat} {s : List Bool}
    (htot : 2 ^ 8 ≤ total)
    (h : Found symAt 8 total t l k (ofBits s)) : readSymbol (t.take total) s = some (symAt l k, s.drop l) := by
  have hx : ofBits (s.take 8) = ofBits s % 2 ^ 8 := ofBits_take s 8
  have hlt : ofBits s % 2 ^ 8 < 2 ^ 8 := Nat.mod_lt _ (by omega)
  unfold readSymbol
  rw [hx]
  rcases h with ⟨h1, h2⟩ | ⟨h1, st, tb, h2, h3, h4, h5, h6⟩
  · rw [List.getElem?_take_of_lt (by omega), h2, Option.bind_some, if_neg (by simpa using h1)]
  · rw [List.getElem?_take_of_lt (by omega), h2, Option.bind_some]
    rw [if_pos (by show 8 < tb + 8; omega)]
    have hn : ofBits ((s.drop 8).take (tb + 8 - 8)) = ofBits s / 2 ^ 8 % 2 ^ tb := by
      rw [ofBits_take, ofBits_drop, show tb + 8 - 8 = tb by omega]
    have hlt2 : ofBits s / 2 ^ 8 % 2 ^ tb < 2 ^ tb := Nat.mod_lt _ (Nat.two_pow_pos _)
    show (Option.map _ (_[ofBits s % 2 ^ 8 + (st - ofBits s % 2 ^ 8) + ofBits ((s.drop 8).take (tb + 8 - 8))]?)) = _
    rw [hn, show ofBits s % 2 ^ 8 + (st - ofBits s % 2 ^ 8) = st by omega,
      List.getElem?_take_of_lt (by omega), h6]
    simp only [Option.map_some]
    rw [show 8 + (l - 8) = l by omega]

/-! ## `ReverseBits` and the encoder's words -/

theorem lut_rev : ∀ x < 16, lut.getD x 0 = rev 4 x := by decide +kernel

theorem lut_mod (x : Nat) : lut.getD (x % 16) 0 = rev 4 x := by
  rw [lut_rev _ (Nat.mod_lt _ (by omega)), show (16:Nat) = 2 ^ 4 from rfl, rev_mod]

theorem revGo_spec (k : Nat) : ∀ (j bits : Nat) (ret : Nat),
    revGo ret bits k = ret * 2 ^ (4 * k) + rev (4 * k) (bits / 16) := by
  induction k with
  | zero => intro j bits ret; simp [revGo, rev]
  | succ k ih =>
    intro j bits ret
    rw [revGo, ih j, lut_mod]
    rw [show 4 * (k + 1) = 4 + 4 * k by omega, rev_split 4 (4 * k), Nat.pow_add]
    rw [show (2:Nat) ^ 4 = 16 from rfl]
    grind

theorem reverseBits_eq (n c : Nat) (hn : 1 ≤ n) : reverseBits n c = rev n c := by
  unfold reverseBits
  rw [revGo_spec _ 0, lut_mod]
  have e : rev 4 c * 2 ^ (4 * ((n + 3) / 4 - 1)) + rev (4 * ((n + 3) / 4 - 1)) (c / 16) =
      rev (n + (4 - n % 4) % 4) c := by
    rw [show (16:Nat) = 2 ^ 4 from rfl, ← rev_split]
    congr 1; omega
  rw [e, rev_split, Nat.mul_comm, Nat.mul_add_div (Nat.two_pow_pos _), Nat.div_eq_of_lt (rev_lt _ _)]
  omega

theorem first_eq_nextCode (cnt : Nat → Nat) (l : Nat) : first cnt l = nextCode cnt l := by
  induction l with
  | zero => rfl
  | succ l ih => rw [first, nextCode, ih]

theorem symbolsGo_spec (ls : List Nat) : ∀ (next : Nat → Nat) (y l : Nat), ls[y]? = some l → 1 ≤ l →
    (symbolsGo next ls)[y]? = some (reverseBits l (next l + (ls.take y).count l)) := by
  induction ls with
  | nil => intro next y l h; simp at h
  | cons a ls ih =>
    intro next y l h hl
    cases y with
    | zero =>
      simp only [List.getElem?_cons_zero, Option.some.injEq] at h
      subst h
      obtain ⟨a', rfl⟩ : ∃ a', a = a' + 1 := ⟨a - 1, by omega⟩
      simp [symbolsGo]
    | succ y =>
      rw [List.getElem?_cons_succ] at h
      cases a with
      | zero =>
        rw [symbolsGo, List.getElem?_cons_succ, ih next y l h hl, List.take_succ_cons, List.count_cons_of_ne (by omega)]
      | succ a =>
        rw [symbolsGo, List.getElem?_cons_succ, ih _ y l h hl, List.take_succ_cons]
        congr 2
        by_cases e : l = a + 1
        · subst e; simp [List.count_cons_self]; omega
        · simp only [if_neg e]; rw [List.count_cons_of_ne (fun g => e g.symm)]

/-! ## The reader's checks -/

theorem weight_append (a b : List Nat) : Prefix.weight (a ++ b) = Prefix.weight a + Prefix.weight b := by
  induction a with
  | nil => simp [Prefix.weight]
  | cons x a ih => rw [List.cons_append, weight_cons, weight_cons, ih, Nat.add_assoc]

theorem weight_replicate (n l : Nat) :
    Prefix.weight (List.replicate n l) = if l ≠ 0 then n * 2 ^ (15 - l) else 0 := by
  induction n with
  | zero => simp [Prefix.weight]
  | succ n ih => rw [List.replicate_succ, weight_cons, ih]; split <;> grind

structure LsInv (n : Nat) (st : Ls) : Prop where
  len : st.lens.length ≤ n
  small : ∀ l ∈ st.lens, l ≤ 15
  prev : st.prev ≤ 15
  space : st.space = 32768 - (Prefix.weight st.lens : Int)

theorem lit_inv {n v : Nat} {st : Ls} (h : LsInv n st) (hv : v < 16) (hn : st.lens.length < n) :
    LsInv n (lit v st) := by
  refine ⟨?_, ?_, ?_, ?_⟩
  · show (st.lens ++ [v]).length ≤ n; simp; omega
  · intro l hl
    have hl' : l ∈ st.lens ++ [v] := hl
    rcases List.mem_append.mp hl' with h1 | h1
    · exact h.small l h1
    · rw [List.mem_singleton.mp h1]; omega
  · show (if v ≠ 0 then v else st.prev) ≤ 15
    have := h.prev
    split <;> omega
  · show (if v ≠ 0 then st.space - ((32768 / 2 ^ v : Nat) : Int) else st.space) = _ - ((Prefix.weight (st.lens ++ [v]) : Nat) : Int)
    rw [weight_append, weight_cons]
    have hz : Prefix.weight [] = 0 := rfl
    rw [h.space, hz]
    by_cases h0 : v = 0
    · simp [h0]
    · have hp : (32768:Nat) / 2 ^ v = 2 ^ (15 - v) := by
        rw [show (32768:Nat) = 2 ^ (15 - v) * 2 ^ v by rw [← Nat.pow_add, show 15 - v + v = 15 by omega]]
        rw [Nat.mul_div_cancel _ (Nat.two_pow_pos v)]
      rw [if_pos h0, if_pos h0, hp]
      push_cast; omega

theorem repeatCode_inv {n v bits : Nat} {st st' : Ls} (h : LsInv n st) (hr : repeatCode n v bits st = some st') :
    LsInv n st' := by
  unfold repeatCode at hr
  dsimp only at hr
  generalize hd : extend (oldRep v st) (v - 14) bits - oldRep v st = d at hr
  have hnl : newLen v st ≤ 15 := by
    unfold newLen; have := h.prev; split <;> omega
  by_cases hc : st.lens.length + d > n
  · rw [if_pos hc] at hr; cases hr
  · rw [if_neg hc] at hr
    injection hr with hr
    subst hr
    refine ⟨?_, ?_, h.prev, ?_⟩
    · show (st.lens ++ List.replicate d _).length ≤ n
      rw [List.length_append, List.length_replicate]; omega
    · intro l hl
      have hl' : l ∈ st.lens ++ List.replicate d (newLen v st) := hl
      rcases List.mem_append.mp hl' with h1 | h1
      · exact h.small l h1
      · rw [List.eq_of_mem_replicate h1]; exact hnl
    · show (if newLen v st ≠ 0 then st.space - ((d * 2 ^ (15 - newLen v st) : Nat) : Int) else st.space) =
        _ - ((Prefix.weight (st.lens ++ List.replicate d (newLen v st)) : Nat) : Int)
      rw [weight_append, weight_replicate, h.space]
      split
      · push_cast; omega
      · simp

theorem lenGo_accepts (t : List Entry) (n : Nat) (f : Nat) : ∀ (st : Ls) (s : List Bool) (lens : List Nat)
    (rest : List Bool), LsInv n st → lenGo t n f st s = some (some (lens, rest)) →
    lens.length = n ∧ Prefix.Complete lens := by
  induction f with
  | zero =>
    intro st s lens rest h hr
    unfold lenGo at hr
    split at hr
    · cases hr
    · split at hr
      · cases hr
      · rename_i h1 h2
        injection hr with hr; injection hr with hr; injection hr with hr _
        subst hr
        refine ⟨?_, ?_, ?_⟩
        · have := h.len; rw [List.length_append, List.length_replicate]; omega
        · intro l hl
          rcases List.mem_append.mp hl with h3 | h3
          · exact h.small l h3
          · rw [List.eq_of_mem_replicate h3]; omega
        · rw [weight_append, weight_replicate, if_neg (by simp)]
          have := h.space; omega
  | succ f ih =>
    intro st s lens rest h hr
    unfold lenGo at hr
    split at hr
    · rename_i h1
      rw [Option.bind_eq_some_iff] at hr
      obtain ⟨r, hr1, hr2⟩ := hr
      cases r with
      | none => cases hr2
      | some p =>
        obtain ⟨st', s'⟩ := p
        apply ih st' s' lens rest ?_ hr2
        unfold lenStep at hr1
        rw [Option.map_eq_some_iff] at hr1
        obtain ⟨e, _, he⟩ := hr1
        split at he
        · rename_i hv
          injection he with he
          injection he with he _
          rw [← he]; exact lit_inv h hv h1.1
        · rw [Option.map_eq_some_iff] at he
          obtain ⟨st2, hst, he⟩ := he
          injection he with he _
          rw [← he]; exact repeatCode_inv h hst
    · split at hr
      · cases hr
      · rename_i h1 h2
        injection hr with hr; injection hr with hr; injection hr with hr _
        subst hr
        refine ⟨?_, ?_, ?_⟩
        · have := h.len; rw [List.length_append, List.length_replicate]; omega
        · intro l hl
          rcases List.mem_append.mp hl with h3 | h3
          · exact h.small l h3
          · rw [List.eq_of_mem_replicate h3]; omega
        · rw [weight_append, weight_replicate, if_neg (by simp)]
          have := h.space; omega

theorem readLens_accepts {t : List Entry} {cl : List Nat} {n : Nat} {s rest : List Bool} {lens : List Nat}
    (h : readLens t cl n s = some (some (lens, rest))) : lens.length = n ∧ Prefix.Complete lens := by
  unfold readLens at h
  rw [Option.bind_eq_some_iff] at h
  obtain ⟨b, _, h⟩ := h
  split at h
  · cases h
  · exact lenGo_accepts _ n n _ s lens rest ⟨by simp, by simp, by show (8:Nat) ≤ 15; omega, by simp [Prefix.weight]⟩ h

/-! ## The code-length code -/

structure ClInv (todo : List Nat) (c : Cl) : Prop where
  len : c.cl.length = 18
  small : ∀ l ∈ c.cl, l ≤ 5
  zero : ∀ i ∈ todo, c.cl[i]? = some 0
  num : c.num = c.cl.countP (· ≠ 0)
  space : c.space * 1024 = 32768 - (Prefix.weight c.cl : Int)

theorem weight_set (l : List Nat) : ∀ (i v : Nat), l[i]? = some 0 →
    Prefix.weight (l.set i v) = Prefix.weight l + if v ≠ 0 then 2 ^ (15 - v) else 0 := by
  induction l with
  | nil => intro i v h; simp at h
  | cons a l ih =>
    intro i v h
    cases i with
    | zero =>
      simp only [List.getElem?_cons_zero, Option.some.injEq] at h
      subst h
      rw [List.set_cons_zero, weight_cons, weight_cons, if_neg (by omega : ¬ (0:Nat) ≠ 0)]; omega
    | succ i =>
      rw [List.getElem?_cons_succ] at h
      rw [List.set_cons_succ, weight_cons, weight_cons, ih i v h, Nat.add_assoc]

theorem countP_set (l : List Nat) : ∀ (i v : Nat), l[i]? = some 0 →
    (l.set i v).countP (· ≠ 0) = l.countP (· ≠ 0) + if v ≠ 0 then 1 else 0 := by
  induction l with
  | nil => intro i v h; simp at h
  | cons a l ih =>
    intro i v h
    cases i with
    | zero =>
      simp only [List.getElem?_cons_zero, Option.some.injEq] at h
      subst h
      rw [List.set_cons_zero, List.countP_cons, List.countP_cons]; simp
    | succ i =>
      rw [List.getElem?_cons_succ] at h
      rw [List.set_cons_succ, List.countP_cons, List.countP_cons, ih i v h]; omega

theorem clTable_small : ∀ x < 16, (clTable.getD x ⟨0, 0⟩).value ≤ 5 := by decide +kernel

theorem ofBits_take_lt (s : List Bool) (n : Nat) : ofBits (s.take n) < 2 ^ n := by
  rw [ofBits_take]; exact Nat.mod_lt _ (Nat.two_pow_pos n)

theorem clStep_inv {i : Nat} {is : List Nat} {c : Cl} (hnd : (i :: is).Nodup) (h : ClInv (i :: is) c) :
    ClInv is (clStep i c) := by
  have hv := clTable_small (ofBits (c.rest.take 4)) (ofBits_take_lt _ 4)
  generalize he : clTable.getD (ofBits (c.rest.take 4)) ⟨0, 0⟩ = e at hv
  have h0 := h.zero i (by simp)
  have e1 : (clStep i c).cl = c.cl.set i e.value := by rw [← he]; rfl
  have e2 : (clStep i c).space = if e.value ≠ 0 then c.space - ((32 / 2 ^ e.value : Nat) : Int) else c.space := by
    rw [← he]; rfl
  have e3 : (clStep i c).num = if e.value ≠ 0 then c.num + 1 else c.num := by rw [← he]; rfl
  refine ⟨?_, ?_, ?_, ?_, ?_⟩
  · rw [e1, List.length_set, h.len]
  · rw [e1]
    intro l hl
    rcases List.mem_or_eq_of_mem_set hl with h1 | h1
    · exact h.small l h1
    · omega
  · intro j hj
    rw [e1, List.getElem?_set_ne, h.zero j (by simp [hj])]
    intro e; subst e
    exact (List.nodup_cons.mp hnd).1 hj
  · rw [e1, e3, countP_set _ _ _ h0, h.num]; split <;> rfl
  · rw [e1, e2, weight_set _ _ _ h0]
    have := h.space
    by_cases hz : e.value = 0
    · rw [if_neg (by simp [hz]), if_neg (by simp [hz])]; simpa using this
    · rw [if_pos hz, if_pos hz]
      have hp : ((32 / 2 ^ e.value : Nat) : Int) * 1024 = ((2 ^ (15 - e.value) : Nat) : Int) := by
        have : e.value = 1 ∨ e.value = 2 ∨ e.value = 3 ∨ e.value = 4 ∨ e.value = 5 := by omega
        rcases this with h | h | h | h | h <;> rw [h] <;> rfl
      rw [Int.sub_mul, hp, this]
      push_cast; omega

theorem clGo_inv (is : List Nat) : ∀ (c : Cl), is.Nodup → ClInv is c → ClInv [] (clGo is c) := by
  induction is with
  | nil => intro c _ h; exact h
  | cons i is ih =>
    intro c hnd h
    rw [clGo]
    split
    · exact ih _ (List.nodup_cons.mp hnd).2 (clStep_inv hnd h)
    · exact ⟨h.len, h.small, fun i hi => by simp at hi, h.num, h.space⟩

theorem clOrder_nodup : clOrder.Nodup := by decide

theorem clGo_spec (skip : Nat) (s : List Bool) :
    ClInv [] (clGo (clOrder.drop skip) ⟨List.replicate 18 0, 32, 0, s⟩) := by
  apply clGo_inv
  · exact clOrder_nodup.sublist (List.drop_sublist _ _)
  · refine ⟨List.length_replicate, ?_, ?_,
      (by decide : (0:Nat) = (List.replicate 18 0).countP (· ≠ 0)),
      (by decide : (32:Int) * 1024 = 32768 - (Prefix.weight (List.replicate 18 0) : Int))⟩
    · intro l hl; rw [List.eq_of_mem_replicate hl]; omega
    · intro i hi
      have : i ∈ clOrder := List.mem_of_mem_drop hi
      have hlt : i < 18 := by
        have hall : ∀ x ∈ clOrder, x < 18 := by decide
        exact hall i this
      show (List.replicate 18 0)[i]? = some 0
      rw [List.getElem?_replicate, if_pos hlt]

/-- With a single symbol the whole table leads to it without reading a bit. -/
theorem build_single (t : List Entry) (R : Nat) (lens : List Nat) (hlen : lens.length ≤ 2 ^ 15)
    (h15 : ∀ l ∈ lens, l ≤ 15) (h1 : lens.countP (· ≠ 0) = 1) (hroot : 2 ^ R ≤ t.length) :
    ∃ t' y, build t R lens = some (2 ^ R, t') ∧ lens.getD y 0 ≠ 0 ∧ y < lens.length ∧
      ∀ i < 2 ^ R, t'[i]? = some ⟨0, y⟩ := by
  obtain ⟨os, hsort, hinv⟩ := sortGo_spec lens h15 lens [] rfl (offsets (hist lens))
    (List.replicate lens.length 0) ⟨List.length_replicate, fun l _ => by simp, fun s l _ h => by simp at h⟩
  have hsort' : sortGo (offsets (hist lens)) (List.replicate lens.length 0) 0 lens = some os := hsort
  have h16 : offsets (hist lens) 16 = 1 := by
    rw [offsets_eq, ← h1]
    apply List.countP_congr
    intro x hx
    have := h15 x hx
    simp; omega
  have ho15 : os.1 15 = 1 := by
    rw [hinv.off 15 (by omega), ← h16, offsets_succ _ (by omega)]; rfl
  have hpos : 0 < lens.countP (· ≠ 0) := by omega
  obtain ⟨l, hl1, hl2⟩ := List.countP_pos_iff.mp hpos
  have hl0 : l ≠ 0 := by simpa using hl2
  obtain ⟨y, hy⟩ := List.getElem?_of_mem hl1
  have hl15 := h15 l hl1
  have hoff : offsets (hist lens) l + (lens.take y).count l = 0 := by
    have h2 := rank_lt hy
    have h3 := offsets_mono (hist lens) (show l + 1 ≤ 16 by omega)
    rw [offsets_succ _ (by omega), h16] at h3
    have : hist lens l = lens.count l := rfl
    omega
  have hd := hinv.done y l (by omega) hy
  rw [hoff] at hd
  obtain ⟨t', ht1, ht2, ht3, _⟩ := repl_spec t 0 0 0 R ⟨0, y⟩ (by omega) (by omega) (by omega)
  refine ⟨t', y, ?_, ?_, ?_, ?_⟩
  · unfold build
    rw [if_neg (by omega), hsort', Option.bind_some, if_pos ho15, hd, Option.bind_some]
    have ht1' : repl t 0 1 (2 ^ R) ⟨0, y⟩ = some t' := ht1
    rw [ht1']; rfl
  · rw [List.getD_eq_getElem?_getD, hy]; exact hl0
  · exact (List.getElem?_eq_some_iff.mp hy).1
  · intro i hi
    have := ht3 i hi (by simp [Nat.mod_one])
    simpa using this

/-- Whatever bits follow, a lookup in the table of an accepted code-length code finds a stored entry. -/
theorem cl_table_total (t : List Entry) (ht : t.length = 32) {c : Cl} (h : ClInv [] c)
    (hok : c.num = 1 ∨ c.space = 0) :
    ∃ total t', build t 5 c.cl = some (total, t') ∧ total ≠ 0 ∧ ∀ i < 32, ∃ e, t'[i]? = some e ∧ e.value < 18 := by
  have h15 : ∀ l ∈ c.cl, l ≤ 15 := fun l hl => by have := h.small l hl; omega
  by_cases hs : c.num = 1
  · obtain ⟨t', y, h1, h2, h3, h4⟩ := build_single t 5 c.cl (by rw [h.len]; decide) h15 (by rw [← h.num, hs])
      (by rw [ht]; decide)
    exact ⟨_, t', h1, by decide, fun i hi => ⟨_, h4 i hi, by rw [h.len] at h3; exact h3⟩⟩
  · have hsp : c.space = 0 := by
      rcases hok with h | h
      · exact absurd h hs
      · exact h
    have hw : Prefix.weight c.cl = 2 ^ 15 := by
      have := h.space; rw [hsp] at this; omega
    have hcomp : Prefix.Complete c.cl := ⟨h15, hw⟩
    obtain ⟨total, t', symAt, h1, h2, h3, h4, h5, h6⟩ := build_spec t 5 c.cl (by omega) (by omega) hcomp
      (by rw [h.len]; decide) (by rw [ht]; decide) (by rw [ht]; decide) (Or.inr h.small)
    refine ⟨total, t', h1, by omega, fun i hi => ?_⟩
    obtain ⟨l, k, g1, g2, g3, g4⟩ := cover (complete_base hcomp) i
    obtain ⟨y, hy1, hy2⟩ := exists_rank c.cl l k g3
    have hl5 : l ≤ 5 := h.small l (List.mem_of_getElem? hy1)
    rcases h6 l k i g1 g2 g3 g4 with ⟨_, hf⟩ | ⟨hf, _⟩
    · rw [Nat.mod_eq_of_lt (show i < 2 ^ 5 from hi)] at hf
      refine ⟨_, hf, ?_⟩
      show symAt l k < 18
      rw [← hy2, h5 y l g1 hy1]
      have := (List.getElem?_eq_some_iff.mp hy1).1
      rw [h.len] at this; exact this
    · omega

theorem lenGo_defined (t : List Entry) (ht : ∀ i < 32, ∃ e, t[i]? = some e ∧ e.value < 18) (n f : Nat) :
    ∀ st s, lenGo t n f st s ≠ none := by
  induction f with
  | zero =>
    intro st s
    unfold lenGo
    split
    · simp
    · split <;> simp
  | succ f ih =>
    intro st s
    unfold lenGo
    split
    · obtain ⟨e, he, _⟩ := ht (ofBits (s.take 5)) (ofBits_take_lt s 5)
      have : ∃ r, lenStep t n st s = some r := by
        unfold lenStep; rw [he]; exact ⟨_, rfl⟩
      obtain ⟨r, hr⟩ := this
      rw [hr]
      cases r with
      | none => simp
      | some p => exact ih p.1 p.2
    · split <;> simp

theorem readGeneral_defined (t5 : List Entry) (ht : t5.length = 32) (n skip : Nat) (s : List Bool)
    (hn : n ≤ 2 ^ 15) : readGeneral t5 n skip s ≠ none := by
  have hinv := clGo_spec skip s
  unfold readGeneral
  dsimp only
  generalize hc : clGo (clOrder.drop skip) ⟨List.replicate 18 0, 32, 0, s⟩ = c at hinv
  split
  · rename_i hok
    obtain ⟨total, t', h1, h2, h3⟩ := cl_table_total t5 ht hinv hok
    cases hr : readLens t5 c.cl n c.rest with
    | none =>
      exfalso
      unfold readLens at hr
      rw [h1, Option.bind_some, if_neg h2] at hr
      exact lenGo_defined t' h3 n n _ _ hr
    | some r =>
      rw [Option.bind_some]
      cases r with
      | none => simp
      | some p =>
        obtain ⟨lens, s2⟩ := p
        obtain ⟨g1, g2⟩ := readLens_accepts hr
        obtain ⟨tot, t2, _, b1, _⟩ := build_spec (List.replicate (n + 376) ⟨0, 0⟩) 8 lens (by omega) (by omega) g2
          (by omega) (by rw [List.length_replicate]; omega) (by rw [List.length_replicate]; omega)
          (by left; rw [List.length_replicate, g1]; omega)
        dsimp only
        rw [b1]; simp
  · simp

theorem readSimple_defined (t : List Entry) (ht : t.length = 256) (n : Nat) (s : List Bool) :
    readSimple t n s ≠ none := by
  unfold readSimple
  split
  · simp
  · split
    · simp
    · dsimp only
      split
      · simp
      · rename_i log es hes
        have hle : es.length = 2 ^ log ∧ log ≤ 3 := by
          unfold simpleEntries at hes
          split at hes <;> first
            | (injection hes with hes; injection hes with e1 e2; subst e1; subst e2; exact ⟨rfl, by omega⟩)
            | cases hes
        obtain ⟨t', h1, _⟩ := doubleUp_spec (8 - log) log (es ++ t.drop es.length) (by
          rw [show log + (8 - log) = 8 by omega, List.length_append, List.length_drop, ht]; omega)
        rw [h1]; simp

end Jxl.Huffman
