import Verif.Lemmas.HuffmanRuns
/-!
# Storing and reading a general prefix code
-/
namespace Jxl.Huffman

/-! ## The code-length code -/

/-- The bits of one length of the code-length code. -/
def encLen (v : Nat) : List Bool := bitsOf (lenBits.getD v 0) (lenSymbols.getD v 0)

theorem clTable_get : ∀ v < 6, ∀ k < 16, clTable.getD (lenSymbols.getD v 0 + 2 ^ lenBits.getD v 0 * (k % 2 ^ (4 - lenBits.getD v 0))) ⟨0, 0⟩ =
    ⟨lenBits.getD v 0, v⟩ := by decide +kernel

theorem lenSymbols_lt : ∀ v < 6, lenSymbols.getD v 0 < 2 ^ lenBits.getD v 0 ∧ lenBits.getD v 0 ≤ 4 := by decide

theorem encLen_read (v : Nat) (hv : v ≤ 5) (s : List Bool) :
    clTable.getD (ofBits ((encLen v ++ s).take 4)) ⟨0, 0⟩ = ⟨lenBits.getD v 0, v⟩ := by
  obtain ⟨h1, h2⟩ := lenSymbols_lt v (by omega)
  have hl : (encLen v).length = lenBits.getD v 0 := by simp [encLen]
  rw [List.take_append, List.take_of_length_le (by omega), ofBits_append, hl, ofBits_take]
  have hb : ofBits (encLen v) = lenSymbols.getD v 0 := ofBits_bitsOf_lt h1
  rw [hb]
  have hk : ofBits s % 2 ^ (4 - lenBits.getD v 0) = ofBits s % 16 % 2 ^ (4 - lenBits.getD v 0) := by
    rw [Nat.mod_mod_of_dvd]
    exact Nat.pow_dvd_pow 2 (show 4 - lenBits.getD v 0 ≤ 4 by omega)
  rw [hk]
  exact clTable_get v (by omega) _ (Nat.mod_lt _ (by omega))

/-- The share of a length, in units of 1/32. -/
def units (v : Nat) : Nat := if v ≠ 0 then 32 / 2 ^ v else 0

theorem units_pos {v : Nat} (h : v ≠ 0) (h5 : v ≤ 5) : 1 ≤ units v := by
  have : ∀ v < 6, v ≠ 0 → 1 ≤ units v := by decide
  exact this v (by omega) h

theorem clStep_read (i v : Nat) (hv : v ≤ 5) (cl : List Nat) (sp : Int) (k : Nat) (s : List Bool) :
    clStep i ⟨cl, sp, k, encLen v ++ s⟩ = ⟨cl.set i v, sp - (units v : Int), if v ≠ 0 then k + 1 else k, s⟩ := by
  unfold clStep
  dsimp only
  rw [encLen_read v hv s]
  dsimp only
  rw [List.drop_left' (by simp [encLen])]
  congr 1
  unfold units
  split <;> simp

/-- The lengths read so far. -/
structure ClPart (g : Nat → Nat) (todo cl : List Nat) : Prop where
  length : cl.length = 18
  done : ∀ j < 18, j ∉ todo → cl[j]? = some (g j)
  rest : ∀ j ∈ todo, cl[j]? = some 0

theorem ClPart.set {g : Nat → Nat} {i : Nat} {is cl : List Nat} (h : ClPart g (i :: is) cl) (hnd : (i :: is).Nodup) :
    ClPart g is (cl.set i (g i)) := by
  have hi : i < 18 := by
    have := h.rest i (by simp)
    rw [← h.length]; exact (List.getElem?_eq_some_iff.mp this).1
  refine ⟨by rw [List.length_set, h.length], ?_, ?_⟩
  · intro j hj hn
    by_cases e : i = j
    · subst e; rw [List.getElem?_set_self (by rw [h.length]; exact hi)]
    · rw [List.getElem?_set_ne e]
      exact h.done j hj (by simp; exact ⟨fun h => e h.symm, hn⟩)
  · intro j hj
    rw [List.getElem?_set_ne, h.rest j (by simp [hj])]
    intro e; subst e; exact (List.nodup_cons.mp hnd).1 hj

theorem ClPart.eq {g : Nat → Nat} {is cl : List Nat} (h : ClPart g is cl) (hz : ∀ j ∈ is, g j = 0) : cl = (List.range 18).map g := by
  refine List.ext_getElem? fun j => ?_
  by_cases hj : j < 18
  · rw [List.getElem?_map, List.getElem?_range hj, Option.map_some]
    by_cases hm : j ∈ is
    · rw [h.rest j hm, hz j hm]
    · exact h.done j hj hm
  · rw [List.getElem?_eq_none (by rw [h.length]; omega), List.getElem?_eq_none (by simp; omega)]

/-- Some code space is always left: everything is read. -/
theorem clGo_all (g : Nat → Nat) (hg : ∀ j, g j ≤ 5) : ∀ is cl (sp : Int) k s, is.Nodup → ClPart g is cl →
    ((is.map fun i => units (g i)).sum : Int) < sp →
    ∃ c, clGo is ⟨cl, sp, k, is.flatMap (fun i => encLen (g i)) ++ s⟩ = c ∧ c.cl = (List.range 18).map g ∧ c.rest = s := by
  intro is
  induction is with
  | nil => intro cl sp k s _ hp _; exact ⟨_, rfl, hp.eq (by simp), rfl⟩
  | cons i is ih =>
    intro cl sp k s hnd hp hsp
    rw [List.map_cons, List.sum_cons] at hsp
    rw [clGo, if_pos (by show (sp:Int) > 0; omega), List.flatMap_cons, List.append_assoc, clStep_read i (g i) (hg i)]
    exact ih _ _ _ _ (List.nodup_cons.mp hnd).2 (hp.set hnd) (by push_cast at hsp ⊢; omega)

/-- The positions up to the last length other than zero. -/
def upTo (g : Nat → Nat) : List Nat → List Nat
  | [] => []
  | i :: is => if g i = 0 ∧ upTo g is = [] then [] else i :: upTo g is

theorem upTo_nil {g : Nat → Nat} : ∀ {is : List Nat}, upTo g is = [] ↔ ∀ i ∈ is, g i = 0 := by
  intro is
  induction is with
  | nil => simp [upTo]
  | cons i is ih =>
    rw [upTo]
    split
    · rename_i h
      simp only [List.mem_cons, forall_eq_or_imp, true_iff]
      exact ⟨h.1, ih.mp h.2⟩
    · rename_i h
      simp only [reduceCtorEq, List.mem_cons, forall_eq_or_imp, false_iff]
      intro hc; exact h ⟨hc.1, ih.mpr hc.2⟩

/-- The code space is used up exactly: reading stops after the last length other than zero. -/
theorem clGo_upTo (g : Nat → Nat) (hg : ∀ j, g j ≤ 5) : ∀ is cl (sp : Int) k s, is.Nodup → ClPart g is cl →
    ((is.map fun i => units (g i)).sum : Int) = sp →
    ∃ c, clGo is ⟨cl, sp, k, (upTo g is).flatMap (fun i => encLen (g i)) ++ s⟩ = c ∧ c.cl = (List.range 18).map g ∧ c.rest = s ∧ c.space = 0 := by
  intro is
  induction is with
  | nil => intro cl sp k s _ hp h; exact ⟨_, rfl, hp.eq (by simp), rfl, by show sp = 0; simpa using h.symm⟩
  | cons i is ih =>
    intro cl sp k s hnd hp hsp
    rw [List.map_cons, List.sum_cons] at hsp
    by_cases hz : ∀ j ∈ i :: is, g j = 0
    · have hsum : ∀ l : List Nat, (∀ j ∈ l, g j = 0) → (l.map fun i => units (g i)).sum = 0 := by
        intro l hl
        induction l with
        | nil => rfl
        | cons a l ih => rw [List.map_cons, List.sum_cons, ih fun j hj => hl j (by simp [hj]), hl a (by simp)]; rfl
      have h0 := hsum is fun j hj => hz j (by simp [hj])
      have h1 : units (g i) = 0 := by rw [hz i (by simp)]; rfl
      rw [upTo_nil.mpr hz, clGo, if_neg (by show ¬ (sp:Int) > 0; omega)]
      exact ⟨_, rfl, hp.eq hz, rfl, by show sp = 0; omega⟩
    · have hup : upTo g (i :: is) = i :: upTo g is := by
        rw [upTo, if_neg]
        intro hc
        refine hz fun j hj => ?_
        rcases List.mem_cons.mp hj with rfl | hj
        · exact hc.1
        · exact upTo_nil.mp hc.2 j hj
      have hpos : 0 < units (g i) + (is.map fun i => units (g i)).sum := by
        by_cases h0 : g i = 0
        · have : ∃ j ∈ is, g j ≠ 0 := by
            refine Classical.byContradiction fun hc => hz fun j hj => ?_
            rcases List.mem_cons.mp hj with rfl | hj
            · exact h0
            · exact Classical.byContradiction fun h => hc ⟨j, hj, h⟩
          obtain ⟨j, hj, hj0⟩ := this
          have h1 := units_pos hj0 (hg j)
          have h2 : units (g j) ≤ (is.map fun i => units (g i)).sum := by
            obtain ⟨a, b, rfl⟩ := List.append_of_mem hj
            simp; omega
          omega
        · have := units_pos h0 (hg i); omega
      rw [hup, clGo, if_pos (by show (sp:Int) > 0; omega), List.flatMap_cons, List.append_assoc, clStep_read i (g i) (hg i)]
      exact ih _ _ _ _ (List.nodup_cons.mp hnd).2 (hp.set hnd) (by push_cast at hsp ⊢; omega)

theorem dropZeros_cons (x : Nat) (l : List Nat) : dropZeros (x :: l) = if x = 0 ∧ dropZeros l = [] then [] else x :: dropZeros l := by
  unfold dropZeros
  rw [List.reverse_cons, List.dropWhile_append]
  by_cases h : l.reverse.dropWhile (· = 0) = []
  · rw [h]
    by_cases hx : x = 0 <;> simp [hx]
  · have : (List.dropWhile (fun x => decide (x = 0)) l.reverse).isEmpty = false := by simpa using h
    rw [this]
    simp [h]

theorem upTo_take (g : Nat → Nat) : ∀ is : List Nat, is.take (dropZeros (is.map g)).length = upTo g is ∧
    (dropZeros (is.map g) = [] ↔ upTo g is = []) := by
  intro is
  induction is with
  | nil => simp [upTo, dropZeros]
  | cons i is ih =>
    rw [List.map_cons, dropZeros_cons, upTo]
    simp only [ih.2]
    split
    · simp
    · simp [ih.1]

theorem upTo_drop (g : Nat → Nat) : ∀ (k : Nat) (is : List Nat), (∀ i ∈ is.take k, g i = 0) → (upTo g is).drop k = upTo g (is.drop k) ∨ upTo g is = [] := by
  intro k
  induction k with
  | zero => intro is _; exact Or.inl rfl
  | succ k ih =>
    intro is h
    cases is with
    | nil => exact Or.inr rfl
    | cons i is =>
      rw [List.take_succ_cons] at h
      rw [upTo]
      split
      · exact Or.inr rfl
      · rename_i hc
        left
        rw [List.drop_succ_cons, List.drop_succ_cons]
        rcases ih is fun j hj => h j (by simp [hj]) with h1 | h1
        · exact h1
        · exact absurd ⟨h i (by simp), h1⟩ hc

theorem skipSome_le (cl : List Nat) : skipSome cl = 0 ∨ skipSome cl = 2 ∨ skipSome cl = 3 := by
  unfold skipSome; split
  · split <;> simp
  · simp

theorem skip_zero (cl : List Nat) : ∀ i ∈ clOrder.take (skipSome cl), cl.getD i 0 = 0 := by
  intro i hi
  unfold skipSome at hi
  split at hi
  · rename_i h
    split at hi
    · rename_i h3
      simp [clOrder] at hi
      rcases hi with rfl | rfl | rfl
      · exact h.1
      · exact h.2
      · exact h3
    · simp [clOrder] at hi
      rcases hi with rfl | rfl
      · exact h.1
      · exact h.2
  · simp at hi

theorem weight_units {l : List Nat} (h5 : ∀ x ∈ l, x ≤ 5) : Prefix.weight l = 1024 * (l.map units).sum := by
  induction l with
  | nil => rfl
  | cons a l ih =>
    rw [weight_cons, ih fun x hx => h5 x (by simp [hx]), List.map_cons, List.sum_cons, Nat.mul_add]
    have h : ∀ a < 6, (if a ≠ 0 then 2 ^ (15 - a) else 0) = 1024 * units a := by decide
    have := h a (by have := h5 a (by simp); omega)
    omega

theorem clOrder_perm : clOrder.Perm (List.range 18) := by decide

theorem storeLens_read {cl : List Nat} (hl : cl.length = 18) (h5 : ∀ x ∈ cl, x ≤ 5) {m : Nat} (hm : 1 ≤ m)
    (hc : 1 < m ∧ Prefix.weight cl = 2 ^ 15 ∨ m = 1 ∧ Prefix.weight cl < 2 ^ 15) (s : List Bool) :
    ∃ b c, storeLens m cl = bitsOf 2 (skipSome cl) ++ b ∧ clGo (clOrder.drop (skipSome cl)) ⟨List.replicate 18 0, 32, 0, b ++ s⟩ = c ∧
      c.cl = cl ∧ c.rest = s ∧ (1 < m → c.space = 0) := by
  refine ⟨_, _, rfl, rfl, ?_⟩
  generalize hg : (fun i => cl.getD i 0) = g
  have hgi : ∀ i, cl.getD i 0 = g i := by intro i; rw [← hg]
  have hg5 : ∀ j, g j ≤ 5 := by
    intro j
    rw [← hgi, List.getD_eq_getElem?_getD]
    cases e : cl[j]? with
    | none => simp
    | some v => exact h5 v (List.mem_of_getElem? e)
  have hcl : (List.range 18).map g = cl := by
    refine List.ext_getElem (by simp [hl]) fun i h1 h2 => ?_
    rw [List.getElem_map, List.getElem_range, ← hgi, List.getD_eq_getElem?_getD, List.getElem?_eq_getElem h2]; rfl
  have hsk : ∀ i ∈ clOrder.take (skipSome cl), g i = 0 := by
    intro i hi; rw [← hgi]; exact skip_zero cl i hi
  generalize hk : skipSome cl = k at hsk
  have hnd : (clOrder.drop k).Nodup := clOrder_nodup.sublist (List.drop_sublist _ _)
  have hpart : ClPart g (clOrder.drop k) (List.replicate 18 0) := by
    refine ⟨by simp, ?_, ?_⟩
    · intro j hj hn
      rw [List.getElem?_replicate, if_pos hj]
      have : j ∈ clOrder := clOrder_perm.mem_iff.mpr (by simpa using hj)
      rw [← List.take_append_drop k clOrder, List.mem_append] at this
      rcases this with h | h
      · rw [hsk j h]
      · exact absurd h hn
    · intro j hj
      have : j ∈ List.range 18 := clOrder_perm.mem_iff.mp (List.mem_of_mem_drop hj)
      rw [List.getElem?_replicate, if_pos (by simpa using this)]
  have hsum : 1024 * ((clOrder.drop k).map fun i => units (g i)).sum = Prefix.weight cl := by
    rw [weight_units h5]
    congr 1
    have h1 : (cl.map units).sum = (clOrder.map fun i => units (g i)).sum := by
      rw [← hcl, List.map_map]
      exact (clOrder_perm.symm.map _).sum_nat
    rw [h1]
    conv => rhs; rw [← List.take_append_drop k clOrder]
    rw [List.map_append, List.sum_append]
    have : ((clOrder.take k).map fun i => units (g i)).sum = 0 := by
      have aux : ∀ l : List Nat, (∀ i ∈ l, g i = 0) → (l.map fun i => units (g i)).sum = 0 := by
        intro l hl
        induction l with
        | nil => rfl
        | cons a l ih => rw [List.map_cons, List.sum_cons, ih fun j hj => hl j (by simp [hj]), hl a (by simp)]; rfl
      exact aux _ hsk
    omega
  simp only [hgi]
  rcases hc with ⟨h1, hw⟩ | ⟨h1, hw⟩
  · have hst : codesToStore m cl = (dropZeros (clOrder.map g)).length := by
      unfold codesToStore; rw [if_pos h1, hg]
    rw [hst, (upTo_take g clOrder).1]
    have hne : upTo g clOrder ≠ [] := by
      intro hc
      have hz := upTo_nil.mp hc
      have : Prefix.weight cl = 0 := by
        refine weight_zeros fun x hx => ?_
        rw [← hcl, List.mem_map] at hx
        obtain ⟨i, hi, rfl⟩ := hx
        exact hz i (clOrder_perm.mem_iff.mpr hi)
      omega
    rcases upTo_drop g k clOrder hsk with hd | hd
    · rw [hd]
      obtain ⟨c, c1, c2, c3, c4⟩ := clGo_upTo g hg5 (clOrder.drop k) _ 32 0 s hnd hpart (by omega)
      have e : (fun i => bitsOf (lenBits.getD (g i) 0) (lenSymbols.getD (g i) 0)) = fun i => encLen (g i) := rfl
      rw [e, c1]
      exact ⟨by rw [c2, hcl], c3, fun _ => c4⟩
    · exact absurd hd hne
  · have hst : codesToStore m cl = 18 := by
      unfold codesToStore; rw [if_neg (by omega)]
    have ht : clOrder.take 18 = clOrder := by decide
    rw [hst, ht]
    obtain ⟨c, c1, c2, c3⟩ := clGo_all g hg5 (clOrder.drop k) _ 32 0 s hnd hpart (by omega)
    have e : (fun i => bitsOf (lenBits.getD (g i) 0) (lenSymbols.getD (g i) 0)) = fun i => encLen (g i) := rfl
    rw [e, c1]
    exact ⟨by rw [c2, hcl], c3, fun h => by omega⟩

/-! ## The lengths -/

/-- The decoder's table for the code-length code does what the writer expects. -/
def TableFor (t : List Entry) (dep syms : List Nat) (c : Nat) : Prop :=
  ∀ s, t[ofBits ((bitsOf (dep.getD c 0) (syms.getD c 0) ++ s).take 5)]? = some ⟨dep.getD c 0, c⟩

theorem table_complete (t5 : List Entry) (ht : t5.length = 32) {cl : List Nat} (hl : cl.length = 18) (h5 : ∀ x ∈ cl, x ≤ 5)
    (hw : Prefix.weight cl = 2 ^ 15) :
    ∃ total t, build t5 5 cl = some (total, t) ∧ total ≠ 0 ∧ ∀ c, cl.getD c 0 ≠ 0 → TableFor t cl (symbols cl) c := by
  have h15 : ∀ l ∈ cl, l ≤ 15 := fun l h => by have := h5 l h; omega
  have hcomp : Prefix.Complete cl := ⟨h15, hw⟩
  obtain ⟨total, t', symAt, b1, b2, b3, b4, b5, b6⟩ := build_spec t5 5 cl (by omega) (by omega) hcomp
    (by rw [hl]; decide) (by rw [ht]; decide) (by rw [ht]; decide) (Or.inr h5)
  refine ⟨total, t', b1, by omega, fun c hc s => ?_⟩
  have hcl : c < cl.length := by
    refine Classical.byContradiction fun h => hc ?_
    rw [List.getD_eq_getElem?_getD, List.getElem?_eq_none (by omega)]; rfl
  have hg : cl[c]? = some (cl.getD c 0) := by
    rw [List.getD_eq_getElem?_getD, List.getElem?_eq_getElem hcl]; rfl
  generalize cl.getD c 0 = l at hc hg
  have hl5 := h5 l (List.mem_of_getElem? hg)
  have hsym : (symbols cl).getD c 0 = rev l (code (hist cl) l ((cl.take c).count l)) := by
    rw [List.getD_eq_getElem?_getD]
    have := symbolsGo_spec cl (nextCode (hist cl)) c l hg (by omega)
    rw [show symbols cl = symbolsGo (nextCode (hist cl)) cl from rfl, this, Option.getD_some, reverseBits_eq _ _ (by omega), code, first_eq_nextCode]
  rw [hsym]
  have hrl := rev_lt l (code (hist cl) l ((cl.take c).count l))
  generalize hx : bitsOf l (rev l (code (hist cl) l ((cl.take c).count l))) ++ s = w
  have hmod : ofBits w % 2 ^ l = rev l (code (hist cl) l ((cl.take c).count l)) := by
    rw [← ofBits_take, ← hx, List.take_left' (by simp), ofBits_bitsOf_lt hrl]
  rcases b6 l _ (ofBits w) (by omega) (by omega) (rank_lt hg) hmod with ⟨_, hf⟩ | ⟨hf, _⟩
  · rw [ofBits_take, hf, b5 c l (by omega) hg]
  · omega

theorem single_count {cl : List Nat} {y : Nat} (hy : ∀ c, cl.getD c 0 ≠ 0 ↔ c = y) : cl.countP (· ≠ 0) = 1 := by
  have hyl : y < cl.length := by
    refine Classical.byContradiction fun h => (hy y).mpr rfl ?_
    rw [List.getD_eq_getElem?_getD, List.getElem?_eq_none (by omega)]; rfl
  have hset : (cl.set y 0).countP (· ≠ 0) = 0 := by
    rw [List.countP_eq_zero]
    intro a ha
    obtain ⟨i, hi, rfl⟩ := List.mem_iff_getElem.mp ha
    rw [List.getElem_set]
    split
    · simp
    · rename_i hne
      have := (hy i)
      rw [List.length_set] at hi
      rw [List.getD_eq_getElem?_getD, List.getElem?_eq_getElem hi, Option.getD_some] at this
      simp only [ne_eq, decide_not, Bool.not_eq_eq_eq_not, Bool.not_true, decide_eq_false_iff_not, Classical.not_not]
      exact Classical.byContradiction fun h => hne (this.mp h).symm
  have e : cl = (cl.set y 0).set y (cl.getD y 0) := by
    rw [List.set_set, List.getD_eq_getElem?_getD, List.getElem?_eq_getElem hyl, Option.getD_some, List.set_getElem_self]
  rw [e, countP_set _ _ _ (by rw [List.getElem?_set_self hyl]), hset, if_pos ((hy y).mpr rfl)]

theorem table_single (t5 : List Entry) (ht : t5.length = 32) {cl : List Nat} (hl : cl.length = 18) (h5 : ∀ x ∈ cl, x ≤ 5)
    {y : Nat} (hy : ∀ c, cl.getD c 0 ≠ 0 ↔ c = y) :
    ∃ total t, build t5 5 cl = some (total, t) ∧ total ≠ 0 ∧ TableFor t (cl.set y 0) (symbols cl) y := by
  have hyl : y < cl.length := by
    refine Classical.byContradiction fun h => (hy y).mpr rfl ?_
    rw [List.getD_eq_getElem?_getD, List.getElem?_eq_none (by omega)]; rfl
  have hcount : cl.countP (· ≠ 0) = 1 := single_count hy
  obtain ⟨t', z, b1, b2, b3, b4⟩ := build_single t5 5 cl (by rw [hl]; decide) (fun l h => by have := h5 l h; omega) hcount (by rw [ht]; decide)
  have hzy := (hy z).mp b2
  subst hzy
  refine ⟨_, t', b1, by decide, fun s => ?_⟩
  have h0 : (cl.set z 0).getD z 0 = 0 := by rw [List.getD_eq_getElem?_getD, List.getElem?_set_self hyl]; rfl
  rw [h0]
  exact b4 _ (ofBits_take_lt _ 5)

theorem lenStep_read {t : List Entry} {dep syms : List Nat} {c : Nat × Nat} (ht : TableFor t dep syms c.1) (hc : TokOk c) (n : Nat) (st : Ls) (s : List Bool) :
    lenStep t n st (storeCode dep syms c ++ s) = some ((stepTok n c st).map fun st' => (st', s)) := by
  obtain ⟨c, x⟩ := c
  unfold lenStep storeCode
  dsimp only
  rw [List.append_assoc, ht]
  dsimp only [Option.map_some]
  unfold stepTok
  dsimp only
  rcases hc with ⟨h1, h2⟩ | ⟨h1, h2⟩ | ⟨h1, h2⟩ <;> dsimp only at h1 h2
  · rw [if_pos h1, if_pos h1, if_neg (by omega), if_neg (by omega), List.drop_left' (by simp)]; rfl
  · subst h1
    simp only [show ¬ (16 : Nat) < 16 by omega, if_false, if_true]
    rw [← List.drop_drop, List.drop_left' (by simp),
      show (16 - 14) = 2 by rfl, List.take_left' (by simp), List.drop_left' (by simp), ofBits_bitsOf_lt (by omega)]
  · subst h1
    simp only [show ¬ (17 : Nat) < 16 by omega, show ¬ (17 : Nat) = 16 by omega, if_false, if_true]
    rw [← List.drop_drop, List.drop_left' (by simp),
      show (17 - 14) = 3 by rfl, List.take_left' (by simp), List.drop_left' (by simp), ofBits_bitsOf_lt (by omega)]

theorem stepTok_inv {n : Nat} {c : Nat × Nat} {st st' : Ls} (h : LsInv n st) (hn : st.lens.length < n) (hs : stepTok n c st = some st') :
    LsInv n st' ∧ ∃ a, st'.lens = st.lens ++ a := by
  unfold stepTok at hs
  split at hs
  · rename_i h16
    injection hs with hs
    subst hs
    exact ⟨lit_inv h h16 hn, _, rfl⟩
  · refine ⟨repeatCode_inv h hs, ?_⟩
    unfold repeatCode at hs
    dsimp only at hs
    split at hs
    · cases hs
    · injection hs with hs
      subst hs
      exact ⟨_, rfl⟩

theorem replay_lens {n : Nat} : ∀ {toks : List (Nat × Nat)} {st st' : Ls}, replay n toks st = some st' → ∃ a, st'.lens = st.lens ++ a := by
  intro toks
  induction toks with
  | nil => intro st st' h; injection h with h; subst h; exact ⟨[], by simp⟩
  | cons c toks ih =>
    intro st st' h
    rw [replay] at h
    cases hs : stepTok n c st with
    | none => rw [hs] at h; cases h
    | some s1 =>
      rw [hs, Option.bind_some] at h
      obtain ⟨a, ha⟩ := ih h
      have : ∃ b, s1.lens = st.lens ++ b := by
        unfold stepTok at hs
        split at hs
        · injection hs with hs; subst hs; exact ⟨_, rfl⟩
        · unfold repeatCode at hs
          dsimp only at hs
          split at hs
          · cases hs
          · injection hs with hs
            subst hs
            exact ⟨_, rfl⟩
      obtain ⟨b, hb⟩ := this
      exact ⟨b ++ a, by rw [ha, hb, List.append_assoc]⟩

/-- Every code makes the list of lengths longer. -/
theorem stepTok_grows {n : Nat} {c : Nat × Nat} {st st' : Ls} (hr : st.rep = 0 ∨ 3 ≤ st.rep) (hs : stepTok n c st = some st') :
    st.lens.length < st'.lens.length ∧ (st'.rep = 0 ∨ 3 ≤ st'.rep) := by
  unfold stepTok at hs
  split at hs
  · injection hs with hs
    subst hs
    exact ⟨by simp [lit], Or.inl rfl⟩
  · unfold repeatCode at hs
    dsimp only at hs
    split at hs
    · cases hs
    · injection hs with hs
      subst hs
      have ho : oldRep c.1 st = 0 ∨ 3 ≤ oldRep c.1 st := by
        unfold oldRep; split
        · exact Or.inl rfl
        · exact hr
      have he : oldRep c.1 st < extend (oldRep c.1 st) (c.1 - 14) c.2 ∧ 3 ≤ extend (oldRep c.1 st) (c.1 - 14) c.2 := by
        unfold extend
        generalize oldRep c.1 st = o at ho
        have hp := Nat.two_pow_pos (c.1 - 14)
        have hm : o - 2 ≤ (o - 2) * 2 ^ (c.1 - 14) := Nat.le_mul_of_pos_right _ hp
        split <;> omega
      exact ⟨by simp; omega, Or.inr he.2⟩

theorem lenGo_read {t : List Entry} {dep syms : List Nat} {n : Nat} {L : List Nat} (hL : ∃ a x, L = a ++ [x] ∧ x ≠ 0)
    (hw : Prefix.weight L = 2 ^ 15) (hn : L.length ≤ n) (s : List Bool) : ∀ (toks : List (Nat × Nat)) f st, toks.length ≤ f → LsInv n st →
    (st.rep = 0 ∨ 3 ≤ st.rep) → (∀ c ∈ toks, TokOk c ∧ TableFor t dep syms c.1) → (∃ st', replay n toks st = some st' ∧ st'.lens = L) →
    lenGo t n f st (toks.flatMap (storeCode dep syms) ++ s) = some (some (L ++ List.replicate (n - L.length) 0, s)) := by
  intro toks
  induction toks with
  | nil =>
    intro f st _ hi _ _ ⟨st', h1, h2⟩
    injection h1 with h1
    subst h1
    have hsp : st.space = 0 := by rw [hi.space, h2, hw]; rfl
    rw [lenGo.eq_def]
    dsimp only
    rw [if_neg (by rw [hsp]; simp), if_neg (by rw [hsp]; simp), h2]; rfl
  | cons c toks ih =>
    intro f st hf hi hrep hc ⟨st', h1, h2⟩
    rw [replay] at h1
    cases hs : stepTok n c st with
    | none => rw [hs] at h1; cases h1
    | some s1 =>
      rw [hs, Option.bind_some] at h1
      obtain ⟨g1, g2⟩ := stepTok_grows hrep hs
      obtain ⟨a, ha⟩ := replay_lens h1
      have hls : s1.lens.length ≤ L.length := by rw [← h2, ha]; simp
      obtain ⟨i1, b, hb⟩ := stepTok_inv hi (by omega) hs
      have hsp : st.space > 0 := by
        obtain ⟨p, x, hp, hx⟩ := hL
        have h3 : st.lens ++ (b ++ a) = p ++ [x] := by rw [← hp, ← h2, ha, hb, List.append_assoc]
        have hne : b ++ a ≠ [] := by
          intro h
          have := congrArg List.length hb
          have hb0 : b = [] := (List.append_eq_nil_iff.mp h).1
          rw [hb0] at this; simp at this; omega
        have hlast : ∃ q, b ++ a = q ++ [x] := by
          rcases List.append_eq_append_iff.mp h3 with ⟨q, _, hq⟩ | ⟨q, _, hq⟩
          · exact ⟨q, hq⟩
          · cases q with
            | nil => exact ⟨[], by simpa using hq.symm⟩
            | cons y q =>
              rw [List.cons_append] at hq
              injection hq with _ hq
              exact absurd (List.append_eq_nil_iff.mp hq.symm).2 hne
        obtain ⟨q, hq⟩ := hlast
        have h4 : L = (st.lens ++ q) ++ [x] := by rw [hp, ← h3, hq, List.append_assoc]
        have h5 : Prefix.weight L = Prefix.weight st.lens + Prefix.weight q + Prefix.weight [x] := by
          rw [h4, weight_append, weight_append]
        have h6 : 0 < Prefix.weight [x] := by
          rw [weight_cons, if_pos hx]; have := Nat.two_pow_pos (15 - x); omega
        rw [hi.space]; omega
      match f, hf with
      | f + 1, hf =>
      rw [lenGo, if_pos ⟨by omega, hsp⟩]
      rw [List.flatMap_cons, List.append_assoc, lenStep_read (hc c (by simp)).2 (hc c (by simp)).1, hs]
      dsimp only [Option.map_some, Option.bind_some]
      exact ih f s1 (by simp at hf; omega) i1 g2 (fun d hd => hc d (by simp [hd])) ⟨st', h1, h2⟩

/-! ## The whole header -/

theorem getD_ne_lt {l : List Nat} {i : Nat} (h : l.getD i 0 ≠ 0) : i < l.length := by
  refine Classical.byContradiction fun hc => h ?_
  rw [List.getD_eq_getElem?_getD, List.getElem?_eq_none (by omega)]; rfl

theorem count_le_length_aux (l : List Nat) : ∀ k, ((List.range k).map fun i => l.count i).sum ≤ l.length := by
  intro k
  induction l with
  | nil =>
    have : ∀ r : List Nat, (r.map fun i => ([] : List Nat).count i).sum = 0 := by
      intro r; induction r with
      | nil => rfl
      | cons a r ih => rw [List.map_cons, List.sum_cons, ih]; rfl
    rw [this]; exact Nat.zero_le _
  | cons a l ih =>
    have h : ∀ r : List Nat, r.Nodup → (r.map fun i => (a :: l).count i).sum ≤ (r.map fun i => l.count i).sum + 1 := by
      intro r
      have h2 : ∀ r : List Nat, (r.map fun i => (a :: l).count i).sum = (r.map fun i => l.count i).sum + r.count a := by
        intro r
        induction r with
        | nil => rfl
        | cons x r ih =>
          rw [List.map_cons, List.sum_cons, ih, List.map_cons, List.sum_cons]
          by_cases e : a = x
          · subst e; rw [List.count_cons_self, List.count_cons_self]; omega
          · rw [List.count_cons_of_ne e, List.count_cons_of_ne (fun h => e h.symm)]; omega
      intro hnd
      rw [h2]
      have := List.nodup_iff_count.mp hnd a
      omega
    have := h (List.range k) List.nodup_range
    rw [List.length_cons]; omega

theorem codeHist_get (codes : List (Nat × Nat)) (i : Nat) (hi : i < 18) : (codeHist codes).getD i 0 = (codes.map (·.1)).count i := by
  unfold codeHist
  rw [List.getD_eq_getElem?_getD, List.getElem?_map, List.getElem?_range hi]; rfl

theorem createTree_single {data : List Nat} (hn : data.length ≤ 2 ^ 15) {limit : Nat} (h1 : (usedSyms data).length = 1) :
    createTree data limit = some ((List.replicate data.length 0).set ((usedSyms data).getD 0 0) 1) := by
  unfold createTree
  rw [createGo, treeRound_single hn h1]
  simp

theorem fib_8 : fib 8 = 21 := by decide
theorem fib_18 : fib 18 = 2584 := by decide

/-- The code of the code lengths, for codes that occur: one code or several. -/
theorem codeLens_ok {codes : List (Nat × Nat)} (hne : codes ≠ []) (htok : ∀ c ∈ codes, TokOk c) (hlen : codes.length ≤ 2 ^ 15) :
    ∃ cl, createTree (codeHist codes) 5 = some cl ∧ cl.length = 18 ∧ (∀ x ∈ cl, x ≤ 5) ∧
      (∀ c ∈ codes, cl.getD c.1 0 ≠ 0) ∧
      ((2 ≤ (usedSyms (codeHist codes)).length ∧ Prefix.weight cl = 2 ^ 15) ∨
       ((usedSyms (codeHist codes)).length = 1 ∧ Prefix.weight cl < 2 ^ 15 ∧ ∀ c, cl.getD c 0 ≠ 0 ↔ c = (usedSyms (codeHist codes)).getD 0 0)) := by
  have hl : (codeHist codes).length = 18 := by simp [codeHist]
  have hmem : ∀ c ∈ codes, c.1 < 18 ∧ c.1 ∈ usedSyms (codeHist codes) := by
    intro c hc
    have h18 : c.1 < 18 := by
      rcases htok c hc with h | h | h <;> omega
    refine ⟨h18, ?_⟩
    rw [usedSyms_mem, codeHist_get _ _ h18]
    have : c.1 ∈ codes.map (·.1) := List.mem_map.mpr ⟨c, hc, rfl⟩
    have := List.count_pos_iff.mpr this
    omega
  have hN : (usedSyms (codeHist codes)).length ≤ 18 := by
    unfold usedSyms
    refine Nat.le_trans (List.length_filter_le _ _) ?_
    rw [List.length_range, hl]; exact Nat.le_refl _
  have hS : (codeHist codes).sum ≤ 2 ^ 15 := by
    have := count_le_length_aux (codes.map (·.1)) 18
    rw [List.length_map] at this
    exact Nat.le_trans this hlen
  have hpos : 1 ≤ (usedSyms (codeHist codes)).length := by
    obtain ⟨c, hc⟩ := List.exists_mem_of_ne_nil _ hne
    exact List.length_pos_of_mem (hmem c hc).2
  by_cases h1 : (usedSyms (codeHist codes)).length = 1
  · have hy : (usedSyms (codeHist codes)).getD 0 0 ∈ usedSyms (codeHist codes) := by
      rw [List.getD_eq_getElem?_getD, List.getElem?_eq_getElem (by omega)]
      exact List.getElem_mem _
    have hone : ∀ c ∈ usedSyms (codeHist codes), c = (usedSyms (codeHist codes)).getD 0 0 := by
      match hu : usedSyms (codeHist codes), h1 with
      | [a], _ => intro c hc; simpa using hc
    have hy18 : (usedSyms (codeHist codes)).getD 0 0 < 18 := by rw [← hl]; exact getD_ne_lt ((usedSyms_mem _ _).mp hy)
    have hct := createTree_single (data := codeHist codes) (limit := 5) (by rw [hl]; decide) h1
    rw [hl] at hct
    generalize (usedSyms (codeHist codes)).getD 0 0 = y at hct hy hone hy18
    have hget : ∀ c, ((List.replicate 18 0).set y 1).getD c 0 ≠ 0 ↔ c = y := by
      intro c
      rw [List.getD_eq_getElem?_getD, List.getElem?_set]
      by_cases e : y = c
      · subst e; simp [hy18]
      · rw [if_neg e, List.getElem?_replicate]
        constructor
        · intro h; exfalso; apply h; split <;> rfl
        · intro h; exact absurd h.symm e
    refine ⟨_, hct, by simp, ?_, ?_, Or.inr ⟨h1, ?_, hget⟩⟩
    · intro x hx
      rcases List.mem_or_eq_of_mem_set hx with h | h
      · rw [List.eq_of_mem_replicate h]; omega
      · omega
    · intro c hc
      rw [hget]; exact hone _ (hmem c hc).2
    · rw [weight_set _ _ _ (by rw [List.getElem?_replicate, if_pos hy18]), weight_zeros fun a ha => List.eq_of_mem_replicate ha]
      decide
  · generalize hNN : (usedSyms (codeHist codes)).length = N at *
    obtain ⟨cl, h2, h3⟩ := createTree_ok (data := codeHist codes) (limit := 5) (by rw [hl]; decide) (by omega) (by omega) (by omega) (by omega)
      (by
        intro lim h
        rw [hNN] at h ⊢
        rw [show 5 + 3 = 8 from rfl, fib_8] at h
        have hm : N * lim ≤ 18 * lim := Nat.mul_le_mul_right _ hN
        have hm2 : N * (2 * lim + 1) ≤ 18 * (2 * lim + 1) := Nat.mul_le_mul_right _ hN
        have : sentinel = 4294967295 := rfl
        omega)
      (by
        intro lim h
        rw [hNN] at h
        rw [show 5 + 3 = 8 from rfl, fib_8] at h
        have hm : N * lim ≤ 18 * lim := Nat.mul_le_mul_right _ hN
        omega)
    refine ⟨cl, h2, by rw [h3.length, hl], h3.small, ?_, Or.inl ⟨by omega, h3.full⟩⟩
    intro c hc
    rw [h3.used c.1 (by rw [hl]; exact (hmem c hc).1)]
    exact (usedSyms_mem _ _).mp (hmem c hc).2

/-- **A stored general code is read back.** -/
theorem storeTree_read {depth : List Nat} (hn : depth.length ≤ 2 ^ 15) (hc : Prefix.Complete depth) :
    ∃ h, storeTree depth = some h ∧ ∀ t5 : List Entry, t5.length = 32 → ∀ s total t,
      build (List.replicate (depth.length + 376) ⟨0, 0⟩) 8 depth = some (total, t) → total ≠ 0 →
      readCode t5 depth.length (h ++ s) = some (some (t.take total, s)) := by
  obtain ⟨⟨st', r1, r2⟩, r3, r4⟩ := writeTree_ok depth hc.1
  obtain ⟨k, d1, d2⟩ := dropZeros_spec depth
  have hdl : (dropZeros depth).length ≤ depth.length := by
    conv => rhs; rw [d1]
    simp
  have hw : Prefix.weight (dropZeros depth) = 2 ^ 15 := by
    have := hc.2
    rw [d1, weight_append, weight_zeros (l := List.replicate k 0) fun x hx => List.eq_of_mem_replicate hx] at this
    exact this
  have hlast : ∃ a x, dropZeros depth = a ++ [x] ∧ x ≠ 0 := by
    rcases d2 with h | h
    · rw [h] at hw; simp [Prefix.weight] at hw
    · exact h
  have hback : dropZeros depth ++ List.replicate (depth.length - (dropZeros depth).length) 0 = depth := by
    have hk : depth.length = (dropZeros depth).length + k := by
      conv => lhs; rw [d1]
      simp
    rw [show depth.length - (dropZeros depth).length = k by omega]
    exact d1.symm
  have hne : writeTree depth ≠ [] := by
    intro h
    rw [h] at r1
    injection r1 with r1
    rw [← r1] at r2
    obtain ⟨a, x, h1, _⟩ := hlast
    rw [h1] at r2
    simp at r2
  obtain ⟨cl, c1, c2, c3, c4, c5⟩ := codeLens_ok hne r4 (by omega)
  have hused : (List.range 18).filter (fun i => decide ((codeHist (writeTree depth)).getD i 0 ≠ 0)) = usedSyms (codeHist (writeTree depth)) := by
    unfold usedSyms
    rw [show (codeHist (writeTree depth)).length = 18 by simp [codeHist]]
  have key : ∀ (m : Nat) (dep : List Nat), (1 ≤ m) → (1 < m ∧ Prefix.weight cl = 2 ^ 15 ∨ m = 1 ∧ Prefix.weight cl < 2 ^ 15) →
      (m = 1 → cl.countP (· ≠ 0) = 1) →
      (∀ t5 : List Entry, t5.length = 32 → ∃ tot t, build t5 5 cl = some (tot, t) ∧ tot ≠ 0 ∧ ∀ c ∈ writeTree depth, TableFor t dep (symbols cl) c.1) →
      ∀ t5 : List Entry, t5.length = 32 → ∀ s total t,
      build (List.replicate (depth.length + 376) ⟨0, 0⟩) 8 depth = some (total, t) → total ≠ 0 →
      readCode t5 depth.length ((storeLens m cl ++ (writeTree depth).flatMap (storeCode dep (symbols cl))) ++ s) = some (some (t.take total, s)) := by
    intro m dep hm hmw hm1 htab t5 ht5 s total t hb htot
    obtain ⟨b, c, e1, e2, e3, e4, e5⟩ := storeLens_read c2 c3 hm hmw ((writeTree depth).flatMap (storeCode dep (symbols cl)) ++ s)
    obtain ⟨tot, tt, g1, g2, g3⟩ := htab t5 ht5
    have hsk := skipSome_le cl
    have hsk4 : skipSome cl < 2 ^ 2 := by omega
    unfold readCode
    rw [if_neg (by omega), e1, List.append_assoc, List.append_assoc, List.take_left' (by simp), List.drop_left' (by simp), ofBits_bitsOf_lt hsk4,
      if_neg (by omega)]
    have hnum : c.num = c.cl.countP (· ≠ 0) := by
      rw [← e2]; exact (clGo_spec _ _).num
    unfold readGeneral
    dsimp only
    rw [e2, if_pos (by
      rcases hmw with ⟨h, _⟩ | ⟨h, _⟩
      · exact Or.inr (e5 h)
      · left; rw [hnum, e3]; exact hm1 h), e3, e4]
    unfold readLens
    rw [g1, Option.bind_some, if_neg g2]
    have hgo := lenGo_read (t := tt) (dep := dep) (syms := symbols cl) hlast hw hdl s (writeTree depth) depth.length ⟨[], 8, 0, 0, 32768⟩ (by omega)
      ⟨by simp, by simp, by show (8:Nat) ≤ 15; omega, by simp [Prefix.weight]⟩ (Or.inl rfl) (fun c hc => ⟨r4 c hc, g3 c hc⟩) ⟨st', r1, r2⟩
    rw [hgo, hback]
    dsimp only [Option.bind_some]
    rw [hb, Option.map_some]
    dsimp only
    rw [if_pos (by omega)]
  unfold storeTree
  dsimp only
  rw [if_neg (by omega), hused, c1, Option.map_some]
  refine ⟨_, rfl, ?_⟩
  rcases c5 with ⟨hm, hwc⟩ | ⟨hm, hwc, hget⟩
  · have hmin : min (usedSyms (codeHist (writeTree depth))).length 2 = 2 := by omega
    rw [hmin, if_neg (by omega)]
    refine key 2 cl (by omega) (Or.inl ⟨by omega, hwc⟩) (by omega) fun t5 ht5 => ?_
    obtain ⟨tot, t, g1, g2, g3⟩ := table_complete t5 ht5 c2 c3 hwc
    exact ⟨tot, t, g1, g2, fun c hc => g3 c.1 (c4 c hc)⟩
  · have hmin : min (usedSyms (codeHist (writeTree depth))).length 2 = 1 := by omega
    rw [hmin, if_pos rfl]
    generalize (usedSyms (codeHist (writeTree depth))).getD 0 0 = y at hget
    refine key 1 _ (by omega) (Or.inr ⟨rfl, hwc⟩) (fun _ => single_count hget) fun t5 ht5 => ?_
    obtain ⟨tot, t, g1, g2, g3⟩ := table_single t5 ht5 c2 c3 hget
    refine ⟨tot, t, g1, g2, fun c hc => ?_⟩
    rw [(hget c.1).mp (c4 c hc)]; exact g3

end Jxl.Huffman
