import Verif.Lemmas.JpegHuff
import Verif.Lemmas.JpegReader
/-!
# Reading a symbol consumes the writer's code for it
-/
namespace Jxl.Jpeg

/-! ## The tables that are accepted -/

/-- The state of a slot: never built, or built. -/
def SlotOk (t : List LutEntry) : Prop :=
  t.length = lutSize ∧ ((t.headD LutEntry.fresh).value = 0xffff → t = List.replicate lutSize LutEntry.fresh)

theorem expand_spec : ∀ (ns : List Nat) (l : Nat), (∀ x ∈ expand l ns, l ≤ x ∧ x < l + ns.length) ∧
    (expand l ns).Pairwise (· ≤ ·) := by
  intro ns
  induction ns with
  | nil => intro l; exact ⟨by simp [expand], by simp [expand]⟩
  | cons n ns ih =>
    intro l
    obtain ⟨h1, h2⟩ := ih (l + 1)
    rw [expand]
    refine ⟨?_, ?_⟩
    · intro x hx
      rw [List.length_cons]
      rcases List.mem_append.mp hx with hx | hx
      · have := (List.mem_replicate.mp hx).2; omega
      · have := h1 x hx; omega
    · rw [List.pairwise_append]
      refine ⟨List.pairwise_replicate.mpr (Or.inr (Nat.le_refl _)), h2, ?_⟩
      intro a ha b hb
      have := (List.mem_replicate.mp ha).2
      have := h1 b hb
      omega

/-- What a table does with the words of 16 bits: the word of a symbol finds its code, and any other word finds
something that is not a symbol. -/
structure Reads (cs : List Code) (t : List LutEntry) : Prop where
  total : ∀ w, w < 65536 → ∃ l v, lookup t w = some (l, v) ∧ l ≤ 16 ∧
    (v < 256 → ∃ i, cs[i]? = some (l, v) ∧ width16 (cs.take i) ≤ w ∧ w < width16 (cs.take i) + 2 ^ (16 - l))
  found : ∀ i c, cs[i]? = some c → c.2 < 256 → ∀ w, width16 (cs.take i) ≤ w →
    w < width16 (cs.take i) + 2 ^ (16 - c.1) → lookup t w = some c

theorem zip_fst_mem {a b : List Nat} {c : Nat × Nat} (h : c ∈ a.zip b) : c.1 ∈ a := (List.of_mem_zip h).1

/-- The codes of an accepted table. -/
structure Accepted (cs : List Code) : Prop extends Canonical cs where
  count : cs.length ≤ 257
  pos : cs ≠ []
  symbols : ∃ init l, cs = init ++ [(l, 256)] ∧ (init.map Prod.snd).Nodup ∧ ∀ c ∈ init, c.2 < 256
  single : cs.length = 1 → cs = [(1, 256)]

theorem zip_sorted : ∀ {a b : List Nat}, a.Pairwise (· ≤ ·) → (a.zip b).Pairwise fun x y => x.1 ≤ y.1 := by
  intro a
  induction a with
  | nil => intro b _; simp
  | cons x a ih =>
    intro b h
    cases b with
    | nil => simp
    | cons y b =>
      rw [List.zip_cons_cons, List.pairwise_cons]
      have hp := List.pairwise_cons.mp h
      exact ⟨fun c hc => hp.1 c.1 (zip_fst_mem hc), ih hp.2⟩

theorem getLastD_ge : ∀ {a : List Nat} {d : Nat}, a.Pairwise (· ≤ ·) → ∀ x ∈ a, x ≤ a.getLastD d := by
  intro a
  induction a with
  | nil => intro d _ x hx; exact absurd hx List.not_mem_nil
  | cons y a ih =>
    intro d h x hx
    have hp := List.pairwise_cons.mp h
    rw [List.getLastD_cons]
    rcases List.mem_cons.mp hx with rfl | hx
    · cases a with
      | nil => simp
      | cons z a =>
        have h1 := hp.1 z (by simp)
        have h2 := ih (d := x) hp.2 z (by simp)
        omega
    · exact ih hp.2 x hx

theorem getLastD_mem : ∀ {a : List Nat} {d : Nat}, a ≠ [] → a.getLastD d ∈ a := by
  intro a
  induction a with
  | nil => intro d h; exact absurd rfl h
  | cons y a ih =>
    intro d _
    rw [List.getLastD_cons]
    cases a with
    | nil => simp
    | cons z a => exact List.mem_cons_of_mem _ (ih (by simp))

theorem accepted_of (counts vs : List Nat) (hlen : counts.length = 16) (hv : ∀ v ∈ vs, v < 256) (hnd : vs.Nodup)
    (hvl : vs.length = (expand 1 counts).length) (htot : (expand 1 counts).length ≤ 256)
    (hfit : width16 ((expand 1 counts ++ [maxDepth (expand 1 counts)]).zip (vs ++ [256])) ≤ 2 ^ 16) :
    Accepted ((expand 1 counts ++ [maxDepth (expand 1 counts)]).zip (vs ++ [256])) := by
  obtain ⟨g1, g2⟩ := expand_spec counts 1
  rw [hlen] at g1
  generalize expand 1 counts = lens at *
  have hmd : 1 ≤ maxDepth lens ∧ maxDepth lens ≤ 16 := by
    unfold maxDepth
    by_cases h : lens = []
    · subst h; simp
    · have := g1 _ (getLastD_mem (d := 1) h); omega
  have hz : (lens ++ [maxDepth lens]).zip (vs ++ [256]) = lens.zip vs ++ [(maxDepth lens, 256)] := by
    rw [List.zip_append hvl.symm]; rfl
  refine { len := ?_, sorted := ?_, fits := hfit, count := ?_, pos := ?_, symbols := ?_, single := ?_ }
  · intro c hc
    rw [hz] at hc
    rcases List.mem_append.mp hc with hc | hc
    · have := g1 c.1 (zip_fst_mem hc); omega
    · rw [List.mem_singleton.mp hc]; exact hmd
  · apply zip_sorted
    rw [List.pairwise_append]
    refine ⟨g2, by simp, ?_⟩
    intro a ha b hb
    rw [List.mem_singleton.mp hb]
    exact getLastD_ge g2 a ha
  · rw [hz]; simp; omega
  · rw [hz]; simp
  · refine ⟨lens.zip vs, maxDepth lens, hz, ?_, ?_⟩
    · rw [List.map_snd_zip (by omega)]; exact hnd
    · intro c hc; exact hv c.2 (List.of_mem_zip hc).2
  · intro h1
    rw [hz] at h1 ⊢
    have h0 : lens.length = 0 := by
      rw [List.length_append, List.length_zip, hvl, Nat.min_self] at h1
      simp only [List.length_singleton] at h1; omega
    have : lens = [] := List.length_eq_zero_iff.mp h0
    subst this
    rfl

theorem lookup_index {t : List LutEntry} {x : Nat × Nat} (h : lookup t 0 = some x) (hl : t.length = 1024)
    (hx : x.2 ≤ 256) : (t.headD LutEntry.fresh).value ≠ 0xffff := by
  unfold lookup at h
  cases t with
  | nil => simp at h
  | cons e t =>
    simp only [Nat.zero_div, List.getElem?_cons_zero, Option.bind_some, List.headD_cons] at h ⊢
    by_cases h1 : e.bits > 16
    · rw [if_pos h1] at h; cases h
    · rw [if_neg h1] at h
      by_cases h2 : e.bits > 8
      · rw [if_pos h2] at h
        intro hv
        rw [List.getElem?_eq_none (by rw [hl, hv]; exact Nat.le_trans (by omega : 1024 ≤ 0 + 65535) (Nat.le_add_right _ _))] at h
        cases h
      · rw [if_neg h2] at h
        injection h with h
        subst h
        simp only at hx
        omega

theorem build_reads {cs : List Code} {t0 : List LutEntry} (h : Accepted cs) (hl : t0.length = 1024)
    (hf : width16 cs < 2 ^ 16 → t0 = List.replicate 1024 LutEntry.fresh) :
    ∃ t, buildLut cs t0 = some t ∧ SlotOk t ∧ Reads cs t := by
  obtain ⟨init, ml, hcs, _, hsym⟩ := h.symbols
  by_cases h1 : cs.length = 1
  · have hcs1 := h.single h1
    subst hcs1
    obtain ⟨t, e1, e2, e3⟩ := buildLut_single (1, 256) t0 hl
    refine ⟨t, e1, ⟨e2, fun hh => absurd hh (lookup_index (e3 0 (by omega)) e2 (by simp))⟩, ⟨?_, ?_⟩⟩
    · intro w hw
      exact ⟨0, 256, e3 w hw, by omega, by omega⟩
    · intro i c hc hlt
      cases i with
      | zero => simp at hc; subst hc; simp at hlt
      | succ i => simp at hc
  · have h2 : 2 ≤ cs.length := by
      have := List.length_pos_iff.mpr h.pos; omega
    obtain ⟨t, e1, e2, e3, e4⟩ := buildLut_spec cs t0 h.toCanonical h2 h.count hl
    have hown : ∀ w, w < width16 cs → ∃ i c, cs[i]? = some c ∧ width16 (cs.take i) ≤ w ∧
        w < width16 (cs.take i) + 2 ^ (16 - c.1) ∧ lookup t w = some c := by
      intro w hw
      obtain ⟨i, c, k1, k2, k3⟩ := owner cs 0 w (by omega) (by omega)
      refine ⟨i, c, k1, by omega, by omega, e3.get i c k1 w k2 k3⟩
    refine ⟨t, e1, ⟨e2, ?_⟩, ⟨?_, ?_⟩⟩
    · intro hh
      obtain ⟨i, c, k1, k2, k3, k4⟩ := hown 0 (by
        cases cs with
        | nil => simp at h2
        | cons x cs =>
          rw [width16_cons]
          have : 0 < 2 ^ (16 - x.1) := Nat.two_pow_pos _
          omega)
      refine absurd hh (lookup_index k4 e2 ?_)
      have hm := List.mem_of_getElem? k1
      rw [hcs] at hm
      rcases List.mem_append.mp hm with hm | hm
      · have := hsym c hm; omega
      · rw [List.mem_singleton.mp hm]; exact Nat.le_refl _
    · intro w hw
      by_cases hlt : w < width16 cs
      · obtain ⟨i, c, k1, k2, k3, k4⟩ := hown w hlt
        exact ⟨c.1, c.2, k4, (h.len c (List.mem_of_getElem? k1)).2, fun _ => ⟨i, k1, k2, k3⟩⟩
      · obtain ⟨l, k1, k2⟩ := e4 (hf (by omega)) w (by omega) hw
        exact ⟨l, 0xffff, k1, k2, by omega⟩
    · intro i c hc _ w k1 k2
      exact e3.get i c hc w (by omega) (by omega)

/-- A table that is read never leaves its 1024 entries, and if it is accepted it is as specified. -/
theorem readTable_spec (isAc : Bool) (counts values : List Nat) (t : List LutEntry) (hc : counts.length = 16)
    (hv : ∀ v ∈ values, v < 256) (ht : SlotOk t) :
    ∃ r, readTable isAc counts values t = some r ∧
      ∀ cs t', r = some (cs, t') → Accepted cs ∧ SlotOk t' ∧ Reads cs t' := by
  unfold readTable
  simp only
  have hdc : (if isAc then 256 else 12) ≤ 256 := by split <;> omega
  generalize (if isAc then 256 else 12) = lim at *
  split
  · exact ⟨none, rfl, by intro _ _ h; cases h⟩
  · rename_i h1
    split
    · exact ⟨none, rfl, by intro _ _ h; cases h⟩
    · rename_i h2
      split
      · exact ⟨none, rfl, by intro _ _ h; cases h⟩
      · rename_i h3
        split
        · exact ⟨none, rfl, by intro _ _ h; cases h⟩
        · rename_i h4
          have hacc := accepted_of counts (values.take (expand 1 counts).length) hc
            (fun v hm => hv v (List.mem_of_mem_take hm)) (Classical.byContradiction fun h => h3 (Or.inr h))
            (by rw [List.length_take]; omega) (by omega) (Nat.le_of_not_lt h4)
          generalize ((expand 1 counts ++ [maxDepth (expand 1 counts)]).zip (values.take (expand 1 counts).length ++ [256])) = cs at *
          obtain ⟨t', k1, k2, k3⟩ := build_reads (t0 := if (cs.map fun c => 2 ^ (16 - c.1)).sum < 2 ^ 16 ∧
              (t.headD LutEntry.fresh).value ≠ 0xffff then List.replicate lutSize LutEntry.fresh else t) hacc
            (by split
                · exact List.length_replicate
                · exact ht.1)
            (by intro hw
                split
                · rfl
                · rename_i hn
                  apply ht.2
                  apply Classical.byContradiction
                  intro hne
                  exact hn ⟨hw, hne⟩)
          rw [k1]
          refine ⟨some (cs, t'), rfl, ?_⟩
          intro cs' t'' he
          injection he with he
          injection he with he1 he2
          subst he1; subst he2
          exact ⟨hacc, k2, k3⟩

/-! ## The writer's codes -/

theorem assign_spec : ∀ (cs : List Code) (si code p : Nat), cs.Pairwise (fun a b => a.1 ≤ b.1) →
    (∀ c ∈ cs, si ≤ c.1 ∧ c.1 ≤ 16) → code * 2 ^ (16 - si) = p → si ≤ 16 →
    (assign (cs.map Prod.fst) si code).length = cs.length ∧
    ∀ i c, cs[i]? = some c → ∃ k, (assign (cs.map Prod.fst) si code)[i]? = some k ∧
      k * 2 ^ (16 - c.1) = p + width16 (cs.take i) := by
  intro cs
  induction cs with
  | nil => intro si code p _ _ _ _; exact ⟨rfl, by intro i c h; simp at h⟩
  | cons x cs ih =>
    intro si code p hs hb hp hsi
    have hx := hb x (by simp)
    have hsc := List.pairwise_cons.mp hs
    have hk : (code <<< (x.1 - si)) * 2 ^ (16 - x.1) = p := by
      rw [Nat.shiftLeft_eq, Nat.mul_assoc, ← Nat.pow_add, show x.1 - si + (16 - x.1) = 16 - si by omega, hp]
    obtain ⟨g1, g2⟩ := ih x.1 ((code <<< (x.1 - si)) + 1) (p + 2 ^ (16 - x.1)) hsc.2
      (fun c hc => ⟨hsc.1 c hc, (hb c (by simp [hc])).2⟩) (by rw [Nat.add_mul, hk, Nat.one_mul]) hx.2
    rw [List.map_cons, assign]
    refine ⟨by simp [g1], ?_⟩
    intro i c hc
    cases i with
    | zero =>
      simp only [List.getElem?_cons_zero, Option.some.injEq] at hc
      subst hc
      exact ⟨_, rfl, by simpa [width16_nil] using hk⟩
    | succ i =>
      simp only [List.getElem?_cons_succ] at hc
      obtain ⟨k, e1, e2⟩ := g2 i c hc
      refine ⟨k, by simpa using e1, ?_⟩
      rw [e2, List.take_succ_cons, width16_cons]; omega

/-- One assignment of the last loop of `BuildHuffmanCodeTable`. -/
def putCode (h : Huff) (c : Code × Nat) : Huff :=
  { depth := fun s => if s = c.1.2 then c.1.1 else h.depth s, code := fun s => if s = c.1.2 then c.2 % 65536 else h.code s }

theorem foldl_putCode : ∀ (zs : List (Code × Nat)) (h : Huff), (zs.map fun z => z.1.2).Nodup →
    (∀ z ∈ zs, (zs.foldl putCode h).depth z.1.2 = z.1.1 ∧ (zs.foldl putCode h).code z.1.2 = z.2 % 65536) ∧
    ∀ s, (∀ z ∈ zs, z.1.2 ≠ s) → (zs.foldl putCode h).depth s = h.depth s ∧ (zs.foldl putCode h).code s = h.code s := by
  intro zs
  induction zs with
  | nil => intro h _; exact ⟨by intro z hz; exact absurd hz List.not_mem_nil, fun s _ => ⟨rfl, rfl⟩⟩
  | cons x zs ih =>
    intro h hnd
    rw [List.map_cons, List.nodup_cons] at hnd
    obtain ⟨g1, g2⟩ := ih (putCode h x) hnd.2
    rw [List.foldl_cons]
    refine ⟨?_, ?_⟩
    · intro z hz
      rcases List.mem_cons.mp hz with rfl | hz
      · obtain ⟨k1, k2⟩ := g2 z.1.2 (fun y hy he => hnd.1 (List.mem_map.mpr ⟨y, hy, he⟩))
        rw [k1, k2]
        unfold putCode
        simp
      · exact g1 z hz
    · intro s hs
      obtain ⟨k1, k2⟩ := g2 s fun z hz => hs z (by simp [hz])
      rw [k1, k2]
      have := hs x (by simp)
      unfold putCode
      simp only
      rw [if_neg (fun e => this e.symm), if_neg (fun e => this e.symm)]
      exact ⟨rfl, rfl⟩

theorem codeTable_eq (cs : List Code) : codeTable cs =
    ((cs.dropLast.zip (assign (cs.dropLast.map Prod.fst) ((cs.headD (1, 0)).1) 0))).foldl putCode
      { depth := fun _ => 127, code := fun _ => 0 } := rfl

theorem width16_take_le (cs : List Code) {i : Nat} {c : Code} (h : cs[i]? = some c) :
    width16 (cs.take i) + 2 ^ (16 - c.1) ≤ width16 cs := by
  obtain ⟨hi, he⟩ := List.getElem?_eq_some_iff.mp h
  conv => rhs; rw [← List.take_append_drop i cs]
  rw [width16_append, List.drop_eq_getElem_cons hi, width16_cons, he]
  omega

/-- The writer's table: the code of every symbol of the table, and no code for the others. -/
theorem codeTable_spec {cs : List Code} (h : Accepted cs) :
    (∀ i l v, cs[i]? = some (l, v) → v < 256 → (codeTable cs).depth v = l ∧ (codeTable cs).code v < 2 ^ l ∧
      (codeTable cs).code v * 2 ^ (16 - l) = width16 (cs.take i)) ∧
    ∀ v, (codeTable cs).depth v = 127 ∨ (v < 256 ∧ ∃ i : Nat, cs[i]? = some ((codeTable cs).depth v, v)) := by
  obtain ⟨init, ml, hcs, hnd, hsym⟩ := h.symbols
  have hdl : cs.dropLast = init := by rw [hcs, List.dropLast_concat]
  have hsrt := h.sorted
  rw [hcs] at hsrt
  have hsi := (List.pairwise_append.mp hsrt).1
  have hlenI : ∀ c ∈ init, 1 ≤ c.1 ∧ c.1 ≤ 16 := fun c hc => h.len c (by rw [hcs]; simp [hc])
  generalize hcode : assign (init.map Prod.fst) ((cs.headD (1, 0)).1) 0 = codes
  have hh : (∀ c ∈ init, (cs.headD (1, 0)).1 ≤ c.1 ∧ c.1 ≤ 16) ∧ (cs.headD (1, 0)).1 ≤ 16 := by
    cases hi : init with
    | nil =>
      refine ⟨by simp, ?_⟩
      have := h.len (ml, 256) (by rw [hcs]; simp)
      rw [hcs, hi]; simpa using this.2
    | cons x xs =>
      have e : cs.headD (1, 0) = x := by rw [hcs, hi]; rfl
      rw [e]
      rw [hi] at hsi hlenI
      refine ⟨?_, (hlenI x (by simp)).2⟩
      intro c hc
      refine ⟨?_, (hlenI c hc).2⟩
      rcases List.mem_cons.mp hc with rfl | hc
      · exact Nat.le_refl _
      · exact (List.pairwise_cons.mp hsi).1 c hc
  obtain ⟨g1, g2⟩ := assign_spec init ((cs.headD (1, 0)).1) 0 0 hsi hh.1 (by simp) hh.2
  rw [hcode] at g1 g2
  have hz : (init.zip codes).map (fun z => z.1.2) = init.map Prod.snd := by
    have : (init.zip codes).map (fun z => z.1.2) = ((init.zip codes).map Prod.fst).map Prod.snd := by
      rw [List.map_map]; rfl
    rw [this, List.map_fst_zip (by omega)]
  obtain ⟨f1, f2⟩ := foldl_putCode (init.zip codes) { depth := fun _ => 127, code := fun _ => 0 } (by rw [hz]; exact hnd)
  rw [codeTable_eq, hdl, hcode]
  refine ⟨?_, ?_⟩
  · intro i l v hi hv
    have hii : init[i]? = some (l, v) := by
      rw [hcs] at hi
      by_cases hlt : i < init.length
      · rw [List.getElem?_append_left hlt] at hi; exact hi
      · rw [List.getElem?_append_right (by omega)] at hi
        cases hk : i - init.length with
        | zero => rw [hk] at hi; simp at hi; omega
        | succ k => rw [hk] at hi; simp at hi
    obtain ⟨k, k1, k2⟩ := g2 i (l, v) hii
    have htk : cs.take i = init.take i := by
      have : i < init.length := (List.getElem?_eq_some_iff.mp hii).1
      rw [hcs, List.take_append_of_le_length (by omega)]
    have hm : ((l, v), k) ∈ init.zip codes := by
      apply List.mem_of_getElem? (i := i)
      rw [List.getElem?_zip_eq_some]; exact ⟨hii, k1⟩
    obtain ⟨m1, m2⟩ := f1 _ hm
    simp only at m1 m2 k2
    have hw := width16_take_le cs hi
    have hfit := h.fits
    have hl16 := (hlenI (l, v) (List.mem_of_getElem? hii)).2
    simp only at hw hl16
    rw [htk] at hw ⊢
    rw [Nat.zero_add] at k2
    have hlt : k < 2 ^ l := by
      have h16 : 2 ^ 16 = 2 ^ l * 2 ^ (16 - l) := by rw [← Nat.pow_add]; congr 1; omega
      have hp := Nat.two_pow_pos (16 - l)
      rw [h16] at hfit
      apply Nat.lt_of_mul_lt_mul_right (a := 2 ^ (16 - l))
      omega
    have hl65 : k < 65536 := Nat.lt_of_lt_of_le hlt (by
      calc 2 ^ l ≤ 2 ^ 16 := Nat.pow_le_pow_right (by omega) hl16
        _ = 65536 := rfl)
    rw [m1, m2, Nat.mod_eq_of_lt hl65]
    exact ⟨rfl, hlt, k2⟩
  · intro v
    by_cases hex : ∃ z ∈ init.zip codes, z.1.2 = v
    · obtain ⟨z, hzm, rfl⟩ := hex
      right
      have hzi := (List.of_mem_zip (a := z.1) (b := z.2) hzm).1
      refine ⟨hsym z.1 hzi, ?_⟩
      obtain ⟨i, hi⟩ := List.mem_iff_getElem?.mp hzi
      refine ⟨i, ?_⟩
      rw [(f1 z hzm).1, hcs, List.getElem?_append_left (List.getElem?_eq_some_iff.mp hi).1, hi]
    · left
      exact (f2 v fun z hz he => hex ⟨z, hz, he⟩).1

/-! ## Reading -/

theorem valMsb_take (l : List Bool) (k : Nat) (hk : k ≤ l.length) : valMsb (l.take k) = valMsb l / 2 ^ (l.length - k) := by
  have hd := valMsb_lt (l.drop k)
  rw [List.length_drop] at hd
  conv => rhs; rw [← List.take_append_drop k l]
  rw [valMsb_append, List.length_append, List.length_drop, List.length_take,
    show min k l.length + (l.length - k) - k = l.length - k by omega, Nat.mul_comm,
    Nat.mul_add_div (Nat.two_pow_pos _), Nat.div_eq_of_lt hd, Nat.add_zero]

theorem valMsb_drop (l : List Bool) (k : Nat) (hk : k ≤ l.length) : valMsb (l.drop k) = valMsb l % 2 ^ (l.length - k) := by
  have hd := valMsb_lt (l.drop k)
  rw [List.length_drop] at hd
  conv => rhs; rw [← List.take_append_drop k l]
  rw [valMsb_append, List.length_append, List.length_drop, List.length_take,
    show min k l.length + (l.length - k) - k = l.length - k by omega, Nat.mul_add_mod_self_right, Nat.mod_eq_of_lt hd]

theorem peek_inv {d pre S T : List Nat} {r : Reader} (h : RInv d pre S T r) (n : Nat) (hn : n ≤ r.left) :
    peek r n = valMsb (((bitsMsb T).drop (used T r)).take n) ∧
    RInv d pre S T { r with left := r.left - n } ∧ used T { r with left := r.left - n } = used T r + n := by
  have hle := h.left
  have hbl : ((bitsMsb T).drop (used T r)).length = r.left := by
    rw [List.length_drop, bitsMsb_length]; unfold used; omega
  have hval := h.val
  have hu : 8 * T.length - r.left = used T r := rfl
  rw [hu] at hval
  refine ⟨?_, ⟨h.pos, h.agree, h.low, h.high, h.bytes, ?_, ?_⟩, ?_⟩
  · unfold peek
    rw [valMsb_take _ _ (by omega), hbl, ← hval, Nat.and_two_pow_sub_one_eq_mod, Nat.shiftRight_eq_div_pow]
    have : (2 : Nat) ^ r.left = 2 ^ (r.left - n) * 2 ^ n := by rw [← Nat.pow_add]; congr 1; omega
    rw [this, Nat.mod_mul_right_div_self]
  · show r.left - n ≤ 64 ∧ r.left - n ≤ 8 * T.length; omega
  · show r.val % 2 ^ (r.left - n) = valMsb ((bitsMsb T).drop (8 * T.length - (r.left - n)))
    rw [show 8 * T.length - (r.left - n) = used T r + n by omega, ← List.drop_drop, valMsb_drop _ _ (by omega), hbl,
      ← hval, Nat.mod_mod_of_dvd _ (Nat.pow_dvd_pow 2 (by omega))]
  · show 8 * T.length - (r.left - n) = _; omega

/-- Reading a symbol is one walk through the table with the next 16 bits. -/
theorem readSymbol_inv {d pre S T : List Nat} {r : Reader} (hp : Placed d pre S) (h : RInv d pre S T r)
    {t : List LutEntry} (ht : ∀ w, w < 65536 → ∃ l v, lookup t w = some (l, v) ∧ l ≤ 16) :
    ∃ l v r' X, readSymbol d t r = some (v, r') ∧ RInv d pre S (T ++ X) r' ∧ used (T ++ X) r' = used T r + l ∧
      used T r + 16 ≤ 8 * (T ++ X).length ∧ l ≤ 16 ∧
      lookup t (valMsb (((bitsMsb (T ++ X)).drop (used T r)).take 16)) = some (l, v) := by
  obtain ⟨r1, X, e1, h1, h17, hl⟩ := fill_inv hp h
  have hle := h1.left
  have hle0 := h.left
  have hlen : (T ++ X).length = T.length + X.length := by simp
  have hu : used (T ++ X) r1 = used T r := by unfold used; rw [hlen]; omega
  have h16 : used T r + 16 ≤ 8 * (T ++ X).length := by unfold used; rw [hlen]; unfold used at hu; omega
  generalize hB : ((bitsMsb (T ++ X)).drop (used T r)).take 16 = B
  have hBl : B.length = 16 := by rw [← hB, List.length_take, List.length_drop, bitsMsb_length]; omega
  have hw : valMsb B < 65536 := by have := valMsb_lt B; rw [hBl] at this; exact this
  obtain ⟨l, v, k1, k2⟩ := ht _ hw
  have hpk : ∀ n, n ≤ 16 → ((bitsMsb (T ++ X)).drop (used T r)).take n = B.take n := by
    intro n hn; rw [← hB, List.take_take, Nat.min_eq_left hn]
  obtain ⟨p1, p2, p3⟩ := peek_inv h1 8 (by omega)
  rw [hu, hpk 8 (by omega), valMsb_take _ _ (by omega), hBl] at p1
  have e256 : (2 : Nat) ^ (16 - 8) = 256 := rfl
  rw [e256] at p1
  unfold lookup at k1
  unfold readSymbol
  rw [e1]
  simp only [Option.bind_some]
  rw [p1]
  cases hte : t[valMsb B / 256]? with
  | none => rw [hte] at k1; cases k1
  | some e =>
    rw [hte] at k1
    simp only [Option.bind_some] at k1 ⊢
    by_cases hb16 : e.bits > 16
    · rw [if_pos hb16] at k1; cases k1
    · rw [if_neg hb16] at k1
      by_cases hb8 : e.bits > 8
      · rw [if_pos hb8] at k1 ⊢
        obtain ⟨q1, q2, q3⟩ := peek_inv p2 (e.bits - 8) (by show e.bits - 8 ≤ r1.left - 8; omega)
        have hq : peek { r1 with left := r1.left - 8 } (e.bits - 8) = valMsb B % 256 / 2 ^ (16 - e.bits) := by
          rw [q1, p3, hu, ← List.drop_drop]
          have : (((bitsMsb (T ++ X)).drop (used T r)).drop 8).take (e.bits - 8) = (B.drop 8).take (e.bits - 8) := by
            rw [← hB, List.drop_take, List.take_take, show min (e.bits - 8) (16 - 8) = e.bits - 8 by omega]
          rw [this, valMsb_take _ _ (by rw [List.length_drop]; omega), valMsb_drop _ _ (by omega), List.length_drop, hBl,
            show 16 - 8 - (e.bits - 8) = 16 - e.bits by omega]
        rw [hq]
        cases hte2 : t[valMsb B / 256 + e.value + valMsb B % 256 / 2 ^ (16 - e.bits)]? with
        | none => rw [hte2] at k1; cases k1
        | some e' =>
          rw [hte2] at k1
          simp only [Option.bind_some, Option.some.injEq, Prod.mk.injEq] at k1
          obtain ⟨z1, z2⟩ := k1
          obtain ⟨s1, s2, s3⟩ := peek_inv p2 e'.bits (by show e'.bits ≤ r1.left - 8; omega)
          refine ⟨l, v, { r1 with left := r1.left - 8 - e'.bits }, X, ?_, s2, ?_, h16, k2, ?_⟩
          · rw [← z2]; rfl
          · have := s3; simp only at this
            rw [this, p3, hu]; omega
          · rw [hB]; unfold lookup
            rw [hte]
            simp only [Option.bind_some]
            rw [if_neg hb16, if_pos hb8, hte2]
            simp only [Option.bind_some]
            rw [z1, z2]
      · rw [if_neg hb8] at k1 ⊢
        simp only [Option.some.injEq, Prod.mk.injEq] at k1
        obtain ⟨z1, z2⟩ := k1
        obtain ⟨s1, s2, s3⟩ := peek_inv h1 e.bits (by omega)
        refine ⟨l, v, { r1 with left := r1.left - e.bits }, X, ?_, s2, ?_, h16, k2, ?_⟩
        · rw [← z2]
        · rw [s3, hu]; omega
        · rw [hB]; unfold lookup
          rw [hte]
          simp only [Option.bind_some]
          rw [if_neg hb16, if_neg hb8, z1, z2]

/-! ## Sequences of symbols -/

theorem slotOk_of {t : List LutEntry} (h : Slot t) : SlotOk t := by
  induction h with
  | fresh => exact ⟨List.length_replicate, fun _ => rfl⟩
  | built _ hc hv hr ih =>
    obtain ⟨r, e, k⟩ := readTable_spec _ _ _ _ hc hv ih
    rw [hr] at e
    injection e with e
    exact (k _ _ e.symm).2.1

theorem fromFile_spec {x : List Code × List LutEntry} (h : FromFile x) : Accepted x.1 ∧ Reads x.1 x.2 := by
  obtain ⟨t, isAc, counts, values, hs, hc, hv, hr⟩ := h
  obtain ⟨r, e, k⟩ := readTable_spec isAc counts values t hc hv (slotOk_of hs)
  rw [hr] at e
  injection e with e
  have := k x.1 x.2 e.symm
  exact ⟨this.1, this.2.2⟩

theorem codeTable_pos {cs : List Code} (h : Accepted cs) (v : Nat) (hv : (codeTable cs).depth v ≠ 127) :
    v < 256 ∧ 1 ≤ (codeTable cs).depth v ∧ (codeTable cs).depth v ≤ 16 ∧
      ∃ i : Nat, cs[i]? = some ((codeTable cs).depth v, v) := by
  rcases (codeTable_spec h).2 v with h1 | ⟨h1, i, hi⟩
  · exact absurd h1 hv
  · have := h.len _ (List.mem_of_getElem? hi)
    exact ⟨h1, this.1, this.2, i, hi⟩

theorem take_agree {S T : List Nat} (h : T.take S.length = S.take T.length) {k : Nat} (h1 : k ≤ 8 * S.length)
    (h2 : k ≤ 8 * T.length) : (bitsMsb T).take k = (bitsMsb S).take k := by
  have e1 : (bitsMsb T).take k = (bitsMsb (T.take S.length)).take k := by
    conv => lhs; rw [← List.take_append_drop S.length T, bitsMsb_append]
    rw [List.take_append_of_le_length (by rw [bitsMsb_length, List.length_take]; omega)]
  have e2 : (bitsMsb S).take k = (bitsMsb (S.take T.length)).take k := by
    conv => lhs; rw [← List.take_append_drop T.length S, bitsMsb_append]
    rw [List.take_append_of_le_length (by rw [bitsMsb_length, List.length_take]; omega)]
  rw [e1, e2, h]

/-- One symbol: it is read for exactly one code, the writer's. -/
theorem symbol_step {d pre S T : List Nat} {r : Reader} (hp : Placed d pre S) (h : RInv d pre S T r)
    {x : List Code × List LutEntry} (hx : FromFile x) :
    ∃ v r' X, readSymbol d x.2 r = some (v, r') ∧ RInv d pre S (T ++ X) r' ∧
      used T r ≤ used (T ++ X) r' ∧ used T r + 16 ≤ 8 * (T ++ X).length ∧
      (v < 256 → (codeTable x.1).depth v ≠ 127 ∧ used (T ++ X) r' = used T r + (codeTable x.1).depth v ∧
        ((bitsMsb (T ++ X)).drop (used T r)).take ((codeTable x.1).depth v) =
          msb ((codeTable x.1).depth v) ((codeTable x.1).code v)) ∧
      ∀ s, (codeTable x.1).depth s ≠ 127 →
        ((bitsMsb (T ++ X)).drop (used T r)).take ((codeTable x.1).depth s) =
          msb ((codeTable x.1).depth s) ((codeTable x.1).code s) → v = s := by
  obtain ⟨hacc, hreads⟩ := fromFile_spec hx
  obtain ⟨l, v, r', X, e1, e2, e3, e4, e5, e6⟩ := readSymbol_inv hp h
    (fun w hw => by obtain ⟨l, v, k1, k2, _⟩ := hreads.total w hw; exact ⟨l, v, k1, k2⟩)
  obtain ⟨c1, c2⟩ := codeTable_spec hacc
  generalize hB : ((bitsMsb (T ++ X)).drop (used T r)).take 16 = B at e6
  have hBl : B.length = 16 := by rw [← hB, List.length_take, List.length_drop, bitsMsb_length]; omega
  have hw : valMsb B < 65536 := by have := valMsb_lt B; rw [hBl] at this; exact this
  have hpk : ∀ n, n ≤ 16 → ((bitsMsb (T ++ X)).drop (used T r)).take n = B.take n := by
    intro n hn; rw [← hB, List.take_take, Nat.min_eq_left hn]
  refine ⟨v, r', X, e1, e2, by omega, e4, ?_, ?_⟩
  · intro hv
    obtain ⟨l', v', k1, _, k3⟩ := hreads.total _ hw
    rw [e6] at k1
    injection k1 with k1
    injection k1 with k1 k1'
    subst k1; subst k1'
    obtain ⟨i, i1, i2, i3⟩ := k3 hv
    obtain ⟨d1, d2, d3⟩ := c1 i l v i1 hv
    rw [d1]
    refine ⟨by omega, e3, ?_⟩
    rw [hpk l e5]
    have hval : valMsb (B.take l) = (codeTable x.1).code v := by
      rw [valMsb_take _ _ (by omega), hBl]
      rw [Nat.div_eq_of_lt_le]
      · rw [d3]; exact i2
      · rw [Nat.add_mul, d3, Nat.one_mul]; exact i3
    have hm := msb_valMsb (B.take l)
    rw [List.length_take, hBl, Nat.min_eq_left e5, hval] at hm
    exact hm.symm
  · intro s hs heq
    obtain ⟨q1, q2, q3, i, q4⟩ := codeTable_pos hacc s hs
    obtain ⟨d1, d2, d3⟩ := c1 i _ s q4 q1
    rw [hpk _ q3] at heq
    have hval : valMsb (B.take ((codeTable x.1).depth s)) = (codeTable x.1).code s := by
      rw [heq, valMsb_msb _ _ d2]
    rw [valMsb_take _ _ (by omega), hBl] at hval
    have hp2 : 0 < 2 ^ (16 - (codeTable x.1).depth s) := Nat.two_pow_pos _
    have hlo := Nat.div_mul_le_self (valMsb B) (2 ^ (16 - (codeTable x.1).depth s))
    have hhi := Nat.lt_div_mul_add (a := valMsb B) hp2
    rw [hval, d3] at hlo hhi
    have := hreads.found i _ q4 q1 (valMsb B) hlo hhi
    rw [e6] at this
    injection this with this
    injection this

theorem symbolBits_cons (cs : List Code) (css : List (List Code)) (v : Nat) (vs : List Nat) :
    symbolBits (cs :: css) (v :: vs) = msb ((codeTable cs).depth v) ((codeTable cs).code v) ++ symbolBits css vs := rfl

theorem symbols_run {d pre S : List Nat} (hp : Placed d pre S) : ∀ (xs : List (List Code × List LutEntry)),
    (∀ x ∈ xs, FromFile x) → ∀ {T : List Nat} {r : Reader}, RInv d pre S T r →
    ∃ vs r' X, readSymbols d (xs.map Prod.snd) r = some (vs, r') ∧ vs.length = xs.length ∧ RInv d pre S (T ++ X) r' ∧
      ((∀ v ∈ vs, v < 256) →
        used (T ++ X) r' = used T r + (symbolBits (xs.map Prod.fst) vs).length ∧
        used (T ++ X) r' ≤ 8 * (T ++ X).length ∧
        ((bitsMsb (T ++ X)).drop (used T r)).take (symbolBits (xs.map Prod.fst) vs).length =
          symbolBits (xs.map Prod.fst) vs) ∧
      ∀ ss, ss.length = xs.length → (∀ z ∈ xs.zip ss, (codeTable z.1.1).depth z.2 ≠ 127) →
        used T r + (symbolBits (xs.map Prod.fst) ss).length ≤ 8 * S.length →
        ((bitsMsb S).drop (used T r)).take (symbolBits (xs.map Prod.fst) ss).length = symbolBits (xs.map Prod.fst) ss →
        vs = ss := by
  intro xs
  induction xs with
  | nil =>
    intro _ T r h
    refine ⟨[], r, [], rfl, rfl, by simpa using h, ?_, ?_⟩
    · intro _
      have := h.left
      simp only [List.map_nil, symbolBits, List.append_nil, List.length_nil, List.take_zero, Nat.add_zero, used, true_and, and_true]
      omega
    · intro ss hs _ _ _; exact (List.length_eq_zero_iff.mp hs).symm
  | cons x xs ih =>
    intro hx T r h
    obtain ⟨v, r1, X, e1, h1, u1, u2, f1, f2⟩ := symbol_step hp h (hx x (by simp))
    obtain ⟨vs, r2, Y, g1, g2, g3, g4, g5⟩ := ih (fun y hy => hx y (by simp [hy])) h1
    obtain ⟨hacc, _⟩ := fromFile_spec (hx x (by simp))
    refine ⟨v :: vs, r2, X ++ Y, ?_, by simp [g2], by rw [← List.append_assoc]; exact g3, ?_, ?_⟩
    · rw [List.map_cons, readSymbols, e1]
      simp only [Option.bind_some]
      rw [g1]; rfl
    · intro hlt
      obtain ⟨k1, k2, k3⟩ := f1 (hlt v (by simp))
      obtain ⟨m1, m2, m3⟩ := g4 fun y hy => hlt y (by simp [hy])
      have hd := (codeTable_pos hacc v k1).2.2.1
      rw [List.map_cons, symbolBits_cons, List.length_append, msb_length, ← List.append_assoc]
      refine ⟨by rw [m1, k2]; omega, m2, ?_⟩
      rw [List.take_add, List.drop_drop, ← k2, m3]
      congr 1
      rw [← k3, bitsMsb_append (T ++ X), List.drop_append_of_le_length (by rw [bitsMsb_length]; omega),
        List.take_append_of_le_length (by rw [List.length_drop, bitsMsb_length]; omega)]
    · intro ss hs hz hfit hbits
      cases ss with
      | nil => simp at hs
      | cons s ss =>
        rw [List.map_cons, symbolBits_cons] at hfit hbits
        rw [List.length_append, msb_length] at hfit hbits
        have hs127 : (codeTable x.1).depth s ≠ 127 := hz (x, s) (by simp)
        obtain ⟨q1, q2, q3, _⟩ := codeTable_pos hacc s hs127
        have hsplit : ((bitsMsb S).drop (used T r)).take ((codeTable x.1).depth s) =
            msb ((codeTable x.1).depth s) ((codeTable x.1).code s) ∧
            (((bitsMsb S).drop (used T r)).drop ((codeTable x.1).depth s)).take (symbolBits (xs.map Prod.fst) ss).length =
              symbolBits (xs.map Prod.fst) ss := by
          rw [List.take_add] at hbits
          have hl : (((bitsMsb S).drop (used T r)).take ((codeTable x.1).depth s)).length =
              (msb ((codeTable x.1).depth s) ((codeTable x.1).code s)).length := by
            rw [List.length_take, List.length_drop, bitsMsb_length, msb_length]; omega
          exact List.append_inj hbits hl
        have hpre : ((bitsMsb (T ++ X)).drop (used T r)).take ((codeTable x.1).depth s) =
            ((bitsMsb S).drop (used T r)).take ((codeTable x.1).depth s) := by
          have := take_agree h1.agree (k := used T r + (codeTable x.1).depth s) (by omega) (by omega)
          have h2 := congrArg (List.drop (used T r)) this
          rw [List.drop_take, List.drop_take, Nat.add_sub_cancel_left] at h2
          exact h2
        have hv : v = s := f2 s hs127 (by rw [hpre]; exact hsplit.1)
        subst hv
        obtain ⟨_, k2, _⟩ := f1 q1
        rw [g5 ss (by simpa using hs) (fun z hzm => hz z (by simp [hzm])) (by rw [k2]; omega) (by
          rw [k2, ← List.drop_drop]; exact hsplit.2)]

/-- Starting to read a segment. -/
theorem reset_inv {d pre S : List Nat} (hp : Placed d pre S) :
    ∃ r X, Reader.reset d pre.length = some r ∧ RInv d pre S X r ∧ used X r = 0 := by
  have hlen := hp.length
  have h0 : RInv d pre S [] { pos := pre.length, val := 0, left := 0, marker := d.length - 2 } := by
    refine ⟨by simp [stuff], by simp, fun _ => rfl, by intro h; simp at h, by simp, by simp, by simp [bitsMsb]⟩
  obtain ⟨r0, X, e0, h1, _, hl⟩ := fill_inv hp h0
  refine ⟨r0, X, by unfold Reader.reset; rw [if_neg (by omega)]; exact e0, by simpa using h1, ?_⟩
  have : r0.left = 8 * X.length := by simpa using hl
  simp [used, this]

theorem codeWord_eq {l k : Nat} (hl : l ≤ 16) (hk : k < 2 ^ l) : (msb 16 (k * 2 ^ (16 - l))).take l = msb l k := by
  have h16 : k * 2 ^ (16 - l) < 2 ^ 16 := by
    have : (2 : Nat) ^ 16 = 2 ^ l * 2 ^ (16 - l) := by rw [← Nat.pow_add]; congr 1; omega
    rw [this]; exact Nat.mul_lt_mul_of_pos_right hk (Nat.two_pow_pos _)
  have hv : valMsb ((msb 16 (k * 2 ^ (16 - l))).take l) = k := by
    rw [valMsb_take _ _ (by rw [msb_length]; omega), msb_length, valMsb_msb _ _ h16,
      Nat.mul_div_cancel _ (Nat.two_pow_pos _)]
  have := msb_valMsb ((msb 16 (k * 2 ^ (16 - l))).take l)
  rw [hv, List.length_take, msb_length, Nat.min_eq_left hl] at this
  exact this.symm

end Jxl.Jpeg
