import Verif.Model.FastCode
import Verif.Spec.CodeLengths
/-!
# The search for code lengths of the fast lossless encoder
-/
namespace Jxl.FastCode

/-- Lengths within the limits of the symbols. -/
def Within : List Sym → List Nat → Prop
  | [], [] => True
  | s :: ss, l :: ls => s.lo ≤ l ∧ l ≤ s.hi ∧ Within ss ls
  | _, _ => False

def cost : List Sym → List Nat → Nat
  | s :: ss, l :: ls => s.freq * l + cost ss ls
  | _, _ => 0

def kraft (K : Nat) (ls : List Nat) : Nat := (ls.map fun l => 2 ^ (K - l)).sum

theorem within_length : ∀ {ss : List Sym} {ls : List Nat}, Within ss ls → ls.length = ss.length
  | [], [], _ => rfl
  | _ :: _, _ :: _, h => by simp [within_length h.2.2]
  | [], _ :: _, h => h.elim
  | _ :: _, [], h => h.elim

theorem within_append : ∀ (ps : List Sym) {ss : List Sym} {p q : List Nat}, Within ps p → Within ss q → Within (ps ++ ss) (p ++ q)
  | [], _, [], _, _, h => h
  | _ :: ps, _, _ :: _, _, h, h' => ⟨h.1, h.2.1, within_append ps h.2.2 h'⟩
  | [], _, _ :: _, _, h, _ => h.elim
  | _ :: _, _, [], _, h, _ => h.elim

theorem within_split : ∀ (ps : List Sym) {ss : List Sym} {ls : List Nat}, Within (ps ++ ss) ls →
    ∃ p q, ls = p ++ q ∧ Within ps p ∧ Within ss q
  | [], _, ls, h => ⟨[], ls, rfl, trivial, h⟩
  | _ :: ps, _, [], h => h.elim
  | _ :: ps, _, l :: ls, h => by
    obtain ⟨p, q, e, h1, h2⟩ := within_split ps h.2.2
    exact ⟨l :: p, q, by simp [e], ⟨h.1, h.2.1, h1⟩, h2⟩

theorem cost_append : ∀ (ps : List Sym) {ss : List Sym} {p q : List Nat}, Within ps p → cost (ps ++ ss) (p ++ q) = cost ps p + cost ss q
  | [], _, [], _, _ => by simp [cost]
  | s :: ps, ss, l :: p, q, h => by
    show s.freq * l + cost (ps ++ ss) (p ++ q) = s.freq * l + cost ps p + cost ss q
    rw [cost_append ps h.2.2]; omega
  | [], _, _ :: _, _, h => h.elim
  | _ :: _, _, [], _, h => h.elim

theorem kraft_append (K : Nat) (p q : List Nat) : kraft K (p ++ q) = kraft K p + kraft K q := by simp [kraft]

theorem within_one {s : Sym} {q : List Nat} (h : Within [s] q) : ∃ l, q = [l] ∧ s.lo ≤ l ∧ l ≤ s.hi := by
  match q, h with
  | [l], h => exact ⟨l, rfl, h.1, h.2.1⟩
  | [], h => exact h.elim
  | _ :: _ :: _, h => exact h.2.2.elim

/-- What the search needs to know of its numbers. -/
structure Ok (e : Env) (all : List Sym) : Prop where
  pos : ∀ s ∈ all, 0 < s.freq ∧ 1 ≤ s.lo ∧ s.hi ≤ e.prec
  inf : e.inf = (all.map (·.freq)).sum * e.prec
  small : 2 * e.inf < e.m
  word : e.m ≤ 2 ^ 64

theorem cost_le (K : Nat) : ∀ (ss : List Sym) (ls : List Nat), (∀ s ∈ ss, s.hi ≤ K) → Within ss ls →
    cost ss ls ≤ (ss.map (·.freq)).sum * K
  | [], [], _, _ => by simp [cost]
  | s :: ss, l :: ls, hk, h => by
    have := cost_le K ss ls (fun t ht => hk t (by simp [ht])) h.2.2
    have h2 : s.freq * l ≤ s.freq * K := Nat.mul_le_mul_left _ (Nat.le_trans h.2.1 (hk s (by simp)))
    simp only [cost, List.map_cons, List.sum_cons, Nat.add_mul]
    omega
  | [], _ :: _, _, h => h.elim
  | _ :: _, [], _, h => h.elim

/-- What a row says of the symbols before it. -/
structure Row (e : Env) (ps : List Sym) (row : List Nat) : Prop where
  le : ∀ off, off ≤ 2 ^ e.prec → row.getD off 0 ≤ e.inf
  least : ∀ off, off ≤ 2 ^ e.prec → ∀ p, Within ps p → kraft e.prec p = off → row.getD off 0 ≤ cost ps p
  met : ∀ off, off ≤ 2 ^ e.prec → row.getD off 0 = e.inf ∨ ∃ p, Within ps p ∧ kraft e.prec p = off ∧ cost ps p = row.getD off 0

theorem getD_map_range (f : Nat → Nat) {n i : Nat} (h : i < n) : ((List.range n).map f).getD i 0 = f i := by
  simp [List.getD, h]

theorem startRow_row (e : Env) : Row e [] (startRow e) := by
  have key : ∀ off, off ≤ 2 ^ e.prec → (startRow e).getD off 0 = if off = 0 then 0 else e.inf := fun off h =>
    getD_map_range _ (by omega)
  refine ⟨fun off h => ?_, fun off h p hp hk => ?_, fun off h => ?_⟩ <;> rw [key off h]
  · split <;> omega
  · match p, hp with
    | [], _ => simp [kraft] at hk; simp [← hk]
  · by_cases h0 : off = 0
    · right; exact ⟨[], trivial, by simp [kraft, h0], by simp [cost, h0]⟩
    · left; rw [if_neg h0]

/-- A cell is the least of the candidates and infinity. -/
theorem relax_fold (e : Env) (s : Sym) (row : List Nat) (off : Nat) : ∀ (bs : List Nat) (acc : Nat),
    bs.foldl (relax e s row off) acc ≤ acc ∧
    (∀ b ∈ bs, e.delta b ≤ off → bs.foldl (relax e s row off) acc ≤ (row.getD (off - e.delta b) 0 + s.freq % e.m * b % e.m) % e.m) ∧
    (bs.foldl (relax e s row off) acc = acc ∨ ∃ b ∈ bs, e.delta b ≤ off ∧
      bs.foldl (relax e s row off) acc = (row.getD (off - e.delta b) 0 + s.freq % e.m * b % e.m) % e.m)
  | [], acc => ⟨Nat.le_refl _, fun _ h => by simp at h, Or.inl rfl⟩
  | b :: bs, acc => by
    obtain ⟨h1, h2, h3⟩ := relax_fold e s row off bs (relax e s row off acc b)
    rw [List.foldl_cons]
    have hr : relax e s row off acc b ≤ acc ∧
        (e.delta b ≤ off → relax e s row off acc b ≤ (row.getD (off - e.delta b) 0 + s.freq % e.m * b % e.m) % e.m) ∧
        (relax e s row off acc b = acc ∨ (e.delta b ≤ off ∧
          relax e s row off acc b = (row.getD (off - e.delta b) 0 + s.freq % e.m * b % e.m) % e.m)) := by
      unfold relax
      split
      · next h =>
        refine ⟨Nat.min_le_right _ _, fun _ => Nat.min_le_left _ _, ?_⟩
        rcases Nat.le_total ((row.getD (off - e.delta b) 0 + s.freq % e.m * b % e.m) % e.m) acc with g | g
        · right; exact ⟨h, Nat.min_eq_left g⟩
        · left; exact Nat.min_eq_right g
      · next h => exact ⟨Nat.le_refl _, fun g => absurd g h, Or.inl rfl⟩
    refine ⟨Nat.le_trans h1 hr.1, ?_, ?_⟩
    · intro c hc hd
      rcases List.mem_cons.mp hc with rfl | hc
      · exact Nat.le_trans h1 (hr.2.1 hd)
      · exact h2 c hc hd
    · rcases h3 with h3 | ⟨c, hc, hd, h3⟩
      · rw [h3]
        rcases hr.2.2 with g | ⟨g, g'⟩
        · exact Or.inl g
        · exact Or.inr ⟨b, by simp, g, g'⟩
      · exact Or.inr ⟨c, by simp [hc], hd, h3⟩

theorem mem_lens {s : Sym} {b : Nat} : b ∈ s.lens ↔ s.lo ≤ b ∧ b ≤ s.hi := by
  unfold Sym.lens
  rw [List.mem_range'_1]
  omega

theorem freq_le {all : List Sym} {s : Sym} (h : s ∈ all) : s.freq ≤ (all.map (·.freq)).sum := by
  induction all with
  | nil => simp at h
  | cons a as ih =>
    simp only [List.map_cons, List.sum_cons]
    rcases List.mem_cons.mp h with rfl | h
    · omega
    · have := ih h; omega

theorem step_le {e : Env} {all : List Sym} (ok : Ok e all) {s : Sym} (hs : s ∈ all) {b : Nat} (hb : b ≤ s.hi) : s.freq * b ≤ e.inf := by
  rw [ok.inf]
  exact Nat.mul_le_mul (freq_le hs) (Nat.le_trans hb (ok.pos s hs).2.2)

theorem prec_pos {e : Env} {all : List Sym} (ok : Ok e all) {s : Sym} (hs : s ∈ all) {b : Nat} (h1 : s.lo ≤ b) (h2 : b ≤ s.hi) : 1 ≤ e.prec := by
  have := ok.pos s hs; omega

/-- No overflow in an update. -/
theorem no_overflow {e : Env} {all : List Sym} (ok : Ok e all) {s : Sym} (hs : s ∈ all) {b : Nat} (h1 : s.lo ≤ b) (hb : b ≤ s.hi) {c : Nat}
    (hc : c ≤ e.inf) : (c + s.freq % e.m * b % e.m) % e.m = c + s.freq * b := by
  have h := step_le ok hs hb
  have hsm := ok.small
  have hb1 : 1 ≤ b := Nat.le_trans (ok.pos s hs).2.1 h1
  have hf : s.freq ≤ s.freq * b := Nat.le_mul_of_pos_right _ hb1
  rw [Nat.mod_eq_of_lt (show s.freq < e.m by omega), Nat.mod_eq_of_lt (show s.freq * b < e.m by omega), Nat.mod_eq_of_lt (by omega)]

theorem nextRow_row {e : Env} {all : List Sym} (ok : Ok e all) {ps : List Sym} {s : Sym} (hs : s ∈ all) {row : List Nat}
    (hr : Row e ps row) : Row e (ps ++ [s]) (nextRow e s row) := by
  have key : ∀ off, off ≤ 2 ^ e.prec → (nextRow e s row).getD off 0 = cell e s row off := fun off h =>
    getD_map_range _ (by omega)
  refine ⟨fun off h => ?_, fun off h p hp hk => ?_, fun off h => ?_⟩ <;> rw [key off h]
  · exact (relax_fold e s row off s.lens e.inf).1
  · obtain ⟨p, q, rfl, h1, h2⟩ := within_split ps hp
    obtain ⟨l, rfl, hl1, hl2⟩ := within_one h2
    rw [kraft_append] at hk
    have hd : kraft e.prec [l] = e.delta l := by simp [kraft, Env.delta]
    rw [hd] at hk
    rw [cost_append ps h1]
    refine Nat.le_trans ((relax_fold e s row off s.lens e.inf).2.1 l (mem_lens.mpr ⟨hl1, hl2⟩) (by omega)) ?_
    rw [no_overflow ok hs hl1 hl2 (hr.le _ (by omega))]
    have := hr.least (off - e.delta l) (by omega) p h1 (by omega)
    simp only [cost]
    omega
  · rcases (relax_fold e s row off s.lens e.inf).2.2 with g | ⟨b, hb, hd, g⟩
    · left; exact g
    · obtain ⟨hb1, hb2⟩ := mem_lens.mp hb
      rw [no_overflow ok hs hb1 hb2 (hr.le _ (by omega))] at g
      have hfb : 0 < s.freq * b := Nat.mul_pos (ok.pos s hs).1 (Nat.lt_of_lt_of_le (ok.pos s hs).2.1 hb1)
      have hle := (relax_fold e s row off s.lens e.inf).1
      rcases hr.met (off - e.delta b) (by omega) with m | ⟨p, h1, h2, h3⟩
      · omega
      · right
        refine ⟨p ++ [b], within_append ps h1 ⟨hb1, hb2, trivial⟩, ?_, ?_⟩
        · rw [kraft_append, h2]; simp only [kraft, Env.delta, List.map_cons, List.map_nil, List.sum_cons, List.sum_nil] at hd ⊢; omega
        · rw [cost_append ps h1, h3]
          show _ = cell e s row off
          rw [cell, g]; simp [cost]

/-- The search finds an assignment of least cost, if there is one at all. -/
theorem solve_spec {e : Env} {all : List Sym} (ok : Ok e all) : ∀ (ss ps : List Sym) (row : List Nat), all = ps ++ ss → Row e ps row →
    (∃ q, Within all q ∧ kraft e.prec q = 2 ^ e.prec) →
    ∃ p, Within ps p ∧ kraft e.prec p = (solve e ss row).1 ∧ cost ps p = row.getD (solve e ss row).1 0 ∧
      Within ss (solve e ss row).2 ∧ (solve e ss row).1 + kraft e.prec (solve e ss row).2 = 2 ^ e.prec ∧
      ∀ q, Within all q → kraft e.prec q = 2 ^ e.prec → cost ps p + cost ss (solve e ss row).2 ≤ cost all q
  | [], ps, row, ha, hr, ⟨q, hq, hk⟩ => by
    rw [List.append_nil] at ha
    subst ha
    show ∃ p, Within all p ∧ kraft e.prec p = 2 ^ e.prec ∧ cost all p = row.getD (2 ^ e.prec) 0 ∧ True ∧ 2 ^ e.prec + kraft e.prec [] = 2 ^ e.prec ∧
      ∀ q, Within all q → kraft e.prec q = 2 ^ e.prec → cost all p + cost [] [] ≤ cost all q
    have hle := hr.least (2 ^ e.prec) (Nat.le_refl _)
    rcases hr.met (2 ^ e.prec) (Nat.le_refl _) with g | ⟨p, h1, h2, h3⟩
    · have h1 := hle q hq hk
      have h2 := cost_le e.prec all q (fun s hs => (ok.pos s hs).2.2) hq
      rw [← ok.inf] at h2
      refine ⟨q, hq, hk, by omega, trivial, by simp [kraft], fun q' hq' hk' => ?_⟩
      have := hle q' hq' hk'
      simp only [cost]
      omega
    · refine ⟨p, h1, h2, h3, trivial, by simp [kraft], fun q' hq' hk' => ?_⟩
      have := hle q' hq' hk'
      simp only [cost]
      omega
  | s :: ss, ps, row, ha, hr, hex => by
    have hs : s ∈ all := by rw [ha]; simp
    have hnr := nextRow_row ok hs hr
    obtain ⟨p', h1, h2, h3, h4, h5, h6⟩ := solve_spec ok ss (ps ++ [s]) (nextRow e s row) (by rw [ha]; simp) hnr hex
    rw [solve]
    generalize hR : solve e ss (nextRow e s row) = r at *
    obtain ⟨p, q, rfl, hp, hq⟩ := within_split ps h1
    obtain ⟨b, rfl, hb1, hb2⟩ := within_one hq
    rw [kraft_append, show kraft e.prec [b] = e.delta b by simp [kraft, Env.delta]] at h2
    rw [cost_append ps hp, show cost [s] [b] = s.freq * b by simp [cost]] at h3 h6
    have hword := ok.word
    have hsm := ok.small
    have fit : ∀ c, s.lo ≤ c → c ≤ s.hi → (fits s e row (nextRow e s row) r.1 c = true ↔
        e.delta c ≤ r.1 ∧ (nextRow e s row).getD r.1 0 = row.getD (r.1 - e.delta c) 0 + s.freq * c) := by
      intro c hc1 hc2
      have hl := step_le ok hs hc2
      have hl2 := hr.le (r.1 - e.delta c) (by omega)
      rw [fits, Bool.and_eq_true, decide_eq_true_iff, beq_iff_eq, Nat.mod_eq_of_lt (show s.freq * c < 2 ^ 64 by omega), Nat.mod_eq_of_lt (by omega)]
    have hbfit : fits s e row (nextRow e s row) r.1 b = true := by
      refine (fit b hb1 hb2).mpr ⟨by omega, ?_⟩
      have hle := hr.least (r.1 - e.delta b) (by omega) p hp (by omega)
      have hge := (relax_fold e s row r.1 s.lens e.inf).2.1 b (mem_lens.mpr ⟨hb1, hb2⟩) (by omega)
      rw [no_overflow ok hs hb1 hb2 (hr.le _ (by omega))] at hge
      have hcell : (nextRow e s row).getD r.1 0 = cell e s row r.1 := getD_map_range _ (by omega)
      rw [← cell, ← hcell] at hge
      omega
    cases hf : s.lens.find? (fits s e row (nextRow e s row) r.1) with
    | none =>
      have := List.find?_eq_none.mp hf b (mem_lens.mpr ⟨hb1, hb2⟩)
      exact absurd hbfit this
    | some c =>
      dsimp only
      obtain ⟨hc1, hc2⟩ := mem_lens.mp (List.mem_of_find?_eq_some hf)
      obtain ⟨hd, hc⟩ := (fit c hc1 hc2).mp (List.find?_some hf)
      have hfc : 0 < s.freq * c := Nat.mul_pos (ok.pos s hs).1 (Nat.lt_of_lt_of_le (ok.pos s hs).2.1 hc1)
      have hinf := hnr.le r.1 (by omega)
      rcases hr.met (r.1 - e.delta c) (by omega) with m | ⟨u, u1, u2, u3⟩
      · omega
      · refine ⟨u, u1, u2, u3, ⟨hc1, hc2, h4⟩, ?_, fun q hq hk => ?_⟩
        · simp only [kraft, List.map_cons, List.sum_cons] at h5 ⊢
          have : 2 ^ (e.prec - c) = e.delta c := rfl
          omega
        · have := h6 q hq hk
          simp only [cost]
          omega

theorem foldl_max_le : ∀ (l : List Nat) (a : Nat), a ≤ l.foldl max a ∧ ∀ x ∈ l, x ≤ l.foldl max a
  | [], a => ⟨Nat.le_refl _, fun _ h => by simp at h⟩
  | x :: l, a => by
    obtain ⟨h1, h2⟩ := foldl_max_le l (max a x)
    rw [List.foldl_cons]
    refine ⟨by omega, fun y hy => ?_⟩
    rcases List.mem_cons.mp hy with rfl | hy
    · omega
    · exact h2 y hy

theorem foldl_max_mem (K : Nat) : ∀ (l : List Nat) (a : Nat), a ≤ K → (∀ x ∈ l, x ≤ K) → l.foldl max a ≤ K
  | [], _, h, _ => h
  | x :: l, a, h, h' => by
    rw [List.foldl_cons]
    exact foldl_max_mem K l _ (by have := h' x (by simp); omega) fun y hy => h' y (by simp [hy])

theorem foldl_min_le : ∀ (l : List Nat) (a : Nat), l.foldl min a ≤ a ∧ ∀ x ∈ l, l.foldl min a ≤ x
  | [], a => ⟨Nat.le_refl _, fun _ h => by simp at h⟩
  | x :: l, a => by
    obtain ⟨h1, h2⟩ := foldl_min_le l (min a x)
    rw [List.foldl_cons]
    refine ⟨by omega, fun y hy => ?_⟩
    rcases List.mem_cons.mp hy with rfl | hy
    · omega
    · exact h2 y hy

theorem foldl_min_ge (K : Nat) : ∀ (l : List Nat) (a : Nat), K ≤ a → (∀ x ∈ l, K ≤ x) → K ≤ l.foldl min a
  | [], _, h, _ => h
  | x :: l, a, h, h' => by
    rw [List.foldl_cons]
    exact foldl_min_ge K l _ (by have := h' x (by simp); omega) fun y hy => h' y (by simp [hy])

/-- The numbers of the search on symbols that occur, one of which may have a word of one bit. -/
def envOf (syms : List Sym) : Env :=
  let prec := (syms.map (·.hi)).foldl max 0
  let inf := (syms.map (·.freq)).sum * prec
  ⟨if inf < 2147483647 then 2 ^ 32 else 2 ^ 64, prec, inf⟩

theorem envOf_ok {syms : List Sym} (h : ∀ s ∈ syms, 0 < s.freq ∧ 1 ≤ s.lo)
    (hsum : (syms.map (·.freq)).sum * (syms.map (·.hi)).foldl max 0 < 2 ^ 63) : Ok (envOf syms) syms := by
  refine ⟨fun s hs => ⟨(h s hs).1, (h s hs).2, ?_⟩, rfl, ?_, ?_⟩
  · exact (foldl_max_le _ _).2 s.hi (List.mem_map_of_mem hs)
  · unfold envOf; dsimp only; split <;> omega
  · unfold envOf; dsimp only; split <;> omega

theorem lengthsNonZero_eq {syms : List Sym} (hne : ∃ s ∈ syms, s.lo ≤ 1 ∧ 1 ≤ s.hi)
    (hsum : (syms.map (·.freq)).sum * (syms.map (·.hi)).foldl max 0 < 2 ^ 63) :
    lengthsNonZero syms = some (solve (envOf (syms.map Sym.atLeastOne)) (syms.map Sym.atLeastOne)
      (startRow (envOf (syms.map Sym.atLeastOne)))).2 := by
  obtain ⟨s, hs, hl, hh⟩ := hne
  have hhi : (syms.map Sym.atLeastOne).map (·.hi) = syms.map (·.hi) := by simp [Sym.atLeastOne]
  have hfr : (syms.map Sym.atLeastOne).map (·.freq) = syms.map (·.freq) := by simp [Sym.atLeastOne]
  have hmin : ((syms.map Sym.atLeastOne).map (·.lo)).foldl min 255 = 1 := by
    have h1 := (foldl_min_le ((syms.map Sym.atLeastOne).map (·.lo)) 255).2 (max 1 s.lo)
      (List.mem_map.mpr ⟨s.atLeastOne, List.mem_map_of_mem hs, rfl⟩)
    have h2 := foldl_min_ge 1 ((syms.map Sym.atLeastOne).map (·.lo)) 255 (by omega) (by
      intro x hx
      obtain ⟨y, hy, rfl⟩ := List.mem_map.mp hx
      obtain ⟨z, _, rfl⟩ := List.mem_map.mp hy
      exact Nat.le_max_left _ _)
    omega
  have hmax := (foldl_max_le (syms.map (·.hi)) 0).2
  have hpos := hmax s.hi (List.mem_map_of_mem hs)
  have hle : (syms.map (·.freq)).sum ≤ (syms.map (·.freq)).sum * (syms.map (·.hi)).foldl max 0 := Nat.le_mul_of_pos_right _ (by omega)
  unfold lengthsNonZero
  dsimp only
  rw [hmin, hhi, hfr, Nat.sub_self, Nat.sub_zero, Nat.mod_eq_of_lt (show (syms.map (·.freq)).sum < 2 ^ 64 by omega),
    Nat.mod_eq_of_lt (show (syms.map (·.freq)).sum * (syms.map (·.hi)).foldl max 0 < 2 ^ 64 by omega), if_neg]
  · unfold envOf
    dsimp only
    rw [hhi, hfr]
  · rintro (g | g)
    · obtain ⟨t, ht, hlt⟩ := List.any_eq_true.mp g
      obtain ⟨u, hu, rfl⟩ := List.mem_map.mp ht
      have h1 := hmax u.hi (List.mem_map_of_mem hu)
      have h2 : (syms.map (·.hi)).foldl max 0 < u.hi := of_decide_eq_true hlt
      omega
    · rw [List.map_eq_nil_iff] at g
      simp [g] at hs

/-- The lengths of symbols that occur. -/
theorem lengthsNonZero_spec {syms : List Sym} (hpos : ∀ s ∈ syms, 0 < s.freq) (hne : ∃ s ∈ syms, s.lo ≤ 1 ∧ 1 ≤ s.hi)
    (hsum : (syms.map (·.freq)).sum * (syms.map (·.hi)).foldl max 0 < 2 ^ 63)
    (hex : ∃ q, Within (syms.map Sym.atLeastOne) q ∧ kraft ((syms.map (·.hi)).foldl max 0) q = 2 ^ (syms.map (·.hi)).foldl max 0) :
    ∃ ls, lengthsNonZero syms = some ls ∧ Within (syms.map Sym.atLeastOne) ls ∧
      kraft ((syms.map (·.hi)).foldl max 0) ls = 2 ^ (syms.map (·.hi)).foldl max 0 ∧
      ∀ q, Within (syms.map Sym.atLeastOne) q → kraft ((syms.map (·.hi)).foldl max 0) q = 2 ^ (syms.map (·.hi)).foldl max 0 →
        cost (syms.map Sym.atLeastOne) ls ≤ cost (syms.map Sym.atLeastOne) q := by
  have hhi : (syms.map Sym.atLeastOne).map (·.hi) = syms.map (·.hi) := by simp [Sym.atLeastOne]
  have hfr : (syms.map Sym.atLeastOne).map (·.freq) = syms.map (·.freq) := by simp [Sym.atLeastOne]
  have ok : Ok (envOf (syms.map Sym.atLeastOne)) (syms.map Sym.atLeastOne) := by
    refine envOf_ok (fun s hs => ?_) (by rw [hhi, hfr]; exact hsum)
    obtain ⟨u, hu, rfl⟩ := List.mem_map.mp hs
    exact ⟨hpos u hu, Nat.le_max_left _ _⟩
  have hprec : (envOf (syms.map Sym.atLeastOne)).prec = (syms.map (·.hi)).foldl max 0 := by
    unfold envOf; dsimp only; rw [hhi]
  rw [lengthsNonZero_eq hne hsum]
  rw [← hprec] at hex ⊢
  obtain ⟨p, h1, h2, h3, h4, h5, h6⟩ := solve_spec ok _ [] _ rfl (startRow_row _) hex
  have hp : p = [] := by
    match p, h1 with
    | [], _ => rfl
  subst hp
  refine ⟨_, rfl, h4, ?_, fun q hq hk => ?_⟩
  · have : kraft (envOf (syms.map Sym.atLeastOne)).prec [] = 0 := rfl
    omega
  · have := h6 q hq hk
    have h0 : cost [] ([] : List Nat) = 0 := rfl
    omega

/-- `Allowed`, symbol by symbol, without completeness. -/
def Fine : List Sym → List Nat → Prop
  | [], [] => True
  | s :: ss, l :: ls => (s.freq = 0 → l = 0) ∧ (s.freq ≠ 0 → l ≠ 0 ∧ s.lo ≤ l ∧ l ≤ s.hi) ∧ Fine ss ls
  | _, _ => False

theorem fine_iff : ∀ (syms : List Sym) (ls : List Nat), Fine syms ls ↔ ls.length = (syms.map (·.freq)).length ∧
    ∀ i, i < (syms.map (·.freq)).length → ((syms.map (·.freq)).getD i 0 = 0 → ls.getD i 0 = 0) ∧
    ((syms.map (·.freq)).getD i 0 ≠ 0 → ls.getD i 0 ≠ 0 ∧ (syms.map (·.lo)).getD i 0 ≤ ls.getD i 0 ∧ ls.getD i 0 ≤ (syms.map (·.hi)).getD i 0)
  | [], [] => by simp [Fine]
  | [], _ :: _ => by simp [Fine]
  | _ :: _, [] => by simp [Fine]
  | s :: ss, l :: ls => by
    rw [Fine, fine_iff ss ls]
    constructor
    · rintro ⟨h1, h2, h3, h4⟩
      refine ⟨by simpa using h3, fun i hi => ?_⟩
      cases i with
      | zero => exact ⟨h1, h2⟩
      | succ i => exact h4 i (by simpa using hi)
    · rintro ⟨h1, h2⟩
      refine ⟨(h2 0 (by simp)).1, (h2 0 (by simp)).2, by simpa using h1, fun i hi => ?_⟩
      exact h2 (i + 1) (by simpa using hi)

/-- The symbols that occur. -/
abbrev used (syms : List Sym) : List Sym := syms.filter fun s => s.freq != 0

theorem used_cons_zero {s : Sym} (ss : List Sym) (h : s.freq = 0) : used (s :: ss) = used ss := by simp [used, h]

theorem used_cons_pos {s : Sym} (ss : List Sym) (h : s.freq ≠ 0) : used (s :: ss) = s :: used ss := by simp [used, h]

theorem spread_fine : ∀ (syms : List Sym) (q : List Nat), Within ((used syms).map Sym.atLeastOne) q →
    Fine syms (spread (syms.map (·.freq)) q) ∧
    Prefix.weight (spread (syms.map (·.freq)) q) = kraft 15 q ∧
    CodeLengths.total (syms.map (·.freq)) (spread (syms.map (·.freq)) q) = cost ((used syms).map Sym.atLeastOne) q
  | [], [], _ => ⟨trivial, rfl, rfl⟩
  | [], _ :: _, h => h.elim
  | s :: ss, q, h => by
    by_cases h0 : s.freq = 0
    · rw [used_cons_zero ss h0] at h ⊢
      obtain ⟨i1, i2, i3⟩ := spread_fine ss q h
      rw [List.map_cons, spread, if_pos h0]
      refine ⟨⟨fun _ => rfl, fun g => absurd h0 g, i1⟩, ?_, ?_⟩
      · rw [← i2]; simp [Prefix.weight]
      · rw [← i3]; simp [CodeLengths.total]
    · rw [used_cons_pos ss h0] at h ⊢
      match q, h with
      | l :: q, h =>
        obtain ⟨g1, g2, g3⟩ := h
        obtain ⟨i1, i2, i3⟩ := spread_fine ss q g3
        rw [List.map_cons, spread, if_neg h0]
        have g1' : max 1 s.lo ≤ l := g1
        have g2' : l ≤ s.hi := g2
        have hl : l ≠ 0 := by omega
        show Fine (s :: ss) (l :: spread (ss.map (·.freq)) q) ∧ Prefix.weight (l :: spread (ss.map (·.freq)) q) = _ ∧
          CodeLengths.total (s.freq :: ss.map (·.freq)) (l :: spread (ss.map (·.freq)) q) = _
        refine ⟨⟨fun g => absurd g h0, fun _ => ⟨hl, by omega, g2'⟩, i1⟩, ?_, ?_⟩
        · simp only [Prefix.weight] at i2
          simp [Prefix.weight, kraft, hl] at i2 ⊢
          omega
        · simp only [CodeLengths.total, List.zipWith_cons_cons, List.sum_cons] at i3 ⊢
          rw [i3]
          rfl
      | [], h => exact h.elim

theorem fine_spread : ∀ (syms : List Sym) (ls : List Nat), Fine syms ls →
    ∃ q, Within ((used syms).map Sym.atLeastOne) q ∧ ls = spread (syms.map (·.freq)) q
  | [], [], _ => ⟨[], trivial, rfl⟩
  | [], _ :: _, h => h.elim
  | _ :: _, [], h => h.elim
  | s :: ss, l :: ls, h => by
    obtain ⟨q, h1, h2⟩ := fine_spread ss ls h.2.2
    by_cases h0 : s.freq = 0
    · refine ⟨q, by rw [used_cons_zero ss h0]; exact h1, ?_⟩
      rw [List.map_cons, spread, if_pos h0, h.1 h0, h2]
    · obtain ⟨g1, g2, g3⟩ := h.2.1 h0
      refine ⟨l :: q, ?_, ?_⟩
      · rw [used_cons_pos ss h0]
        exact ⟨Nat.max_le.mpr ⟨by omega, g2⟩, g3, h1⟩
      · rw [List.map_cons, spread, if_neg h0, h2]; rfl

theorem kraft_scale {K : Nat} (hK : K ≤ 15) : ∀ (q : List Nat), (∀ l ∈ q, l ≤ K) → kraft 15 q = kraft K q * 2 ^ (15 - K)
  | [], _ => by simp [kraft]
  | l :: q, h => by
    have ih := kraft_scale hK q fun x hx => h x (by simp [hx])
    have hl := h l (by simp)
    simp only [kraft, List.map_cons, List.sum_cons] at ih ⊢
    rw [ih, Nat.add_mul, ← Nat.pow_add, show K - l + (15 - K) = 15 - l by omega]

theorem within_le {K : Nat} : ∀ {ss : List Sym} {q : List Nat}, (∀ s ∈ ss, s.hi ≤ K) → Within ss q → ∀ l ∈ q, l ≤ K
  | [], [], _, _ => fun _ h => by simp at h
  | [], _ :: _, _, h => h.elim
  | _ :: _, [], _, h => h.elim
  | s :: ss, l :: q, hk, h => fun x hx => by
    rcases List.mem_cons.mp hx with rfl | hx
    · exact Nat.le_trans h.2.1 (hk s (by simp))
    · exact within_le (fun t ht => hk t (by simp [ht])) h.2.2 x hx

theorem used_sum : ∀ (syms : List Sym), ((used syms).map (·.freq)).sum = (syms.map (·.freq)).sum
  | [] => rfl
  | s :: ss => by
    by_cases h0 : s.freq = 0
    · rw [used_cons_zero ss h0, used_sum ss]; simp [h0]
    · rw [used_cons_pos ss h0]; simp [used_sum ss]

theorem spread_le {K : Nat} : ∀ (fs q : List Nat), (∀ l ∈ q, l ≤ K) → ∀ x ∈ spread fs q, x ≤ K
  | [], _, _, x, hx => by simp [spread] at hx
  | f :: fs, q, h, x, hx => by
    rw [spread] at hx
    split at hx
    · rcases List.mem_cons.mp hx with rfl | hx
      · omega
      · exact spread_le fs q h x hx
    · rcases List.mem_cons.mp hx with rfl | hx
      · match q with
        | [] => simp
        | a :: _ => exact h a (by simp)
      · exact spread_le fs _ (fun l hl => h l (List.mem_of_mem_drop hl)) x hx

abbrev prec (syms : List Sym) : Nat := ((used syms).map (·.hi)).foldl max 0

theorem complete_iff {syms : List Sym} (hhi : ∀ s ∈ syms, s.hi ≤ 15) {q : List Nat} (hq : Within ((used syms).map Sym.atLeastOne) q) :
    Prefix.Complete (spread (syms.map (·.freq)) q) ↔ kraft (prec syms) q = 2 ^ prec syms := by
  have hK : prec syms ≤ 15 := foldl_max_mem 15 _ _ (by omega) (by
    intro x hx
    obtain ⟨s, hs, rfl⟩ := List.mem_map.mp hx
    exact hhi s (List.mem_filter.mp hs).1)
  have hle : ∀ l ∈ q, l ≤ prec syms := within_le (by
    intro s hs
    obtain ⟨u, hu, rfl⟩ := List.mem_map.mp hs
    exact (foldl_max_le _ _).2 u.hi (List.mem_map_of_mem hu)) hq
  have hpow : 2 ^ 15 = 2 ^ prec syms * 2 ^ (15 - prec syms) := by rw [← Nat.pow_add]; congr 1; omega
  have hp := Nat.two_pow_pos (15 - prec syms)
  rw [Prefix.Complete, (spread_fine syms q hq).2.1, kraft_scale hK q hle, hpow]
  constructor
  · rintro ⟨_, h⟩; exact Nat.eq_of_mul_eq_mul_right hp h
  · intro h; exact ⟨spread_le _ _ (fun l hl => Nat.le_trans (hle l hl) hK), by rw [h]⟩

theorem allowed_iff {syms : List Sym} (hhi : ∀ s ∈ syms, s.hi ≤ 15) (ls : List Nat) :
    CodeLengths.Allowed (syms.map (·.freq)) (syms.map (·.lo)) (syms.map (·.hi)) ls ↔
    ∃ q, Within ((used syms).map Sym.atLeastOne) q ∧ kraft (prec syms) q = 2 ^ prec syms ∧ ls = spread (syms.map (·.freq)) q := by
  constructor
  · rintro ⟨h1, h2, h3⟩
    obtain ⟨q, hq, rfl⟩ := fine_spread syms ls ((fine_iff syms ls).mpr ⟨h1, h3⟩)
    exact ⟨q, hq, (complete_iff hhi hq).mp h2, rfl⟩
  · rintro ⟨q, hq, hk, rfl⟩
    obtain ⟨h1, h3⟩ := (fine_iff _ _).mp (spread_fine syms q hq).1
    exact ⟨h1, (complete_iff hhi hq).mpr hk, h3⟩

/-- `ComputeCodeLengths` finds best lengths. -/
theorem lengths_best {syms : List Sym} (hhi : ∀ s ∈ syms, s.hi ≤ 15) (hsum : (syms.map (·.freq)).sum < 2 ^ 59)
    (hone : ∃ s ∈ syms, s.freq ≠ 0 ∧ s.lo ≤ 1)
    (hex : ∃ ls, CodeLengths.Allowed (syms.map (·.freq)) (syms.map (·.lo)) (syms.map (·.hi)) ls) :
    ∃ ls, lengths syms = some ls ∧ CodeLengths.Best (syms.map (·.freq)) (syms.map (·.lo)) (syms.map (·.hi)) ls := by
  obtain ⟨ls, hls⟩ := hex
  obtain ⟨q, hq, hk, _⟩ := (allowed_iff hhi ls).mp hls
  have hK : prec syms ≤ 15 := foldl_max_mem 15 _ _ (by omega) (by
    intro x hx
    obtain ⟨s, hs, rfl⟩ := List.mem_map.mp hx
    exact hhi s (List.mem_filter.mp hs).1)
  have hne : ∃ s ∈ used syms, s.lo ≤ 1 ∧ 1 ≤ s.hi := by
    obtain ⟨s, hs, h0, h1⟩ := hone
    have hu : s ∈ used syms := List.mem_filter.mpr ⟨hs, by simpa using h0⟩
    refine ⟨s, hu, h1, ?_⟩
    obtain ⟨i, hi, hsi⟩ := List.mem_iff_getElem.mp hs
    have := (hls.2.2 i (by simpa using hi)).2
    simp [List.getD, hi, hsi] at this
    have := this h0
    omega
  have hs2 : ((used syms).map (·.freq)).sum * ((used syms).map (·.hi)).foldl max 0 < 2 ^ 63 := by
    rw [used_sum]
    have : (syms.map (·.freq)).sum * prec syms ≤ (syms.map (·.freq)).sum * 15 := Nat.mul_le_mul_left _ hK
    show (syms.map (·.freq)).sum * prec syms < 2 ^ 63
    omega
  obtain ⟨r, r1, r2, r3, r4⟩ := lengthsNonZero_spec (syms := used syms) (fun s hs => by
    have := (List.mem_filter.mp hs).2
    simp at this
    omega) hne hs2 ⟨q, hq, hk⟩
  refine ⟨spread (syms.map (·.freq)) r, by rw [lengths, r1]; rfl, (allowed_iff hhi _).mpr ⟨r, r2, r3, rfl⟩, fun other ho => ?_⟩
  obtain ⟨q', hq', hk', rfl⟩ := (allowed_iff hhi other).mp ho
  rw [(spread_fine syms r r2).2.2, (spread_fine syms q' hq').2.2]
  exact r4 q' hq' hk'

theorem foldl_max_attained : ∀ (l : List Nat) (a : Nat), l.foldl max a = a ∨ l.foldl max a ∈ l
  | [], _ => Or.inl rfl
  | x :: l, a => by
    rw [List.foldl_cons]
    rcases foldl_max_attained l (max a x) with h | h
    · rcases Nat.le_total a x with g | g
      · right; rw [h, Nat.max_eq_right g]; simp
      · left; rw [h, Nat.max_eq_left g]
    · right; simp [h]

/-- Limits that forbid words of one bit make the search shift by a negative amount. -/
theorem lengths_undefined {syms : List Sym} (h : ∀ s ∈ syms, s.freq ≠ 0 → 2 ≤ s.lo ∧ s.lo ≤ s.hi) : lengths syms = none := by
  have hu : ∀ s ∈ used syms, 2 ≤ s.lo ∧ s.lo ≤ s.hi := fun s hs => by
    obtain ⟨h1, h2⟩ := List.mem_filter.mp hs
    exact h s h1 (by simpa using h2)
  unfold lengths lengthsNonZero
  dsimp only
  rw [show (List.filter (fun s => s.freq != 0) syms) = used syms from rfl]
  generalize used syms = us at hu ⊢
  rw [if_pos]; rfl
  by_cases he : us = []
  · right; rw [he]; rfl
  left
  have hhi : (us.map Sym.atLeastOne).map (·.hi) = us.map (·.hi) := by simp [Sym.atLeastOne]
  rw [hhi]
  have hmin : 2 ≤ ((us.map Sym.atLeastOne).map (·.lo)).foldl min 255 := foldl_min_ge 2 _ _ (by omega) (by
    intro x hx
    obtain ⟨y, hy, rfl⟩ := List.mem_map.mp hx
    obtain ⟨z, hz, rfl⟩ := List.mem_map.mp hy
    exact Nat.le_trans (hu z hz).1 (Nat.le_max_right _ _))
  obtain ⟨t, ht⟩ := List.exists_mem_of_ne_nil _ he
  have hpos := (foldl_max_le (us.map (·.hi)) 0).2 t.hi (List.mem_map_of_mem ht)
  have ht2 := hu t ht
  rcases foldl_max_attained (us.map (·.hi)) 0 with g | g
  · omega
  · obtain ⟨u, hu1, hu2⟩ := List.mem_map.mp g
    refine List.any_eq_true.mpr ⟨u.atLeastOne, List.mem_map_of_mem hu1, decide_eq_true ?_⟩
    show _ < u.hi
    omega

theorem foldRow {e : Env} {all : List Sym} (ok : Ok e all) : ∀ (ss ps : List Sym) (row : List Nat), all = ps ++ ss → Row e ps row →
    Row e all (ss.foldl (fun row s => nextRow e s row) row)
  | [], ps, row, ha, hr => by rw [List.append_nil] at ha; subst ha; exact hr
  | s :: ss, ps, row, ha, hr => by
    rw [List.foldl_cons]
    exact foldRow ok ss (ps ++ [s]) _ (by rw [ha]; simp) (nextRow_row ok (by rw [ha]; simp) hr)

theorem cost_lt (K : Nat) : ∀ (ss : List Sym) (ls : List Nat), (∀ s ∈ ss, 0 < s.freq ∧ s.hi ≤ K) → Within ss ls → (∃ l ∈ ls, l < K) →
    cost ss ls < (ss.map (·.freq)).sum * K
  | [], [], _, _, ⟨_, h, _⟩ => by simp at h
  | [], _ :: _, _, h, _ => h.elim
  | _ :: _, [], _, h, _ => h.elim
  | s :: ss, l :: ls, hk, h, ⟨x, hx, hlt⟩ => by
    have hs := hk s (by simp)
    have h2 : s.freq * l ≤ s.freq * K := Nat.mul_le_mul_left _ (Nat.le_trans h.2.1 hs.2)
    simp only [cost, List.map_cons, List.sum_cons, Nat.add_mul]
    rcases List.mem_cons.mp hx with rfl | hx
    · have h3 : s.freq * x < s.freq * K := Nat.mul_lt_mul_of_pos_left hlt hs.1
      have := cost_le K ss ls (fun t ht => (hk t (by simp [ht])).2) h.2.2
      omega
    · have := cost_lt K ss ls (fun t ht => hk t (by simp [ht])) h.2.2 ⟨x, hx, hlt⟩
      omega

theorem spread_mem : ∀ (syms : List Sym) (q : List Nat), Within ((used syms).map Sym.atLeastOne) q →
    ∀ x ∈ spread (syms.map (·.freq)) q, x ≠ 0 → x ∈ q
  | [], _, _, x, hx, _ => by simp [spread] at hx
  | s :: ss, q, h, x, hx, h0 => by
    rw [List.map_cons, spread] at hx
    split at hx
    · next hs =>
      rw [used_cons_zero ss hs] at h
      rcases List.mem_cons.mp hx with rfl | hx
      · exact absurd rfl h0
      · exact spread_mem ss q h x hx h0
    · next hs =>
      rw [used_cons_pos ss hs] at h
      match q, h with
      | [], h => exact h.elim
      | l :: q, h =>
        rcases List.mem_cons.mp hx with rfl | hx
        · simp
        · exact List.mem_cons_of_mem _ (spread_mem ss q h.2.2 x hx h0)

/-- The assertion on the cost holds if not all words must have the greatest length. -/
theorem finalCost_lt {syms : List Sym} (hhi : ∀ s ∈ syms, s.hi ≤ 15) (hsum : (syms.map (·.freq)).sum < 2 ^ 59) {ls : List Nat}
    (hls : CodeLengths.Allowed (syms.map (·.freq)) (syms.map (·.lo)) (syms.map (·.hi)) ls) (hlt : ∃ l ∈ ls, l ≠ 0 ∧ l < prec syms) :
    finalCost (envOf ((used syms).map Sym.atLeastOne)) ((used syms).map Sym.atLeastOne) < (envOf ((used syms).map Sym.atLeastOne)).inf := by
  have hh : ((used syms).map Sym.atLeastOne).map (·.hi) = (used syms).map (·.hi) := by simp [Sym.atLeastOne]
  have hf : ((used syms).map Sym.atLeastOne).map (·.freq) = (used syms).map (·.freq) := by simp [Sym.atLeastOne]
  have hK : prec syms ≤ 15 := foldl_max_mem 15 _ _ (by omega) (by
    intro x hx
    obtain ⟨s, hs, rfl⟩ := List.mem_map.mp hx
    exact hhi s (List.mem_filter.mp hs).1)
  have ok : Ok (envOf ((used syms).map Sym.atLeastOne)) ((used syms).map Sym.atLeastOne) := by
    refine envOf_ok (fun s hs => ?_) ?_
    · obtain ⟨u, hu, rfl⟩ := List.mem_map.mp hs
      have := (List.mem_filter.mp hu).2
      simp at this
      exact ⟨Nat.pos_of_ne_zero this, Nat.le_max_left _ _⟩
    · rw [hh, hf, used_sum]
      have : (syms.map (·.freq)).sum * prec syms ≤ (syms.map (·.freq)).sum * 15 := Nat.mul_le_mul_left _ hK
      show (syms.map (·.freq)).sum * prec syms < 2 ^ 63
      omega
  have hprec : (envOf ((used syms).map Sym.atLeastOne)).prec = prec syms := by unfold envOf; dsimp only; rw [hh]
  obtain ⟨q, hq, hk, rfl⟩ := (allowed_iff hhi ls).mp hls
  have hr := (foldRow ok _ [] _ rfl (startRow_row _)).least _ (Nat.le_refl _) q hq (by rw [hprec]; exact hk)
  refine Nat.lt_of_le_of_lt hr ?_
  rw [ok.inf]
  obtain ⟨l, hl, h0, hl2⟩ := hlt
  exact cost_lt _ _ q (fun s hs => ⟨(ok.pos s hs).1, (ok.pos s hs).2.2⟩) hq ⟨l, spread_mem syms q hq l hl h0, by rw [hprec]; exact hl2⟩

end Jxl.FastCode
