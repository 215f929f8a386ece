import Verif.Lemmas.GroupBorder
import Verif.Lemmas.GroupBorderRun
/-! # Group borders: every pixel is handed out by exactly one group -/
namespace Jxl.Border
open Jxl.FrameDim

theorem reached_rep {xs ys : Nat} {m : Mem} {D : Nat → Prop} (h : Reached xs ys m D) : Rep xs ys m (fun g _ => D g) := by
  induction h with
  | init m e =>
    obtain ⟨m', e', r⟩ := init_spec xs ys
    rw [e] at e'
    cases e'
    exact r
  | run m D sched s _ hc hd e ih =>
    have i0 : Inv xs ys D [] ⟨m, fun _ => []⟩ := by
      refine ⟨⟨ih.shape, ?_⟩, fun _ => rfl, ?_⟩
      · intro x y j hx hy hj
        rw [ih.bits x y j hx hy hj]
        simp
      · intro g k hk
        simp at hk
    obtain ⟨s', e', i'⟩ := exec_spec sched [] _ i0 (fun g hg => ⟨(hc g hg).1, hd g hg⟩) (by
      intro g
      rw [List.nil_append]
      by_cases hg : g ∈ sched
      · rw [(hc g hg).2]; omega
      · rw [List.count_eq_zero_of_not_mem hg]; omega)
    rw [e] at e'
    cases e'
    rw [List.nil_append] at i'
    refine ⟨i'.rep.shape, ?_⟩
    intro x y j hx hy hj
    rw [i'.rep.bits x y j hx hy hj]
    refine forall_congr' fun g => forall_congr' fun _ => forall_congr' fun _ => forall_congr' fun _ => ?_
    have := ord_lt j
    by_cases hg : g ∈ sched
    · rw [(hc g hg).2]
      exact ⟨fun _ => Or.inr hg, fun _ => Or.inr this⟩
    · rw [List.count_eq_zero_of_not_mem hg]
      exact ⟨fun h => h.elim Or.inl (fun h => by omega), fun h => h.elim Or.inl (fun h => (hg h).elim)⟩
  | clear m m' D g _ hg e ih =>
    obtain ⟨m1, e1, r1⟩ := clearDone_spec ih hg
    rw [e] at e1
    cases e1
    refine ⟨r1.shape, ?_⟩
    intro x y j hx hy hj
    rw [r1.bits x y j hx hy hj]
    refine forall_congr' fun g' => forall_congr' fun _ => forall_congr' fun _ => forall_congr' fun _ => ?_
    exact ⟨fun h => ⟨h.1, h.2 (ord_lt j)⟩, fun h => ⟨h.1, fun _ => h.2⟩⟩

/-- Runs from any reachable state go through. -/
theorem run_spec {xs ys : Nat} {m : Mem} {D : Nat → Prop} (h : Reached xs ys m D) {sched : List Nat} (hc : Complete (xs * ys) sched)
    (hd : ∀ g ∈ sched, ¬D g) : ∃ s, exec xs sched ⟨m, fun _ => []⟩ = some s ∧ Inv xs ys D sched s := by
  have ih := reached_rep h
  have i0 : Inv xs ys D [] ⟨m, fun _ => []⟩ := by
    refine ⟨⟨ih.shape, ?_⟩, fun _ => rfl, ?_⟩
    · intro x y j hx hy hj
      rw [ih.bits x y j hx hy hj]
      simp
    · intro g k hk
      simp at hk
  obtain ⟨s', e', i'⟩ := exec_spec sched [] _ i0 (fun g hg => ⟨(hc g hg).1, hd g hg⟩) (by
    intro g
    rw [List.nil_append]
    by_cases hg : g ∈ sched
    · rw [(hc g hg).2]; omega
    · rw [List.count_eq_zero_of_not_mem hg]; omega)
  exact ⟨s', e', by rwa [List.nil_append] at i'⟩

/-- Frame geometry, as the axis lemmas need it. -/
structure Geo (d : Dims) (padx pady : Nat) : Prop where
  ax : AxisOk d.xsize d.groupDim padx d.xsizeGroups
  ay : AxisOk d.ysize d.groupDim pady d.ysizeGroups
  bx : d.xsize ≤ 8 * d.xsizeBlocks
  by' : d.ysize ≤ 8 * d.ysizeBlocks
  n : d.numGroups = d.xsizeGroups * d.ysizeGroups

theorem clamp_end {b m e p : Nat} (h1 : b ≤ p) (hp : p < e) : (p < b + clampedSize b m e ↔ p < b + m) := by
  unfold clampedSize
  split
  · exact Iff.rfl
  · split <;> omega

theorem in_tile {gd c q : Nat} (h : 0 < gd) : (c * gd ≤ q ∧ q < c * gd + gd) ↔ q / gd = c := by
  constructor
  · rintro ⟨h1, h2⟩
    exact Nat.div_eq_of_lt_le h1 (by rw [Nat.succ_mul]; exact h2)
  · rintro rfl
    have := Nat.div_add_mod q gd
    rw [Nat.mul_comm] at this
    have := Nat.mod_lt q h
    omega

/-- Zones and readers. -/
theorem reads_iff {d : Dims} {padx pady px py g : Nat} (G : Geo d padx pady) (hx : px < d.xsize) (hy : py < d.ysize) :
    Reads d padx pady px py g ↔ g < d.xsizeGroups * d.ysizeGroups ∧
      (2 * (g % d.xsizeGroups) = zone d.groupDim padx d.xsizeGroups px ∨ 2 * (g % d.xsizeGroups) + 1 = zone d.groupDim padx d.xsizeGroups px ∨
        2 * (g % d.xsizeGroups) = zone d.groupDim padx d.xsizeGroups px + 1) ∧
      (2 * (g / d.xsizeGroups) = zone d.groupDim pady d.ysizeGroups py ∨ 2 * (g / d.xsizeGroups) + 1 = zone d.groupDim pady d.ysizeGroups py ∨
        2 * (g / d.xsizeGroups) = zone d.groupDim pady d.ysizeGroups py + 1) := by
  have zx := zone_reach G.ax hx (g % d.xsizeGroups)
  have zy := zone_reach G.ay hy (g / d.xsizeGroups)
  unfold Reads
  rw [G.n]
  constructor
  · rintro ⟨hg, qx, qy, ⟨a1, a2⟩, ⟨b1, b2⟩, h1, h2, h3, h4⟩
    change g % d.xsizeGroups * d.groupDim ≤ qx at h1
    change qx < g % d.xsizeGroups * d.groupDim + clampedSize (g % d.xsizeGroups * d.groupDim) d.groupDim d.xsize at h2
    change g / d.xsizeGroups * d.groupDim ≤ qy at h3
    change qy < g / d.xsizeGroups * d.groupDim + clampedSize (g / d.xsizeGroups * d.groupDim) d.groupDim d.ysize at h4
    have ex : qx < d.xsize := by
      unfold clampedSize at h2; split at h2 <;> (try split at h2) <;> omega
    have ey : qy < d.ysize := by
      unfold clampedSize at h4; split at h4 <;> (try split at h4) <;> omega
    rw [clamp_end h1 ex] at h2
    rw [clamp_end h3 ey] at h4
    exact ⟨hg, (zx.1 ⟨qx, ex, a1, a2, (in_tile G.ax.pos).1 ⟨h1, h2⟩⟩).2, (zy.1 ⟨qy, ey, b1, b2, (in_tile G.ax.pos).1 ⟨h3, h4⟩⟩).2⟩
  · rintro ⟨hg, h1, h2⟩
    obtain ⟨_, gx, gy⟩ := group_pos hg
    obtain ⟨qx, ex, a1, a2, a3⟩ := zx.2 ⟨gx, h1⟩
    obtain ⟨qy, ey, b1, b2, b3⟩ := zy.2 ⟨gy, h2⟩
    have tx := (in_tile G.ax.pos).2 a3
    have ty := (in_tile G.ax.pos).2 b3
    exact ⟨hg, qx, qy, ⟨a1, a2⟩, ⟨b1, b2⟩, tx.1, (clamp_end tx.1 ex).2 tx.2, ty.1, (clamp_end ty.1 ey).2 ty.2⟩

theorem zone_le {size gd pad n p : Nat} (h : AxisOk size gd pad n) (hp : p < size) : zone gd pad n p ≤ 2 * (n - 1) := by
  have hi := h.hi
  have hQn : p / gd < n := by
    refine Nat.div_lt_of_lt_mul ?_
    rw [Nat.mul_comm]; omega
  unfold zone
  split
  · omega
  · split <;> omega

theorem nib15 {v : Nat} (hv : v < 16) : v = 15 ↔ ∀ j, j < 4 → v.testBit j = true := by
  constructor
  · rintro rfl j hj
    rcases (by omega : j = 0 ∨ j = 1 ∨ j = 2 ∨ j = 3) with rfl | rfl | rfl | rfl <;> decide
  · intro h
    have h0 := h 0 (by omega)
    have h1 := h 1 (by omega)
    have h2 := h 2 (by omega)
    have h3 := h 3 (by omega)
    revert h0 h1 h2 h3 h
    have : ∀ v : Fin 16, v.val.testBit 0 = true → v.val.testBit 1 = true → v.val.testBit 2 = true → v.val.testBit 3 = true → v.val = 15 := by
      decide
    intro _ h0 h1 h2 h3
    exact this ⟨v, hv⟩ h0 h1 h2 h3

theorem nibAnd {v : Nat} (hv : v < 16) : ((v &&& kTopRight != 0) = v.testBit 1) ∧ ((v &&& kBottomLeft != 0) = v.testBit 3) ∧
    ((v &&& kBottomRight != 0) = v.testBit 2) := by
  have : ∀ v : Fin 16, ((v.val &&& kTopRight != 0) = v.val.testBit 1) ∧ ((v.val &&& kBottomLeft != 0) = v.val.testBit 3) ∧
    ((v.val &&& kBottomRight != 0) = v.val.testBit 2) := by decide
  exact this ⟨v, hv⟩

/-- What group `g` has seen of group `g'` at the corner of its update `k`, where `g'` makes its update `k'`. -/
theorem seen {xs ys : Nat} {D : Nat → Prop} {sched : List Nat} {s : St} (hi : Inv xs ys D sched s) {g g' k k' : Nat} (hg : g' < xs * ys)
    (hk : k < sched.count g) (hk' : k' < 4) (ex : atX xs g' k' = atX xs g k) (ey : atY xs g' k' = atY xs g k) :
    ∃ v, (s.got g).getD k 0 = v ∧ v < 16 ∧ (v.testBit (ord k') = true ↔ D g' ∨ time sched g' k' ≤ time sched g k) := by
  obtain ⟨v, e1, e2, e3⟩ := hi.st g k hk
  refine ⟨v, by rw [List.getD_eq_getElem?_getD, e1]; rfl, e2, ?_⟩
  rw [e3 _ (ord_lt k'), ord_ord hk']
  constructor
  · intro h
    exact h g' hg ex ey
  · intro h g1 h1 h2 h3
    rw [at_inj (h2.trans ex.symm) (h3.trans ey.symm)]
    exact h

theorem got_lt {xs ys : Nat} {D : Nat → Prop} {sched : List Nat} {s : St} (hi : Inv xs ys D sched s) {g k : Nat}
    (hk : k < sched.count g) : (s.got g).getD k 0 < 16 := by
  obtain ⟨v, e1, e2, _⟩ := hi.st g k hk
  rw [List.getD_eq_getElem?_getD, e1]; exact e2

/-- The parts mask of a group. -/
def gmask (s : St) (g : Nat) : Nat → Nat → Bool :=
  mask ((s.got g).getD 0 0) ((s.got g).getD 1 0) ((s.got g).getD 2 0) ((s.got g).getD 3 0)

/-- Rectangles of one group. -/
theorem finish_spec {d : Dims} {padx pady : Nat} (G : Geo d padx pady) {D : Nat → Prop} {sched : List Nat} {s : St}
    (hi : Inv d.xsizeGroups d.ysizeGroups D sched s) (hc : Complete (d.xsizeGroups * d.ysizeGroups) sched) {g : Nat} (hg : g ∈ sched) :
    ∃ rs, finish d padx pady g (s.got g) = some rs ∧ rs.length ≤ 3 ∧
      (∀ r ∈ rs, 0 < r.xs ∧ 0 < r.ys ∧ r.x0 + r.xs ≤ d.xsize ∧ r.y0 + r.ys ≤ d.ysize) ∧
      (∀ px py i j, px < d.xsize → py < d.ysize → i < 3 → j < 3 → 2 * (g % d.xsizeGroups) + i = zone d.groupDim padx d.xsizeGroups px + 1 →
        2 * (g / d.xsizeGroups) + j = zone d.groupDim pady d.ysizeGroups py + 1 →
        rs.countP (fun r => decide (Has r px py)) = (gmask s g i j).toNat) ∧
      (∀ px py, px < d.xsize → py < d.ysize → ¬Reads d padx pady px py g → rs.countP (fun r => decide (Has r px py)) = 0) := by
  obtain ⟨hgn, hcnt⟩ := hc g hg
  obtain ⟨_, gx, gy⟩ := group_pos hgn
  obtain ⟨xp, ex, mx, lx, zx⟩ := axis_spec G.ax G.bx (g % d.xsizeGroups) gx
  obtain ⟨yp, ey, my, ly, zy⟩ := axis_spec G.ay G.by' (g / d.xsizeGroups) gy
  have v0 := got_lt hi (by omega : 0 < sched.count g)
  have v3 := got_lt hi (by omega : 3 < sched.count g)
  obtain ⟨rs, e, hl, hr, hm, ho⟩ := collect_spec xp yp mx my (gmask s g) rfl
    (by
      intro h
      have h' : ((s.got g).getD 0 0 == 15) = true := h
      rw [beq_iff_eq] at h'
      show ((s.got g).getD 0 0 &&& kTopRight != 0) = true
      rw [h']; decide)
    (by
      intro h
      have h' : ((s.got g).getD 3 0 == 15) = true := h
      rw [beq_iff_eq] at h'
      show ((s.got g).getD 3 0 &&& kBottomRight != 0) = true
      rw [h']; decide)
  refine ⟨rs, ?_, hl, ?_, ?_, ?_⟩
  · unfold finish
    have ex' : axisPos (blockRect d g).x0 ((blockRect d g).x0 + (blockRect d g).xs) d.xsize padx
      (d.xsizeGroups == g % d.xsizeGroups + 1) = some xp := ex
    have ey' : axisPos (blockRect d g).y0 ((blockRect d g).y0 + (blockRect d g).ys) d.ysize pady
      (d.ysizeGroups == g / d.xsizeGroups + 1) = some yp := ey
    rw [ex', ey', Option.bind_some, Option.bind_some]
    exact e
  · intro r hr'
    obtain ⟨a, b, c, e⟩ := hr r hr'
    exact ⟨a, b, by omega, by omega⟩
  · intro px py i j hx hy hi' hj h1 h2
    have a := (zx px i hx hi').2 h1
    have b := (zy py j hy hj).2 h2
    exact hm px py i j hi' hj a.1 a.2 b.1 b.2
  · intro px py hx hy hn
    apply ho
    rw [reads_iff G hx hy] at hn
    have hrx : ∀ i, i < 3 → (xp.getD i 0 ≤ px ∧ px < xp.getD (i + 1) 0) → 2 * (g % d.xsizeGroups) + i = zone d.groupDim padx d.xsizeGroups px + 1 :=
      fun i h => (zx px i hx h).1
    have hry : ∀ i, i < 3 → (yp.getD i 0 ≤ py ∧ py < yp.getD (i + 1) 0) → 2 * (g / d.xsizeGroups) + i = zone d.groupDim pady d.ysizeGroups py + 1 :=
      fun i h => (zy py i hy h).1
    have x0 := hrx 0 (by omega); have x1 := hrx 1 (by omega); have x2 := hrx 2 (by omega)
    have y0 := hry 0 (by omega); have y1 := hry 1 (by omega); have y2 := hry 2 (by omega)
    refine Decidable.byContradiction fun hcon => hn ⟨hgn, ?_, ?_⟩
    · generalize zone d.groupDim padx d.xsizeGroups px = z at *
      generalize g % d.xsizeGroups = c at *
      simp only [Nat.zero_add, Nat.reduceAdd] at x0 x1 x2
      omega
    · generalize zone d.groupDim pady d.ysizeGroups py = z at *
      generalize g / d.xsizeGroups = c at *
      simp only [Nat.zero_add, Nat.reduceAdd] at y0 y1 y2
      omega

/-! ## Summing over groups -/

theorem sum_range_zero {n : Nat} {f : Nat → Nat} (h : ∀ g, g < n → f g = 0) : ((List.range n).map f).sum = 0 := by
  induction n with
  | zero => rfl
  | succ n ih =>
    rw [List.range_succ, List.map_append, List.sum_append, ih (fun g hg => h g (by omega))]
    simp [h n (by omega)]

/-- Remove one index from a sum. -/
theorem sum_range_take {n a : Nat} {f : Nat → Nat} (ha : a < n) :
    ((List.range n).map f).sum = f a + ((List.range n).map (fun g => if g = a then 0 else f g)).sum := by
  induction n with
  | zero => omega
  | succ n ih =>
    rw [List.range_succ, List.map_append, List.sum_append, List.map_append, List.sum_append]
    simp only [List.map_cons, List.map_nil, List.sum_cons, List.sum_nil, Nat.add_zero]
    by_cases h : a = n
    · subst h
      rw [if_pos rfl]
      have : (List.range a).map (fun g => if g = a then 0 else f g) = (List.range a).map f := by
        apply List.map_congr_left
        intro g hg
        rw [List.mem_range] at hg
        rw [if_neg (by omega)]
      rw [this]; omega
    · rw [ih (by omega), if_neg (fun h' => h h'.symm)]; omega

theorem sum1 {n a : Nat} {f : Nat → Nat} (ha : a < n) (h : ∀ g, g < n → g ≠ a → f g = 0) : ((List.range n).map f).sum = f a := by
  rw [sum_range_take ha, sum_range_zero]; rfl
  intro g hg
  by_cases h' : g = a
  · rw [if_pos h']
  · rw [if_neg h', h g hg h']

theorem sum2 {n a b : Nat} {f : Nat → Nat} (ha : a < n) (hb : b < n) (hab : a ≠ b) (h : ∀ g, g < n → g ≠ a → g ≠ b → f g = 0) :
    ((List.range n).map f).sum = f a + f b := by
  rw [sum_range_take ha, sum1 hb]
  · rw [if_neg (fun h => hab h.symm)]
  · intro g hg hne
    by_cases h' : g = a
    · rw [if_pos h']
    · rw [if_neg h', h g hg h' hne]

theorem sum4 {n a b c e : Nat} {f : Nat → Nat} (ha : a < n) (hb : b < n) (hc : c < n) (he : e < n) (hab : a ≠ b) (hac : a ≠ c) (hae : a ≠ e)
    (hbc : b ≠ c) (hbe : b ≠ e) (hce : c ≠ e) (h : ∀ g, g < n → g ≠ a → g ≠ b → g ≠ c → g ≠ e → f g = 0) :
    ((List.range n).map f).sum = f a + f b + (f c + f e) := by
  rw [sum_range_take ha, sum_range_take hb, sum2 hc he hce]
  · rw [if_neg (fun h => hab h.symm), if_neg (fun h => hbc h.symm), if_neg (fun h => hac h.symm), if_neg (fun h => hbe h.symm),
      if_neg (fun h => hae h.symm)]
    omega
  · intro g hg h1 h2
    by_cases h' : g = b
    · rw [if_pos h']
    · rw [if_neg h']
      by_cases h'' : g = a
      · rw [if_pos h'']
      · rw [if_neg h'', h g hg h'' h' h1 h2]

/-! ## Who is last -/

/-- Two groups meeting at one corner: exactly one of them sees the other. -/
theorem two_last {S1 S2 D1 D2 : Prop} {t1 t2 L b1 b2 : Nat} (s1 : S1 ↔ t1 < L) (s2 : S2 ↔ t2 < L) (d1 : S1 → ¬D1) (d2 : S2 → ¬D2)
    (l1 : t1 ≤ L) (l2 : t2 ≤ L) (ne : S1 → t1 ≠ t2) (p1 : S1 → (D2 ∨ t2 ≤ t1) → b1 = 1) (q1 : ¬(S1 ∧ (D2 ∨ t2 ≤ t1)) → b1 = 0)
    (p2 : S2 → (D1 ∨ t1 ≤ t2) → b2 = 1) (q2 : ¬(S2 ∧ (D1 ∨ t1 ≤ t2)) → b2 = 0) :
    (((D1 ∨ S1) ∧ (D2 ∨ S2)) ∧ (S1 ∨ S2) → b1 + b2 = 1) ∧ (¬(((D1 ∨ S1) ∧ (D2 ∨ S2)) ∧ (S1 ∨ S2)) → b1 + b2 = 0) := by
  grind

theorem four_last {S1 S2 S3 S4 D1 D2 D3 D4 : Prop} {t1 t2 t3 t4 L b1 b2 b3 b4 : Nat} (s1 : S1 ↔ t1 < L) (s2 : S2 ↔ t2 < L) (s3 : S3 ↔ t3 < L)
    (s4 : S4 ↔ t4 < L) (d1 : S1 → ¬D1) (d2 : S2 → ¬D2) (d3 : S3 → ¬D3) (d4 : S4 → ¬D4)
    (l1 : t1 ≤ L) (l2 : t2 ≤ L) (l3 : t3 ≤ L) (l4 : t4 ≤ L)
    (n12 : S1 → t1 ≠ t2) (n13 : S1 → t1 ≠ t3) (n14 : S1 → t1 ≠ t4) (n23 : S2 → t2 ≠ t3) (n24 : S2 → t2 ≠ t4) (n34 : S3 → t3 ≠ t4)
    (p1 : S1 → (D2 ∨ t2 ≤ t1) → (D3 ∨ t3 ≤ t1) → (D4 ∨ t4 ≤ t1) → b1 = 1) (q1 : ¬(S1 ∧ (D2 ∨ t2 ≤ t1) ∧ (D3 ∨ t3 ≤ t1) ∧ (D4 ∨ t4 ≤ t1)) → b1 = 0)
    (p2 : S2 → (D1 ∨ t1 ≤ t2) → (D3 ∨ t3 ≤ t2) → (D4 ∨ t4 ≤ t2) → b2 = 1) (q2 : ¬(S2 ∧ (D1 ∨ t1 ≤ t2) ∧ (D3 ∨ t3 ≤ t2) ∧ (D4 ∨ t4 ≤ t2)) → b2 = 0)
    (p3 : S3 → (D1 ∨ t1 ≤ t3) → (D2 ∨ t2 ≤ t3) → (D4 ∨ t4 ≤ t3) → b3 = 1) (q3 : ¬(S3 ∧ (D1 ∨ t1 ≤ t3) ∧ (D2 ∨ t2 ≤ t3) ∧ (D4 ∨ t4 ≤ t3)) → b3 = 0)
    (p4 : S4 → (D1 ∨ t1 ≤ t4) → (D2 ∨ t2 ≤ t4) → (D3 ∨ t3 ≤ t4) → b4 = 1) (q4 : ¬(S4 ∧ (D1 ∨ t1 ≤ t4) ∧ (D2 ∨ t2 ≤ t4) ∧ (D3 ∨ t3 ≤ t4)) → b4 = 0) :
    (((D1 ∨ S1) ∧ (D2 ∨ S2) ∧ (D3 ∨ S3) ∧ (D4 ∨ S4)) ∧ (S1 ∨ S2 ∨ S3 ∨ S4) → b1 + b2 + (b3 + b4) = 1) ∧
    (¬(((D1 ∨ S1) ∧ (D2 ∨ S2) ∧ (D3 ∨ S3) ∧ (D4 ∨ S4)) ∧ (S1 ∨ S2 ∨ S3 ∨ S4)) → b1 + b2 + (b3 + b4) = 0) := by
  rw [s1, s2, s3, s4] at *
  by_cases D1 <;> by_cases D2 <;> by_cases D3 <;> by_cases D4 <;> simp_all <;> omega

/-! ## The count of one pixel -/

section
variable {d : Dims} {padx pady : Nat} {D : Nat → Prop} {sched : List Nat} {s : St} {px py : Nat}

/-- Times a pixel is handed out by group `g`. -/
def cntOf (d : Dims) (padx pady : Nat) (sched : List Nat) (s : St) (px py g : Nat) : Nat :=
  (if g ∈ sched then (finish d padx pady g (s.got g)).getD [] else []).countP fun r => decide (Has r px py)

theorem handed_count : (handed d padx pady sched s).countP (fun r => decide (Has r px py)) =
    ((List.range d.numGroups).map (cntOf d padx pady sched s px py)).sum := by
  unfold handed
  rw [List.countP_flatMap]
  rfl

theorem cnt_not {g : Nat} (h : g ∉ sched) : cntOf d padx pady sched s px py g = 0 := by
  unfold cntOf; rw [if_neg h]; rfl

theorem cnt_part (G : Geo d padx pady) (hi : Inv d.xsizeGroups d.ysizeGroups D sched s) (hc : Complete (d.xsizeGroups * d.ysizeGroups) sched)
    (hx : px < d.xsize) (hy : py < d.ysize) {g i j : Nat} (hg : g ∈ sched) (hi3 : i < 3) (hj3 : j < 3)
    (h1 : 2 * (g % d.xsizeGroups) + i = zone d.groupDim padx d.xsizeGroups px + 1)
    (h2 : 2 * (g / d.xsizeGroups) + j = zone d.groupDim pady d.ysizeGroups py + 1) :
    cntOf d padx pady sched s px py g = (gmask s g i j).toNat := by
  obtain ⟨rs, e, _, _, h, _⟩ := finish_spec G hi hc hg
  unfold cntOf
  rw [if_pos hg, e]
  exact h px py i j hx hy hi3 hj3 h1 h2

theorem cnt_unread (G : Geo d padx pady) (hi : Inv d.xsizeGroups d.ysizeGroups D sched s) (hc : Complete (d.xsizeGroups * d.ysizeGroups) sched)
    (hx : px < d.xsize) (hy : py < d.ysize) {g : Nat} (hn : ¬Reads d padx pady px py g) : cntOf d padx pady sched s px py g = 0 := by
  by_cases hg : g ∈ sched
  · obtain ⟨rs, e, _, _, _, h⟩ := finish_spec G hi hc hg
    unfold cntOf
    rw [if_pos hg, e]
    exact h px py hx hy hn
  · exact cnt_not hg

theorem mem_time (hc : Complete (d.xsizeGroups * d.ysizeGroups) sched) {g k : Nat} (hk : k < 4) :
    g ∈ sched ↔ time sched g k < sched.length := by
  rw [time_lt]
  constructor
  · intro h; rw [(hc g h).2]; exact hk
  · intro h; exact List.count_pos_iff.1 (by omega)

/-- An edge part is taken by a group exactly when it has seen the group across. -/
theorem edge_pq (G : Geo d padx pady) (hi : Inv d.xsizeGroups d.ysizeGroups D sched s) (hc : Complete (d.xsizeGroups * d.ysizeGroups) sched)
    (hx : px < d.xsize) (hy : py < d.ysize) {g g' i j k k' : Nat} (hg' : g' < d.xsizeGroups * d.ysizeGroups) (hi3 : i < 3) (hj3 : j < 3)
    (h1 : 2 * (g % d.xsizeGroups) + i = zone d.groupDim padx d.xsizeGroups px + 1)
    (h2 : 2 * (g / d.xsizeGroups) + j = zone d.groupDim pady d.ysizeGroups py + 1) (hk : k < 4) (hk' : k' < 4)
    (hm : ∀ (v : Nat), (s.got g).getD k 0 = v → v < 16 → gmask s g i j = v.testBit (ord k'))
    (ex : atX d.xsizeGroups g' k' = atX d.xsizeGroups g k) (ey : atY d.xsizeGroups g' k' = atY d.xsizeGroups g k) :
    (g ∈ sched → (D g' ∨ time sched g' k' ≤ time sched g k) → cntOf d padx pady sched s px py g = 1) ∧
    (¬(g ∈ sched ∧ (D g' ∨ time sched g' k' ≤ time sched g k)) → cntOf d padx pady sched s px py g = 0) := by
  by_cases hg : g ∈ sched
  · obtain ⟨v, e1, e2, e3⟩ := seen hi hg' (by rw [(hc g hg).2]; exact hk) hk' ex ey
    rw [cnt_part G hi hc hx hy hg hi3 hj3 h1 h2, hm v e1 e2]
    constructor
    · intro _ h
      rw [e3.2 h]; rfl
    · intro h
      rw [Bool.eq_false_iff.2 (fun hh => h ⟨hg, e3.1 hh⟩)]; rfl
  · exact ⟨fun h => (hg h).elim, fun _ => cnt_not hg⟩

/-- A corner part is taken by a group exactly when it has seen the three others. -/
theorem corner_pq (G : Geo d padx pady) (hi : Inv d.xsizeGroups d.ysizeGroups D sched s) (hc : Complete (d.xsizeGroups * d.ysizeGroups) sched)
    (hx : px < d.xsize) (hy : py < d.ysize) {g g1 g2 g3 i j k k1 k2 k3 : Nat} (hg1 : g1 < d.xsizeGroups * d.ysizeGroups)
    (hg2 : g2 < d.xsizeGroups * d.ysizeGroups) (hg3 : g3 < d.xsizeGroups * d.ysizeGroups) (hi3 : i < 3) (hj3 : j < 3)
    (h1 : 2 * (g % d.xsizeGroups) + i = zone d.groupDim padx d.xsizeGroups px + 1)
    (h2 : 2 * (g / d.xsizeGroups) + j = zone d.groupDim pady d.ysizeGroups py + 1) (hk : k < 4) (hk1 : k1 < 4) (hk2 : k2 < 4) (hk3 : k3 < 4)
    (hall : ∀ j, j < 4 → j = ord k ∨ j = ord k1 ∨ j = ord k2 ∨ j = ord k3)
    (hm : gmask s g i j = ((s.got g).getD k 0 == 15))
    (ex1 : atX d.xsizeGroups g1 k1 = atX d.xsizeGroups g k) (ey1 : atY d.xsizeGroups g1 k1 = atY d.xsizeGroups g k)
    (ex2 : atX d.xsizeGroups g2 k2 = atX d.xsizeGroups g k) (ey2 : atY d.xsizeGroups g2 k2 = atY d.xsizeGroups g k)
    (ex3 : atX d.xsizeGroups g3 k3 = atX d.xsizeGroups g k) (ey3 : atY d.xsizeGroups g3 k3 = atY d.xsizeGroups g k) :
    (g ∈ sched → (D g1 ∨ time sched g1 k1 ≤ time sched g k) → (D g2 ∨ time sched g2 k2 ≤ time sched g k) →
      (D g3 ∨ time sched g3 k3 ≤ time sched g k) → cntOf d padx pady sched s px py g = 1) ∧
    (¬(g ∈ sched ∧ (D g1 ∨ time sched g1 k1 ≤ time sched g k) ∧ (D g2 ∨ time sched g2 k2 ≤ time sched g k) ∧
      (D g3 ∨ time sched g3 k3 ≤ time sched g k)) → cntOf d padx pady sched s px py g = 0) := by
  by_cases hg : g ∈ sched
  · have hkc : k < sched.count g := by rw [(hc g hg).2]; exact hk
    obtain ⟨v, e1, e2, e3⟩ := seen hi hg1 hkc hk1 ex1 ey1
    obtain ⟨v2, e1', _, e3'⟩ := seen hi hg2 hkc hk2 ex2 ey2
    obtain ⟨v3, e1'', _, e3''⟩ := seen hi hg3 hkc hk3 ex3 ey3
    obtain ⟨v4, f1, _, f3⟩ := seen hi (hc g hg).1 hkc hk rfl rfl
    rw [e1] at e1' e1'' f1
    subst e1' e1'' f1
    rw [cnt_part G hi hc hx hy hg hi3 hj3 h1 h2, hm, e1]
    have h15 := nib15 e2
    constructor
    · intro _ a b c
      have : v = 15 := by
        rw [h15]
        intro j hj
        rcases hall j hj with h | h | h | h <;> rw [h]
        · exact f3.2 (Or.inr (Nat.le_refl _))
        · exact e3.2 a
        · exact e3'.2 b
        · exact e3''.2 c
      rw [this]; rfl
    · intro h
      have : v ≠ 15 := by
        intro hh
        rw [h15] at hh
        exact h ⟨hg, e3.1 (hh _ (ord_lt _)), e3'.1 (hh _ (ord_lt _)), e3''.1 (hh _ (ord_lt _))⟩
      rw [beq_eq_false_iff_ne.2 this]; rfl
  · exact ⟨fun h => (hg h).elim, fun _ => cnt_not hg⟩

/-- When all groups around have been or are run, a pixel is handed out once, and not at all if some has not, or none is run now. -/
theorem count_spec (G : Geo d padx pady) (hi : Inv d.xsizeGroups d.ysizeGroups D sched s) (hc : Complete (d.xsizeGroups * d.ysizeGroups) sched)
    (hd : ∀ g ∈ sched, ¬D g) (hx : px < d.xsize) (hy : py < d.ysize) :
    (((∀ g, Reads d padx pady px py g → D g ∨ g ∈ sched) ∧ (∃ g, Reads d padx pady px py g ∧ g ∈ sched)) →
      (handed d padx pady sched s).countP (fun r => decide (Has r px py)) = 1) ∧
    (¬((∀ g, Reads d padx pady px py g → D g ∨ g ∈ sched) ∧ (∃ g, Reads d padx pady px py g ∧ g ∈ sched)) →
      (handed d padx pady sched s).countP (fun r => decide (Has r px py)) = 0) ∧
    (∀ g g', cntOf d padx pady sched s px py g ≠ 0 → Reads d padx pady px py g' → D g' ∨ time sched g' 0 ≤ time sched g 3) := by
  rw [handed_count, G.n]
  have lx := zone_le G.ax hx
  have ly := zone_le G.ay hy
  have nx := G.ax.n0
  have ny := G.ay.n0
  have hread := fun g => @reads_iff d padx pady px py g G hx hy
  have hun : ∀ g, ¬Reads d padx pady px py g → cntOf d padx pady sched s px py g = 0 := fun g => cnt_unread G hi hc hx hy
  have par : ∀ z : Nat, ∃ a, z = 2 * a ∨ z = 2 * a + 1 := fun z => ⟨z / 2, by omega⟩
  have up : ∀ {g g' k k' : Nat}, k < 4 → (D g' ∨ time sched g' k' ≤ time sched g k) → D g' ∨ time sched g' 0 ≤ time sched g 3 := by
    intro g g' k k' hk h
    rcases h with h | h
    · exact Or.inl h
    · have h1 := time_mono sched g' 0 k' (Nat.zero_le _)
      have h2 := time_mono sched g k 3 (by omega)
      exact Or.inr (by omega)
  have self : ∀ g, D g ∨ time sched g 0 ≤ time sched g 3 := fun g => Or.inr (time_mono sched g 0 3 (by omega))
  have tl : ∀ g k, time sched g k ≤ sched.length := time_le sched
  have tn : ∀ g k g' k', k < 4 → g ≠ g' → g ∈ sched → time sched g k ≠ time sched g' k' := by
    intro g k g' k' hk hne hg e
    exact hne (time_inj sched g k g' k' (by rw [(hc g hg).2]; exact hk) e).1
  obtain ⟨a, ha⟩ := par (zone d.groupDim padx d.xsizeGroups px)
  obtain ⟨b, hb⟩ := par (zone d.groupDim pady d.ysizeGroups py)
  generalize hzx : zone d.groupDim padx d.xsizeGroups px = zx at *
  generalize hzy : zone d.groupDim pady d.ysizeGroups py = zy at *
  rcases ha with rfl | rfl <;> rcases hb with rfl | rfl
  · -- inside one group
    obtain ⟨g1, g2, g3⟩ := group_mk (by omega : a < d.xsizeGroups) (by omega : b < d.ysizeGroups)
    have only : ∀ g, Reads d padx pady px py g ↔ g = b * d.xsizeGroups + a := by
      intro g
      rw [hread]
      constructor
      · rintro ⟨_, h1, h2⟩
        exact group_ext (xs := d.xsizeGroups) (by rw [g2]; omega) (by rw [g3]; omega)
      · rintro rfl
        exact ⟨g1, by rw [g2]; omega, by rw [g3]; omega⟩
    rw [sum1 g1 (fun g _ hne => hun g (fun h => hne ((only g).1 h)))]
    refine ⟨?_, ?_, ?_⟩
    · rintro ⟨_, g, h1, h2⟩
      rw [only] at h1
      subst h1
      rw [cnt_part G hi hc hx hy h2 (by omega : 1 < 3) (by omega : 1 < 3) (by rw [g2, hzx]) (by rw [g3, hzy])]
      rfl
    · intro h
      apply cnt_not
      intro hs
      exact h ⟨fun g hr => by rw [only] at hr; subst hr; exact Or.inr hs, _, (only _).2 rfl, hs⟩
    · intro g g' h0 hr
      have hg : Reads d padx pady px py g := Classical.byContradiction fun h => h0 (hun g h)
      rw [only] at hg hr
      rw [hg, hr]
      exact self _
  · -- between a group and the one below
    obtain ⟨g1, g2, g3⟩ := group_mk (by omega : a < d.xsizeGroups) (by omega : b < d.ysizeGroups)
    obtain ⟨k1, k2, k3⟩ := group_mk (by omega : a < d.xsizeGroups) (by omega : b + 1 < d.ysizeGroups)
    generalize b * d.xsizeGroups + a = A at *
    generalize (b + 1) * d.xsizeGroups + a = B at *
    have hAB : A ≠ B := by rintro rfl; omega
    have only : ∀ g, Reads d padx pady px py g ↔ g = A ∨ g = B := by
      intro g
      rw [hread]
      constructor
      · rintro ⟨_, h1, h2⟩
        rcases (by omega : g / d.xsizeGroups = b ∨ g / d.xsizeGroups = b + 1) with h | h
        · exact Or.inl (group_ext (xs := d.xsizeGroups) (by rw [g2]; omega) (by rw [g3]; omega))
        · exact Or.inr (group_ext (xs := d.xsizeGroups) (by rw [k2]; omega) (by rw [k3]; omega))
      · rintro (rfl | rfl)
        · exact ⟨g1, by omega, by omega⟩
        · exact ⟨k1, by omega, by omega⟩
    rw [sum2 g1 k1 hAB (fun g _ h1 h2 => hun g (fun h => ((only g).1 h).elim h1 h2))]
    have pA := edge_pq G hi hc hx hy (g := A) (g' := B) (i := 1) (j := 2) (k := 3) (k' := 0) k1 (by omega) (by omega) (by rw [hzx]; omega)
      (by rw [hzy]; omega) (by omega) (by omega) (by intro v e hv; rw [show ord 0 = 2 from rfl, ← (nibAnd hv).2.2, ← e]; rfl)
      (by show B % _ + 0 = A % _ + 0; omega) (by show B / _ + 0 = A / _ + 1; omega)
    have pB := edge_pq G hi hc hx hy (g := B) (g' := A) (i := 1) (j := 0) (k := 0) (k' := 3) g1 (by omega) (by omega) (by rw [hzx]; omega)
      (by rw [hzy]; omega) (by omega) (by omega) (by intro v e hv; rw [show ord 3 = 1 from rfl, ← (nibAnd hv).1, ← e]; rfl)
      (by show A % _ + 0 = B % _ + 0; omega) (by show A / _ + 1 = B / _ + 0; omega)
    have key := two_last (mem_time hc (by omega : 3 < 4)) (mem_time hc (by omega : 0 < 4)) (hd A) (hd B) (tl A 3) (tl B 0)
      (tn A 3 B 0 (by omega) hAB) pA.1 pA.2 pB.1 pB.2
    have hcond : ((∀ g, Reads d padx pady px py g → D g ∨ g ∈ sched) ∧ (∃ g, Reads d padx pady px py g ∧ g ∈ sched)) ↔
        (((D A ∨ A ∈ sched) ∧ (D B ∨ B ∈ sched)) ∧ (A ∈ sched ∨ B ∈ sched)) := by
      constructor
      · rintro ⟨h1, g, h2, h3⟩
        refine ⟨⟨h1 A ((only A).2 (Or.inl rfl)), h1 B ((only B).2 (Or.inr rfl))⟩, ?_⟩
        rcases (only g).1 h2 with rfl | rfl
        · exact Or.inl h3
        · exact Or.inr h3
      · rintro ⟨⟨h1, h2⟩, h3⟩
        refine ⟨?_, ?_⟩
        · intro g hg
          rcases (only g).1 hg with rfl | rfl
          · exact h1
          · exact h2
        · rcases h3 with h3 | h3
          · exact ⟨A, (only A).2 (Or.inl rfl), h3⟩
          · exact ⟨B, (only B).2 (Or.inr rfl), h3⟩
    rw [hcond]
    refine ⟨key.1, key.2, ?_⟩
    intro g g' h0 hr
    have hg : Reads d padx pady px py g := Classical.byContradiction fun h => h0 (hun g h)
    rcases (only g).1 hg with rfl | rfl
    · have h := Classical.byContradiction fun h => h0 (pA.2 h)
      rcases (only g').1 hr with rfl | rfl
      · exact self _
      · exact up (by omega) h.2
    · have h := Classical.byContradiction fun h => h0 (pB.2 h)
      rcases (only g').1 hr with rfl | rfl
      · exact up (by omega) h.2
      · exact self _
  · -- between a group and the one to the right
    obtain ⟨g1, g2, g3⟩ := group_mk (by omega : a < d.xsizeGroups) (by omega : b < d.ysizeGroups)
    obtain ⟨k1, k2, k3⟩ := group_mk (by omega : a + 1 < d.xsizeGroups) (by omega : b < d.ysizeGroups)
    generalize b * d.xsizeGroups + a = A at *
    generalize b * d.xsizeGroups + (a + 1) = B at *
    have hAB : A ≠ B := by rintro rfl; omega
    have only : ∀ g, Reads d padx pady px py g ↔ g = A ∨ g = B := by
      intro g
      rw [hread]
      constructor
      · rintro ⟨_, h1, h2⟩
        rcases (by omega : g % d.xsizeGroups = a ∨ g % d.xsizeGroups = a + 1) with h | h
        · exact Or.inl (group_ext (xs := d.xsizeGroups) (by rw [g2]; omega) (by rw [g3]; omega))
        · exact Or.inr (group_ext (xs := d.xsizeGroups) (by rw [k2]; omega) (by rw [k3]; omega))
      · rintro (rfl | rfl)
        · exact ⟨g1, by omega, by omega⟩
        · exact ⟨k1, by omega, by omega⟩
    rw [sum2 g1 k1 hAB (fun g _ h1 h2 => hun g (fun h => ((only g).1 h).elim h1 h2))]
    have pA := edge_pq G hi hc hx hy (g := A) (g' := B) (i := 2) (j := 1) (k := 1) (k' := 0) k1 (by omega) (by omega) (by rw [hzx]; omega)
      (by rw [hzy]; omega) (by omega) (by omega) (by intro v e hv; rw [show ord 0 = 2 from rfl, ← (nibAnd hv).2.2, ← e]; rfl)
      (by show B % _ + 0 = A % _ + 1; omega) (by show B / _ + 0 = A / _ + 0; omega)
    have pB := edge_pq G hi hc hx hy (g := B) (g' := A) (i := 0) (j := 1) (k := 0) (k' := 1) g1 (by omega) (by omega) (by rw [hzx]; omega)
      (by rw [hzy]; omega) (by omega) (by omega) (by intro v e hv; rw [show ord 1 = 3 from rfl, ← (nibAnd hv).2.1, ← e]; rfl)
      (by show A % _ + 1 = B % _ + 0; omega) (by show A / _ + 0 = B / _ + 0; omega)
    have key := two_last (mem_time hc (by omega : 1 < 4)) (mem_time hc (by omega : 0 < 4)) (hd A) (hd B) (tl A 1) (tl B 0)
      (tn A 1 B 0 (by omega) hAB) pA.1 pA.2 pB.1 pB.2
    have hcond : ((∀ g, Reads d padx pady px py g → D g ∨ g ∈ sched) ∧ (∃ g, Reads d padx pady px py g ∧ g ∈ sched)) ↔
        (((D A ∨ A ∈ sched) ∧ (D B ∨ B ∈ sched)) ∧ (A ∈ sched ∨ B ∈ sched)) := by
      constructor
      · rintro ⟨h1, g, h2, h3⟩
        refine ⟨⟨h1 A ((only A).2 (Or.inl rfl)), h1 B ((only B).2 (Or.inr rfl))⟩, ?_⟩
        rcases (only g).1 h2 with rfl | rfl
        · exact Or.inl h3
        · exact Or.inr h3
      · rintro ⟨⟨h1, h2⟩, h3⟩
        refine ⟨?_, ?_⟩
        · intro g hg
          rcases (only g).1 hg with rfl | rfl
          · exact h1
          · exact h2
        · rcases h3 with h3 | h3
          · exact ⟨A, (only A).2 (Or.inl rfl), h3⟩
          · exact ⟨B, (only B).2 (Or.inr rfl), h3⟩
    rw [hcond]
    refine ⟨key.1, key.2, ?_⟩
    intro g g' h0 hr
    have hg : Reads d padx pady px py g := Classical.byContradiction fun h => h0 (hun g h)
    rcases (only g).1 hg with rfl | rfl
    · have h := Classical.byContradiction fun h => h0 (pA.2 h)
      rcases (only g').1 hr with rfl | rfl
      · exact self _
      · exact up (by omega) h.2
    · have h := Classical.byContradiction fun h => h0 (pB.2 h)
      rcases (only g').1 hr with rfl | rfl
      · exact up (by omega) h.2
      · exact self _
  · -- around a corner
    obtain ⟨a1, a2, a3⟩ := group_mk (by omega : a < d.xsizeGroups) (by omega : b < d.ysizeGroups)
    obtain ⟨b1, b2, b3⟩ := group_mk (by omega : a + 1 < d.xsizeGroups) (by omega : b < d.ysizeGroups)
    obtain ⟨c1, c2, c3⟩ := group_mk (by omega : a < d.xsizeGroups) (by omega : b + 1 < d.ysizeGroups)
    obtain ⟨e1, e2, e3⟩ := group_mk (by omega : a + 1 < d.xsizeGroups) (by omega : b + 1 < d.ysizeGroups)
    generalize b * d.xsizeGroups + a = A at *
    generalize b * d.xsizeGroups + (a + 1) = B at *
    generalize (b + 1) * d.xsizeGroups + a = C at *
    generalize (b + 1) * d.xsizeGroups + (a + 1) = E at *
    have hAB : A ≠ B := by rintro rfl; omega
    have hAC : A ≠ C := by rintro rfl; omega
    have hAE : A ≠ E := by rintro rfl; omega
    have hBC : B ≠ C := by rintro rfl; omega
    have hBE : B ≠ E := by rintro rfl; omega
    have hCE : C ≠ E := by rintro rfl; omega
    have only : ∀ g, Reads d padx pady px py g ↔ g = A ∨ g = B ∨ g = C ∨ g = E := by
      intro g
      rw [hread]
      constructor
      · rintro ⟨_, h1, h2⟩
        rcases (by omega : g % d.xsizeGroups = a ∨ g % d.xsizeGroups = a + 1) with h | h <;>
          rcases (by omega : g / d.xsizeGroups = b ∨ g / d.xsizeGroups = b + 1) with h' | h'
        · exact Or.inl (group_ext (xs := d.xsizeGroups) (by omega) (by omega))
        · exact Or.inr (Or.inr (Or.inl (group_ext (xs := d.xsizeGroups) (by omega) (by omega))))
        · exact Or.inr (Or.inl (group_ext (xs := d.xsizeGroups) (by omega) (by omega)))
        · exact Or.inr (Or.inr (Or.inr (group_ext (xs := d.xsizeGroups) (by omega) (by omega))))
      · rintro (rfl | rfl | rfl | rfl)
        · exact ⟨a1, by omega, by omega⟩
        · exact ⟨b1, by omega, by omega⟩
        · exact ⟨c1, by omega, by omega⟩
        · exact ⟨e1, by omega, by omega⟩
    rw [sum4 a1 b1 c1 e1 hAB hAC hAE hBC hBE hCE (fun g _ h1 h2 h3 h4 => hun g (fun h => by
      rcases (only g).1 h with h | h | h | h
      · exact h1 h
      · exact h2 h
      · exact h3 h
      · exact h4 h))]
    -- updates: A makes its third there, B its fourth, C its second, E its first
    have pA := corner_pq G hi hc hx hy (g := A) (g1 := B) (g2 := C) (g3 := E) (i := 2) (j := 2) (k := 2) (k1 := 3) (k2 := 1) (k3 := 0) b1 c1 e1
      (by omega) (by omega) (by rw [hzx]; omega) (by rw [hzy]; omega) (by omega) (by omega) (by omega) (by omega)
      (by intro j hj; unfold ord; omega) rfl
      (by show B % _ + 0 = A % _ + 1; omega) (by show B / _ + 1 = A / _ + 1; omega)
      (by show C % _ + 1 = A % _ + 1; omega) (by show C / _ + 0 = A / _ + 1; omega)
      (by show E % _ + 0 = A % _ + 1; omega) (by show E / _ + 0 = A / _ + 1; omega)
    have pB := corner_pq G hi hc hx hy (g := B) (g1 := A) (g2 := C) (g3 := E) (i := 0) (j := 2) (k := 3) (k1 := 2) (k2 := 1) (k3 := 0) a1 c1 e1
      (by omega) (by omega) (by rw [hzx]; omega) (by rw [hzy]; omega) (by omega) (by omega) (by omega) (by omega)
      (by intro j hj; unfold ord; omega) rfl
      (by show A % _ + 1 = B % _ + 0; omega) (by show A / _ + 1 = B / _ + 1; omega)
      (by show C % _ + 1 = B % _ + 0; omega) (by show C / _ + 0 = B / _ + 1; omega)
      (by show E % _ + 0 = B % _ + 0; omega) (by show E / _ + 0 = B / _ + 1; omega)
    have pC := corner_pq G hi hc hx hy (g := C) (g1 := A) (g2 := B) (g3 := E) (i := 2) (j := 0) (k := 1) (k1 := 2) (k2 := 3) (k3 := 0) a1 b1 e1
      (by omega) (by omega) (by rw [hzx]; omega) (by rw [hzy]; omega) (by omega) (by omega) (by omega) (by omega)
      (by intro j hj; unfold ord; omega) rfl
      (by show A % _ + 1 = C % _ + 1; omega) (by show A / _ + 1 = C / _ + 0; omega)
      (by show B % _ + 0 = C % _ + 1; omega) (by show B / _ + 1 = C / _ + 0; omega)
      (by show E % _ + 0 = C % _ + 1; omega) (by show E / _ + 0 = C / _ + 0; omega)
    have pE := corner_pq G hi hc hx hy (g := E) (g1 := A) (g2 := B) (g3 := C) (i := 0) (j := 0) (k := 0) (k1 := 2) (k2 := 3) (k3 := 1) a1 b1 c1
      (by omega) (by omega) (by rw [hzx]; omega) (by rw [hzy]; omega) (by omega) (by omega) (by omega) (by omega)
      (by intro j hj; unfold ord; omega) rfl
      (by show A % _ + 1 = E % _ + 0; omega) (by show A / _ + 1 = E / _ + 0; omega)
      (by show B % _ + 0 = E % _ + 0; omega) (by show B / _ + 1 = E / _ + 0; omega)
      (by show C % _ + 1 = E % _ + 0; omega) (by show C / _ + 0 = E / _ + 0; omega)
    have key := four_last (mem_time hc (by omega : 2 < 4)) (mem_time hc (by omega : 3 < 4)) (mem_time hc (by omega : 1 < 4))
      (mem_time hc (by omega : 0 < 4)) (hd A) (hd B) (hd C) (hd E) (tl A 2) (tl B 3) (tl C 1) (tl E 0)
      (tn A 2 B 3 (by omega) hAB) (tn A 2 C 1 (by omega) hAC) (tn A 2 E 0 (by omega) hAE) (tn B 3 C 1 (by omega) hBC)
      (tn B 3 E 0 (by omega) hBE) (tn C 1 E 0 (by omega) hCE) pA.1 pA.2 pB.1 pB.2 pC.1 pC.2 pE.1 pE.2
    have hcond : ((∀ g, Reads d padx pady px py g → D g ∨ g ∈ sched) ∧ (∃ g, Reads d padx pady px py g ∧ g ∈ sched)) ↔
        (((D A ∨ A ∈ sched) ∧ (D B ∨ B ∈ sched) ∧ (D C ∨ C ∈ sched) ∧ (D E ∨ E ∈ sched)) ∧
          (A ∈ sched ∨ B ∈ sched ∨ C ∈ sched ∨ E ∈ sched)) := by
      constructor
      · rintro ⟨h1, g, h2, h3⟩
        refine ⟨⟨h1 A ((only A).2 (Or.inl rfl)), h1 B ((only B).2 (Or.inr (Or.inl rfl))), h1 C ((only C).2 (Or.inr (Or.inr (Or.inl rfl)))),
          h1 E ((only E).2 (Or.inr (Or.inr (Or.inr rfl))))⟩, ?_⟩
        rcases (only g).1 h2 with rfl | rfl | rfl | rfl
        · exact Or.inl h3
        · exact Or.inr (Or.inl h3)
        · exact Or.inr (Or.inr (Or.inl h3))
        · exact Or.inr (Or.inr (Or.inr h3))
      · rintro ⟨⟨h1, h2, h3, h4⟩, h5⟩
        refine ⟨?_, ?_⟩
        · intro g hg
          rcases (only g).1 hg with rfl | rfl | rfl | rfl
          · exact h1
          · exact h2
          · exact h3
          · exact h4
        · rcases h5 with h5 | h5 | h5 | h5
          · exact ⟨A, (only A).2 (Or.inl rfl), h5⟩
          · exact ⟨B, (only B).2 (Or.inr (Or.inl rfl)), h5⟩
          · exact ⟨C, (only C).2 (Or.inr (Or.inr (Or.inl rfl))), h5⟩
          · exact ⟨E, (only E).2 (Or.inr (Or.inr (Or.inr rfl))), h5⟩
    rw [hcond]
    refine ⟨key.1, key.2, ?_⟩
    intro g g' h0 hr
    have hg : Reads d padx pady px py g := Classical.byContradiction fun h => h0 (hun g h)
    rcases (only g).1 hg with rfl | rfl | rfl | rfl
    · obtain ⟨_, h1, h2, h3⟩ := Classical.byContradiction fun h => h0 (pA.2 h)
      rcases (only g').1 hr with rfl | rfl | rfl | rfl
      · exact self _
      · exact up (by omega) h1
      · exact up (by omega) h2
      · exact up (by omega) h3
    · obtain ⟨_, h1, h2, h3⟩ := Classical.byContradiction fun h => h0 (pB.2 h)
      rcases (only g').1 hr with rfl | rfl | rfl | rfl
      · exact up (by omega) h1
      · exact self _
      · exact up (by omega) h2
      · exact up (by omega) h3
    · obtain ⟨_, h1, h2, h3⟩ := Classical.byContradiction fun h => h0 (pC.2 h)
      rcases (only g').1 hr with rfl | rfl | rfl | rfl
      · exact up (by omega) h1
      · exact up (by omega) h2
      · exact self _
      · exact up (by omega) h3
    · obtain ⟨_, h1, h2, h3⟩ := Classical.byContradiction fun h => h0 (pE.2 h)
      rcases (only g').1 hr with rfl | rfl | rfl | rfl
      · exact up (by omega) h1
      · exact up (by omega) h2
      · exact up (by omega) h3
      · exact self _

end

end Jxl.Border
