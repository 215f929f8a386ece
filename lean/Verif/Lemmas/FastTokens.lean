import Verif.Lemmas.FastPixels
import Verif.Lemmas.ModularAccept
/-!
# The residuals of the fast lossless encoder are the tokens of the gradient predictor
-/
namespace Jxl.FastCode
open Modular

/-- A stored sample as the decoder keeps it. -/
def wide {n : Nat} (v : BitVec n) : Px := BitVec.ofInt 32 v.toInt

theorem wide_toInt {n : Nat} (hn : n = 16 ∨ n = 32) (v : BitVec n) : (wide v).toInt = v.toInt := by
  unfold wide
  have h1 := BitVec.le_toInt v
  have h2 := BitVec.toInt_lt (x := v)
  have e : quarter 32 = 1073741824 := by decide
  apply toInt_small (Or.inr rfl)
  · rcases hn with rfl | rfl <;> omega
  · rcases hn with rfl | rfl <;> omega

theorem px_wide {n : Nat} (hn : n = 16 ∨ n = 32) {l : List (BitVec n)} {i : Nat} {v : BitVec n} (h : l[i]? = some v) : px (l.map wide) i = v.toInt := by
  unfold px
  rw [List.getD_eq_getElem?_getD, List.getElem?_map, h]
  exact wide_toInt hn v

/-- The row above, in both forms. -/
structure Above {n : Nat} (e : Nat) (lo : Int) (w y : Nat) (prev : Option (List (BitVec n))) (n1 n2 : List Px) : Prop where
  first : y = 0 → prev = none
  later : 0 < y → ∃ p, prev = some p ∧ p.length = w ∧ (∀ v ∈ p, In e lo v.toInt) ∧ n1 = p.map wide
  second : 1 < y → n2.length = w

theorem get_of_lt {α : Type} {l : List α} {i : Nat} (h : i < l.length) : ∃ v, l[i]? = some v ∧ v ∈ l :=
  ⟨l[i], List.getElem?_eq_getElem h, List.getElem_mem h⟩

/-- One pixel. -/
theorem pixel_token {n e : Nat} {lo : Int} (hw : Window n e lo) {w y : Nat} {prev : Option (List (BitVec n))} {n1 n2 : List Px} (ha : Above e lo w y prev n1 n2)
    (ctx : Nat) {cur rest : List (BitVec n)} {v : BitVec n} (hl : (cur ++ v :: rest).length = w) (hin : ∀ u ∈ cur ++ v :: rest, In e lo u.toInt) :
    ∃ r a t, residualAt prev (cur ++ v :: rest) cur.length = some r ∧ r.toNat < 2 ^ (e + 1) ∧ a.ctx = ctx ∧
      (pathGradient ctx).step ⟨w, y, (cur.map wide).length, n1, n2, cur.map wide⟩ () = some (a, ()) ∧ tokSub a (wide v) = some (t, false) ∧ t.toNat = r.toNat := by
  have hn := hw.bits
  rw [List.length_append, List.length_cons] at hl
  have hok : Ok ⟨w, y, (cur.map wide).length, n1, n2, cur.map wide⟩ := by
    refine ⟨?_, rfl, fun h => ?_, ha.second⟩
    · rw [List.length_map]; dsimp only; omega
    · obtain ⟨p, -, h1, -, rfl⟩ := ha.later h
      rw [List.length_map]; exact h1
  have h0 : In e lo 0 := hw.zero
  -- the neighbours on both sides
  obtain ⟨l, l1, l2, l3⟩ : ∃ l : BitVec n, leftOf prev (cur ++ v :: rest) cur.length = some l ∧ In e lo l.toInt ∧
      nbLeft ⟨w, y, (cur.map wide).length, n1, n2, cur.map wide⟩ = l.toInt := by
    unfold nbLeft leftOf
    dsimp only
    rw [List.length_map]
    by_cases hx : cur.length = 0
    · rw [if_pos hx, if_neg (by omega)]
      by_cases hy : y = 0
      · rw [ha.first hy, if_neg (by omega)]
        exact ⟨0, rfl, by simpa using h0, by simp⟩
      · obtain ⟨p, rfl, h1, h2, rfl⟩ := ha.later (by omega)
        obtain ⟨u, u1, u2⟩ := get_of_lt (l := p) (i := 0) (by omega)
        rw [if_pos (by omega), hx]
        exact ⟨u, u1, h2 u u2, px_wide hn u1⟩
    · rw [if_neg hx, if_pos (by omega)]
      obtain ⟨u, u1, u2⟩ := get_of_lt (l := cur) (i := cur.length - 1) (by omega)
      refine ⟨u, ?_, hin u (by simp [u2]), px_wide hn u1⟩
      rw [List.getElem?_append_left (by omega), u1]
  obtain ⟨t, t1, t2, t3⟩ : ∃ t : BitVec n, topOf prev l cur.length = some t ∧ In e lo t.toInt ∧
      nbTop ⟨w, y, (cur.map wide).length, n1, n2, cur.map wide⟩ = t.toInt := by
    unfold nbTop
    dsimp only
    rw [List.length_map]
    by_cases hy : y = 0
    · rw [ha.first hy, if_neg (by omega)]
      refine ⟨l, rfl, l2, ?_⟩
      rw [List.length_map] at l3
      exact l3
    · obtain ⟨p, rfl, h1, h2, rfl⟩ := ha.later (by omega)
      obtain ⟨u, u1, u2⟩ := get_of_lt (l := p) (i := cur.length) (by omega)
      rw [if_pos (show 0 < y by omega)]
      exact ⟨u, u1, h2 u u2, px_wide hn u1⟩
  obtain ⟨c, c1, c2, c3⟩ : ∃ c : BitVec n, topleftOf prev l cur.length = some c ∧ In e lo c.toInt ∧
      nbTopleft ⟨w, y, (cur.map wide).length, n1, n2, cur.map wide⟩ = c.toInt := by
    unfold nbTopleft
    dsimp only
    rw [List.length_map]
    rw [List.length_map] at l3
    by_cases hy : y = 0
    · rw [ha.first hy, if_neg (by omega)]
      exact ⟨l, rfl, l2, l3⟩
    · obtain ⟨p, hp, h1, h2, hn1⟩ := ha.later (by omega)
      rw [hp]
      dsimp only [topleftOf]
      by_cases hx : cur.length = 0
      · rw [if_pos hx, if_neg (by omega)]
        rw [leftOf, if_pos hx, hp] at l1
        exact ⟨l, l1, l2, l3⟩
      · obtain ⟨u, u1, u2⟩ := get_of_lt (l := p) (i := cur.length - 1) (by omega)
        rw [if_neg hx, if_pos ⟨by omega, by omega⟩, hn1]
        exact ⟨u, u1, h2 u u2, px_wide hn u1⟩
  have hv : In e lo v.toInt := hin v (by simp)
  obtain ⟨r, r1, r2, r3⟩ := residual_eq hw hv l2 t2 c2
  refine ⟨r, ⟨ctx, 1, clampedGradient t.toInt l.toInt c.toInt⟩, packSigned (BitVec.ofInt 32 (v.toInt - clampedGradient t.toInt l.toInt c.toInt)), ?_, r3, rfl, ?_, ?_, r2.symm⟩
  · unfold residualAt
    simp only [l1, Option.bind_eq_bind, List.getElem?_append_right (Nat.le_refl _), Nat.sub_self, List.getElem?_cons_zero, Option.bind_some]
    rw [t1, Option.bind_some, c1, Option.bind_some, r1]
  · unfold pathGradient plain
    dsimp only
    rw [nbEdge_ok hok]
    simp only [Option.map_some, nbPure]
    rw [l3, t3, c3]
  · unfold tokSub
    dsimp only
    rw [wide_toInt hn]
    have hq : quarter n ≤ 1073741824 := by rcases hn with rfl | rfl <;> decide
    have hl4 := hw.quarters l2
    have ht4 := hw.quarters t2
    have hv4 := hw.quarters hv
    have hg := clampedGradient_window (t := t.toInt) (l := l.toInt) (c := c.toInt) (lo := -quarter n) (hi := quarter n) ⟨by omega, by omega⟩ ht4 hl4
    rw [i32_of_range (by omega) (by omega)]
    simp

/-- A row from a position on. -/
theorem row_tokens {n e : Nat} {lo : Int} (hw : Window n e lo) {w y : Nat} {prev : Option (List (BitVec n))} {n1 n2 : List Px} (ha : Above e lo w y prev n1 n2)
    (ctx : Nat) : ∀ (rest cur : List (BitVec n)), (cur ++ rest).length = w → (∀ u ∈ cur ++ rest, In e lo u.toInt) →
    ∃ rs, (List.range' cur.length rest.length).mapM (fun x => (residualAt prev (cur ++ rest) x).map (·.toNat)) = some rs ∧ (∀ r ∈ rs, r < 2 ^ (e + 1)) ∧
      encRow (pathGradient ctx) tokSub w y n1 n2 (rest.map wide) (cur.map wide) () = some (rs.map fun r => (ctx, r), false, ())
  | [], cur, _, _ => ⟨[], rfl, by simp, rfl⟩
  | v :: rest, cur, hl, hin => by
    obtain ⟨r, a, t, r1, r2, a1, a2, a3, a4⟩ := pixel_token hw ha ctx hl hin
    obtain ⟨rs, s1, s2, s3⟩ := row_tokens hw ha ctx rest (cur ++ [v]) (by simpa using hl) (by simpa using hin)
    refine ⟨r.toNat :: rs, ?_, ?_, ?_⟩
    · rw [List.length_cons, List.range'_succ, List.mapM_cons, r1]
      rw [List.length_append, List.length_singleton, List.append_assoc, List.singleton_append] at s1
      rw [s1]
      rfl
    · intro x hx
      rcases List.mem_cons.mp hx with rfl | hx
      · exact r2
      · exact s2 x hx
    · rw [List.map_cons, encRow]
      rw [a2, Option.bind_some]
      dsimp only
      rw [a3, Option.bind_some]
      rw [List.map_append, List.map_cons, List.map_nil] at s3
      show (Option.bind (some ()) fun _ => _) = _
      rw [Option.bind_some, s3, Option.map_some, a1, a4]
      rfl

theorem mapM_length {α β : Type} {f : α → Option β} : ∀ {l : List α} {r : List β}, l.mapM f = some r → r.length = l.length
  | [], r, h => by cases h; rfl
  | a :: l, r, h => by
    rw [List.mapM_cons] at h
    obtain ⟨b, -, h⟩ := Option.bind_eq_some_iff.mp h
    obtain ⟨bs, h2, h⟩ := Option.bind_eq_some_iff.mp h
    cases h
    rw [List.length_cons, List.length_cons, mapM_length h2]

theorem residualRow_ok {n e : Nat} {lo : Int} (hw : Window n e lo) {w y : Nat} {prev : Option (List (BitVec n))} {n1 n2 : List Px} (ha : Above e lo w y prev n1 n2)
    (ctx : Nat) {row : List (BitVec n)} (hl : row.length = w) (hin : ∀ u ∈ row, In e lo u.toInt) :
    ∃ rs, residualRow prev row = some rs ∧ rs.length = w ∧ (∀ r ∈ rs, r < 2 ^ (e + 1)) ∧
      encRow (pathGradient ctx) tokSub w y n1 n2 (row.map wide) [] () = some (rs.map fun r => (ctx, r), false, ()) := by
  obtain ⟨rs, h1, h2, h3⟩ := row_tokens hw ha ctx row [] (by simpa using hl) (by simpa using hin)
  rw [List.nil_append] at h1
  refine ⟨rs, ?_, ?_, h2, h3⟩
  · unfold residualRow
    rw [List.range_eq_range']
    exact h1
  · rw [mapM_length h1, List.length_range']
    exact hl

/-- All rows. -/
theorem residualRows_ok {n e : Nat} {lo : Int} (hw : Window n e lo) {w : Nat} (ctx : Nat) : ∀ (rows : List (List (BitVec n))) (y : Nat) (prev : Option (List (BitVec n)))
    (n1 n2 : List Px), Above e lo w y prev n1 n2 → (∀ r ∈ rows, r.length = w ∧ ∀ u ∈ r, In e lo u.toInt) →
    ∃ rss, residualRows prev rows = some rss ∧ rss.length = rows.length ∧ (∀ rs ∈ rss, rs.length = w ∧ ∀ r ∈ rs, r < 2 ^ (e + 1)) ∧
      encRows (pathGradient ctx) tokSub w (rows.map (List.map wide)) y n1 n2 () = some (rss.flatten.map fun r => (ctx, r), false)
  | [], _, _, _, _, _, _ => ⟨[], rfl, rfl, by simp, rfl⟩
  | row :: rows, y, prev, n1, n2, ha, hr => by
    obtain ⟨l1, l2⟩ := hr row (by simp)
    obtain ⟨rs, h1, h2, h3, h4⟩ := residualRow_ok hw ha ctx l1 l2
    obtain ⟨rss, g1, g2, g3, g4⟩ := residualRows_ok hw ctx rows (y + 1) (some row) (row.map wide) n1
      ⟨fun h => by omega, fun _ => ⟨row, rfl, l1, l2, rfl⟩, fun h => by
        obtain ⟨p, -, q1, -, rfl⟩ := ha.later (by omega)
        rw [List.length_map]; exact q1⟩ fun r h => hr r (by simp [h])
    refine ⟨rs :: rss, ?_, by simp [g2], ?_, ?_⟩
    · rw [residualRows, h1]
      simp only [Option.bind_eq_bind, Option.bind_some]
      rw [g1]
      rfl
    · intro x hx
      rcases List.mem_cons.mp hx with rfl | hx
      · exact ⟨h2, h3⟩
      · exact g3 x hx
    · rw [List.map_cons, encRows]
      show Option.bind (encRow _ _ _ _ _ _ _ _ ()) _ = _
      rw [h4, Option.bind_some]
      dsimp only
      rw [g4, Option.map_some, List.flatten_cons, List.map_append]
      rfl

/-- A channel. -/
theorem channel_tokens {n e : Nat} {lo : Int} (hw : Window n e lo) (ctx : Nat) {c : Channel} {rows : List (List (BitVec n))} (hc : c.rows = rows.map (List.map wide))
    (hr : ∀ r ∈ rows, r.length = c.w ∧ ∀ u ∈ r, In e lo u.toInt) :
    ∃ rss, residualRows none rows = some rss ∧ rss.length = rows.length ∧ (∀ rs ∈ rss, rs.length = c.w ∧ ∀ r ∈ rs, r < 2 ^ (e + 1)) ∧
      encLoop (pathGradient ctx) tokSub c () = some (some (rss.flatten.map fun r => (ctx, r))) := by
  obtain ⟨rss, h1, h2, h3, h4⟩ := residualRows_ok hw (w := c.w) ctx rows 0 none [] [] ⟨fun _ => rfl, fun h => by omega, fun h => by omega⟩ hr
  refine ⟨rss, h1, h2, h3, ?_⟩
  unfold encLoop
  rw [hc, h4]
  rfl

end Jxl.FastCode
