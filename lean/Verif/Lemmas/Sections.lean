import Verif.Lemmas.Passes
import Verif.Lemmas.FrameDim
import Verif.Lemmas.ModularStream
namespace Jxl.Passes
open Jxl Jxl.Modular Jxl.Modular.Whole

/-! ## The part of a channel in a section -/

theorem shr_pow {K h : Nat} (hk : h ≤ K) (a : Nat) : (a * 2 ^ K) >>> h = a * 2 ^ (K - h) := by
  rw [Nat.shiftRight_eq_div_pow]
  have : 2 ^ K = 2 ^ (K - h) * 2 ^ h := by rw [← Nat.pow_add]; congr 1; omega
  rw [this, ← Nat.mul_assoc, Nat.mul_div_cancel _ (Nat.pow_pos (by omega))]

theorem shr_pow_one {K h : Nat} (hk : h ≤ K) : (2 ^ K) >>> h = 2 ^ (K - h) := by
  have := shr_pow hk 1
  rwa [Nat.one_mul, Nat.one_mul] at this

theorem axis_iff {m g x w : Nat} (hm : 0 < m) (hx : x < w) : (g * m ≤ x ∧ x < g * m + FrameDim.clampedSize (g * m) m w) ↔ g = x / m := by
  have h1 := Nat.div_add_mod x m
  have h2 := Nat.mod_lt x hm
  constructor
  · rintro ⟨a, b⟩
    have b' : x < g * m + m := by
      unfold FrameDim.clampedSize at b
      split at b
      · exact b
      · split at b <;> omega
    symm
    rw [Nat.div_eq_iff hm]
    omega
  · rintro rfl
    have h3 : x / m * m = m * (x / m) := Nat.mul_comm _ _
    unfold FrameDim.clampedSize
    split
    · omega
    · split <;> omega

theorem part_iff {shifts : Int × Int} {K gx gy : Nat} {c : Channel} (hh : c.hshift.toNat ≤ K) (hv : c.vshift.toNat ≤ K) {x y : Nat} (hx : x < c.w) (hy : y < c.h) :
    (∃ r, part shifts ⟨gx * 2 ^ K, gy * 2 ^ K, 2 ^ K, 2 ^ K⟩ c = some r ∧ r.x0 ≤ x ∧ x < r.x0 + r.xs ∧ r.y0 ≤ y ∧ y < r.y0 + r.ys) ↔
      (shifts.1 ≤ min c.hshift c.vshift ∧ min c.hshift c.vshift ≤ shifts.2) ∧ gx = x / 2 ^ (K - c.hshift.toNat) ∧ gy = y / 2 ^ (K - c.vshift.toNat) := by
  have pos : ∀ n, 0 < 2 ^ n := fun n => Nat.pow_pos (by omega)
  have ax := axis_iff (g := gx) (pos (K - c.hshift.toNat)) hx
  have ay := axis_iff (g := gy) (pos (K - c.vshift.toNat)) hy
  unfold part
  dsimp only [FrameDim.Rect.clamped]
  rw [shr_pow hh, shr_pow hv, shr_pow_one hh, shr_pow_one hv, ← ax, ← ay]
  by_cases hs : min c.hshift c.vshift > shifts.2 ∨ min c.hshift c.vshift < shifts.1
  · rw [if_pos hs]
    constructor
    · rintro ⟨r, h, -⟩
      cases h
    · rintro ⟨h, -⟩
      omega
  · rw [if_neg hs]
    constructor
    · rintro ⟨r, h, h1, h2, h3, h4⟩
      split at h
      · cases h
      · injection h with h
        subst h
        exact ⟨by omega, ⟨h1, h2⟩, h3, h4⟩
    · rintro ⟨-, ⟨h1, h2⟩, h3, h4⟩
      rw [if_neg (by omega)]
      exact ⟨_, rfl, h1, h2, h3, h4⟩

/-- A group is known by its column and row. -/
theorem group_at {xg yg a b : Nat} (ha : a < xg) (hb : b < yg) : ∃ g < xg * yg, ∀ g', g' % xg = a ∧ g' / xg = b ↔ g' = g := by
  refine ⟨xg * b + a, ?_, fun g' => ?_⟩
  · calc xg * b + a < xg * b + xg := by omega
      _ = xg * (b + 1) := by rw [Nat.mul_add, Nat.mul_one]
      _ ≤ xg * yg := Nat.mul_le_mul_left _ hb
  · constructor
    · rintro ⟨rfl, rfl⟩
      exact (Nat.div_add_mod g' xg).symm
    · rintro rfl
      rw [Nat.mul_add_mod, Nat.mod_eq_of_lt ha, Nat.mul_add_div (by omega), Nat.div_eq_of_lt ha]
      exact ⟨rfl, rfl⟩

/-- The column of a sample is one of the columns of groups. -/
theorem column_lt {K h n W x : Nat} (hk : h ≤ K) (hn : W ≤ n * 2 ^ K) (hx : x * 2 ^ h < W) : x / 2 ^ (K - h) < n := by
  rw [Nat.div_lt_iff_lt_mul (Nat.pow_pos (by omega))]
  have e : 2 ^ K = 2 ^ (K - h) * 2 ^ h := by rw [← Nat.pow_add]; congr 1; omega
  rw [e, ← Nat.mul_assoc] at hn
  exact Nat.lt_of_mul_lt_mul_right (a := 2 ^ h) (by omega)

/-- The frame and its groups. -/
structure Grid (d : FrameDim.Dims) (K : Nat) : Prop where
  dim : d.groupDim = 2 ^ K
  dcDim : d.dcGroupDim = 2 ^ (K + 3)
  num : d.numGroups = d.xsizeGroups * d.ysizeGroups
  numDc : d.numDcGroups = d.xsizeDcGroups * d.ysizeDcGroups
  x : d.xsize ≤ d.xsizeGroups * 2 ^ K
  y : d.ysize ≤ d.ysizeGroups * 2 ^ K
  xDc : d.xsize ≤ d.xsizeDcGroups * 2 ^ (K + 3)
  yDc : d.ysize ≤ d.ysizeDcGroups * 2 ^ (K + 3)

theorem le_divCeil (a : Nat) {b : Nat} (hb : 0 < b) : a ≤ FrameDim.divCeil a b * b := by
  unfold FrameDim.divCeil
  have h1 := Nat.div_add_mod (a + b - 1) b
  have h2 := Nat.mod_lt (a + b - 1) hb
  have h3 : (a + b - 1) / b * b = b * ((a + b - 1) / b) := Nat.mul_comm _ _
  omega

theorem blocks_ge (n k : Nat) : n ≤ 8 * (FrameDim.divCeil n (8 <<< k) <<< k) := by
  have h := le_divCeil n (b := 8 <<< k) (by rw [Nat.shiftLeft_eq]; exact Nat.mul_pos (by omega) (Nat.pow_pos (by omega)))
  rw [Nat.shiftLeft_eq] at h ⊢
  rw [Nat.shiftLeft_eq]
  have : FrameDim.divCeil n (8 * 2 ^ k) * (8 * 2 ^ k) = 8 * (FrameDim.divCeil n (8 * 2 ^ k) * 2 ^ k) := by
    rw [← Nat.mul_assoc, Nat.mul_comm _ 8, Nat.mul_assoc]
  omega

theorem grid_of (xpx ypx gs mh mv up : Nat) (m : Bool) : Grid (FrameDim.set xpx ypx gs mh mv m up) (7 + gs) := by
  have hd : (256 >>> 1) <<< gs = 2 ^ (7 + gs) := by
    rw [Nat.shiftLeft_eq, Nat.pow_add]
    rfl
  have pos : 0 < 2 ^ (7 + gs) := Nat.pow_pos (by omega)
  have h3 : (2 : Nat) ^ (7 + gs + 3) = 2 ^ (7 + gs) * 8 := by rw [Nat.pow_add]
  have dc : ∀ n k : Nat, n ≤ FrameDim.divCeil (FrameDim.divCeil n (8 <<< k) <<< k) (2 ^ (7 + gs)) * 2 ^ (7 + gs + 3) := by
    intro n k
    have a := blocks_ge n k
    have b := le_divCeil (FrameDim.divCeil n (8 <<< k) <<< k) pos
    rw [h3, ← Nat.mul_assoc]
    omega
  refine ⟨hd, ?_, rfl, rfl, ?_, ?_, ?_, ?_⟩
  · show (256 >>> 1) <<< gs * 8 = _
    rw [hd, h3]
  · show FrameDim.divCeil xpx up ≤ FrameDim.divCeil (FrameDim.divCeil xpx up) ((256 >>> 1) <<< gs) * 2 ^ (7 + gs)
    rw [hd]
    exact le_divCeil _ pos
  · show FrameDim.divCeil ypx up ≤ FrameDim.divCeil (FrameDim.divCeil ypx up) ((256 >>> 1) <<< gs) * 2 ^ (7 + gs)
    rw [hd]
    exact le_divCeil _ pos
  · show FrameDim.divCeil xpx up ≤ FrameDim.divCeil (FrameDim.divCeil (FrameDim.divCeil xpx up) (8 <<< mh) <<< mh) ((256 >>> 1) <<< gs) * 2 ^ (7 + gs + 3)
    rw [hd]
    exact dc _ _
  · show FrameDim.divCeil ypx up ≤ FrameDim.divCeil (FrameDim.divCeil (FrameDim.divCeil ypx up) (8 <<< mv) <<< mv) ((256 >>> 1) <<< gs) * 2 ^ (7 + gs + 3)
    rw [hd]
    exact dc _ _

/-- The shifts leave something of a group. -/
structure TileOk (K : Nat) (c : Channel) : Prop where
  low : ¬ 3 ≤ min c.hshift c.vshift → (max c.hshift c.vshift).toNat ≤ K
  high : 3 ≤ min c.hshift c.vshift → (max c.hshift c.vshift).toNat ≤ K + 3
  small : max c.hshift c.vshift < 64

theorem exactly_one {d : FrameDim.Dims} {K : Nat} (hg : Grid d K) {p : Passes} (hp : p.Good) {c : Channel} (hc : Fits d.xsize d.ysize c) (ht : TileOk K c)
    {x y : Nat} (hx : x < c.w) (hy : y < c.h) : ∃ s : Sect, s.Of d p ∧ ∀ s' : Sect, s'.Of d p → (Within d p c x y s' ↔ s' = s) := by
  obtain ⟨a1, a2, a3, a4⟩ := hc
  obtain ⟨b1, b2, b3⟩ := ht
  by_cases h3 : 3 ≤ min c.hshift c.vshift
  · have hm := b2 h3
    have hh : c.hshift.toNat ≤ K + 3 := by omega
    have hv : c.vshift.toNat ≤ K + 3 := by omega
    obtain ⟨g, g1, g2⟩ := group_at (column_lt hh hg.xDc (a3 x hx)) (column_lt hv hg.yDc (a4 y hy))
    refine ⟨.lf g, by rw [← hg.numDc] at g1; exact g1, fun s' hs' => ?_⟩
    cases s' with
    | lf g' =>
      unfold Within
      rw [Sect.rect, hg.dcDim, part_iff hh hv hx hy]
      constructor
      · rintro ⟨-, h1, h2⟩
        rw [(g2 g').mp ⟨h1, h2⟩]
      · intro h
        injection h with h
        obtain ⟨h1, h2⟩ := (g2 g').mpr h
        refine ⟨⟨h3, ?_⟩, h1, h2⟩
        show min c.hshift c.vshift ≤ 1000
        omega
    | hf n g' =>
      constructor
      · rintro ⟨r, hr, -⟩
        exfalso
        have := bracket_low hp hs'.1
        unfold part at hr
        rw [if_pos (Or.inl (by show (bracket p n).2 < _; omega))] at hr
        cases hr
      · intro h
        cases h
  · have hm := b1 h3
    have hh : c.hshift.toNat ≤ K := by omega
    have hv : c.vshift.toNat ≤ K := by omega
    obtain ⟨g, g1, g2⟩ := group_at (column_lt hh hg.x (a3 x hx)) (column_lt hv hg.y (a4 y hy))
    obtain ⟨i, i1, i2⟩ := one_pass hp (s := min c.hshift c.vshift) (by omega) (by omega)
    refine ⟨.hf i g, ⟨i1, by rw [hg.num]; exact g1⟩, fun s' hs' => ?_⟩
    cases s' with
    | lf g' =>
      constructor
      · rintro ⟨r, hr, -⟩
        exfalso
        unfold part at hr
        rw [if_pos (Or.inr (by show _ < (3 : Int); omega))] at hr
        cases hr
      · intro h
        cases h
    | hf n g' =>
      unfold Within
      rw [Sect.rect, hg.dim, part_iff hh hv hx hy]
      show ((bracket p n).1 ≤ _ ∧ _ ≤ (bracket p n).2) ∧ _ ↔ _
      rw [i2 n hs'.1, g2 g']
      constructor
      · rintro ⟨rfl, rfl⟩
        rfl
      · intro h
        injection h with h1 h2
        exact ⟨h1, h2⟩

end Jxl.Passes
