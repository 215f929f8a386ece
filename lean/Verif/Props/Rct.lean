import Verif.Lemmas.Rct
/-!
# C17: reversible colour transforms are lossless
-/
namespace Jxl.Props
open Modular Rct

/-- One sample, any transform, any values (with wrap-around); both the vector and the scalar form of the inverse. -/
theorem C17_sample (t : Nat) (a b c : BitVec 32) :
    inv1 t (fwd1 t (a, b, c)) = (a, b, c) ∧ inv1Tail t (fwd1 t (a, b, c)) = (a, b, c) :=
  ⟨inv1_fwd1 t _, by rw [inv1Tail_eq, inv1_fwd1]⟩

/-- **C17.**  For every image and each of the 41 transforms that are not the identity: undoing the transform gives back the image, with any
vector width. -/
theorem C17_round_trip (n : Nat) (img img' : Image) (m t : Nat) (ht : t < 42) (hwf : ∀ c ∈ img.channel, c.Wf)
    (h : fwd img m t = some img') : inv n img' m t = some img := by
  unfold fwd at h
  split at h
  · cases h
  rename_i hck
  replace hck : checkEqualChannels img m (m + 2) = true := by simpa using hck
  split at h
  · cases h
  rename_i ht0
  obtain ⟨A, B, C, hA, hB, hC, sAB, sAC⟩ := check_spec hck
  have hp := perm_cases (t / 7) (by omega)
  rcases hpe : perm (t / 7) with ⟨i, j, k⟩
  rw [hpe] at hp
  simp only [hpe] at h
  -- the three inputs
  have all : ∀ q, q < 3 → ∃ D, img.channel[m + q]? = some D ∧ (A.w = D.w ∧ A.h = D.h ∧ A.hshift = D.hshift ∧ A.vshift = D.vshift) := by
    intro q hq
    rcases q with _ | _ | _ | q
    · exact ⟨A, hA, rfl, rfl, rfl, rfl⟩
    · exact ⟨B, hB, sAB⟩
    · exact ⟨C, hC, sAC⟩
    · omega
  have hlt : i < 3 ∧ j < 3 ∧ k < 3 := by
    simp only [List.mem_cons, Prod.mk.injEq, List.not_mem_nil, or_false] at hp
    omega
  obtain ⟨a, ha, sa⟩ := all i hlt.1
  obtain ⟨b, hb, sb⟩ := all j hlt.2.1
  obtain ⟨c, hc, sc⟩ := all k hlt.2.2
  have wa := hwf a (List.mem_of_getElem? ha)
  have wb := hwf b (List.mem_of_getElem? hb)
  have wc := hwf c (List.mem_of_getElem? hc)
  have inverse : ∀ g : List (Px × Px × Px) → List (Px × Px × Px), (∀ l, g l = l.map (inv1 (t % 7))) →
      mapRows g (mapRows (List.map (fwd1 (t % 7))) a.rows b.rows c.rows).1 (mapRows (List.map (fwd1 (t % 7))) a.rows b.rows c.rows).2.1
        (mapRows (List.map (fwd1 (t % 7))) a.rows b.rows c.rows).2.2 = (a.rows, b.rows, c.rows) := by
    intro g hg
    apply mapRows_inverse _ _ _ a.w
    · rw [wa.1, wb.1, ← sa.2.1, ← sb.2.1]
    · rw [wb.1, wc.1, ← sb.2.1, ← sc.2.1]
    · exact wa.2
    · rw [← sa.1, sb.1]; exact wb.2
    · rw [← sa.1, sc.1]; exact wc.2
    · intro l
      rw [hg, List.map_map]
      conv => rhs; rw [← List.map_id l]
      apply List.map_congr_left
      intro p _
      exact inv1_fwd1 _ p
  rw [ha, hb, hc, hA, hB, hC] at h
  simp only [Option.bind_eq_bind, Option.bind_some, Option.some.injEq] at h
  rcases hm : mapRows (List.map (fwd1 (t % 7))) a.rows b.rows c.rows with ⟨x, y, z⟩
  rw [hm] at h inverse
  simp only at h inverse
  have l2 := (List.getElem?_eq_some_iff.mp hC).1
  have hck' : checkEqualChannels img' m (m + 2) = true := by
    refine check_congr ?_ ?_ ?_ hck
    · rw [← h]; simp
    · rw [← h]
    · intro q D hD
      rw [← h]
      simp only [List.getElem?_set, List.length_set]
      have := (List.getElem?_eq_some_iff.mp hD).1
      by_cases h2 : m + 2 = q
      · subst h2; rw [hC] at hD; cases hD; exact ⟨{ C with rows := z }, by simp [this], rfl, rfl, rfl, rfl⟩
      · by_cases h1 : m + 1 = q
        · subst h1; rw [hB] at hD; cases hD; exact ⟨{ B with rows := y }, by simp [this], rfl, rfl, rfl, rfl⟩
        · by_cases h0 : m = q
          · subst h0; rw [hA] at hD; cases hD; exact ⟨{ A with rows := x }, by simp [this], rfl, rfl, rfl, rfl⟩
          · simp [h2, h1, h0, hD]
  unfold inv
  rw [hck']
  have g3 := get_set3 l2 { A with rows := x } { B with rows := y } { C with rows := z }
  have e : img'.channel = ((img.channel.set m { A with rows := x }).set (m + 1) { B with rows := y }).set (m + 2) { C with rows := z } := by
    rw [← h]
  have en : img'.nbMeta = img.nbMeta := by rw [← h]
  rw [← e] at g3
  simp only [Bool.not_true, Bool.false_eq_true, if_false, if_neg ht0, if_pos (show t / 7 < 6 by omega), hpe, g3.1, g3.2.1, g3.2.2,
    Option.bind_eq_bind, Option.bind_some, en]
  by_cases h7 : t % 7 = 0
  · rw [if_pos h7]
    have hid : mapRows (List.map (fwd1 (t % 7))) a.rows b.rows c.rows = (a.rows, b.rows, c.rows) := by
      apply mapRows_ident _ _ a.w
      · rw [wa.1, wb.1, ← sa.2.1, ← sb.2.1]
      · rw [wb.1, wc.1, ← sb.2.1, ← sc.2.1]
      · exact wa.2
      · rw [← sa.1, sb.1]; exact wb.2
      · rw [← sa.1, sc.1]; exact wc.2
      · intro l
        conv => rhs; rw [← List.map_id l]
        apply List.map_congr_left
        rintro ⟨p, q, r⟩ _
        simp [h7, fwd1]
    rw [hm] at hid
    simp only [Prod.mk.injEq] at hid
    rw [hid.1, hid.2.1, hid.2.2] at e ⊢
    rw [withRows A a sa, withRows B b (by simp [← sb.1, ← sb.2.1, ← sb.2.2.1, ← sb.2.2.2, sAB]),
      withRows C c (by simp [← sc.1, ← sc.2.1, ← sc.2.2.1, ← sc.2.2.2, sAC])] at e ⊢
    rw [e, set3 hA hB hC _ _ _ _ _ _ _ _ _ hp ha hb hc]
  · rw [if_neg h7, inverse (fun r => invRow n (t % 7) (r.length + 1) r) (fun l => invRow_eq ..)]
    have all' : ∀ q, q < 3 → ∃ D, img'.channel[m + q]? = some D ∧ (A.w = D.w ∧ A.h = D.h ∧ A.hshift = D.hshift ∧ A.vshift = D.vshift) := by
      intro q hq
      rcases q with _ | _ | _ | q
      · exact ⟨_, g3.1, rfl, rfl, rfl, rfl⟩
      · exact ⟨_, g3.2.1, sAB⟩
      · exact ⟨_, g3.2.2, sAC⟩
      · omega
    obtain ⟨a', ha', sa'⟩ := all' i hlt.1
    obtain ⟨b', hb', sb'⟩ := all' j hlt.2.1
    obtain ⟨c', hc', sc'⟩ := all' k hlt.2.2
    simp only [ha', hb', hc', Option.bind_some]
    rw [withRows a' a (by simp [← sa.1, ← sa.2.1, ← sa.2.2.1, ← sa.2.2.2, ← sa'.1, ← sa'.2.1, ← sa'.2.2.1, ← sa'.2.2.2]),
      withRows b' b (by simp [← sb.1, ← sb.2.1, ← sb.2.2.1, ← sb.2.2.2, ← sb'.1, ← sb'.2.1, ← sb'.2.2.1, ← sb'.2.2.2]),
      withRows c' c (by simp [← sc.1, ← sc.2.1, ← sc.2.2.1, ← sc.2.2.2, ← sc'.1, ← sc'.2.1, ← sc'.2.2.1, ← sc'.2.2.2])]
    rw [e, set3 hA hB hC _ _ _ _ _ _ _ _ _ hp ha hb hc]

/-- The forward transform is refused exactly for the identity or when the three channels are not all there with the same shape, all
metadata or all not. -/
theorem C17_applicable (img : Image) (m t : Nat) :
    (∃ img', fwd img m t = some img') ↔ t ≠ 0 ∧ checkEqualChannels img m (m + 2) = true := by
  constructor
  · rintro ⟨img', h⟩
    unfold fwd at h
    split at h
    · cases h
    · rename_i hc
      split at h
      · cases h
      · rename_i h0
        exact ⟨h0, by simpa using hc⟩
  · rintro ⟨h0, hck⟩
    obtain ⟨A, B, C, hA, hB, hC, -, -⟩ := check_spec hck
    have l2 := (List.getElem?_eq_some_iff.mp hC).1
    have hlt : (perm (t / 7)).1 < 3 ∧ (perm (t / 7)).2.1 < 3 ∧ (perm (t / 7)).2.2 < 3 := by
      simp only [perm]; omega
    unfold fwd
    rcases hpe : perm (t / 7) with ⟨i, j, k⟩
    rw [hpe] at hlt
    simp only [hck, Bool.not_true, Bool.false_eq_true, if_false, if_neg h0,
      List.getElem?_eq_getElem (show m + i < img.channel.length by have := hlt.1; simp at this; omega),
      List.getElem?_eq_getElem (show m + j < img.channel.length by have := hlt.2.1; simp at this; omega),
      List.getElem?_eq_getElem (show m + k < img.channel.length by have := hlt.2.2; simp at this; omega), hA, hB, hC,
      Option.bind_eq_bind, Option.bind_some]
    exact ⟨_, rfl⟩

/-- What the channel check means. -/
theorem C17_check (img : Image) (m : Nat) : checkEqualChannels img m (m + 2) = true ↔
    ∃ a b c, img.channel[m]? = some a ∧ img.channel[m + 1]? = some b ∧ img.channel[m + 2]? = some c ∧
      (a.w = b.w ∧ a.h = b.h ∧ a.hshift = b.hshift ∧ a.vshift = b.vshift) ∧
      (a.w = c.w ∧ a.h = c.h ∧ a.hshift = c.hshift ∧ a.vshift = c.vshift) ∧ (m + 2 < img.nbMeta ∨ img.nbMeta ≤ m) := by
  constructor
  · intro h
    obtain ⟨a, b, c, h1, h2, h3, h4, h5⟩ := check_spec h
    refine ⟨a, b, c, h1, h2, h3, h4, h5, ?_⟩
    unfold checkEqualChannels at h
    split at h
    · cases h
    · split at h
      · cases h
      · omega
  · rintro ⟨a, b, c, h1, h2, h3, h4, h5, h6⟩
    have l := (List.getElem?_eq_some_iff.mp h3).1
    unfold checkEqualChannels
    rw [if_neg (by omega), if_neg (by omega), h1, List.all_eq_true]
    intro x hx
    rw [List.mem_take_iff_getElem] at hx
    obtain ⟨i, hi, rfl⟩ := hx
    rw [List.getElem_drop]
    rcases i with _ | _ | i
    · rw [List.getElem?_eq_getElem (by omega)] at h2
      have := Option.some.inj h2
      simp [this, h4]
    · rw [List.getElem?_eq_getElem (by omega)] at h3
      have := Option.some.inj h3
      simp [this, h5]
    · omega

/-- Every transform code that a stream can carry is one of the 42, and each of the 42 can be carried. -/
theorem C17_type_code (s s' : List Bool) (t : Nat) (h : readType s = some (t, s')) : t < 42 := by
  unfold readType at h
  obtain ⟨⟨v, r⟩, h1, h2⟩ := Option.bind_eq_some_iff.mp h
  simp only at h2
  split at h2
  · cases h2
  · cases h2; omega

theorem C17_type_code_all : ∀ t < 42, ∃ b, U32.write typeEnc t = some b ∧ readType b = some (t, []) := by
  have : ∀ t < 42, (match U32.write typeEnc t with
    | some b => readType b == some (t, [])
    | none => false) = true := by decide +kernel
  intro t ht
  have h := this t ht
  split at h
  · rename_i b hb
    exact ⟨b, hb, by simpa using h⟩
  · cases h

def exImg : Image :=
  { nbMeta := 0, channel := [
    { w := 3, h := 1, rows := [[5, 0x7fffffff, 0x80000000]] }, { w := 3, h := 1, rows := [[1, 2, 0xffffffff]] },
    { w := 3, h := 1, rows := [[7, 0x80000000, 9]] }] }

/-- All 41 transforms apply to an image with extreme values, change it, and are undone with 1, 2 and 4 lanes. -/
example : ((List.range 42).drop 1).all (fun t => match fwd exImg 0 t with
    | none => false
    | some i => (decide (i ≠ exImg)) && decide (inv 1 i 0 t = some exImg) && decide (inv 2 i 0 t = some exImg)) = true := by decide +kernel

end Jxl.Props
