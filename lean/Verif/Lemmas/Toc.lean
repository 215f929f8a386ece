import Verif.Model.Toc
import Verif.Lemmas.Coders
import Verif.Lemmas.Lehmer
namespace Jxl.Toc

theorem tocDist_represents (v : Nat) (hv : v < 4211712 + 2 ^ 30) : ∃ t < 4, U32.Represents (tocDist.get t) v := by
  by_cases h0 : v < 2 ^ 10
  · exact ⟨0, by omega, by simp [U32.Represents, tocDist, U32.Enc.get, U32.isDirect, U32.bitsOffset, U32.offset, U32.extraBits]; omega⟩
  by_cases h1 : v < 1024 + 2 ^ 14
  · exact ⟨1, by omega, by simp [U32.Represents, tocDist, U32.Enc.get, U32.isDirect, U32.bitsOffset, U32.offset, U32.extraBits]; omega⟩
  by_cases h2 : v < 17408 + 2 ^ 22
  · exact ⟨2, by omega, by simp [U32.Represents, tocDist, U32.Enc.get, U32.isDirect, U32.bitsOffset, U32.offset, U32.extraBits]; omega⟩
  · exact ⟨3, by omega, by simp [U32.Represents, tocDist, U32.Enc.get, U32.isDirect, U32.bitsOffset, U32.offset, U32.extraBits]; omega⟩

theorem tocDist_write (v : Nat) (hv : v < 4211712 + 2 ^ 30) :
    ∃ b, U32.write tocDist v = some b ∧ 12 ≤ b.length ∧ ∀ rest, U32.read tocDist (b ++ rest) = some (v, rest) := by
  obtain ⟨t, ht, hr⟩ := tocDist_represents v hv
  rcases hc : U32.chooseSelector tocDist v with _ | ⟨sel, total⟩
  · exact absurd hr (U32.chooseSelector_none.mp hc t ht)
  · obtain ⟨b, h1, h2, h3⟩ := U32.write_read (by omega) hc []
    obtain ⟨g1, g2, g3, _⟩ := U32.chooseSelector_some hc
    refine ⟨b, h1, ?_, ?_⟩
    · rw [h2, g2]
      have : sel = 0 ∨ sel = 1 ∨ sel = 2 ∨ sel = 3 := by omega
      rcases this with rfl | rfl | rfl | rfl <;> decide
    · intro rest
      obtain ⟨b', h1', h2', h3'⟩ := U32.write_read (by omega) hc rest
      rw [h1] at h1'; cases h1'; exact h3'

theorem writeSizes_ok (sizes : List Nat) (h : ∀ g ∈ sizes, g < 4211712 + 2 ^ 30) :
    ∃ b, writeSizes sizes = some b ∧ sizes.length * 12 ≤ b.length ∧
      ∀ rest, readSizes sizes.length (b ++ rest) = some (sizes, rest) := by
  induction sizes with
  | nil => exact ⟨[], rfl, by simp, fun rest => rfl⟩
  | cons g gs ih =>
    obtain ⟨b, h1, h2, h3⟩ := tocDist_write g (h g (by simp))
    obtain ⟨bs, g1, g2, g3⟩ := ih (fun x hx => h x (by simp [hx]))
    refine ⟨b ++ bs, by simp [writeSizes, h1, g1], by simp; omega, ?_⟩
    intro rest
    rw [List.length_cons, readSizes, List.append_assoc, h3]
    simp [g3]

theorem jump_pad (total pos : Nat) (rest : List Bool)
    (h : total = pos + (zeroPad pos ++ rest).length) : jump total (zeroPad pos ++ rest) = some rest := by
  unfold jump
  have hp : total - (zeroPad pos ++ rest).length = pos := by omega
  rw [hp]
  by_cases h0 : pos % 8 = 0
  · simp [h0, zeroPad]
  · simp only [h0, if_false]
    have hz : zeroPad pos = bitsOf (8 - pos % 8) 0 := by
      rw [zeroPad, Nat.mod_eq_of_lt (by omega)]
      generalize 8 - pos % 8 = k
      induction k with
      | zero => rfl
      | succ k ih => simp [List.replicate_succ, bitsOf, ih]
    rw [hz, rdBits_append (Nat.two_pow_pos _)]
    simp

theorem zeroPad_aligned (pos : Nat) : (pos + (zeroPad pos).length) % 8 = 0 := by
  simp [zeroPad]; omega

/-- What the reader finds after the writer's bits, whatever follows. -/
theorem readToc_write (enc : List Nat → List Bool) (dec : Nat → List Bool → Option (List Nat × List Bool))
    (perm sizes : List Nat) (pre : Nat) (hn1 : 1 ≤ sizes.length) (hn2 : sizes.length ≤ 65536)
    (hs : ∀ g ∈ sizes, g < 4211712 + 2 ^ 30)
    (hd : perm ≠ [] → ∀ rest, dec sizes.length (enc perm ++ rest) = some (perm, rest)) :
    ∃ b2, writeTocSizes sizes (pre + (writePermutation enc perm pre).length) = some b2 ∧
      (pre + (writePermutation enc perm pre).length + b2.length) % 8 = 0 ∧
      ∀ rest, readToc dec sizes.length (pre + (writePermutation enc perm pre ++ b2 ++ rest).length)
        (writePermutation enc perm pre ++ b2 ++ rest) = some (sizes, perm, rest) := by
  obtain ⟨b, h1, h2, h3⟩ := writeSizes_ok sizes hs
  refine ⟨_, by simp [writeTocSizes, h1]; rfl, ?_, ?_⟩
  · have := zeroPad_aligned (pre + (writePermutation enc perm pre).length + b.length)
    rw [List.length_append]; omega
  · intro rest
    generalize hT : pre + (writePermutation enc perm pre ++ (b ++ zeroPad (pre + (writePermutation enc perm pre).length + b.length)) ++ rest).length = total
    generalize hQ : zeroPad (pre + (writePermutation enc perm pre).length + b.length) = pad2 at *
    have hne : writePermutation enc perm pre ++ (b ++ pad2) ++ rest ≠ [] := by
      unfold writePermutation; split <;> simp
    unfold readToc
    rw [if_neg (by omega), if_neg hne, if_neg (by omega)]
    have htail : ∀ (p0 : Nat), total = p0 + (zeroPad p0 ++ (b ++ (pad2 ++ rest))).length →
        (jump total (zeroPad p0 ++ (b ++ (pad2 ++ rest)))).bind (fun s => (budget sizes.length s).bind fun _ =>
          (readSizes sizes.length s).bind fun (x : List Nat × List Bool) =>
            (jump total x.2).bind fun s => some (x.1, perm, s)) = some (sizes, perm, rest) := by
      intro p0 hp0
      rw [jump_pad total p0 _ hp0, Option.bind_some, budget, if_pos (by simp; omega), Option.bind_some, h3, Option.bind_some]
      have hj : jump total (pad2 ++ rest) = some rest := by
        rw [← hQ]
        apply jump_pad
        rw [← hT, ← hQ]; simp; omega
      simp [hj]
    have hw : writePermutation enc perm pre = (if perm ≠ [] then true :: enc perm else [false]) ++
        zeroPad (pre + (if perm ≠ [] then true :: enc perm else [false]).length) := rfl
    have hT' := hT
    rw [hw] at hT'
    by_cases hp : perm ≠ []
    · rw [if_pos hp] at hw hT'
      rw [hw]
      have e1 : true :: enc perm ++ zeroPad (pre + (true :: enc perm).length) ++ (b ++ pad2) ++ rest =
          bitsOf 1 1 ++ (enc perm ++ (zeroPad (pre + (true :: enc perm).length) ++ (b ++ (pad2 ++ rest)))) := by
        simp [bitsOf]
      rw [e1, rdBits_append (by omega)]
      simp only [Option.bind_eq_bind, Option.bind_some, if_true]
      rw [budget, if_pos (by simp; omega), Option.bind_some, hd hp, Option.bind_some]
      apply htail
      rw [← hT']; simp; omega
    · rw [if_neg hp] at hw hT'
      rw [hw]
      have hp' : perm = [] := by simpa using hp
      have e1 : [false] ++ zeroPad (pre + [false].length) ++ (b ++ pad2) ++ rest =
          bitsOf 1 0 ++ (zeroPad (pre + [false].length) ++ (b ++ (pad2 ++ rest))) := by
        simp [bitsOf]
      rw [e1, rdBits_append (by omega)]
      simp only [Option.bind_eq_bind, Option.bind_some]
      rw [if_neg (by omega)]
      subst hp'
      apply htail
      rw [← hT']; simp; omega

theorem prefixSums_iff (offset : Nat) (sizes : List Nat) (ho : offset < 2 ^ 64) (h : ∀ g ∈ sizes, g < 2 ^ 64) :
    (prefixSums offset sizes).isSome ↔ offset + sizes.sum < 2 ^ 64 := by
  induction sizes generalizing offset with
  | nil => simp [prefixSums]; omega
  | cons g gs ih =>
    have hg := h g (by simp)
    simp only [prefixSums]
    by_cases hc : offset + g < 2 ^ 64
    · rw [Nat.mod_eq_of_lt hc, if_neg (by omega)]
      have := ih (offset + g) hc (fun x hx => h x (by simp [hx]))
      simp only [Option.isSome_map, this, List.sum_cons]
      omega
    · rw [if_pos (by omega)]
      simp; omega

theorem prefixSums_spec (offset : Nat) (sizes : List Nat) (h : offset + sizes.sum < 2 ^ 64) :
    prefixSums offset sizes = some ((List.range sizes.length).map (fun i => offset + (sizes.take i).sum), offset + sizes.sum) := by
  induction sizes generalizing offset with
  | nil => simp [prefixSums]
  | cons g gs ih =>
    simp only [List.sum_cons] at h
    simp only [prefixSums]
    rw [Nat.mod_eq_of_lt (by omega), if_neg (by omega), ih (offset + g) (by omega)]
    simp only [Option.map_some, List.length_cons, List.range_succ_eq_map, List.map_cons, List.map_map, List.take_zero,
      List.sum_nil, Nat.add_zero, List.sum_cons, Option.some.injEq, Prod.mk.injEq, List.cons.injEq, true_and]
    refine ⟨?_, by omega⟩
    apply List.map_congr_left; intro i _; simp [Function.comp]; omega

theorem gather_spec (xs is : List Nat) (h : ∀ i ∈ is, i < xs.length) :
    ∃ r, gather xs is = some r ∧ r.length = is.length ∧ ∀ k (hk : k < is.length), r[k]? = xs[is[k]]? := by
  induction is with
  | nil => exact ⟨[], rfl, rfl, by simp⟩
  | cons i is ih =>
    obtain ⟨r, h1, h2, h3⟩ := ih (fun j hj => h j (by simp [hj]))
    have hi0 : i < xs.length := h i (by simp)
    have hi : xs[i]? = some xs[i] := List.getElem?_eq_getElem hi0
    refine ⟨xs[i] :: r, by simp [gather, hi, h1], by simp [h2], ?_⟩
    intro k hk
    cases k with
    | zero => simp [hi]
    | succ k => simpa using h3 k (by simpa using hk)

theorem scatter_length {α : Type} (ps : List Nat) (cs out : List α) : (scatter ps cs out).length = out.length := by
  induction ps generalizing cs out with
  | nil => simp [scatter]
  | cons p ps ih => cases cs with
    | nil => simp [scatter]
    | cons c cs => simp [scatter, ih]

theorem scatter_other {α : Type} (ps : List Nat) (cs out : List α) (j : Nat) (h : j ∉ ps) :
    (scatter ps cs out)[j]? = out[j]? := by
  induction ps generalizing cs out with
  | nil => simp [scatter]
  | cons p ps ih => cases cs with
    | nil => simp [scatter]
    | cons c cs =>
      simp only [List.mem_cons, not_or] at h
      rw [scatter, ih _ _ h.2, List.getElem?_set_ne (Ne.symm h.1)]

theorem scatter_get {α : Type} (ps : List Nat) (cs out : List α) (hl : ps.length ≤ cs.length) (hnd : ps.Nodup)
    (hb : ∀ p ∈ ps, p < out.length) (k : Nat) (hk : k < ps.length) : (scatter ps cs out)[ps[k]]? = cs[k]? := by
  induction ps generalizing cs out k with
  | nil => simp at hk
  | cons p ps ih => cases cs with
    | nil => simp at hl
    | cons c cs =>
      simp only [List.nodup_cons] at hnd
      cases k with
      | zero =>
        simp only [List.getElem_cons_zero, scatter]
        rw [scatter_other _ _ _ _ hnd.1, List.getElem?_set_self (hb p (by simp))]; simp
      | succ k =>
        simp only [List.getElem_cons_succ, scatter, List.getElem?_cons_succ]
        exact ih cs _ (by simpa using hl) hnd.2 (fun q hq => by simpa using hb q (by simp [hq])) k (by simpa using hk)

theorem fillIds_length (ps : List Nat) (i : Nat) (ids : List Nat) : (fillIds ps i ids).length = ids.length := by
  induction ps generalizing i ids with
  | nil => simp [fillIds]
  | cons p ps ih => simp [fillIds, ih]

theorem fillIds_other (ps : List Nat) (i : Nat) (ids : List Nat) (j : Nat) (h : j ∉ ps) :
    (fillIds ps i ids)[j]? = ids[j]? := by
  induction ps generalizing i ids with
  | nil => simp [fillIds]
  | cons p ps ih =>
    simp only [List.mem_cons, not_or] at h
    rw [fillIds, ih _ _ h.2, List.getElem?_set_ne (Ne.symm h.1)]

theorem fillIds_get (ps : List Nat) (i : Nat) (ids : List Nat) (hnd : ps.Nodup) (hb : ∀ p ∈ ps, p < ids.length) (k : Nat)
    (hk : k < ps.length) : (fillIds ps i ids)[ps[k]]? = some (i + k) := by
  induction ps generalizing i ids k with
  | nil => simp at hk
  | cons p ps ih =>
    simp only [List.nodup_cons] at hnd
    cases k with
    | zero =>
      simp only [List.getElem_cons_zero, fillIds]
      rw [fillIds_other _ _ _ _ hnd.1, List.getElem?_set_self (hb p (by simp))]; simp
    | succ k =>
      simp only [List.getElem_cons_succ, fillIds]
      rw [ih (i + 1) _ hnd.2 (fun q hq => by simpa using hb q (by simp [hq])) k (by simpa using hk)]
      congr 1; omega

/-! ### Geometry of prefix sums -/

theorem take_sum_succ (sizes : List Nat) (j : Nat) (hj : j < sizes.length) :
    (sizes.take (j + 1)).sum = (sizes.take j).sum + sizes[j] := by
  rw [List.take_add_one, List.getElem?_eq_getElem hj, List.sum_append, Option.toList_some, List.sum_singleton]

theorem take_sum_mono (sizes : List Nat) {i j : Nat} (h : i ≤ j) : (sizes.take i).sum ≤ (sizes.take j).sum := by
  have : sizes.take i = (sizes.take j).take i := by rw [List.take_take, Nat.min_eq_left h]
  rw [this]
  have := congrArg List.sum (List.take_append_drop i (sizes.take j))
  rw [List.sum_append] at this
  omega

theorem take_sum_le (sizes : List Nat) (j : Nat) (hj : j < sizes.length) : (sizes.take j).sum + sizes[j] ≤ sizes.sum := by
  rw [← take_sum_succ sizes j hj]
  have := take_sum_mono sizes (i := j + 1) (j := sizes.length) (by omega)
  rwa [List.take_length] at this

/-- Position `x` lies in exactly one of the intervals. -/
theorem cover (sizes : List Nat) (x : Nat) (hx : x < sizes.sum) :
    ∃ j, ∃ hj : j < sizes.length, (sizes.take j).sum ≤ x ∧ x < (sizes.take j).sum + sizes[j] := by
  have key : ∀ m, m ≤ sizes.length → x < (sizes.take m).sum →
      ∃ j, ∃ hj : j < sizes.length, (sizes.take j).sum ≤ x ∧ x < (sizes.take j).sum + sizes[j] := by
    intro m
    induction m with
    | zero => intro _ h; simp at h
    | succ m ih =>
      intro hm h
      by_cases hc : x < (sizes.take m).sum
      · exact ih (by omega) hc
      · rw [take_sum_succ sizes m (by omega)] at h
        exact ⟨m, by omega, by omega, h⟩
  exact key sizes.length (Nat.le_refl _) (by rw [List.take_length]; exact hx)

theorem flatten_slice {α : Type} (f : List (List α)) (j : Nat) (hj : j < f.length) :
    (f.flatten.drop ((f.map List.length).take j).sum).take f[j].length = f[j] := by
  induction f generalizing j with
  | nil => simp at hj
  | cons a f ih =>
    cases j with
    | zero => simp
    | succ j =>
      simp only [List.flatten_cons, List.map_cons, List.take_succ_cons, List.sum_cons, List.getElem_cons_succ]
      rw [List.drop_append, List.drop_of_length_le (by omega), List.nil_append, Nat.add_sub_cancel_left]
      exact ih j (by simpa using hj)

end Jxl.Toc
