import Verif.Model.Rct
/-!
# Lemmas about the reversible colour transforms
-/
namespace Jxl.Modular.Rct

theorem inv1Tail_eq (t : Nat) (p : Px × Px × Px) : inv1Tail t p = inv1 t p := by
  obtain ⟨a, b, c⟩ := p
  simp only [inv1Tail, inv1, ← BitVec.sub_eq_add_neg]

theorem inv1_fwd1 (t : Nat) (p : Px × Px × Px) : inv1 t (fwd1 t p) = p := by
  obtain ⟨a, b, c⟩ := p
  simp only [fwd1, inv1]
  by_cases h6 : t = 6
  · simp only [h6, if_true, BitVec.add_sub_cancel]
    generalize half (a - c) = x
    have h1 : b - (c + x) + (c + x) = b := BitVec.sub_add_cancel _ _
    have h2 : c + (a - c) = a := by rw [BitVec.add_comm]; exact BitVec.sub_add_cancel _ _
    rw [h1, h2]
  · simp only [if_neg h6]
    have hc : (if t &&& 1 ≠ 0 then (if t &&& 1 ≠ 0 then c - a else c) + a else (if t &&& 1 ≠ 0 then c - a else c)) = c := by
      split
      · exact BitVec.sub_add_cancel _ _
      · rfl
    simp only [hc]
    by_cases h1 : t >>> 1 = 1
    · simp only [h1, if_true, BitVec.sub_add_cancel]
    · by_cases h2 : t >>> 1 = 2
      · simp [h2, BitVec.sub_add_cancel]
      · simp only [if_neg h1, if_neg h2]

theorem invRow_eq (n t fuel : Nat) (r : List (Px × Px × Px)) : invRow n t fuel r = r.map (inv1 t) := by
  have ht : inv1Tail t = inv1 t := funext (inv1Tail_eq t)
  induction fuel generalizing r with
  | zero => simp only [invRow, ht]
  | succ fuel ih =>
    rw [invRow, ih, ht]
    split
    · rw [← List.map_append, List.take_append_drop]
    · rfl

theorem zip3_unzip3 (l : List (Px × Px × Px)) : zip3 (unzip3 l).1 (unzip3 l).2.1 (unzip3 l).2.2 = l := by
  induction l with
  | nil => rfl
  | cons a l ih =>
    simp only [unzip3, zip3, List.map_cons, List.zip_cons_cons, List.zipWith_cons_cons] at ih ⊢
    rw [ih]

theorem unzip3_zip3 (a b c : List Px) (h1 : a.length = b.length) (h2 : b.length = c.length) : unzip3 (zip3 a b c) = (a, b, c) := by
  induction a generalizing b c with
  | nil => cases b <;> cases c <;> simp_all [zip3, unzip3]
  | cons x a ih =>
    cases b with
    | nil => simp at h1
    | cons y b =>
      cases c with
      | nil => simp at h2
      | cons z c =>
        have := ih b c (by simpa using h1) (by simpa using h2)
        simp only [unzip3, zip3, List.zip_cons_cons, List.zipWith_cons_cons, List.map_cons, Prod.mk.injEq] at this ⊢
        exact ⟨by rw [this.1], by rw [this.2.1], by rw [this.2.2]⟩

theorem mapRows_inverse (f g : List (Px × Px × Px) → List (Px × Px × Px)) (hg : ∀ l, g (f l) = l) (w : Nat)
    (a b c : List (List Px)) (h1 : a.length = b.length) (h2 : b.length = c.length) (ha : ∀ r ∈ a, r.length = w)
    (hb : ∀ r ∈ b, r.length = w) (hc : ∀ r ∈ c, r.length = w) :
    mapRows g (mapRows f a b c).1 (mapRows f a b c).2.1 (mapRows f a b c).2.2 = (a, b, c) := by
  induction a generalizing b c with
  | nil => cases b <;> cases c <;> simp_all [mapRows]
  | cons x a ih =>
    cases b with
    | nil => simp at h1
    | cons y b =>
      cases c with
      | nil => simp at h2
      | cons z c =>
        have := ih b c (by simpa using h1) (by simpa using h2) (fun r hr => ha r (by simp [hr])) (fun r hr => hb r (by simp [hr]))
          (fun r hr => hc r (by simp [hr]))
        simp only [mapRows]
        rw [zip3_unzip3, hg, unzip3_zip3 x y z (by rw [ha x (by simp), hb y (by simp)]) (by rw [hb y (by simp), hc z (by simp)]), this]

/-- Channels `m .. m+2` exist and have the same shape. -/
theorem check_spec {img : Image} {m : Nat} (h : checkEqualChannels img m (m + 2) = true) :
    ∃ a b c, img.channel[m]? = some a ∧ img.channel[m + 1]? = some b ∧ img.channel[m + 2]? = some c ∧
      (a.w = b.w ∧ a.h = b.h ∧ a.hshift = b.hshift ∧ a.vshift = b.vshift) ∧
      (a.w = c.w ∧ a.h = c.h ∧ a.hshift = c.hshift ∧ a.vshift = c.vshift) := by
  unfold checkEqualChannels at h
  split at h
  · cases h
  · rename_i h1
    split at h
    · cases h
    · split at h
      · cases h
      · rename_i a ha
        have l : m + 2 < img.channel.length := by omega
        refine ⟨a, img.channel[m + 1], img.channel[m + 2], ha, List.getElem?_eq_getElem _, List.getElem?_eq_getElem _, ?_, ?_⟩
        · have := List.all_eq_true.mp h img.channel[m + 1] (by
            rw [List.mem_take_iff_getElem]; exact ⟨0, by simp; omega, by simp [List.getElem_drop]⟩)
          simpa [and_assoc] using this
        · have := List.all_eq_true.mp h img.channel[m + 2] (by
            rw [List.mem_take_iff_getElem]; exact ⟨1, by simp; omega, by simp [List.getElem_drop]⟩)
          simpa [and_assoc] using this

theorem check_congr {img img' : Image} {m : Nat} (hl : img.channel.length = img'.channel.length) (hn : img.nbMeta = img'.nbMeta)
    (hs : ∀ (i : Nat) (a : Channel), img.channel[i]? = some a → ∃ b : Channel, img'.channel[i]? = some b ∧ a.w = b.w ∧ a.h = b.h ∧ a.hshift = b.hshift ∧ a.vshift = b.vshift) :
    checkEqualChannels img m (m + 2) = true → checkEqualChannels img' m (m + 2) = true := by
  intro h
  obtain ⟨a, b, c, h1, h2, h3, h4, h5⟩ := check_spec h
  obtain ⟨a', a1, a2⟩ := hs m a h1
  obtain ⟨b', b1, b2⟩ := hs (m + 1) b h2
  obtain ⟨c', c1, c2⟩ := hs (m + 2) c h3
  unfold checkEqualChannels at h ⊢
  rw [← hl, ← hn]
  split at h
  · cases h
  · rename_i g1
    rw [if_neg g1]
    split at h
    · cases h
    · rename_i g2
      rw [if_neg g2, a1]
      rw [List.all_eq_true]
      intro x hx
      rw [List.mem_take_iff_getElem] at hx
      obtain ⟨i, hi, rfl⟩ := hx
      have hi' : i < 2 := by omega
      have gl : m + 1 + i < img'.channel.length := by simp at hi; omega
      rw [List.getElem_drop]
      rcases i with _ | _ | i
      · have : img'.channel[m + 1] = b' := by
          have := List.getElem?_eq_getElem (l := img'.channel) (i := m + 1) (by omega)
          rw [b1] at this; exact (Option.some.inj this).symm
        simp [this, ← a2.1, ← a2.2.1, ← a2.2.2.1, ← a2.2.2.2, ← b2.1, ← b2.2.1, ← b2.2.2.1, ← b2.2.2.2, h4]
      · have : img'.channel[m + 2] = c' := by
          have := List.getElem?_eq_getElem (l := img'.channel) (i := m + 2) (by omega)
          rw [c1] at this; exact (Option.some.inj this).symm
        simp [this, ← a2.1, ← a2.2.1, ← a2.2.2.1, ← a2.2.2.2, ← c2.1, ← c2.2.1, ← c2.2.2.1, ← c2.2.2.2, h5]
      · omega

/-- The permutations of the six orders: in each case the three channels are distinct. -/
theorem perm_cases (p : Nat) (hp : p < 6) :
    perm p ∈ [(0, 1, 2), (1, 2, 0), (2, 0, 1), (0, 2, 1), (1, 0, 2), (2, 1, 0)] := by
  have : ∀ p < 6, perm p ∈ [(0, 1, 2), (1, 2, 0), (2, 0, 1), (0, 2, 1), (1, 0, 2), (2, 1, 0)] := by decide
  exact this p hp

/-- Setting three consecutive channels and then setting them back, in any order. -/
theorem set3 {l : List Channel} {m : Nat} {a b c : Channel} (ha : l[m]? = some a) (hb : l[m + 1]? = some b) (hc : l[m + 2]? = some c)
    (x y z : Channel) (i j k : Nat) (u v w : Channel) (h : (i, j, k) ∈ [(0, 1, 2), (1, 2, 0), (2, 0, 1), (0, 2, 1), (1, 0, 2), (2, 1, 0)])
    (hu : l[m + i]? = some u) (hv : l[m + j]? = some v) (hw : l[m + k]? = some w) :
    ((((((l.set m x).set (m + 1) y).set (m + 2) z).set (m + i) u).set (m + j) v).set (m + k) w) = l := by
  have la := (List.getElem?_eq_some_iff.mp ha).1
  have lb := (List.getElem?_eq_some_iff.mp hb).1
  have lc := (List.getElem?_eq_some_iff.mp hc).1
  apply List.ext_getElem?
  intro q
  simp only [List.getElem?_set, List.length_set]
  simp only [List.mem_cons, Prod.mk.injEq, List.not_mem_nil, or_false] at h
  rcases h with ⟨rfl, rfl, rfl⟩ | ⟨rfl, rfl, rfl⟩ | ⟨rfl, rfl, rfl⟩ | ⟨rfl, rfl, rfl⟩ | ⟨rfl, rfl, rfl⟩ | ⟨rfl, rfl, rfl⟩ <;>
  · by_cases h0 : q = m
    · subst h0; simp_all
    · by_cases h1 : q = m + 1
      · subst h1; simp_all
      · by_cases h2 : q = m + 2
        · subst h2; simp_all
        · have e0 : ¬ (m = q) := fun e => h0 e.symm
          have e1 : ¬ (m + 1 = q) := fun e => h1 e.symm
          have e2 : ¬ (m + 2 = q) := fun e => h2 e.symm
          simp [e0, e1, e2]

theorem get_set3 {l : List Channel} {m : Nat} (h : m + 2 < l.length) (x y z : Channel) :
    (((l.set m x).set (m + 1) y).set (m + 2) z)[m]? = some x ∧ (((l.set m x).set (m + 1) y).set (m + 2) z)[m + 1]? = some y ∧
      (((l.set m x).set (m + 1) y).set (m + 2) z)[m + 2]? = some z := by
  simp [List.getElem?_set]; omega

theorem mapRows_congr {f g : List (Px × Px × Px) → List (Px × Px × Px)} (h : ∀ l, f l = g l) : mapRows f = mapRows g := by
  rw [funext h]

theorem mapRows_ident (f : List (Px × Px × Px) → List (Px × Px × Px)) (hf : ∀ l, f l = l) (w : Nat)
    (a b c : List (List Px)) (h1 : a.length = b.length) (h2 : b.length = c.length) (ha : ∀ r ∈ a, r.length = w)
    (hb : ∀ r ∈ b, r.length = w) (hc : ∀ r ∈ c, r.length = w) : mapRows f a b c = (a, b, c) := by
  induction a generalizing b c with
  | nil => cases b <;> cases c <;> simp_all [mapRows]
  | cons x a ih =>
    cases b with
    | nil => simp at h1
    | cons y b =>
      cases c with
      | nil => simp at h2
      | cons z c =>
        have := ih b c (by simpa using h1) (by simpa using h2) (fun r hr => ha r (by simp [hr])) (fun r hr => hb r (by simp [hr]))
          (fun r hr => hc r (by simp [hr]))
        simp only [mapRows]
        rw [hf, unzip3_zip3 x y z (by rw [ha x (by simp), hb y (by simp)]) (by rw [hb y (by simp), hc z (by simp)]), this]

theorem withRows (A a : Channel) (s : A.w = a.w ∧ A.h = a.h ∧ A.hshift = a.hshift ∧ A.vshift = a.vshift) :
    { A with rows := a.rows } = a := by
  cases A; cases a; simp_all

end Jxl.Modular.Rct
