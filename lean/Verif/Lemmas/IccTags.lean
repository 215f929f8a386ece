import Verif.Lemmas.IccSafe
import Verif.Spec.Icc
/-! # The tag list of an ICC profile -/
namespace Jxl.Icc

open VarInt.Spec (varint)

theorem drop_add {α : Type} {l x y : List α} {p : Nat} (h : l.drop p = x ++ y) : l.drop (p + x.length) = y := by
  rw [← List.drop_drop, h, List.drop_left]

theorem drop_one {α : Type} {l y : List α} {x : α} {p : Nat} (h : l.drop p = x :: y) : l.drop (p + 1) = y :=
  drop_add (x := [x]) h

theorem drop_len {α : Type} {l x y : List α} {p : Nat} (h : l.drop p = x ++ y) (hp : p ≤ l.length) : p + x.length ≤ l.length := by
  have := congrArg List.length h
  rw [List.length_drop, List.length_append] at this
  omega

theorem drop_get {α : Type} {l y : List α} {x : α} {p : Nat} (h : l.drop p = x :: y) : p < l.length ∧ l[p]? = some x := by
  have h1 := congrArg List.length h
  rw [List.length_drop, List.length_cons] at h1
  refine ⟨by omega, ?_⟩
  have := congrArg (fun l => l[0]?) h
  simpa using this

theorem rd_drop {enc cs : Bytes} {cend cpos : Nat} {c : UInt8} (h : (enc.take cend).drop cpos = c :: cs) :
    cpos < cend ∧ cpos < enc.length ∧ rd enc cpos = .ok c := by
  obtain ⟨h1, h2⟩ := drop_get h
  rw [List.length_take] at h1
  have : cpos < cend := by omega
  rw [List.getElem?_take_of_lt this] at h2
  exact ⟨this, by omega, rd_some h2⟩

theorem slice_drop {l d ds : Bytes} {p : Nat} (hp : p ≤ l.length) (h : l.drop p = d ++ ds) : slice l p d.length = .ok d := by
  rw [slice_ok (drop_len h hp), h, List.take_left]

theorem varIntAt_ok {enc rest : Bytes} {lim pos v : Nat} (h : (enc.take lim).drop pos = varint v ++ rest) (hv : v < 2 ^ 64) :
    varIntAt enc lim pos = .ok (v, pos + (varint v).length) := by
  have hne : pos ≤ (enc.take lim).length := by
    have h1 := congrArg List.length h
    have h2 := VarInt.varint_length_pos v
    rw [List.length_drop, List.length_append] at h1
    omega
  have h2 := VarInt.decLoop_spec (enc.take lim) 9 pos 0 v (by omega) (by simp) rest h (by simpa using hv)
  unfold varIntAt VarInt.decode
  rw [h2]
  simp

theorem get32_lt (l : Bytes) : get32 l < 2 ^ 32 := by
  unfold get32
  split
  · rename_i a b c d
    have := a.toNat_lt; have := b.toNat_lt; have := c.toNat_lt; have := d.toNat_lt
    omega
  · omega

theorem put_get32 (l : Bytes) (h : l.length = 4) : put32 (get32 l) = l := by
  match l, h with
  | [a, b, c, d], _ =>
    have h1 := a.toNat_lt; have h2 := b.toNat_lt; have h3 := c.toNat_lt; have h4 := d.toNat_lt
    unfold put32 get32
    dsimp only
    congr 1
    · apply UInt8.toNat_inj.1; rw [UInt8.toNat_ofNat']; omega
    congr 1
    · apply UInt8.toNat_inj.1; rw [UInt8.toNat_ofNat']; omega
    congr 1
    · apply UInt8.toNat_inj.1; rw [UInt8.toNat_ofNat']; omega
    congr 1
    · apply UInt8.toNat_inj.1; rw [UInt8.toNat_ofNat']; omega

theorem get_put32 (x : Nat) : get32 (put32 x) = x % 2 ^ 32 := by
  unfold put32 get32
  dsimp only
  simp only [UInt8.toNat_ofNat']
  omega

theorem put32_mod (x : Nat) : put32 (x % 2 ^ 32) = put32 x := by
  have h : ∀ a b : Nat, a % 256 = b % 256 → UInt8.ofNat a = UInt8.ofNat b := by
    intro a b h
    apply UInt8.toNat_inj.1; rw [UInt8.toNat_ofNat', UInt8.toNat_ofNat']; exact h
  unfold put32
  rw [h (x % 2 ^ 32 / 2 ^ 24) (x / 2 ^ 24) (by omega), h (x % 2 ^ 32 / 2 ^ 16) (x / 2 ^ 16) (by omega),
    h (x % 2 ^ 32 / 2 ^ 8) (x / 2 ^ 8) (by omega), h (x % 2 ^ 32) x (by omega)]

theorem u32_lt (l : Bytes) (p : Nat) : u32 l p < 2 ^ 32 := by
  unfold u32
  split
  · omega
  · exact get32_lt _

theorem put_u32 (l : Bytes) (p : Nat) (h : p + 4 ≤ l.length) : put32 (u32 l p) = (l.drop p).take 4 := by
  unfold u32
  rw [if_neg (by omega), put_get32]
  rw [List.length_take, List.length_drop]; omega

theorem kw_eq (l : Bytes) (p : Nat) (h : p + 4 ≤ l.length) : kw l p = (l.drop p).take 4 := by
  unfold kw; rw [if_neg (by omega)]

theorem kw_length (l : Bytes) (p : Nat) : (kw l p).length = 4 := by
  unfold kw
  split
  · rfl
  · rw [List.length_take, List.length_drop]; omega

theorem take_app (l : Bytes) (p n : Nat) : l.take p ++ (l.drop p).take n = l.take (p + n) := (List.take_add).symm

theorem slice3 (l : Bytes) (p : Nat) : (l.drop p).take 4 ++ (l.drop (p + 4)).take 4 ++ (l.drop (p + 8)).take 4 = (l.drop p).take 12 := by
  have e1 : (l.drop p).take 12 = (l.drop p).take 4 ++ ((l.drop p).drop 4).take 8 := by
    rw [← List.take_add]
  have e2 : ((l.drop p).drop 4).take 8 = ((l.drop p).drop 4).take 4 ++ (((l.drop p).drop 4).drop 4).take 4 := by
    rw [← List.take_add]
  rw [e1, e2, List.drop_drop, List.drop_drop, List.append_assoc]

theorem slice36 (l : Bytes) (p : Nat) :
    (l.drop p).take 12 ++ (l.drop (p + 12)).take 12 ++ (l.drop (p + 24)).take 12 = (l.drop p).take 36 := by
  have e1 : (l.drop p).take 36 = (l.drop p).take 12 ++ ((l.drop p).drop 12).take 24 := by
    rw [← List.take_add]
  have e2 : ((l.drop p).drop 12).take 24 = ((l.drop p).drop 12).take 12 ++ (((l.drop p).drop 12).drop 12).take 12 := by
    rw [← List.take_add]
  rw [e1, e2, List.drop_drop, List.drop_drop, List.append_assoc]

theorem entry_eq (l : Bytes) (p : Nat) (h : p + 12 ≤ l.length) :
    kw l p ++ put32 (u32 l (p + 4)) ++ put32 (u32 l (p + 8)) = (l.drop p).take 12 := by
  rw [kw_eq l p (by omega), put_u32 l _ (by omega), put_u32 l _ (by omega), slice3]

theorem append_cancel4 {a b c d : Bytes} (h : a ++ b = c ++ d) (hl : a.length = c.length) : a = c ∧ b = d :=
  List.append_inj h hl

/-- The bytes of an entry determine its parts. -/
theorem entry_iff (l : Bytes) (p : Nat) (h : p + 12 ≤ l.length) (t : Bytes) (ht : t.length = 4) (a b : Nat) (ha : a < 2 ^ 32) (hb : b < 2 ^ 32) :
    (l.drop p).take 12 = Spec.entry t a b ↔ kw l p = t ∧ u32 l (p + 4) = a ∧ u32 l (p + 8) = b := by
  have e : Spec.entry t a b = t ++ put32 a ++ put32 b := rfl
  rw [e, ← entry_eq l p h]
  constructor
  · intro he
    obtain ⟨h1, h2⟩ := List.append_inj he (by simp [kw_length, ht, put32])
    obtain ⟨h3, h4⟩ := List.append_inj h1 (by rw [kw_length, ht])
    refine ⟨h3, ?_, ?_⟩
    · have := congrArg get32 h4
      rw [get_put32, get_put32, Nat.mod_eq_of_lt (u32_lt _ _), Nat.mod_eq_of_lt ha] at this
      exact this
    · have := congrArg get32 h2
      rw [get_put32, get_put32, Nat.mod_eq_of_lt (u32_lt _ _), Nat.mod_eq_of_lt hb] at this
      exact this
  · rintro ⟨h1, h2, h3⟩
    rw [h1, h2, h3]

/-- `isXyz` recognises exactly the triples. -/
theorem isXyz_iff (l : Bytes) (p : Nat) (h : p + 12 ≤ l.length) :
    isXyz l (kw l p) (u32 l (p + 4)) (u32 l (p + 8)) (p + 12) = true ↔
      p + 36 < l.length ∧ (l.drop p).take 36 = Spec.triple (u32 l (p + 4)) := by
  unfold isXyz
  rw [decide_eq_true_iff]
  have hlt := u32_lt l (p + 4)
  have hl12 : ∀ q, q + 12 ≤ l.length → ((l.drop q).take 12).length = 12 := by
    intro q hq; rw [List.length_take, List.length_drop]; omega
  have hle : ∀ t a b, t.length = 4 → (Spec.entry t a b).length = 12 := by
    intro t a b ht; simp [Spec.entry, Spec.be32, ht]
  constructor
  · rintro ⟨h1, h2, h3, h4, h5, h6, h7, h8, h9⟩
    refine ⟨by omega, ?_⟩
    rw [← slice36]
    unfold Spec.triple
    have e1 := (entry_iff l p h kRxyz rfl (u32 l (p + 4)) 20 hlt (by omega)).2 ⟨h1, rfl, h5⟩
    have e2 := (entry_iff l (p + 12) (by omega) kGxyz rfl ((u32 l (p + 4) + 20) % 2 ^ 32) 20 (by omega) (by omega)).2 ⟨h3, h8, h6⟩
    have e3 := (entry_iff l (p + 24) (by omega) kBxyz rfl ((u32 l (p + 4) + 40) % 2 ^ 32) 20 (by omega) (by omega)).2 ⟨h4, h9, h7⟩
    rw [e1, e2, e3]; rfl
  · rintro ⟨h1, h2⟩
    rw [← slice36] at h2
    unfold Spec.triple at h2
    obtain ⟨h3, h4⟩ := List.append_inj h2 (by
      rw [List.length_append, List.length_append, hl12 p h, hl12 (p + 12) (by omega), hle _ _ _ rfl, hle _ _ _ rfl])
    obtain ⟨h5, h6⟩ := List.append_inj h3 (by rw [hl12 p h, hle _ _ _ rfl])
    have e1 := (entry_iff l p h kRxyz rfl (u32 l (p + 4)) 20 hlt (by omega)).1 h5
    have e2 := (entry_iff l (p + 12) (by omega) kGxyz rfl ((u32 l (p + 4) + 20) % 2 ^ 32) 20 (by omega) (by omega)).1 h6
    have e3 := (entry_iff l (p + 24) (by omega) kBxyz rfl ((u32 l (p + 4) + 40) % 2 ^ 32) 20 (by omega) (by omega)).1 h4
    exact ⟨e1.1, by omega, e2.1, e3.1, e1.2.2, e2.2.2, e3.2.2, e2.2.1, e3.2.1⟩

theorem take8 (l : Bytes) (p : Nat) : (l.drop p).take 8 = (l.drop p).take 4 ++ (l.drop (p + 4)).take 4 := by
  rw [← List.drop_drop, ← List.take_add]

/-- `isTrc` never fails, and when it holds the three entries are those the decoder repeats. -/
theorem isTrc_ok (l : Bytes) (p : Nat) (h : p + 12 ≤ l.length) :
    ∃ b, isTrc l (kw l p) (p + 12) = .ok b ∧ (b = true → kw l p = kRtrc ∧ p + 36 < l.length ∧
      (l.drop p).take 36 = Spec.entry kRtrc (u32 l (p + 4)) (u32 l (p + 8)) ++ Spec.entry kGtrc (u32 l (p + 4)) (u32 l (p + 8)) ++
        Spec.entry kBtrc (u32 l (p + 4)) (u32 l (p + 8))) := by
  unfold isTrc
  by_cases h1 : kw l p = kRtrc ∧ p + 12 + 24 < l.length
  · rw [if_pos h1]
    by_cases h2 : kw l (p + 12) = kGtrc ∧ kw l (p + 12 + 12) = kBtrc
    · rw [if_pos h2, sub_ok (by omega), bind_ok, slice_ok (by omega), bind_ok, slice_ok (by omega), bind_ok, slice_ok (by omega), bind_ok]
      refine ⟨_, rfl, ?_⟩
      rw [decide_eq_true_iff]
      rintro ⟨h3, h4⟩
      have hl4 : ∀ q, q + 4 ≤ l.length → ((l.drop q).take 4).length = 4 := by
        intro q hq; rw [List.length_take, List.length_drop]; omega
      rw [show p + 12 - 8 = p + 4 by omega, take8, take8] at h3 h4
      obtain ⟨a1, a2⟩ := List.append_inj h3 (by rw [hl4 _ (by omega), hl4 _ (by omega)])
      obtain ⟨b1, b2⟩ := List.append_inj h4 (by rw [hl4 _ (by omega), hl4 _ (by omega)])
      have key : ∀ q r, q + 4 ≤ l.length → r + 4 ≤ l.length → (l.drop q).take 4 = (l.drop r).take 4 → u32 l r = u32 l q := by
        intro q r hq hr he
        unfold u32
        rw [if_neg (by omega), if_neg (by omega), he]
      refine ⟨h1.1, by omega, ?_⟩
      rw [← slice36]
      have e1 := (entry_iff l p h kRtrc rfl (u32 l (p + 4)) (u32 l (p + 8)) (u32_lt _ _) (u32_lt _ _)).2 ⟨h1.1, rfl, rfl⟩
      have e2 := (entry_iff l (p + 12) (by omega) kGtrc rfl (u32 l (p + 4)) (u32 l (p + 8)) (u32_lt _ _) (u32_lt _ _)).2
        ⟨h2.1, key (p + 4) (p + 12 + 4) (by omega) (by omega) a1, key (p + 8) (p + 12 + 8) (by omega) (by omega) a2⟩
      have e3 := (entry_iff l (p + 24) (by omega) kBtrc rfl (u32 l (p + 4)) (u32 l (p + 8)) (u32_lt _ _) (u32_lt _ _)).2
        ⟨h2.2, key (p + 4) (p + 24 + 4) (by omega) (by omega) b1, key (p + 8) (p + 24 + 8) (by omega) (by omega) b2⟩
      rw [e1, e2, e3]
    · rw [if_neg h2]; exact ⟨false, rfl, by intro h; cases h⟩
  · rw [if_neg h1]; exact ⟨false, rfl, by intro h; cases h⟩

theorem tagCode_spec (tag : Bytes) : tagCode tag = 1 ∨ (4 ≤ tagCode tag ∧ tagCode tag < 21 ∧ tagStrings[tagCode tag - 4]? = some tag) := by
  unfold tagCode
  cases h : tagStrings.findIdx? (· == tag) with
  | none => exact .inl rfl
  | some j =>
    right
    dsimp only
    obtain ⟨h1, h2, -⟩ := List.findIdx?_eq_some_iff_getElem.1 h
    have : tagStrings.length = 17 := rfl
    refine ⟨by omega, by omega, ?_⟩
    rw [Nat.add_sub_cancel, List.getElem?_eq_getElem h1]
    simpa using h2

end Jxl.Icc
