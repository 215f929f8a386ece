import Verif.Model.Ans
import Verif.Props.Alias
import Verif.Props.HybridUint
/-!
# Lemmas about the ANS coder
-/
namespace Jxl.Ans
open Alias (Entry u16 sub32 u16_eq sub32_eq)

/-! ### Division by multiplication -/

theorem recip_core (K f q r I e x : Nat) (hx : x = q * f + r) (hI : I * f = K + e) (hr : r < f) (he : e * x < K) :
    x * I / K = q := by
  have h1 : x * I = K * q + (q * e + r * I) := by
    have : x * I = q * (I * f) + r * I := by rw [hx]; grind
    rw [this, hI]; grind
  have h2 : q * e + r * I < K := by
    apply Nat.lt_of_mul_lt_mul_left (a := f)
    have h3 : f * (q * e + r * I) = e * x + r * K := by
      have : f * (q * e + r * I) = q * e * f + r * (I * f) := by grind
      rw [this, hI, hx]; grind
    have h4 : (r + 1) * K ≤ f * K := Nat.mul_le_mul_right _ hr
    rw [h3]; rw [Nat.add_mul] at h4; omega
  have hK : 0 < K := by omega
  rw [h1, Nat.mul_add_div hK, Nat.div_eq_of_lt h2, Nat.add_zero]

theorem ceil_mul (K f : Nat) (hf : 0 < f) : ∃ e, e < f ∧ (K + f - 1) / f * f = K + e := by
  have h1 := Nat.div_add_mod (K + f - 1) f
  have h2 := Nat.mod_lt (K + f - 1) hf
  rw [Nat.mul_comm] at h1
  exact ⟨f - 1 - (K + f - 1) % f, by omega, by omega⟩

/-- The reciprocal of a frequency. -/
def recipOf (f : Nat) : Nat := (2 ^ 44 + f - 1) / f

theorem mul_recip_lt (f x : Nat) (hf : 0 < f) (hf' : f ≤ 4096) (hx : x < f * 2 ^ 20) : x * recipOf f < 2 ^ 64 := by
  obtain ⟨e, he, hI⟩ := ceil_mul (2 ^ 44) f hf
  unfold recipOf
  generalize (2 ^ 44 + f - 1) / f = I at *
  apply Nat.lt_of_mul_lt_mul_left (a := f)
  have h1 : f * (x * I) = x * (I * f) := by grind
  rw [h1, hI]
  have hff : f * e ≤ 4096 * 4095 := Nat.mul_le_mul hf' (by omega)
  have h2 : (x + 1) * (2 ^ 44 + e) ≤ f * 2 ^ 20 * (2 ^ 44 + e) := Nat.mul_le_mul_right _ hx
  have h3 : f * 2 ^ 20 * (2 ^ 44 + e) = f * 2 ^ 64 + f * e * 2 ^ 20 := by grind
  rw [h3, Nat.add_mul] at h2
  omega

theorem recip_eq (f x : Nat) (hf : 0 < f) (hf' : f ≤ 4096) (hx : x < f * 2 ^ 20) : recip x (recipOf f) = x / f := by
  have h64 := mul_recip_lt f x hf hf' hx
  unfold recip
  rw [Nat.mod_eq_of_lt h64, Nat.shiftRight_eq_div_pow]
  obtain ⟨e, he, hI⟩ := ceil_mul (2 ^ 44) f hf
  have hx32 : x < 2 ^ 32 := by
    have : f * 2 ^ 20 ≤ 4096 * 2 ^ 20 := Nat.mul_le_mul_right _ hf'
    omega
  have hex : e * x < 2 ^ 44 := by
    have : e * x ≤ 4095 * x := Nat.mul_le_mul_right _ (by omega)
    omega
  have hd := Nat.div_add_mod x f
  rw [recip_core (2 ^ 44) f (x / f) (x % f) (recipOf f) e x (by rw [Nat.mul_comm]; exact hd.symm) hI (Nat.mod_lt _ hf) hex]
  apply Nat.mod_eq_of_lt
  exact Nat.lt_of_le_of_lt (Nat.div_le_self _ _) hx32

/-! ### One symbol -/

/-- The renormalised state. -/
theorem renorm_spec (x f : Nat) (hx : 2 ^ 16 ≤ x ∧ x < 2 ^ 32) (hf : 0 < f) (hf' : f ≤ 4096) :
    ∃ b n y, renorm x f = (b, n, y) ∧ 16 * f ≤ y ∧ y < f * 2 ^ 20 ∧ b < 2 ^ n ∧
      ((n = 16 ∧ y < 2 ^ 16 ∧ x = y * 2 ^ 16 + b) ∨ (n = 0 ∧ 2 ^ 16 ≤ y ∧ x = y)) := by
  unfold renorm
  rw [Nat.shiftRight_eq_div_pow, Nat.shiftRight_eq_div_pow, show (0xffff : Nat) = 2 ^ 16 - 1 from rfl, Nat.and_two_pow_sub_one_eq_mod]
  split
  · rename_i h
    have h1 : f * 2 ^ 20 ≤ x := (Nat.le_div_iff_mul_le (by omega)).mp h
    refine ⟨_, _, _, rfl, by omega, ?_, by omega, Or.inl ⟨rfl, by omega, by omega⟩⟩
    have : 1 * 2 ^ 20 ≤ f * 2 ^ 20 := Nat.mul_le_mul_right _ hf
    omega
  · rename_i h
    have h1 : x < f * 2 ^ 20 := (Nat.div_lt_iff_lt_mul (by omega)).mp (by omega)
    exact ⟨_, _, _, rfl, by omega, h1, by omega, Or.inr ⟨rfl, by omega, rfl⟩⟩

/-- An entry of the encoder table for a symbol of frequency `f` whose slots are `R`. -/
def GoodInfo (t : Info) (f : Nat) (R : Nat → Nat) : Prop :=
  t.freq = f ∧ t.ifreq = recipOf f ∧ t.rmap.length = f ∧ ∀ o, o < f → t.rmap[o]? = some (R o)

theorem put_read (x f sym : Nat) (t : Info) (R : Nat → Nat) (table : List Entry) (la : Nat) (hx : 2 ^ 16 ≤ x ∧ x < 2 ^ 32)
    (hf : 0 < f) (hf' : f ≤ 4096) (ht : GoodInfo t f R)
    (hR : ∀ o, o < f → R o < 4096 ∧ Alias.lookup table la (R o) = some (sym, o, f)) :
    ∃ b n x', putSymbol x t = some (b, n, x') ∧ (n = 0 ∨ n = 16) ∧ b < 2 ^ n ∧ 2 ^ 16 ≤ x' ∧ x' < 2 ^ 32 ∧
      ∀ rest, readSymbol table la x' (bitsOf n b ++ rest) = some (sym, x, rest) := by
  obtain ⟨h1, h2, h3, h4⟩ := ht
  obtain ⟨b, n, y, e1, l1, l2, l3, e2⟩ := renorm_spec x f hx hf hf'
  have hy32 : y < 2 ^ 32 := by
    have : f * 2 ^ 20 ≤ 4096 * 2 ^ 20 := Nat.mul_le_mul_right _ hf'
    omega
  have hv : recip y t.ifreq = y / f := by rw [h2]; exact recip_eq f y hf hf' l2
  have hdm := Nat.div_add_mod y f
  have hml := Nat.mod_lt y hf
  have hvlt : y / f < 2 ^ 20 := Nat.div_lt_of_lt_mul l2
  have hvge : 16 ≤ y / f := (Nat.le_div_iff_mul_le hf).mpr l1
  have hidx : sub32 y (recip y t.ifreq * t.freq % 2 ^ 32) = y % f := by
    rw [hv, h1]
    have hle : y / f * f ≤ y := Nat.div_mul_le_self y f
    rw [Nat.mod_eq_of_lt (by omega), sub32_eq hle hy32]
    rw [Nat.mul_comm] at hdm; omega
  obtain ⟨r1, r2⟩ := hR (y % f) hml
  have hput : putSymbol x t = some (b, n, y / f * 4096 + R (y % f)) := by
    unfold putSymbol
    rw [h1, e1]
    dsimp only
    rw [h1] at hidx
    rw [hidx, h4 _ hml, hv, Option.map_some, Nat.shiftLeft_eq, Nat.mod_eq_of_lt (a := y / f * 2 ^ 12) (by omega), Nat.mod_eq_of_lt (by omega)]
  refine ⟨b, n, _, hput, ?_, l3, by omega, by omega, fun rest => ?_⟩
  · rcases e2 with ⟨e, _⟩ | ⟨e, _⟩
    · exact Or.inr e
    · exact Or.inl e
  · unfold readSymbol
    have e3 : (y / f * 4096 + R (y % f)) &&& 4095 = R (y % f) := by
      rw [show (4095 : Nat) = 2 ^ 12 - 1 from rfl, Nat.and_two_pow_sub_one_eq_mod]; omega
    have e4 : (y / f * 4096 + R (y % f)) >>> 12 = y / f := by rw [Nat.shiftRight_eq_div_pow]; omega
    rw [e3, e4, r2, Option.bind_eq_bind, Option.bind_some]
    dsimp only
    rw [hdm, Nat.mod_eq_of_lt hy32]
    rcases e2 with ⟨rfl, g1, g2⟩ | ⟨rfl, g1, g2⟩
    · rw [if_pos g1, rdBits_append l3, Option.bind_eq_bind, Option.bind_some]
      dsimp only
      rw [Nat.shiftLeft_eq, Nat.mod_eq_of_lt (by omega), Nat.mul_comm, ← Nat.two_pow_add_eq_or_of_lt l3, g2, Nat.mul_comm]
    · rw [if_neg (by omega), g2, bitsOf_zero, List.nil_append]

/-! ### The reversed bit buffer -/

/-- The stream a buffer stands for. -/
def Buf.stream (w : Buf) : List Bool := bitsOf w.num w.all ++ w.out.flatMap fun (n, b) => bitsOf n b

/-- Every pending and every pushed piece can be passed to `BitWriter::Write`. -/
def Buf.Ok (w : Buf) : Prop := w.all < 2 ^ w.num ∧ w.num ≤ 56 ∧ ∀ p ∈ w.out, p.2 < 2 ^ p.1 ∧ p.1 ≤ 56

theorem addbits_spec (w : Buf) (b n : Nat) (hw : w.Ok) (hb : b < 2 ^ n) (hn : n ≤ 56) :
    (addbits w b n).Ok ∧ (addbits w b n).stream = bitsOf n b ++ w.stream := by
  have core : ∀ w : Buf, w.Ok → w.num + n ≤ 56 →
      Buf.Ok ⟨((w.all <<< n) % 2 ^ 64) ||| b, w.num + n, w.out⟩ ∧
      Buf.stream ⟨((w.all <<< n) % 2 ^ 64) ||| b, w.num + n, w.out⟩ = bitsOf n b ++ w.stream := by
    intro w hw hle
    obtain ⟨h1, h2, h3⟩ := hw
    have hlt : w.all * 2 ^ n < 2 ^ (w.num + n) := by
      rw [Nat.pow_add]; exact Nat.mul_lt_mul_of_pos_right h1 (Nat.two_pow_pos _)
    have h64 : 2 ^ (w.num + n) ≤ 2 ^ 64 := Nat.pow_le_pow_right (by omega) (by omega)
    have e : ((w.all <<< n) % 2 ^ 64) ||| b = b + 2 ^ n * w.all := by
      rw [Nat.shiftLeft_eq, Nat.mod_eq_of_lt (by omega), Nat.mul_comm, ← Nat.two_pow_add_eq_or_of_lt hb, Nat.add_comm]
    rw [e]
    refine ⟨⟨?_, hle, h3⟩, ?_⟩
    · show b + 2 ^ n * w.all < 2 ^ (w.num + n)
      have : (w.all + 1) * 2 ^ n ≤ 2 ^ w.num * 2 ^ n := Nat.mul_le_mul_right _ h1
      rw [Nat.pow_add, Nat.mul_comm (2 ^ n)]
      rw [Nat.add_mul] at this; omega
    · simp only [Buf.stream]
      rw [Nat.add_comm w.num n, bitsOf_add, Nat.add_mul_div_left _ _ (Nat.two_pow_pos _), Nat.div_eq_of_lt hb, Nat.zero_add,
        ← bitsOf_mod n (b + 2 ^ n * w.all), Nat.add_mul_mod_self_left, Nat.mod_eq_of_lt hb, List.append_assoc]
  unfold addbits
  split
  · rename_i h; subst h; exact ⟨hw, rfl⟩
  · by_cases h : w.num + n > 56
    · simp only [if_pos h]
      obtain ⟨h1, h2⟩ := core ⟨0, 0, (w.num, w.all) :: w.out⟩ ⟨by simp, by simp, by
        intro p hp
        rcases List.mem_cons.mp hp with rfl | hp
        · exact ⟨hw.1, hw.2.1⟩
        · exact hw.2.2 p hp⟩ (by simpa using hn)
      exact ⟨h1, h2⟩
    · simp only [if_neg h]
      exact core w hw (by omega)

/-! ### The encoder's tables -/

/-- The distribution the tables are made for: an empty one stands for a single symbol (enc_ans.cc:331-333, ans_common.cc:28-31). -/
def eff (counts : List Nat) : List Nat := if counts = [] then [4096] else counts

theorem fillMap_spec (table : List Entry) (la : Nat) (f : Nat → Nat) (info0 : List Info)
    (h0 : ∀ s, 0 < f s → ∃ t, info0[s]? = some t ∧ t.freq = f s ∧ t.ifreq = recipOf (f s) ∧ t.rmap.length = f s)
    (hp : Props.ExactPartition table la f) (n : Nat) (hn : n ≤ 4096) :
    ∃ info, fillMap table la n info0 = some info ∧
      ∀ s, 0 < f s → ∃ t, info[s]? = some t ∧ t.freq = f s ∧ t.ifreq = recipOf (f s) ∧ t.rmap.length = f s ∧
        ∀ v o q, v < n → Alias.lookup table la v = some (s, o, q) → t.rmap[o]? = some v := by
  induction n with
  | zero =>
    refine ⟨info0, rfl, fun s hs => ?_⟩
    obtain ⟨t, h1, h2, h3, h4⟩ := h0 s hs
    exact ⟨t, h1, h2, h3, h4, fun v o q hv => by omega⟩
  | succ n ih =>
    obtain ⟨info, e, hi⟩ := ih (by omega)
    obtain ⟨s, o, hl, ho, _⟩ := hp.1 n (by omega)
    obtain ⟨t, h1, h2, h3, h4, h5⟩ := hi s (by omega)
    have hsl : s < info.length := by
      rcases Nat.lt_or_ge s info.length with h | h
      · exact h
      · rw [List.getElem?_eq_none h] at h1; cases h1
    refine ⟨info.set s { t with rmap := t.rmap.set o n }, ?_, ?_⟩
    · rw [fillMap, e, Option.bind_eq_bind, Option.bind_some, hl, Option.bind_eq_bind, Option.bind_some]
      dsimp only
      rw [setMap, h1, Option.bind_eq_bind, Option.bind_some, if_pos (by omega), u16_eq (by omega)]
    · intro s' hs'
      by_cases hss : s' = s
      · subst hss
        refine ⟨{ t with rmap := t.rmap.set o n }, List.getElem?_set_self hsl, h2, h3, by simpa using h4, ?_⟩
        intro v o' q hv hl'
        show (t.rmap.set o n)[o']? = some v
        by_cases hoo : o' = o
        · subst hoo
          rw [List.getElem?_set_self (by omega)]
          obtain ⟨v0, _, _, hu⟩ := hp.2 s' o' ho
          rw [hu v q (by omega) hl', hu n _ (by omega) hl]
        · rw [List.getElem?_set_ne (Ne.symm hoo)]
          refine h5 v o' q ?_ hl'
          rcases Nat.lt_or_ge v n with h | h
          · exact h
          · have : v = n := by omega
            subst this
            rw [hl] at hl'
            simp only [Option.some.injEq, Prod.mk.injEq] at hl'
            exact absurd hl'.2.1.symm hoo
      · obtain ⟨t', g1, g2, g3, g4, g5⟩ := hi s' hs'
        refine ⟨t', by rw [List.getElem?_set_ne (Ne.symm hss)]; exact g1, g2, g3, g4, ?_⟩
        intro v o' q hv hl'
        refine g5 v o' q ?_ hl'
        rcases Nat.lt_or_ge v n with h | h
        · exact h
        · have : v = n := by omega
          subst this
          rw [hl] at hl'
          simp only [Option.some.injEq, Prod.mk.injEq] at hl'
          exact absurd hl'.1.symm hss

theorem initInfo_spec (counts : List Nat) (hc : ∀ v ∈ counts, v ≤ 4096) (s : Nat) (hs : 0 < (eff counts).getD s 0) :
    ∃ t, (initInfo counts)[s]? = some t ∧ t.freq = (eff counts).getD s 0 ∧ t.ifreq = recipOf ((eff counts).getD s 0) ∧
      t.rmap.length = (eff counts).getD s 0 := by
  have key : ∀ f, 0 < f → f ≤ 4096 → ((2 ^ 44 + u16 f - 1) % 2 ^ 64) / u16 f = recipOf f ∧ u16 f = f := by
    intro f h1 h2
    have e : u16 f = f := u16_eq (by omega)
    rw [e, Nat.mod_eq_of_lt (by omega)]; exact ⟨rfl, rfl⟩
  unfold initInfo
  by_cases h : counts = []
  · subst h
    have hs0 : s = 0 := by
      rcases s with _ | s
      · rfl
      · simp [eff] at hs
    subst hs0
    obtain ⟨k1, k2⟩ := key 4096 (by omega) (by omega)
    have e : (eff ([] : List Nat)).getD 0 0 = 4096 := rfl
    rw [e]
    refine ⟨⟨u16 4096, ((2 ^ 44 + u16 4096 - 1) % 2 ^ 64) / u16 4096, List.replicate 4096 0⟩, rfl, k2, k1, ?_⟩
    rw [List.length_replicate]
  · have e : eff counts = counts := by rw [eff, if_neg h]
    rw [e] at hs ⊢
    have hsl : s < counts.length := by
      rcases Nat.lt_or_ge s counts.length with h | h
      · exact h
      · simp [List.getD_eq_getElem?_getD, List.getElem?_eq_none h] at hs
    have hle : counts.getD s 0 ≤ 4096 := by
      apply hc
      simp [List.getD_eq_getElem?_getD, List.getElem?_eq_getElem hsl]
    obtain ⟨k1, k2⟩ := key _ hs hle
    refine ⟨_, by rw [List.getElem?_map, List.getElem?_range (by omega)]; rfl, ?_, ?_, ?_⟩
    · simp only [if_neg (show ¬ s = counts.length by omega)]; exact k2
    · simp only [if_neg (show ¬ s = counts.length by omega)]; rw [if_pos (by omega)]; exact k1
    · simp only [if_neg (show ¬ s = counts.length by omega), List.length_replicate]

theorem popZeros_eff (counts : List Nat) (la : Nat) (a : List Entry) : Alias.initTable (eff counts) la a = Alias.initTable counts la a := by
  by_cases h : counts = []
  · subst h
    rfl
  · rw [eff, if_neg h]

/-- Alias table and encoder table fit together. -/
theorem tables_spec (counts : List Nat) (la : Nat) (a0 : List Entry) (hla : 5 ≤ la ∧ la ≤ 8) (hs : (eff counts).sum = 4096)
    (hl : counts.length ≤ 2 ^ la) (ha : a0.length = 2 ^ la) :
    ∃ table info, Alias.initTable counts la a0 = some table ∧ buildInfo counts table la = some info ∧
      ∀ s, 0 < (eff counts).getD s 0 → (eff counts).getD s 0 ≤ 4096 ∧ ∃ t R, info[s]? = some t ∧ GoodInfo t ((eff counts).getD s 0) R ∧
        ∀ o, o < (eff counts).getD s 0 → R o < 4096 ∧ Alias.lookup table la (R o) = some (s, o, (eff counts).getD s 0) := by
  have hl' : (eff counts).length ≤ 2 ^ la := by
    unfold eff; split
    · simp; exact Nat.one_le_two_pow
    · exact hl
  obtain ⟨table, e1, _, hp⟩ := Props.C11_alias_partition (eff counts) la a0 hla hs hl' ha
  rw [popZeros_eff] at e1
  have hle : ∀ s, (eff counts).getD s 0 ≤ 4096 := by
    intro s
    by_cases hi : s < (eff counts).length
    · have h1 : (eff counts).getD s 0 ∈ eff counts := by
        simp [List.getD_eq_getElem?_getD, List.getElem?_eq_getElem hi]
      have := Alias.le_sum_of_mem h1
      omega
    · simp [List.getD_eq_getElem?_getD, List.getElem?_eq_none (by omega : (eff counts).length ≤ s)]
  have hc : ∀ v ∈ counts, v ≤ 4096 := by
    intro v hv
    have hne : counts ≠ [] := fun h => by subst h; cases hv
    have : v ≤ (eff counts).sum := Alias.le_sum_of_mem (by rw [eff, if_neg hne]; exact hv)
    omega
  obtain ⟨info, e2, hi⟩ := fillMap_spec table la _ (initInfo counts) (initInfo_spec counts hc) hp 4096 (Nat.le_refl _)
  refine ⟨table, info, e1, e2, fun s hs => ⟨hle s, ?_⟩⟩
  obtain ⟨t, h1, h2, h3, h4, h5⟩ := hi s hs
  refine ⟨t, fun o => t.rmap.getD o 0, h1, ⟨h2, h3, h4, ?_⟩, ?_⟩
  · intro o ho
    simp [List.getD_eq_getElem?_getD, List.getElem?_eq_getElem (h4.symm ▸ ho : o < t.rmap.length)]
  · intro o ho
    obtain ⟨v, hv, hlk, _⟩ := hp.2 s o ho
    have := h5 v o _ hv hlk
    have e : t.rmap.getD o 0 = v := by rw [List.getD_eq_getElem?_getD, this]; rfl
    dsimp only
    rw [e]
    exact ⟨hv, hlk⟩

end Jxl.Ans
