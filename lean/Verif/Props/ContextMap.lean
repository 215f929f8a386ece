import Verif.Lemmas.ContextMap
import Verif.Lemmas.Lehmer
/-!
# C14: context maps and move-to-front round trip

A reader that runs past the end of its input sees zero bits, so a statement over every finite `s` covers it too (append the zeros).
-/
namespace Jxl.Props
open Jxl Jxl.CtxMap

/-- Move-to-front coding of any byte sequence never fails, keeps the length, gives bytes, and the decoder's inverse (with vectors of any
power-of-two size up to 64 bytes, whatever the uninitialised end of its table holds) gives the sequence back without leaving the table. -/
theorem C14_move_to_front (k : Nat) (hk : k ≤ 6) (pad : List Nat) (hp : pad.length = 64) (v : List Nat) (hv : ∀ x ∈ v, x < 256) :
    ∃ r, mtfTransform v = some r ∧ r.length = v.length ∧ (∀ y ∈ r, y < 256) ∧ inverseMtf (2 ^ k) pad r = some v := by
  by_cases h : v = []
  · subst h; exact ⟨[], by simp [mtfTransform], rfl, by simp, rfl⟩
  · have hm := maxElem_lt v 256 (by omega) hv
    have hsplit : List.range 256 = List.range (maxElem v + 1) ++ (List.range (255 - maxElem v)).map (maxElem v + 1 + ·) := by
      rw [show (256 : Nat) = (maxElem v + 1) + (255 - maxElem v) by omega, List.range_add]
    obtain ⟨r, h1, h2, h3, h4⟩ := mtfLoop_spec k hk v (List.range (maxElem v + 1)) ((List.range (255 - maxElem v)).map (maxElem v + 1 + ·) ++ pad)
      (by rw [List.length_range]; omega) (by simp; omega) (fun x hx => by rw [List.mem_range]; exact Nat.lt_succ_of_le (le_maxElem v x hx))
    refine ⟨r, by rw [mtfTransform, if_neg h, h1], h2, ?_, ?_⟩
    · intro y hy; have := h3 y hy; rw [List.length_range] at this; omega
    · rw [inverseMtf, hsplit, List.append_assoc, h4]

example : mtfTransform [7, 7, 3, 7, 200, 0, 3] = some [7, 0, 4, 1, 200, 3, 3] ∧
    inverseMtf 16 (List.replicate 64 99) [7, 0, 4, 1, 200, 3, 3] = some [7, 7, 3, 7, 200, 0, 3] := by decide +kernel

/-- The inverse transform never leaves its table, for any bytes at all. -/
theorem C14_inverse_total (k : Nat) (hk : k ≤ 6) (pad : List Nat) (hp : pad.length = 64) (v : List Nat) (hv : ∀ x ∈ v, x < 256) :
    ∃ r, inverseMtf (2 ^ k) pad v = some r ∧ r.length = v.length ∧ ∀ y ∈ r, y < 256 := by
  unfold inverseMtf
  have gen : ∀ (v mtf : List Nat), mtf.length = 320 → (∀ i < 256, mtf.getD i 0 < 256) → (∀ x ∈ v, x < 256) →
      ∃ r, invLoop (2 ^ k) mtf v = some r ∧ r.length = v.length ∧ ∀ y ∈ r, y < 256 := by
    intro v
    induction v with
    | nil => intro mtf _ _ _; exact ⟨[], rfl, rfl, by simp⟩
    | cons a t ih =>
      intro mtf hl hm hv
      have ha := hv a List.mem_cons_self
      obtain ⟨r, h1, h2, h3⟩ := ih (front mtf a) (by rw [front_length _ _ (by omega), hl]) (by
        intro i hi
        rw [List.getD_eq_getElem?_getD, front_get _ _ _ (by omega)]
        split
        · rw [← List.getD_eq_getElem?_getD]; exact hm a ha
        · split
          · rw [← List.getD_eq_getElem?_getD]; exact hm _ (by omega)
          · rw [← List.getD_eq_getElem?_getD]; exact hm _ (by omega))
        (fun x hx => hv x (List.mem_cons_of_mem _ hx))
      have ha' : mtf[a]? = some (mtf.getD a 0) := by
        rw [List.getD_eq_getElem?_getD, List.getElem?_eq_getElem (by omega)]; rfl
      refine ⟨mtf.getD a 0 :: r, ?_, by simp [h2], ?_⟩
      · rw [invLoop, ha']
        simp only [Option.bind_eq_bind, Option.bind_some]
        rw [moveUnlessFirst_eq k hk _ hl _ ha]
        simp only [Option.bind_some, h1]
      · intro y hy
        rcases List.mem_cons.1 hy with rfl | hy
        · exact hm a ha
        · exact h3 y hy
  apply gen v _ (by simp; omega) _ hv
  intro i hi
  rw [List.getD_eq_getElem?_getD, List.getElem?_append_left (by simpa using hi), List.getElem?_range hi]
  exact hi

example : inverseMtf 32 (List.replicate 64 0) [255, 255, 255, 100, 4] = some [255, 254, 253, 97, 0] := by decide +kernel

theorem readEntries_facts (k n : Nat) (hk : k ≤ 8) (s s' : List Bool) (m : List Nat) (h : readEntries k n s = some (m, s')) :
    m.length = n ∧ ∀ x ∈ m, x < 256 := by
  induction n generalizing s s' m with
  | zero => cases h; simp
  | succ n ih =>
    rw [readEntries] at h
    simp only [Option.bind_eq_bind, Option.bind_eq_some_iff] at h
    obtain ⟨⟨x, s1⟩, h1, ⟨xs, s2⟩, h2, h3⟩ := h
    simp only [Option.some.injEq, Prod.mk.injEq] at h3
    obtain ⟨rfl, rfl⟩ := h3
    have := ih _ _ _ h2
    have hx := rdBits_lt h1
    have h256 : 2 ^ k ≤ 2 ^ 8 := Nat.pow_le_pow_right (by omega) hk
    refine ⟨by simp [this.1], ?_⟩
    intro y hy
    rcases List.mem_cons.1 hy with rfl | hy
    · omega
    · exact this.2 y hy

/-- Whatever the bits (and whatever the entropy decoder answers), a decoded map has the requested number of entries, names only existing
clusters, leaves none unused, and has at most 256 of them. -/
theorem C14_decoded_map (k : Nat) (hk : k ≤ 6) (pad : List Nat) (hp : pad.length = 64)
    (dec : Nat → List Bool → Option (List Nat × List Bool)) (hdec : ∀ n s m s', dec n s = some (m, s') → m.length = n)
    (n : Nat) (s s' : List Bool) (map : List Nat) (clusters : Nat) (h : decode (2 ^ k) pad dec n s = some (map, clusters, s')) :
    map.length = n ∧ (∀ x ∈ map, x < clusters) ∧ (∀ c < clusters, c ∈ map) ∧ 1 ≤ clusters ∧ clusters ≤ 256 := by
  unfold decode at h
  simp only [Option.bind_eq_bind, Option.bind_eq_some_iff] at h
  obtain ⟨⟨m, s1⟩, h1, h2⟩ := h
  have hm : m.length = n ∧ ∀ x ∈ m, x < 256 := by
    unfold readForm at h1
    simp only [Option.bind_eq_bind, Option.bind_eq_some_iff] at h1
    obtain ⟨⟨simple, s2⟩, _, h1⟩ := h1
    by_cases hs : simple = 1
    · simp only [hs, if_true] at h1
      unfold readSimple at h1
      simp only [Option.bind_eq_bind, Option.bind_eq_some_iff] at h1
      obtain ⟨⟨b, s3⟩, hb, h1⟩ := h1
      have hb4 := rdBits_lt hb
      by_cases hb0 : b = 0
      · simp only [hb0, ne_eq, not_true_eq_false, if_false, Option.some.injEq, Prod.mk.injEq] at h1
        rw [← h1.1]
        simp
      · simp only [ne_eq, hb0, not_false_eq_true, if_true] at h1
        exact readEntries_facts b n (by omega) _ _ _ h1
    · simp only [hs, if_false] at h1
      unfold readCoded at h1
      simp only [Option.bind_eq_bind, Option.bind_eq_some_iff] at h1
      obtain ⟨⟨um, s3⟩, _, ⟨syms, s4⟩, hd, h1⟩ := h1
      by_cases hmax : maxElem syms ≥ 256
      · simp only [hmax, if_true] at h1; cases h1
      · simp only [hmax, if_false] at h1
        have hlen := hdec _ _ _ _ hd
        have hall : ∀ x ∈ syms, x < 256 := fun x hx => by have := le_maxElem syms x hx; omega
        by_cases hum : um = 1
        · simp only [hum, if_true, Option.bind_eq_some_iff] at h1
          obtain ⟨m', hi, h1⟩ := h1
          obtain ⟨r, hr, hr2, hr3⟩ := C14_inverse_total k hk pad hp syms hall
          rw [hr] at hi
          cases hi; cases h1
          exact ⟨by omega, hr3⟩
        · simp only [hum, if_false, Option.some.injEq, Prod.mk.injEq] at h1
          rw [← h1.1]
          exact ⟨hlen, hall⟩
  by_cases he : m = []
  · simp only [he, if_true] at h2; cases h2
  · simp only [he, if_false] at h2
    by_cases hver : verify m (maxElem m + 1) = true
    · simp only [hver, if_true, Option.some.injEq, Prod.mk.injEq] at h2
      obtain ⟨rfl, rfl, _⟩ := h2
      have := verify_sound _ _ hver
      have hlt := maxElem_lt m 256 (by omega) hm.2
      exact ⟨hm.1, this.1, this.2, by omega, by omega⟩
    · simp only [hver] at h2; cases h2

/-- An entropy decoder for examples: each symbol in nine bits. -/
def ctxDec (n : Nat) (s : List Bool) : Option (List Nat × List Bool) := readEntries 9 n s

example : decode 16 (List.replicate 64 0) ctxDec 4 (bitsOf 1 0 ++ bitsOf 1 1 ++ [2, 2, 2, 0].flatMap (bitsOf 9) ++ [true]) =
      some ([2, 1, 0, 0], 3, [true]) ∧
    decode 16 (List.replicate 64 0) ctxDec 4 (bitsOf 1 0 ++ bitsOf 1 0 ++ [2, 2, 2, 0].flatMap (bitsOf 9) ++ [true]) = none ∧
    decode 16 (List.replicate 64 0) ctxDec 4 (bitsOf 1 1 ++ bitsOf 2 2 ++ [1, 0, 2, 0].flatMap (bitsOf 2) ++ [true]) =
      some ([1, 0, 2, 0], 3, [true]) := by decide +kernel

/-- Every context map whose clusters are all in use is read back exactly as written, whichever form the encoder picked, provided the
entropy coder used for the symbols is lossless. -/
theorem C14_round_trip (k : Nat) (hk : k ≤ 6) (pad : List Nat) (hp : pad.length = 64)
    (enc : List Nat → List Bool) (dec : Nat → List Bool → Option (List Nat × List Bool))
    (hlossless : ∀ m rest, (∀ x ∈ m, x < 256) → dec m.length (enc m ++ rest) = some (m, rest))
    (map : List Nat) (clusters : Nat) (hne : map ≠ []) (h1 : ∀ x ∈ map, x < clusters) (h2 : ∀ c < clusters, c ∈ map)
    (h256 : clusters ≤ 256) (useMtf simpleCheaper : Bool) (rest : List Bool) :
    ∃ out, encode useMtf simpleCheaper enc map clusters = some out ∧
      decode (2 ^ k) pad dec map.length (out ++ rest) = some (map, clusters, rest) := by
  obtain ⟨a, ha⟩ := List.exists_mem_of_ne_nil map hne
  have hpos : 1 ≤ clusters := by have := h1 a ha; omega
  have hmax : maxElem map + 1 = clusters := by
    have l := maxElem_lt map clusters hpos h1
    have g := le_maxElem map (clusters - 1) (h2 _ (by omega))
    omega
  have hbyte : ∀ x ∈ map, x < 256 := fun x hx => by have := h1 x hx; omega
  have fin : ∀ s, readForm (2 ^ k) pad dec map.length s = some (map, rest) → decode (2 ^ k) pad dec map.length s = some (map, clusters, rest) := by
    intro s hs
    unfold decode
    rw [hs]
    simp only [Option.bind_eq_bind, Option.bind_some, hne, if_false, hmax, verify_complete map clusters h1 h2, if_true]
  by_cases hc : clusters = 1
  · refine ⟨_, by rw [encode, if_pos hc], fin _ ?_⟩
    have hz : map = List.replicate map.length 0 := by
      rw [List.eq_replicate_iff]
      exact ⟨rfl, fun b hb => by have := h1 b hb; omega⟩
    rw [readForm, List.append_assoc, rdBits_append (n := 1) (by omega)]
    simp only [Option.bind_eq_bind, Option.bind_some, if_true, readSimple]
    rw [rdBits_append (n := 2) (by omega)]
    simp only [Option.bind_some, ne_eq, not_true_eq_false, if_false, ← hz]
  · obtain ⟨t, t1, t2, t3, t4⟩ := C14_move_to_front k hk pad hp map hbyte
    have hb := Lehmer.ceilLog2_spec clusters hpos
    have hb0 : Lehmer.ceilLog2 clusters ≠ 0 := by
      intro e; rw [e] at hb; omega
    by_cases hs : Lehmer.ceilLog2 clusters < 4 ∧ simpleCheaper = true
    · refine ⟨_, by rw [encode, if_neg hc, t1, Option.map_some], fin _ ?_⟩
      dsimp only
      rw [if_pos hs]
      rw [readForm, List.append_assoc, List.append_assoc, rdBits_append (n := 1) (by omega)]
      simp only [Option.bind_eq_bind, Option.bind_some, if_true, readSimple]
      rw [rdBits_append (n := 2) (by omega)]
      simp only [Option.bind_some, ne_eq, hb0, not_false_eq_true, if_true]
      exact readEntries_write _ map (fun x hx => by have := h1 x hx; omega) rest
    · refine ⟨_, by rw [encode, if_neg hc, t1, Option.map_some], fin _ ?_⟩
      dsimp only
      rw [if_neg hs]
      rw [readForm, List.append_assoc, List.append_assoc, rdBits_append (n := 1) (by omega)]
      simp only [Option.bind_eq_bind, Option.bind_some, readCoded]
      rw [if_neg (by omega)]
      cases useMtf with
      | false =>
        rw [rdBits_append (n := 1) (by simp)]
        simp only [Option.bind_some, Bool.false_eq_true, if_false]
        rw [hlossless map rest hbyte]
        simp only [Option.bind_some]
        rw [if_neg (by omega), if_neg (by omega)]
      | true =>
        rw [rdBits_append (n := 1) (by simp)]
        simp only [Option.bind_some, if_true]
        rw [← t2, hlossless t rest t3]
        have := maxElem_lt t 256 (by omega) t3
        simp only [Option.bind_some]
        rw [if_neg (by omega), t4]
        rfl

example : encode true false (·.flatMap (bitsOf 9)) [1, 0, 2, 0] 3 = some (bitsOf 1 0 ++ bitsOf 1 1 ++ [1, 1, 2, 1].flatMap (bitsOf 9)) ∧
    decode 64 (List.replicate 64 0) ctxDec 4 (bitsOf 1 0 ++ bitsOf 1 1 ++ [1, 1, 2, 1].flatMap (bitsOf 9) ++ [true]) =
      some ([1, 0, 2, 0], 3, [true]) := by decide +kernel

end Jxl.Props
