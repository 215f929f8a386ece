import Verif.Lemmas.HybridUint
/-!
# C10: hybrid integer coding
-/
namespace Jxl.Props
open Hybrid

/-- Every 32-bit value, under every configuration, is rebuilt by the reader from the token and the extra bits. -/
theorem C10_round_trip (c : Config) (hc : c.msb + c.lsb ≤ c.splitExp) (value : Nat) (hv : value < 2 ^ 32) :
    ∃ token nbits bits, encode c value = (token, nbits, bits) ∧ token < 2 ^ 32 ∧ nbits ≤ 31 ∧ bits < 2 ^ nbits ∧
      ∀ rest, Hybrid.read c token (bitsOf nbits bits ++ rest) = some (value, rest) := by
  by_cases h : value < c.splitToken
  · refine ⟨value, 0, 0, by rw [encode, if_pos h], hv, by omega, by omega, ?_⟩
    intro rest; rw [Hybrid.read, if_pos h]; rfl
  · obtain ⟨n, hi, mid, low, C, h1, h2, h3, h4, h5, h6, h7, h8⟩ := encode_big c value hc (by omega) hv
    refine ⟨_, _, _, h8, ?_, by omega, h4, ?_⟩
    · have : (encode c value).1 < 2 ^ 32 := by
        rw [encode, if_neg h]; exact Nat.mod_lt _ (by omega)
      rw [h8] at this; exact this
    · intro rest
      rw [read_big c n hi mid low C hc h1 h2 h3 h4 h5 h6 rest, ← h7, Nat.mod_eq_of_lt hv]

/-- The number of extra bits is determined by the token (so it need not be sent). -/
theorem C10_token_determines_length (c : Config) (hc : c.msb + c.lsb ≤ c.splitExp) (v w : Nat) (hv : v < 2 ^ 32)
    (hw : w < 2 ^ 32) (ht : (encode c v).1 = (encode c w).1) : (encode c v).2.1 = (encode c w).2.1 := by
  obtain ⟨t, n, b, e1, h1, h2, h3, e2⟩ := C10_round_trip c hc v hv
  obtain ⟨t', n', b', e1', h1', h2', h3', e2'⟩ := C10_round_trip c hc w hw
  simp only [e1, e1'] at ht ⊢
  subst ht
  -- read both with enough trailing bits and compare what is left over
  have a1 := e2 (List.replicate 32 false)
  have a2 := e2' (List.replicate 32 false)
  unfold Hybrid.read at a1 a2
  split at a1
  · simp only [Option.some.injEq, Prod.mk.injEq] at a1 a2
    have l1 := congrArg List.length a1.2
    rename_i hlt
    rw [if_pos hlt] at a2
    simp only [Option.some.injEq, Prod.mk.injEq] at a2
    have l2 := congrArg List.length a2.2
    simp at l1 l2; omega
  · rename_i hlt
    rw [if_neg hlt] at a2
    obtain ⟨⟨x, r⟩, f1, f2⟩ := Option.map_eq_some_iff.mp a1
    obtain ⟨⟨x', r'⟩, f1', f2'⟩ := Option.map_eq_some_iff.mp a2
    simp only [Prod.mk.injEq] at f2 f2'
    have l1 := congrArg List.length (rdBits_split f1)
    have l2 := congrArg List.length (rdBits_split f1')
    rw [f2.2] at l1; rw [f2'.2] at l2
    simp at l1 l2; omega

/-- Different values never share token and extra bits. -/
theorem C10_injective (c : Config) (hc : c.msb + c.lsb ≤ c.splitExp) (v w : Nat) (hv : v < 2 ^ 32) (hw : w < 2 ^ 32)
    (ht : (encode c v).1 = (encode c w).1) (hb : (encode c v).2.2 = (encode c w).2.2) : v = w := by
  have hn := C10_token_determines_length c hc v w hv hw ht
  obtain ⟨t, n, b, e1, _, _, _, e2⟩ := C10_round_trip c hc v hv
  obtain ⟨t', n', b', e1', _, _, _, e2'⟩ := C10_round_trip c hc w hw
  simp only [e1, e1'] at ht hb hn
  subst ht hb hn
  have := (e2 []).symm.trans (e2' [])
  simpa using this

/-- The configuration survives its header coding, except that the in-token bits are dropped when they do not matter,
i.e. when the split exponent equals the alphabet's bit size: then every token of the alphabet stands for itself. -/
theorem C10_config (logAlpha : Nat) (c : Config) (hc : c.msb + c.lsb ≤ c.splitExp) (hl : c.splitExp ≤ logAlpha) (rest : List Bool) :
    (c.splitExp ≠ logAlpha → readConfig logAlpha (writeConfig logAlpha c ++ rest) = some (c, rest)) ∧
    (c.splitExp = logAlpha → ∃ c', readConfig logAlpha (writeConfig logAlpha c ++ rest) = some (c', rest) ∧ c'.splitExp = c.splitExp ∧
      ∀ token s, token < 2 ^ logAlpha → Hybrid.read c' token s = some (token, s) ∧ Hybrid.read c token s = some (token, s)) := by
  have hlt : ∀ a b, a ≤ b → a < 2 ^ Lehmer.ceilLog2 (b + 1) := fun a b h => by
    have := (Lehmer.ceilLog2_spec (b + 1) (by omega)).1; omega
  obtain ⟨s, m, l⟩ := c
  simp only at hc hl ⊢
  constructor
  · intro hne
    simp only [writeConfig, if_neg hne, List.append_assoc, readConfig, rdBits_append (hlt s logAlpha hl), Option.bind_eq_bind,
      Option.bind_some, if_pos hne, rdBits_append (hlt m s (by omega)), rdBits_append (hlt l (s - m) (by omega))]
    rw [if_neg (by omega), if_neg (by omega)]
  · intro he
    subst he
    simp only [writeConfig, List.append_nil, readConfig, rdBits_append (hlt s s (by omega)), Option.bind_eq_bind, Option.bind_some,
      if_true]
    refine ⟨⟨s, 0, 0⟩, by simp, rfl, ?_⟩
    intro token t ht
    exact ⟨by rw [Hybrid.read, if_pos ht], by rw [Hybrid.read, if_pos ht]⟩

/-- Whatever the reader accepts as a configuration is valid. -/
theorem C10_config_valid (logAlpha : Nat) (s rest : List Bool) (c : Config) (h : readConfig logAlpha s = some (c, rest)) :
    c.msb + c.lsb ≤ c.splitExp := by
  unfold readConfig at h
  obtain ⟨⟨e, s1⟩, h1, h⟩ := Option.bind_eq_some_iff.mp h
  dsimp only at h
  split at h
  · obtain ⟨⟨m, s2⟩, h2, h⟩ := Option.bind_eq_some_iff.mp h
    dsimp only at h
    split at h
    · cases h
    · obtain ⟨⟨l, s3⟩, h3, h⟩ := Option.bind_eq_some_iff.mp h
      dsimp only at h
      split at h
      · cases h
      · simp only [Option.some.injEq, Prod.mk.injEq] at h
        obtain ⟨rfl, _⟩ := h
        simp only; omega
  · simp only [Option.some.injEq, Prod.mk.injEq] at h
    obtain ⟨rfl, _⟩ := h
    simp

-- the example from the comment of the source: 65535 with (4, 2, 0), and a value with low bits in the token
example : encode ⟨4, 2, 0⟩ 65535 = (63, 13, 8191) ∧ encode ⟨4, 1, 2⟩ 1000 = (60, 6, 58) := by decide +kernel
example : Hybrid.read ⟨4, 1, 2⟩ 60 (bitsOf 6 58) = some (1000, []) := by decide +kernel

end Jxl.Props
