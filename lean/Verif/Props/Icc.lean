import Verif.Lemmas.IccReader
import Verif.Lemmas.IccSafe
/-!
# C23: ICC profile compression

The model is `predictIcc` (the encoder), `unpredictIcc` (the decoder) and `readIcc` (the decoder with the checks it makes on the way); the
entropy coder in between is the subject of other properties.  `Spec.Overrun` describes the profiles whose tag list is refused.
-/
namespace Jxl.Props

open Icc

/-- The encoder takes exactly the profiles below its size limit, and never reads outside of one, whatever the memory of its
uninitialised variable holds. -/
theorem C23_encoder_total (junk icc : List UInt8) :
    (icc.length ≤ (2 ^ 32 - 1) / 4 → ∃ enc, predictIcc junk icc = .ok enc) ∧ ((2 ^ 32 - 1) / 4 < icc.length → predictIcc junk icc = .fail) := by
  constructor
  · intro h
    obtain ⟨cs, ds, h1, -⟩ := round_trip junk icc h
    exact ⟨_, h1⟩
  · intro h
    unfold predictIcc
    exact if_pos h

/-- Every profile the encoder takes is reproduced byte for byte, or belongs to the class described by `Spec.Overrun` and is refused. -/
theorem C23_round_trip (junk icc enc : List UInt8) (h : predictIcc junk icc = .ok enc) :
    (¬ Icc.Spec.Overrun icc → unpredictIcc enc = .ok icc) ∧ (Icc.Spec.Overrun icc → unpredictIcc enc = .fail) := by
  by_cases hL : icc.length ≤ sizeLimit
  · obtain ⟨cs, ds, h1, -, -, h4, h5⟩ := round_trip junk icc hL
    rw [h] at h1
    injection h1 with h1
    subst h1
    exact ⟨h5, h4⟩
  · unfold predictIcc at h
    rw [if_pos (by omega)] at h
    cases h

/-- The decoder stays inside its input and its output, and ends, on every input; a profile it accepts is shorter than `2 ^ 32` bytes. -/
theorem C23_decoder_safe (enc : List UInt8) (hn : enc.length < 2 ^ 64) :
    unpredictIcc enc ≠ .ub ∧ ∀ icc, unpredictIcc enc = .ok icc → icc.length < 2 ^ 32 :=
  ⟨(unpredictIcc_safe enc hn).ne, fun _ h => ((unpredictIcc_safe enc hn).of_ok h).1⟩

/-- The reader stays inside its buffers as well. -/
theorem C23_reader_safe (rest : Nat → UInt8) (bits : Nat → Nat) (enc : List UInt8) : readIcc rest bits enc ≠ .ub := by
  unfold readIcc
  split
  · simp
  · rename_i h
    have hp : Safe (readPre rest enc) (fun _ => True) := by
      unfold readPre
      split
      · have hd : (enc.take 20 ++ (List.range (min 1024 enc.length - 20)).map rest).length ≤ 1044 := by
          rw [List.length_append, List.length_take, List.length_map, List.length_range]; omega
        generalize enc.take 20 ++ (List.range (min 1024 enc.length - 20)).map rest = d at *
        unfold checkPreamble
        refine Safe.bind (varIntAt_safe d d.length 0 (Nat.le_refl _)) fun o ho => Safe.bind (check32_safe _) fun _ _ =>
          Safe.bind (varIntAt_safe d d.length o.2 (Nat.le_refl _)) fun c hc => Safe.bind (check32_safe _) fun _ _ => ?_
        refine Safe.bind (P := fun _ => True) ?_ fun _ _ => ?_
        · unfold checkOob; split
          · trivial
          · split <;> trivial
        · split
          · trivial
          · split <;> trivial
      · trivial
    refine (Safe.bind (Q := fun _ => True) hp fun _ _ => ?_).ne
    split
    · exact (unpredictIcc_safe enc (by omega)).mono fun _ _ => trivial
    · trivial

/-- The encoded profiles that pass the reader's checks: at most `2 ^ 28` bytes; if there are more than twenty, the two lengths and the commands
fit in the first 1024 bytes, the output is at most 65536 bytes longer than the profile, and the profile has at most `2 ^ 28` bytes; and at each
multiple of 65536 bytes at least one bit was used for 32 bytes. -/
def Readable (size enc data : Nat) (bits : Nat → Nat) : Prop :=
  enc ≤ 2 ^ 28 ∧ (20 < enc → enc - data ≤ 1024 ∧ enc ≤ size + 65536 ∧ size ≤ 2 ^ 28) ∧ ∀ i, 0 < i → i < enc → i % 65536 = 0 → i ≤ 32 * bits i

theorem ratioOk_iff (bits : Nat → Nat) (n : Nat) : ratioOk bits n = true ↔ ∀ i, 0 < i → i < n → i % 65536 = 0 → i ≤ 32 * bits i := by
  unfold ratioOk
  rw [List.all_eq_true]
  constructor
  · intro h i h1 h2 h3
    have := h i (List.mem_range.2 h2)
    simp only [Bool.or_eq_true, beq_iff_eq, bne_iff_ne, ne_eq, decide_eq_true_iff] at this
    omega
  · intro h i hi
    have hi := List.mem_range.1 hi
    simp only [Bool.or_eq_true, beq_iff_eq, bne_iff_ne, ne_eq, decide_eq_true_iff]
    by_cases h0 : i = 0
    · exact .inl (.inl h0)
    · by_cases h6 : i % 65536 = 0
      · exact .inr (h i (by omega) hi h6)
      · exact .inl (.inr h6)

/-- What the reader does with the encoder's output, whatever its memory held before and however well it was compressed: it gives the profile
back exactly when it passes the checks above and is outside of the refused class.  All others are refused. -/
theorem C23_reader (rest : Nat → UInt8) (bits : Nat → Nat) (junk icc enc : List UInt8) (h : predictIcc junk icc = .ok enc) :
    ∃ cs ds : List UInt8, enc = VarInt.Spec.varint icc.length ++ VarInt.Spec.varint cs.length ++ cs ++ ds ∧
      (¬ Icc.Spec.Overrun icc ∧ Readable icc.length enc.length ds.length bits → readIcc rest bits enc = .ok icc) ∧
      (¬ (¬ Icc.Spec.Overrun icc ∧ Readable icc.length enc.length ds.length bits) → readIcc rest bits enc = .fail) := by
  by_cases hL : icc.length ≤ sizeLimit
  · obtain ⟨cs, ds, h1, h2, h3, h4, h5⟩ := round_trip junk icc hL
    rw [h] at h1
    injection h1 with h1
    refine ⟨cs, ds, h1, ?_⟩
    subst h1
    have hl : icc.length < 2 ^ 32 := by unfold sizeLimit at hL; omega
    have hlen := pack_length icc.length cs ds
    have hpass : ∀ q : Prop, (q ↔ (20 < (pack icc.length cs ds).length → (pack icc.length cs ds).length - ds.length ≤ 1024 ∧
          (pack icc.length cs ds).length ≤ icc.length + 65536 ∧ icc.length ≤ 2 ^ 28)) → q → (pack icc.length cs ds).length ≤ 2 ^ 28 →
        (¬ Icc.Spec.Overrun icc ∧ Readable icc.length (pack icc.length cs ds).length ds.length bits →
          (if ratioOk bits (pack icc.length cs ds).length then unpredictIcc (pack icc.length cs ds) else .fail) = .ok icc) ∧
        (¬ (¬ Icc.Spec.Overrun icc ∧ Readable icc.length (pack icc.length cs ds).length ds.length bits) →
          (if ratioOk bits (pack icc.length cs ds).length then unpredictIcc (pack icc.length cs ds) else .fail) = .fail) := by
      intro q hq hq1 hb
      constructor
      · rintro ⟨ho, r1, r2, r3⟩
        rw [if_pos ((ratioOk_iff _ _).2 r3)]
        exact h5 ho
      · intro hn
        by_cases hr : ratioOk bits (pack icc.length cs ds).length = true
        · rw [if_pos hr]
          by_cases ho : Icc.Spec.Overrun icc
          · exact h4 ho
          · exact absurd ⟨ho, hb, hq.1 hq1, (ratioOk_iff _ _).1 hr⟩ hn
        · rw [if_neg hr]
    unfold readIcc
    by_cases hb : (pack icc.length cs ds).length > 268435456
    · rw [if_pos hb]
      exact ⟨fun h => by have := h.2.1; omega, fun _ => rfl⟩
    rw [if_neg hb]
    by_cases h20 : 20 < (pack icc.length cs ds).length
    · rw [preamble_ok rest hl h2 h20]
      by_cases hp : (VarInt.Spec.varint icc.length).length + (VarInt.Spec.varint cs.length).length + cs.length ≤ min 1024 (pack icc.length cs ds).length ∧
          (pack icc.length cs ds).length ≤ icc.length + 65536 ∧ icc.length ≤ 2 ^ 28
      · rw [if_pos hp, bind_ok]
        exact hpass _ Iff.rfl (fun _ => ⟨by omega, hp.2.1, hp.2.2⟩) (by omega)
      · rw [if_neg hp, bind_fail]
        refine ⟨fun h => ?_, fun _ => rfl⟩
        have := h.2.2.1 h20
        omega
    · have hr : readPre rest (pack icc.length cs ds) = .ok () := by unfold readPre; exact if_neg h20
      rw [hr, bind_ok]
      exact hpass _ Iff.rfl (fun h => absurd h h20) (by omega)
  · unfold predictIcc at h
    rw [if_pos (by omega)] at h
    cases h

/-! ## Witnesses -/

/-- The bytes of a successful outcome. -/
def iccBytes : R (List UInt8) → List UInt8
  | .ok enc => enc
  | _ => []

theorem iccBytes_ok {x : R (List UInt8)} {e : List UInt8} (h : x = .ok e) : x = .ok (iccBytes x) := by rw [h]; rfl

/-- A small profile: header, the three colorants, data. -/
def iccSmall (off : Nat) : List UInt8 :=
  (List.range 128).map UInt8.ofNat ++ Icc.Spec.be32 3 ++ Icc.Spec.triple off ++ [0x58, 0x59, 0x5a, 0x20, 0, 0, 0, 0, 1, 2, 3, 4, 5, 6, 7, 8, 9, 10, 11, 12] ++
    [0x63, 0x75, 0x72, 0x76, 0, 0, 0, 0, 7]

/-- It comes back. -/
example : ∃ enc, predictIcc [] (iccSmall 168) = .ok enc ∧ unpredictIcc enc = .ok (iccSmall 168) ∧ enc.length < 190 := by
  have h : (match predictIcc [] (iccSmall 168) with | .ok enc => decide (unpredictIcc enc = .ok (iccSmall 168) ∧ enc.length < 190) | _ => false) = true := by
    decide +kernel
  split at h
  · rename_i enc he
    exact ⟨enc, he, of_decide_eq_true h⟩
  · cases h

/-- It passes the reader's checks too. -/
example : ∃ enc, predictIcc [] (iccSmall 168) = .ok enc ∧ ∀ rest bits, readIcc rest bits enc = .ok (iccSmall 168) := by
  obtain ⟨enc, he⟩ := (C23_encoder_total [] (iccSmall 168)).1 (by decide +kernel)
  have hl : (iccBytes (predictIcc [] (iccSmall 168))).length < 190 := by decide +kernel
  rw [he] at hl
  have hl : enc.length < 190 := hl
  have hs : (iccSmall 168).length = 197 := by decide +kernel
  have h4 : ∀ k < 3, kw (iccSmall 168) (132 + 12 * k) = kRxyz → u32 (iccSmall 168) (132 + 12 * k + 4) < 1000 := by decide +kernel
  generalize iccSmall 168 = icc at *
  refine ⟨enc, he, fun rest bits => ?_⟩
  obtain ⟨cs, ds, e1, e2, -⟩ := C23_reader rest bits [] _ enc he
  refine e2 ⟨?_, by omega, fun _ => ⟨by omega, by omega, by omega⟩, fun i h1 h2 h3 => by omega⟩
  rintro ⟨k, off, k1, k2, k3, k4, k5⟩
  have hk : k < 3 := by rw [hs] at k2; omega
  obtain ⟨h2, h3⟩ := triple_start icc (132 + 12 * k) off k2 k3 k5
  have := h4 k hk h2
  omega

/-- With colorants at the end of the 32-bit numbers it is refused. -/
theorem C23_refused : Icc.Spec.Overrun (iccSmall (2 ^ 32 - 40)) ∧
    ∃ enc, predictIcc [] (iccSmall (2 ^ 32 - 40)) = .ok enc ∧ unpredictIcc enc = .fail := by
  have ho : Icc.Spec.Overrun (iccSmall (2 ^ 32 - 40)) :=
    ⟨0, 2 ^ 32 - 40, by decide +kernel, by decide +kernel, by decide, by decide, by decide +kernel⟩
  obtain ⟨enc, he⟩ := (C23_encoder_total [] (iccSmall (2 ^ 32 - 40))).1 (by decide +kernel)
  exact ⟨ho, enc, he, (C23_round_trip _ _ _ he).2 ho⟩

/-- A profile of 1368 bytes with 103 unknown tags. -/
def iccTags : List UInt8 :=
  (List.range 128).map UInt8.ofNat ++ Icc.Spec.be32 103 ++
    (List.range 103).flatMap fun k => Icc.Spec.entry [1, 2, 3, 4] (2 ^ 31 + 5 * k) (2 ^ 30 + 7 * k)

/-- The number of commands stands behind the size. -/
theorem icc_second (enc cs ds : List UInt8) (e1 : enc = VarInt.Spec.varint 1368 ++ VarInt.Spec.varint cs.length ++ cs ++ ds)
    (hv : varIntAt enc 10 2 = .ok (1135, 4)) : 1024 < cs.length := by
  have hv1 : (VarInt.Spec.varint 1368).length = 2 := by decide +kernel
  by_cases hc4 : cs.length < 2 ^ 32
  · have l2 := VarInt.varint_length_le 4 cs.length (by omega)
    have hx : (enc.take 10).drop 2 = VarInt.Spec.varint cs.length ++ ((cs ++ ds).take (8 - (VarInt.Spec.varint cs.length).length)) := by
      rw [e1, List.append_assoc, List.append_assoc, List.take_append, List.take_of_length_le (by omega), hv1,
        List.drop_left' hv1, List.take_append, List.take_of_length_le (by omega)]
    have := varIntAt_ok hx (by omega)
    rw [hv] at this
    injection this with this
    injection this with this _
    omega
  · omega

/-- What the encoder makes of it. -/
def iccTagsEnc : List UInt8 := iccBytes (predictIcc [] iccTags)

/-- Its commands do not fit in the buffer that the reader checks them against, so it is refused although the decoder itself would reproduce it. -/
theorem C23_commands_refused : predictIcc [] iccTags = .ok iccTagsEnc ∧ unpredictIcc iccTagsEnc = .ok iccTags ∧
    ∀ rest bits, readIcc rest bits iccTagsEnc = .fail := by
  have hL : iccTags.length ≤ (2 ^ 32 - 1) / 4 := by decide +kernel
  have hl : iccTags.length = 1368 := by decide +kernel
  obtain ⟨enc, h1⟩ := (C23_encoder_total [] iccTags).1 hL
  have he : predictIcc [] iccTags = .ok iccTagsEnc := iccBytes_ok h1
  have hno : ¬ Icc.Spec.Overrun iccTags := by
    rintro ⟨k, off, k1, k2, k3, k4, k5⟩
    have hk : k < 103 := by rw [hl] at k2; omega
    have h2 := (triple_start iccTags (132 + 12 * k) off k2 k3 k5).1
    have h3 : ∀ k < 103, kw iccTags (132 + 12 * k) ≠ kRxyz := by decide +kernel
    exact h3 k hk h2
  have hv : varIntAt iccTagsEnc 10 2 = .ok (1135, 4) := by decide +kernel
  generalize iccTagsEnc = enc at *
  generalize iccTags = icc at *
  refine ⟨he, (C23_round_trip _ _ _ he).1 hno, fun rest bits => ?_⟩
  obtain ⟨cs, ds, e1, e2, e3⟩ := C23_reader rest bits [] icc enc he
  clear e2
  refine e3 fun hc => ?_
  rw [hl] at e1
  have hcs := icc_second enc cs ds e1 hv
  have hlen := congrArg List.length e1
  simp only [List.length_append] at hlen
  have := (hc.2.2.1 (by omega)).1
  omega

end Jxl.Props
