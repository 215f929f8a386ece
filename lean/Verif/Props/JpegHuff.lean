import Verif.Lemmas.JpegHuffRead
import Verif.Spec.JpegScan
/-!
# C50: JPEG Huffman tables — the parser reads exactly the codes the writer emits

`Jpeg.Slot` are the lookup tables a slot can hold after any number of tables were read into it, `Jpeg.FromFile` the
accepted tables, `Jpeg.codeWord` the codes of ITU-T T.81, Annex C.
-/
namespace Jxl.Props
open Jxl.Jpeg

/-- Whatever tables were read into the slot before and whatever the next one contains, building it stays inside the
1024 entries of the slot: the table is refused or accepted. -/
theorem C50_build_safe (t : List LutEntry) (isAc : Bool) (counts values : List Nat) (hs : Slot t)
    (hc : counts.length = 16) (hv : ∀ v ∈ values, v < 256) :
    ∃ r, readTable isAc counts values t = some r ∧ ∀ cs t', r = some (cs, t') → t'.length = 1024 ∧ Canonical cs := by
  obtain ⟨r, e, k⟩ := readTable_spec isAc counts values t hc hv (slotOk_of hs)
  exact ⟨r, e, fun cs t' h => ⟨(k cs t' h).2.1.1, (k cs t' h).1.toCanonical⟩⟩

/-- The codes the writer uses for an accepted table are the codes of T.81, of 1 to 16 bits; symbols that are not in
the table have none, and all symbols in the table are bytes. -/
theorem C50_writer_codes (x : List Code × List LutEntry) (hx : FromFile x) :
    (∀ i l v, x.1[i]? = some (l, v) → v < 256 →
      (codeTable x.1).depth v = l ∧ msb l ((codeTable x.1).code v) = codeWord x.1 i l ∧ (codeTable x.1).code v < 2 ^ l) ∧
    (∀ v, (codeTable x.1).depth v = 127 ∨ v < 256 ∧ ∃ i : Nat, x.1[i]? = some ((codeTable x.1).depth v, v)) ∧
    HuffOk (codeTable x.1) := by
  obtain ⟨hacc, _⟩ := fromFile_spec hx
  obtain ⟨c1, c2⟩ := codeTable_spec hacc
  refine ⟨?_, c2, ?_⟩
  · intro i l v hi hv
    obtain ⟨d1, d2, d3⟩ := c1 i l v hi hv
    refine ⟨d1, ?_, d2⟩
    unfold codeWord
    rw [← d3, codeWord_eq (hacc.len _ (List.mem_of_getElem? hi)).2 d2]
  · intro s _
    rcases c2 s with h | ⟨_, i, hi⟩
    · exact Or.inr h
    · exact Or.inl (hacc.len _ (List.mem_of_getElem? hi))

/-- Reading never leaves the tables or the file, for any bytes and any sequence of tables; and if only symbols are
read, the bits consumed are the writer's codes for them. -/
theorem C50_read_rewrites (pre S tail : List Nat) (m : Nat) (xs : List (List Code × List LutEntry))
    (hS : ∀ b ∈ S, b < 256) (hpre : pre ≠ []) (hlast : pre.getLast? ≠ some 255) (hm : m ≠ 0)
    (hx : ∀ x ∈ xs, FromFile x) :
    ∃ r vs r', Reader.reset (pre ++ (stuff S ++ 255 :: m :: tail)) pre.length = some r ∧
      readSymbols (pre ++ (stuff S ++ 255 :: m :: tail)) (xs.map Prod.snd) r = some (vs, r') ∧ vs.length = xs.length ∧
      ((∀ v ∈ vs, v < 256) → (symbolBits (xs.map Prod.fst) vs).length ≤ 8 * S.length →
        (S.flatMap (msb 8)).take (symbolBits (xs.map Prod.fst) vs).length = symbolBits (xs.map Prod.fst) vs) := by
  have hp : Placed (pre ++ (stuff S ++ 255 :: m :: tail)) pre S := ⟨⟨m, tail, hm, rfl⟩, hS, hpre, hlast⟩
  obtain ⟨r, T, e1, h1, u1⟩ := reset_inv hp
  obtain ⟨vs, r', X, g1, g2, g3, g4, _⟩ := symbols_run hp xs hx h1
  refine ⟨r, vs, r', e1, g1, g2, ?_⟩
  intro hv hfit
  obtain ⟨k1, k2, k3⟩ := g4 hv
  rw [u1, List.drop_zero, take_agree g3.agree hfit (by omega)] at k3
  exact k3

/-- The other direction: wherever the writer's codes for symbols of the tables stand, these symbols are read.  (No
code is a prefix of another, and a code does not depend on what follows it.) -/
theorem C50_written_reads (pre S tail : List Nat) (m : Nat) (xs : List (List Code × List LutEntry)) (ss : List Nat)
    (hS : ∀ b ∈ S, b < 256) (hpre : pre ≠ []) (hlast : pre.getLast? ≠ some 255) (hm : m ≠ 0)
    (hx : ∀ x ∈ xs, FromFile x) (hl : ss.length = xs.length)
    (hsym : ∀ z ∈ xs.zip ss, (codeTable z.1.1).depth z.2 ≠ 127)
    (hbits : ∃ more, S.flatMap (msb 8) = symbolBits (xs.map Prod.fst) ss ++ more) :
    ∃ r r', Reader.reset (pre ++ (stuff S ++ 255 :: m :: tail)) pre.length = some r ∧
      readSymbols (pre ++ (stuff S ++ 255 :: m :: tail)) (xs.map Prod.snd) r = some (ss, r') := by
  have hp : Placed (pre ++ (stuff S ++ 255 :: m :: tail)) pre S := ⟨⟨m, tail, hm, rfl⟩, hS, hpre, hlast⟩
  obtain ⟨r, T, e1, h1, u1⟩ := reset_inv hp
  obtain ⟨vs, r', X, g1, g2, g3, _, g5⟩ := symbols_run hp xs hx h1
  obtain ⟨more, hbits⟩ := hbits
  have hb : bitsMsb S = symbolBits (xs.map Prod.fst) ss ++ more := hbits
  have hbl := congrArg List.length hb
  rw [bitsMsb_length, List.length_append] at hbl
  have := g5 ss hl hsym (by omega) (by rw [u1, List.drop_zero, hb, List.take_left])
  rw [← this]
  exact ⟨r, r', e1, g1⟩

/-! ## Witnesses -/

/-- A table with codes of 1, 2, 9, 10 and 10 bits, so that a second-level table is needed; the last one is the
invalid symbol. -/
def huffDemo : List Nat × List Nat := ([1, 1, 0, 0, 0, 0, 0, 0, 1, 1, 0, 0, 0, 0, 0, 0], [5, 0, 17, 240])

example : (match readTable true huffDemo.1 huffDemo.2 (List.replicate 1024 LutEntry.fresh) with
    | some (some (cs, t)) => cs == [(1, 5), (2, 0), (9, 17), (10, 240), (10, 256)] &&
        t[191]? == some ⟨2, 0⟩ && t[192]? == some ⟨10, 64⟩ && t[256]? == some ⟨1, 17⟩ && t[258]? == some ⟨2, 240⟩ &&
        (codeTable cs).depth 17 == 9 && (codeTable cs).code 17 == 0b110000000 && (codeTable cs).depth 7 == 127
    | _ => false) = true := by decide +kernel

theorem C50_demo_accepted (T : List LutEntry) (hT : Slot T)
    (h : (match readTable true huffDemo.1 huffDemo.2 T with
      | some (some (cs, _)) => cs == [(1, 5), (2, 0), (9, 17), (10, 240), (10, 256)]
      | _ => false) = true) :
    ∃ x, FromFile x ∧ x.1 = [(1, 5), (2, 0), (9, 17), (10, 240), (10, 256)] := by
  generalize e : readTable true huffDemo.1 huffDemo.2 T = r at h
  match r, e, h with
  | some (some (cs, t)), e, h => exact ⟨(cs, t), ⟨_, _, _, _, hT, rfl, by decide, e⟩, by simpa using h⟩

example : ∃ x, FromFile x ∧ x.1 = [(1, 5), (2, 0), (9, 17), (10, 240), (10, 256)] :=
  C50_demo_accepted _ Slot.fresh (by decide +kernel)

/-- An overfull table is refused, an empty one accepted. -/
example : readTable false (3 :: List.replicate 15 0) [1, 2, 3] (List.replicate 1024 LutEntry.fresh) = some none := by
  decide +kernel
example : (match readTable false (List.replicate 16 0) [] (List.replicate 1024 LutEntry.fresh) with
    | some (some (cs, _)) => cs == [(1, 256)] | _ => false) = true := by decide +kernel

end Jxl.Props
