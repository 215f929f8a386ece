import Verif.Props.JpegWhole
/-!
# C59: the coefficients of a JPEG file in a JPEG XL file

Full statement: the coefficients of every file that the encoder accepts come back.  It does not hold: see
`C59_dc_changed` and `C59_dc_clamped`.
-/
namespace Jxl.Props
open Jxl.Jpeg

/-- A block of any channel comes back, whatever the tables, the colour map and the rounding of DC coefficients, and
whether or not chroma is predicted: coefficients have at most 11 bits, and the DC coefficient is in the range of 8 bits per
sample when multiplied with the first entry of its table.  `y` is the block of channel 1 in the file. -/
theorem C59_block_back (code : Nat → Int → Int) (hcode : DcOk code) (qt : List Nat) (hq : ratiosOk qt = some true) (c : Nat) (hc : c < 3)
    (ycc cfl : Bool) (cm cm' : Int) (h1 : -128 ≤ cm) (h2 : cm ≤ 127) (q : Nat) (hq0 : qt.getD (64 * c) 0 = q) (hq1 : 1 ≤ q) (hq2 : q < 2 ^ 16)
    (b y y' : List Int) (hb : b.length = 64) (hbr : ∀ x ∈ b.drop 1, x.natAbs ≤ 2047) (hyr : ∀ x ∈ y, x.natAbs ≤ 2047)
    (hdc : (b.headD 0).natAbs * q ≤ 1024 + q) :
    acDefined qt cfl c cm y = true ∧
      decodeCoeffs qt cfl c cm (dcOffset ycc q) (code q (b.headD 0 + dcOffset ycc q)) (encodeAc qt false 1 cm' y' y) (encodeAc qt cfl c cm y b) = b := by
  have hd : acDefined qt cfl c cm y = true := ac_defined (fun p hp => scaled_le hq hc hp) h1 h2 hyr
  have h0 : (b.headD 0).natAbs ≤ 2047 := by
    apply Classical.byContradiction
    intro hn
    have h3 : 2048 * q ≤ (b.headD 0).natAbs * q := Nat.mul_le_mul_right _ (by omega)
    omega
  refine ⟨hd, (coeffs_back hb (fun x hx => Nat.le_trans (hbr x hx) (by omega)) h0 (coded_genuine hcode hq1 hq2 hdc ycc) hd fun _ i h1 h2 => ?_).1⟩
  rw [encodeAc_get _ _ _ _ _ _ h1 h2]
  rfl

/-- The integers coded for DC coefficients are the coefficients, if these are in the range of 8 bits per sample. -/
theorem C59_dc_exact (code : Nat → Int → Int) (hcode : DcOk code) (q : Nat) (hq1 : 1 ≤ q) (hq2 : q < 2 ^ 16) (v : Int)
    (hv : v.natAbs * q ≤ 1024 + q) (ycc : Bool) : code q (v + dcOffset ycc q) - dcOffset ycc q = v := by
  rw [coded_genuine hcode hq1 hq2 hv ycc]
  omega

example : DcOk exactDc ∧ (5 : Int).natAbs * 191 ≤ 1024 + 191 ∧ exactDc 191 (5 + dcOffset false 191) = 10 := ⟨exact_ok, by decide, by decide +kernel⟩

/-- With 191 in the table, the integer coded for a coefficient of 1000 is 1001, whatever the rounding errors: the step is
stored with 11 bits, the reciprocal the encoder multiplies with is not. -/
theorem C59_dc_changed (code : Nat → Int → Int) (hcode : DcOk code) : code 191 1000 = 1001 := coded_changed hcode

/-- A grey file of one or two blocks without AC coefficients. -/
def greyFile (q width : Nat) (dcCounts dcValues data : List Nat) : List Nat :=
  [255, 0xd8, 255, 0xdb, 0, 0x43, 0, q] ++ List.replicate 63 1 ++
    [255, 0xc0, 0, 11, 8, 0, 8, 0, width, 1, 1, 0x11, 0, 255, 0xc4, 0, 19 + dcValues.length, 0] ++ dcCounts ++
    List.replicate (16 - dcCounts.length) 0 ++ dcValues ++
    [255, 0xc4, 0, 20, 16, 1, 0, 0, 0, 0, 0, 0, 0, 0, 0, 0, 0, 0, 0, 0, 0, 0, 255, 0xda, 0, 8, 1, 1, 0, 0, 63, 0] ++ data ++ [255, 0xd9]

/-- A colour file of two blocks without subsampling. -/
def colour444 (qy qc : Nat) (dcValues acCounts acValues data : List Nat) : List Nat :=
  [255, 0xd8, 255, 0xdb, 0, 0x43, 0] ++ List.replicate 64 qy ++ [255, 0xdb, 0, 0x43, 1] ++ List.replicate 64 qc ++
    [255, 0xc0, 0, 17, 8, 0, 8, 0, 16, 3, 1, 0x11, 0, 2, 0x11, 1, 3, 0x11, 1, 255, 0xc4, 0, 21, 0, 1, 1] ++ List.replicate 14 0 ++ dcValues ++
    [255, 0xc4, 0, 19 + acValues.length, 16] ++ acCounts ++ List.replicate (16 - acCounts.length) 0 ++ acValues ++
    [255, 0xda, 0, 12, 3, 1, 0, 2, 0, 3, 0, 0, 63, 0] ++ data ++ [255, 0xd9]

/-- Through the codestream and back; the metadata are not compressed. -/
def there (e : Choices) (d : List Nat) : Option (Option (List Nat)) := andThen (transcode e id [] d) (reconstruct some)

/-- The encoder accepts a file with that coefficient; the decoder gives another file, without an error. -/
theorem C59_file_changed : ∃ d d' : List Nat, (∀ b ∈ d, b < 256) ∧ d' ≠ d ∧ d'.length = d.length ∧ there plainChoices d = some (some d') ∧
    (match readJpeg d with | some (some j) => (j.store 0 0).headD 0 == 1000 | _ => false) = true :=
  ⟨greyFile 191 8 [1] [10] [0x7d, 0x0f], greyFile 191 8 [1] [10] [0x7d, 0x2f], by decide +kernel⟩

/-- The sum of two differences of DC coefficients may be beyond 2047: the encoder accepts it, the decoder puts 2047 in its
place and gives another file, without an error. -/
theorem C59_dc_clamped : ∃ d d' : List Nat, (∀ b ∈ d, b < 256) ∧ d' ≠ d ∧ there plainChoices d = some (some d') ∧
    (match readJpeg d with | some (some j) => (j.store 0 1).headD 0 == 4094 | _ => false) = true :=
  ⟨greyFile 1 16 [1, 1] [11, 0] [0x7f, 0xf3, 0xff, 0, 0xbf], greyFile 1 16 [1, 1] [11, 0] [0x7f, 0xf4], by decide +kernel⟩

/-- The encoder that predicts chroma, always with the same map. -/
def boldChoices : Choices := ⟨true, fun _ _ _ => 127, exactDc⟩

/-- With such a coefficient in channel 1 the prediction of chroma overflows, which is undefined; without prediction the
same bytes do no harm. -/
theorem C59_overflow : ∃ d : List Nat, (∀ b ∈ d, b < 256) ∧ boldChoices.Ok ∧ transcode boldChoices id [] d = none ∧
    transcode plainChoices id [] d ≠ none :=
  ⟨colour444 255 1 [11, 0] [1] [0] [127, 244, 143, 254, 147], by decide +kernel,
    ⟨fun _ _ _ => (by show -128 ≤ (127 : Int) ∧ (127 : Int) ≤ 127; omega), exact_ok⟩,
    Option.isNone_iff_eq_none.mp (by decide +kernel), fun h => (by
      have : (transcode plainChoices id [] (colour444 255 1 [11, 0] [1] [0] [127, 244, 143, 254, 147])).isSome = true := by decide +kernel
      rw [h] at this
      cases this)⟩

/-- A colour file whose chroma coefficients are predicted (from 5 in channel 1, -4 and 6 become -18 and -8) comes back. -/
example : (match transcode boldChoices id [] (colour444 9 5 [3, 0] [1, 1] [0, 3] [122, 169, 171, 0, 137]) with
    | some (some t) => (List.range 3).map (fun c => (t.content.ac c 0).getD 8 0) == [-18, 5, -8] &&
        reconstruct some t == some (some (colour444 9 5 [3, 0] [1, 1] [0, 3] [122, 169, 171, 0, 137]))
    | _ => false) = true := by decide +kernel

end Jxl.Props
