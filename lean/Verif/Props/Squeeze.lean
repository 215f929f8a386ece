import Verif.Lemmas.SqueezeDefault
/-!
# C18: the squeeze transform is lossless

`none` of the forward direction is undefined behaviour (32-bit overflow); the theorems are about executions without it.  The
bound 2^29 on the samples, which excludes it, is far above what any image of at most 24 bits per sample needs.
-/
namespace Jxl.Props
open Jxl.Modular Jxl.Modular.Squeeze

/-- Squeezing a row of any length and unsqueezing it returns the row. -/
theorem C18_row_round_trip (p avg res : List Px) (h : fwdRow p = some (avg, res)) : invRow avg res = some p :=
  invRow_fwdRow p avg res h

/-- The same for the rows of a channel squeezed vertically: all columns at once. -/
theorem C18_columns_round_trip (p avg res : List (List Px)) (h : fwdSeq rowOps p = some (avg, res)) :
    invSeq (rowStep unpairAll) avg res = some p :=
  invCols_fwdCols p avg res h

/-- Squeezing is defined, without overflow, on every row of samples below 2^29 in magnitude, and halves the length. -/
theorem C18_row_defined (p : List Px) (hp : ∀ x ∈ p, -2 ^ 29 < x.toInt ∧ x.toInt < 2 ^ 29) :
    ∃ avg res, fwdRow p = some (avg, res) ∧ avg.length = (p.length + 1) / 2 ∧ res.length = p.length / 2 := by
  obtain ⟨a, r, h⟩ := fwdSeq_defined pxOps Small average_small residual_small p (fun x hx => by
    have := hp x hx; unfold Small; omega)
  obtain ⟨h1, h2, _⟩ := fwdSeq_spec pxOps p a r h
  exact ⟨a, r, h, h1, by omega⟩

/-- One lane of the vector code computes what the scalar code computes, when the differences of neighbouring values do not
reach 2^30 and the reconstructed difference is representable. -/
theorem C18_lane (r m n l : Px) (h1 : (l.toInt - m.toInt).natAbs < 2 ^ 30) (h2 : (m.toInt - n.toInt).natAbs < 2 ^ 30)
    (h3 : (l.toInt - n.toInt).natAbs < 2 ^ 30)
    (h4 : -2 ^ 31 ≤ r.toInt + tendency l.toInt m.toInt n.toInt ∧ r.toInt + tendency l.toInt m.toInt n.toInt < 2 ^ 31) :
    lane r m n l = unpair r m n l :=
  lane_eq r m n l ⟨by omega, by omega, by omega, by simp only [minPx]; omega, by simp only [maxPx]; omega⟩

/-- Undoing any list of squeezes of an image: whenever the scalar code meets no 32-bit overflow, the vector code gives the same
image, whatever was in its uninitialised buffer. -/
theorem C18_vector_is_scalar (ps : List Params) (img o : Image) (odd0 : List Px) (ho : odd0.length = 8)
    (h : invAll checkedK ps img = some o) : invAll (vectorK odd0) ps img = some o ∧ invAll scalarK ps img = some o :=
  ⟨invAll_mono (checked_le_vector odd0 ho) ps img o h, invAll_mono checked_le_scalar ps img o h⟩

/-- Any list of squeezes the decoder accepts: undoing what the encoder did returns the image. -/
theorem C18_image_round_trip (ps : List Params) (chs out : List Channel) (nb nb' : Nat) (gs' : List Geom)
    (hw : ∀ c ∈ chs, c.Wf) (h : fwdAll ps chs = some out) (hm : metaAll ps (nb, chs.map geom) = some (nb', gs')) :
    invAll scalarK ps { channel := out, nbMeta := nb' } = some { channel := chs, nbMeta := nb } := by
  refine invAll_fwdAll scalarK (fun _ => True) (fun p c a r _ hc har => scalar_kernel p c a r hc har) ps chs out nb nb' _ gs' h hm hw ?_
  clear h hm hw gs' out nb nb'
  induction ps generalizing chs with
  | nil => trivial
  | cons p ps ih => exact ⟨fun _ _ => trivial, fun c' _ => ih c'⟩

/-- The channels the decoder announces to itself, and decodes samples for, have the sizes and shifts of the channels the encoder
wrote (squeezes of meta channels, whose shifts are negative, excepted). -/
theorem C18_announced_channels (ps : List Params) (chs out : List Channel) (nb nb' : Nat) (gs' : List Geom)
    (h : fwdAll ps chs = some out) (hm : metaAll ps (nb, chs.map geom) = some (nb', gs')) (hp : ∀ p ∈ ps, nb ≤ p.beginC)
    (hs : ShiftsOk nb chs) : nb' = nb ∧ gs' = out.map geom :=
  ⟨metaAll_front nb ps chs out hp h nb' _ gs' hm, metaAll_geom nb ps chs out hp h hs nb' gs' hm⟩

/-- The default squeezes of any image with samples below 2^29 in magnitude are defined, and the decoder, with vectors or
without, returns the image. -/
theorem C18_default_round_trip (img : Image) (hn : img.nbMeta < img.channel.length) (hw : ∀ c ∈ img.channel, c.Wf)
    (hs : ∀ c ∈ img.channel, ∀ r ∈ c.rows, ∀ x ∈ r, -2 ^ 29 < x.toInt ∧ x.toInt < 2 ^ 29) :
    ∃ ps out, defaultParams img.nbMeta (img.channel.map geom) = some ps ∧ fwdAll ps img.channel = some out ∧
      ∀ nb' gs', metaAll ps (img.nbMeta, img.channel.map geom) = some (nb', gs') →
        invAll scalarK ps { channel := out, nbMeta := nb' } = some img ∧
        ∀ odd0 : List Px, odd0.length = 8 → invAll (vectorK odd0) ps { channel := out, nbMeta := nb' } = some img := by
  obtain ⟨ps, hps⟩ : ∃ ps, defaultParams img.nbMeta (img.channel.map geom) = some ps := by
    unfold defaultParams
    rw [List.getElem?_eq_getElem (by simpa using hn)]
    exact ⟨_, rfl⟩
  have hf := defaultParams_front _ _ _ hps
  rw [List.length_map] at hf
  obtain ⟨hsq, out, hout⟩ := fwdAll_front img.channel.length ps img.channel (fun p hp => (hf p hp).1) (Nat.le_refl _) hw
    (fun c hc r hr x hx => by
      have := hs c (List.mem_of_mem_take hc) r hr x hx
      unfold Small; omega)
  refine ⟨ps, out, hps, hout, ?_⟩
  intro nb' gs' hm
  have hch := invAll_fwdAll checkedK SmallCh (fun p c a r hc hcw har => checked_kernel p c a r hcw hc har) ps img.channel out
    img.nbMeta nb' _ gs' hout hm hw hsq
  exact ⟨invAll_mono checked_le_scalar ps _ _ hch, fun odd0 ho => invAll_mono (checked_le_vector odd0 ho) ps _ _ hch⟩

/-- The default squeezes go on until what is left of the first channel is at most 8 by 8: the model's bound on the number of
iterations is not reached. -/
theorem C18_default_terminates (b n w h k : Nat) : defaultLoop b n (w + h + k) w h = defaultLoop b n (w + h) w h := by
  induction k with
  | zero => rfl
  | succ k ih => rw [show w + h + (k + 1) = w + h + k + 1 by omega, defaultLoop_fuel b n _ w h (by omega), ih]

/-! ## Cases -/

def sqRow : List Px := [3, 7, -2, 100, 41, 41, 5]

/-- A row of odd length. -/
example : fwdRow sqRow = some ([5, 49, 41, 5], [-3, -102, -29]) := by decide +kernel
example : invRow [5, 49, 41, 5] [-3, -102, -29] = some sqRow := by decide +kernel

/-- Overflow is possible: the largest and the smallest sample. -/
example : fwdRow [2147483647, -2147483648] = none := by decide +kernel

/-- The vector code is not the scalar code on overflow. -/
example : lane 0 (-2147483648) 2147483647 (-2147483648) ≠ unpair 0 (-2147483648) 2147483647 (-2147483648) := by decide +kernel

/-- A 10 by 3 image of three channels, default squeezes. -/
def sqRows (k : Int) : List (List Px) :=
  [[1, 2, 30, 4, 5, 6, 7, 8, 9, 10], [0, 0, 0, 9, 9, 9, 1, 1, 1, 1], [5, 4, 3, 2, 1, 0, -1, -2, -3, -4]].map
    fun r => r.map fun x => x * BitVec.ofInt 32 k

def sqImg : Image :=
  { channel := [⟨10, 3, 0, 0, sqRows 1⟩, ⟨10, 3, 0, 0, sqRows 2⟩, ⟨10, 3, 0, 0, sqRows (-3)⟩], nbMeta := 0 }

example : (defaultParams 0 (sqImg.channel.map geom)).map List.length = some 3 := by decide +kernel
example : ((defaultParams 0 (sqImg.channel.map geom)).bind fun ps => (fwdAll ps sqImg.channel).map List.length) = some 10 := by
  decide +kernel
example : ((defaultParams 0 (sqImg.channel.map geom)).bind fun ps => (metaAll ps (0, sqImg.channel.map geom)).map (·.2.length)) =
    some 10 := by decide +kernel
example : ((defaultParams 0 (sqImg.channel.map geom)).bind fun ps => (fwdAll ps sqImg.channel).bind fun out =>
    invAll (vectorK (List.replicate 8 77)) ps { channel := out, nbMeta := 0 }) = some sqImg := by decide +kernel

/-- Eight rows of 40 samples take the vector path. -/
def sqWide : List (List Px) := (List.range 8).map fun y => (List.range 40).map fun x => BitVec.ofNat 32 (x * x * (y + 3) % 251)

example : ((mapRows2 fwdRow sqWide).bind fun (a, r) => invRowsVec (List.replicate 8 9) 8 0 a r) = some sqWide := by decide +kernel
example : ((fwdRow (sqWide.getD 1 [])).bind fun (a, r) => (vecPart true (List.replicate 8 9) a r).map (·.1)) = some 16 := by
  decide +kernel

end Jxl.Props
