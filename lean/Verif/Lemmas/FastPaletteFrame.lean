import Verif.Model.FastPaletteFrame
import Verif.Props.FastFrame
import Verif.Props.FastPalette
import Verif.Props.GroupHeader
import Verif.Lemmas.Palette
/-!
# The sections of the fast lossless encoder with a palette are read
-/
namespace Jxl.FastCode
open Jxl.Modular Jxl.Modular.Whole Jxl.Modular.GroupHeader MaTree
open Jxl.Props (SameShapes restored)
open Jxl.Huffman (dropZeros)

/-! ## Channels of any size -/

/-- A channel of small values: the palette or the indices. -/
structure Plane where
  w : Nat
  h : Nat
  rows : List (List (BitVec 16))

/-- Not empty, at most as large as a group, values below 512. -/
structure PlaneOk (p : Plane) : Prop where
  width : 1 ≤ p.w
  height : 1 ≤ p.h
  size : p.h * p.w ≤ 65536
  rows : p.rows.length = p.h
  values : ∀ r ∈ p.rows, r.length = p.w ∧ ∀ u ∈ r, In 9 0 u.toInt

/-- The channel of the decoder; both shifts are the same. -/
def Plane.channel (s : Int) (p : Plane) : Channel := ⟨p.w, p.h, s, s, p.rows.map (List.map wide)⟩

theorem plane_wf {p : Plane} (h : PlaneOk p) (s : Int) : (p.channel s).Wf := by
  refine ⟨by simp [Plane.channel, h.rows], fun r hr => ?_⟩
  obtain ⟨r', hr', rfl⟩ := List.mem_map.mp hr
  rw [List.length_map]
  exact (h.values r' hr').1

theorem small_window : Window 16 9 0 := ⟨Or.inl rfl, by decide, by decide, by decide, by decide⟩

theorem plane_tokens {p : Plane} (h : PlaneOk p) : ∃ rss, residualRows none p.rows = some rss ∧ rss.length = p.h ∧
    (∀ rs ∈ rss, rs.length = p.w ∧ ∀ r ∈ rs, r < 2 ^ 10) ∧
    ∀ ctx s, encLoop (pathGradient ctx) tokSub (p.channel s) () = some (some (rss.flatten.map fun r => (ctx, r))) := by
  obtain ⟨rss, k1, k2, k3, -⟩ := channel_tokens small_window 0 (c := p.channel 0) rfl h.values
  refine ⟨rss, k1, by rw [k2, h.rows], k3, fun ctx s => ?_⟩
  obtain ⟨rss', k1', -, -, k4'⟩ := channel_tokens small_window ctx (c := p.channel s) rfl h.values
  rw [k1] at k1'
  injection k1' with k1'
  rw [k4', k1']

theorem flatten_length {R : List (List Nat)} {w : Nat} (h : ∀ r ∈ R, r.length = w) : R.flatten.length = R.length * w := by
  induction R with
  | nil => simp
  | cons x l ih =>
    rw [List.flatten_cons, List.length_append, ih fun y hy => h y (by simp [hy]), h x (by simp), List.length_cons, Nat.succ_mul]
    omega

theorem padded_values (R : List (List Nat)) (pad : Nat → List Nat) : (R.mapIdx fun y r => (r, pad y)).flatMap (·.1) = R.flatten := by
  rw [List.flatMap_def]
  congr 1
  apply List.ext_getElem?
  intro i
  rw [List.getElem?_map, List.getElem?_mapIdx]
  cases R[i]? <;> rfl

/-- The tokens of the channels from number `j` on, up to channels that are not in this stream. -/
theorem encode_planes {hd : Wp.Header} {group nbMeta maxSize : Nat} {C : Nat → Channel} {R : Nat → List (List Nat)} {m : Nat} (h4 : m ≤ 4)
    (hC : ∀ c, c < m → (C c).w ≠ 0 ∧ (C c).h ≠ 0 ∧ tooLarge nbMeta maxSize c (C c) = false ∧
      ∀ ctx, encLoop (pathGradient ctx) tokSub (C c) () = some (some ((R c).flatten.map fun r => (ctx, r)))) {tail : List Channel}
    (ht : tail = [] ∨ ∃ d t, tail = d :: t ∧ tooLarge nbMeta maxSize m d = true) :
    ∀ (n j : Nat) (before : List Channel), before.length = j → j + n = m →
      encodeChannels (ticks fastDtree) hd fastTree group false nbMeta maxSize before ((List.range' j n).map C ++ tail) =
        some (some ((List.range' j n).flatMap fun c => (R c).flatten.map fun r => (3 - c, r)))
  | 0, j, before, hb, hj => by
    rcases ht with rfl | ⟨d, t, rfl, hd⟩
    · rfl
    · show encodeChannels _ _ _ _ _ _ _ _ (d :: t) = _
      rw [encodeChannels, hb, show j = m by omega, hd, if_pos rfl]
      rfl
  | n + 1, j, before, hb, hj => by
    obtain ⟨c1, c2, c3, c5⟩ := hC j (by omega)
    rw [List.range'_succ, List.map_cons, List.cons_append, encodeChannels, List.flatMap_cons, hb, c3, if_neg (by decide), if_neg (by omega),
      encode_fast (by omega) c1 c2, c5]
    dsimp only
    rw [encode_planes h4 hC ht n (j + 1) (before ++ [C j]) (by simp [hb]) (by omega), hb]
    rfl

/-- Channels of small values, written with codes of eleven symbols, reach the decoder. -/
theorem planes_lossless (chans : List Chan) (h4 : chans.length = 4) (hok : ∀ ch ∈ chans, ChanOk ch ∧ (dropZeros ch.raw).length = 11) :
    ∃ codes hs hb dc, chans.mapM (fun ch => prefixCode ch.lo ch.hi ch.raw ch.lz) = some codes ∧ writeStreamHeader codes = some hs ∧
      (∀ more : List (Nat × Nat), emit 0 (hs ++ more) = hb ++ emit 0 more) ∧
      (∀ (env : Stream.Env) (rest : List Bool), Stream.EnvOk env → Stream.decodeHistograms env 4 (hb ++ rest) = .ok (dc, rest)) ∧
      ∀ (m : Nat) (P : Nat → Plane) (k : Nat) (pad : Nat → Nat → List Nat), m ≤ 4 → 1 ≤ k → (∀ c, c < m → PlaneOk (P c)) →
        (∀ c, c < m → ∀ y, ((P c).w + (k - 1)) / k * k ≤ (P c).w + (pad c y).length) →
        ∃ (R : Nat → List (List Nat × List Nat)) (wss : List (List (Nat × Nat))), (∀ c, c < m → planeResiduals (P c).rows (pad c) = some (R c)) ∧
          writeChannels k codes ((List.range m).map R) = some wss ∧ (∀ ws ∈ wss, ∀ w ∈ ws, w.2 < 2 ^ w.1) ∧
          ∀ (mult : Nat) (rest : List Bool) (ci : CodeInfo) (hd : Wp.Header) (group nbMeta maxSize : Nat) (sh : Nat → Int) (tail ds : List Channel), mult ≠ 0 → hd.Ok →
            (∀ c, c < m → tooLarge nbMeta maxSize c ((P c).channel (sh c)) = false) →
            (tail = [] ∨ ∃ d t, tail = d :: t ∧ tooLarge nbMeta maxSize m d = true) → (∀ c ∈ tail, c.Wf) →
            SameShapes ((List.range m).map (fun c => (P c).channel (sh c)) ++ tail) ds →
            ∃ st0 st, Stream.start dc.tables (wss.flatMap (emit 0) ++ rest) = .ok st0 ∧
              decodeChannels (ticks fastDtree) ci hd fastTree dc.map group (entropyReader dc mult) nbMeta maxSize [] ds (.ok st0) =
                some (restored nbMeta maxSize 0 ((List.range m).map (fun c => (P c).channel (sh c)) ++ tail) ds, .ok st) ∧
              st.bits = rest ∧ Stream.finalOk st = true := by
  obtain ⟨codes, hs, hb, dc, e1, e2, e3, e0, e4, e5⟩ := Props.C62_section_read_back chans h4 fun ch hch => (hok ch hch).1
  refine ⟨codes, hs, hb, dc, e1, e2, e0, e4, fun m P k pad hm hk hP hpad => ?_⟩
  let R : Nat → List (List Nat) := fun c => (residualRows none (P c).rows).getD []
  have hR : ∀ c, c < m → residualRows none (P c).rows = some (R c) ∧ (R c).length = (P c).h ∧ (∀ rs ∈ R c, rs.length = (P c).w ∧ ∀ r ∈ rs, r < 2 ^ 10) ∧
      ∀ ctx s, encLoop (pathGradient ctx) tokSub ((P c).channel s) () = some (some ((R c).flatten.map fun r => (ctx, r))) := by
    intro c hc
    obtain ⟨rss, k1, k2⟩ := plane_tokens (hP c hc)
    have : R c = rss := by
      show Option.getD _ _ = _
      rw [k1]
      rfl
    rw [this]
    exact ⟨k1, k2⟩
  have hRows : RowsOk k chans ((List.range m).map fun c => (R c).mapIdx fun y r => (r, pad c y)) := by
    intro j ch rows h1 h2
    rw [List.getElem?_map] at h2
    obtain ⟨c, hc, rfl⟩ := Option.map_eq_some_iff.mp h2
    obtain ⟨hj, hc⟩ := List.getElem?_eq_some_iff.mp hc
    rw [List.getElem_range] at hc
    subst hc
    rw [List.length_range] at hj
    obtain ⟨-, l1, l2, -⟩ := hR j hj
    rw [padded_values]
    refine ⟨?_, fun v hv => ?_, fun r hr => ?_⟩
    · rw [flatten_length fun r hr => (l2 r hr).1, l1]
      exact (hP j hj).size
    · obtain ⟨rs, q1, q2⟩ := List.mem_flatten.mp hv
      rw [(hok ch (List.mem_of_getElem? h1)).2]
      exact (l2 rs q1).2 v q2
    · obtain ⟨i, hi, rfl⟩ := List.mem_mapIdx.mp hr
      have q := (l2 _ (List.getElem_mem hi)).1
      unfold RowOk
      dsimp only
      rw [q]
      exact hpad j hj i
  obtain ⟨wss, w1, w2, w3⟩ := e5 k _ hk (by rw [List.length_map, List.length_range]; omega) hRows
  refine ⟨fun c => (R c).mapIdx fun y r => (r, pad c y), wss, fun c hc => ?_, w1, fun ws hws w hw => (w2 ws hws w hw).1,
    fun mult rest ci hd group nbMeta maxSize sh tail ds hmu hhd hsm ht htw hsame => ?_⟩
  · unfold planeResiduals
    rw [(hR c hc).1]
    rfl
  obtain ⟨s, s1, s2⟩ := w3 mult rest hmu
  obtain ⟨st0, hstart⟩ : ∃ st0, Stream.start dc.tables (wss.flatMap (emit 0) ++ rest) = .ok st0 := by
    unfold Stream.decode at s2
    cases hst : Stream.start dc.tables (wss.flatMap (emit 0) ++ rest) with
    | ok st0 => exact ⟨st0, rfl⟩
    | ub => rw [hst] at s2; cases s2
    | deep => rw [hst] at s2; cases s2
    | bad => rw [hst] at s2; cases s2
  unfold Stream.decode at s2
  rw [hstart] at s2
  replace s2 : Stream.readValues dc mult _ st0 = _ := s2
  have hdel := delivers_values _ _ _ _ s2
  have hz := zip_contexts (R := R) (pad := pad) m 0
  rw [← List.range_eq_range'] at hz
  rw [hz, e3] at hdel
  have hwf : ∀ c ∈ (List.range m).map (fun c => (P c).channel (sh c)) ++ tail, c.Wf := by
    intro c hc
    rcases List.mem_append.mp hc with hc | hc
    · obtain ⟨i, hi, rfl⟩ := List.mem_map.mp hc
      exact plane_wf (hP i (List.mem_range.mp hi)) _
    · exact htw c hc
  have henc := encode_planes (hd := hd) (group := group) (nbMeta := nbMeta) (maxSize := maxSize) (C := fun c => (P c).channel (sh c)) (R := R) hm
    (fun c hc => ⟨show (P c).w ≠ 0 by have := (hP c hc).width; omega, show (P c).h ≠ 0 by have := (hP c hc).height; omega, hsm c hc, fun ctx => (hR c hc).2.2.2 ctx _⟩) ht m 0 [] rfl (by omega)
  rw [← List.range_eq_range'] at henc
  have hdec := Props.C20_image_partial fastTree_wf fastTree_ok hhd group nbMeta maxSize ci (entropyReader dc mult) _ ds [] _ _ _ (by simp) hwf hsame (Or.inl fastTree_noBoundary) henc hdel
  exact ⟨st0, _, hstart, by rw [e3]; exact hdec, rfl, rfl⟩

/-! ## Palette and indices -/

/-- Whatever the choice of the palette was, the index of each pixel is that of its own colour. -/
structure Faithful (nb w h stride : Nat) (buf : List Nat) (colours : List Nat) (lookup : Nat → Nat) : Prop where
  count : colours.length + 1 ≤ 512
  exact : ∀ x < w, ∀ y < h, storedColour colours (indexOf lookup (Props.pixelColour nb stride buf y x)) = some (Props.pixelColour nb stride buf y x)

theorem Faithful.index {nb w h stride : Nat} {buf colours : List Nat} {lookup : Nat → Nat} (hf : Faithful nb w h stride buf colours lookup) {x y : Nat} (hx : x < w) (hy : y < h) :
    indexOf lookup (Props.pixelColour nb stride buf y x) < colours.length + 1 := by
  have := hf.exact x hx y hy
  unfold storedColour at this
  have := (List.getElem?_eq_some_iff.mp this).1
  simpa using this

theorem colourByte_at {r : List Nat} (hb : ∀ b ∈ r, b < 256) (pos : Nat) {c nb : Nat} (hc : c < nb) : colourByte c (bytesAt r pos nb) = r.getD (pos + c) 0 := by
  have h255 : (0xFF : Nat) = 2 ^ 8 - 1 := by decide
  unfold colourByte
  rw [h255, Nat.and_two_pow_sub_one_eq_mod, Nat.shiftRight_eq_div_pow, Nat.pow_mul]
  show bytesAt r pos nb / 256 ^ c % 256 = _
  obtain ⟨k, rfl⟩ := Nat.exists_eq_add_of_lt hc
  have e1 := bytesAt_mod hb pos (c + 1) k
  have e2 := bytesAt_mod hb pos c (1 + k)
  rw [show c + 1 + k = c + k + 1 by omega] at e1
  rw [show c + (1 + k) = c + k + 1 by omega] at e2
  rw [Nat.mod_pow_succ, e2, bytesAt] at e1
  exact Nat.eq_of_mul_eq_mul_left (Nat.pow_pos (by decide)) (Nat.add_left_cancel e1)

theorem small_in {v : Nat} (h : v < 512) : In 9 0 (BitVec.ofNat 16 v).toInt := by
  rw [toInt_ofNat_small (Or.inl rfl) (by unfold quarter; omega)]
  unfold In
  omega

theorem wide_ofNat {v : Nat} (h : v < 512) : wide (BitVec.ofNat 16 v) = BitVec.ofNat 32 v := by
  unfold wide
  rw [toInt_ofNat_small (Or.inl rfl) (by unfold quarter; omega), BitVec.ofInt_natCast]

theorem colourByte_lt (c p : Nat) : colourByte c p < 256 := by
  have h255 : (0xFF : Nat) = 2 ^ 8 - 1 := by decide
  unfold colourByte
  rw [h255, Nat.and_two_pow_sub_one_eq_mod]
  exact Nat.mod_lt _ (by decide)

/-- The palette. -/
def palettePlane (nb : Nat) (colours : List Nat) : Plane := ⟨colours.length + 1, nb, paletteRows nb colours⟩

theorem palettePlane_ok {nb : Nat} (h1 : 1 ≤ nb) (h4 : nb ≤ 4) {colours : List Nat} (hn : colours.length + 1 ≤ 512) : PlaneOk (palettePlane nb colours) := by
  refine ⟨by simp [palettePlane], h1, ?_, by simp [palettePlane, paletteRows], fun r hr => ?_⟩
  · show nb * (colours.length + 1) ≤ 65536
    exact Nat.le_trans (Nat.mul_le_mul h4 hn) (by decide)
  · obtain ⟨c, -, rfl⟩ := List.mem_map.mp hr
    refine ⟨by simp [palettePlane], fun u hu => ?_⟩
    obtain ⟨p, -, rfl⟩ := List.mem_map.mp hu
    exact small_in (Nat.lt_trans (colourByte_lt c p) (by decide))

/-- The indices of an area. -/
def indexPlane (nb : Nat) (lookup : Nat → Nat) (stride : Nat) (buf : List Nat) (x0 y0 xs ys : Nat) : Plane :=
  ⟨xs, ys, (List.range ys).map fun y => (List.range xs).map fun x => BitVec.ofNat 16 (indexOf lookup (Props.pixelColour nb stride buf (y0 + y) (x0 + x)))⟩

theorem indexPlane_ok {nb w h stride : Nat} {buf colours : List Nat} {lookup : Nat → Nat} (hf : Faithful nb w h stride buf colours lookup) {x0 y0 xs ys : Nat}
    (hx1 : 1 ≤ xs) (hy1 : 1 ≤ ys) (hx2 : xs ≤ 256) (hy2 : ys ≤ 256) (hx : x0 + xs ≤ w) (hy : y0 + ys ≤ h) : PlaneOk (indexPlane nb lookup stride buf x0 y0 xs ys) := by
  refine ⟨hx1, hy1, Nat.mul_le_mul hy2 hx2, by simp [indexPlane], fun r hr => ?_⟩
  obtain ⟨y, hy', rfl⟩ := List.mem_map.mp hr
  rw [List.mem_range] at hy'
  refine ⟨by simp [indexPlane], fun u hu => ?_⟩
  obtain ⟨x, hx', rfl⟩ := List.mem_map.mp hu
  rw [List.mem_range] at hx'
  have := hf.index (x := x0 + x) (y := y0 + y) (by omega) (by omega)
  have := hf.count
  exact small_in (by omega)

theorem indexRows_eq {nb w h stride : Nat} {buf : List Nat} (hb : Props.BytesOk nb w h stride buf) (lookup : Nat → Nat) {x0 y0 xs ys : Nat}
    (hx : x0 + xs ≤ w) (hy : y0 + ys ≤ h) : indexRows nb lookup stride buf x0 y0 xs ys = some (indexPlane nb lookup stride buf x0 y0 xs ys).rows := by
  unfold indexRows
  refine mapM_some fun y hy' => ?_
  rw [List.mem_range] at hy'
  refine mapM_some fun x hx' => ?_
  rw [List.mem_range] at hx'
  have hin := hb.inside (y0 + y) (by omega)
  have hm : (x0 + x + 1) * nb ≤ w * nb := Nat.mul_le_mul_right _ (by omega)
  rw [Nat.add_mul, Nat.add_mul, Nat.one_mul] at hm
  have hc : stride * (y0 + y) = (y0 + y) * stride := Nat.mul_comm _ _
  unfold loadPixel
  rw [loadBytes_eq (fun b hb' => hb.octets b (List.mem_of_mem_drop hb')) _ _ (by rw [List.length_drop]; omega), bytesAt_drop, Option.map_some]
  unfold Props.pixelColour
  rw [hc, Nat.add_mul x0, Nat.add_assoc]

/-! ## The image made of palette and indices -/

theorem mapOpt_rows {f : Px → Option Px} {w h : Nat} {g : Nat → Nat → Px} {v : Nat → Nat → Px} (hf : ∀ y < h, ∀ x < w, f (g y x) = some (v y x)) :
    Palette.mapOpt (Palette.mapOpt f) ((List.range h).map fun y => (List.range w).map fun x => g y x) = some ((List.range h).map fun y => (List.range w).map fun x => v y x) := by
  have e : ∀ {α β γ : Type} (q : β → Option γ) (r : α → β) (l : List α), Palette.mapOpt q (l.map r) = Palette.mapOpt (fun a => q (r a)) l := by
    intro α β γ q r l
    induction l with
    | nil => rfl
    | cons a l ih => rw [List.map_cons, Palette.mapOpt, Palette.mapOpt, ih]
  rw [e]
  refine Palette.mapOpt_map fun y hy => ?_
  rw [e]
  exact Palette.mapOpt_map fun x hx => hf y (List.mem_range.mp hy) x (List.mem_range.mp hx)

/-- The whole channel of indices. -/
def indexChannel (nb : Nat) (lookup : Nat → Nat) (stride : Nat) (buf : List Nat) (w h : Nat) : Channel := (indexPlane nb lookup stride buf 0 0 w h).channel 0

theorem palette_undone {nb w h stride : Nat} {buf colours : List Nat} {lookup : Nat → Nat} (hb : Props.BytesOk nb w h stride buf) (hf : Faithful nb w h stride buf colours lookup)
    (hw : 1 ≤ w) (guess : Nat → List (List Px) → List Px → Int) (depth : Nat) :
    Palette.invPalette guess true ⟨[(palettePlane nb colours).channel (-1), indexChannel nb lookup stride buf w h], 1⟩ 0 0 depth =
      some (some ⟨(List.range nb).map fun c => ⟨w, h, 0, 0, (List.range h).map fun y => (List.range w).map fun x => BitVec.ofNat 32 (buf.getD (y * stride + x * nb + c) 0)⟩, 0⟩) := by
  obtain ⟨h1, h4⟩ := hb.chans
  have hcount := hf.count
  have hval : ∀ c < nb, ∀ x < w, ∀ y < h, Palette.getPaletteValue ((palettePlane nb colours).channel (-1)).rows
      ((indexOf lookup (Props.pixelColour nb stride buf y x) : Nat) : Int) c (colours.length + 1) (min depth 24) =
      some (BitVec.ofNat 32 (buf.getD (y * stride + x * nb + c) 0)) := by
    intro c hc x hx y hy
    have hi := hf.index hx hy
    have he := hf.exact x hx y hy
    unfold storedColour at he
    generalize hj : indexOf lookup (Props.pixelColour nb stride buf y x) = j at *
    unfold Palette.getPaletteValue
    rw [if_neg (by omega), if_neg (by omega), if_neg (by omega), if_neg (by omega), Int.toNat_natCast]
    have hrow : ((palettePlane nb colours).channel (-1)).rows[c]? = some ((0 :: colours).map fun p => wide (BitVec.ofNat 16 (colourByte c p))) := by
      simp [palettePlane, Plane.channel, paletteRows, hc]
    rw [hrow, Option.bind_some, List.getElem?_map, he, Option.map_some]
    have h255 := colourByte_lt c (Props.pixelColour nb stride buf y x)
    rw [wide_ofNat (by omega)]
    unfold Props.pixelColour
    rw [colourByte_at hb.octets _ hc]
  have hint : ∀ x < w, ∀ y < h, (wide (BitVec.ofNat 16 (indexOf lookup (Props.pixelColour nb stride buf (0 + y) (0 + x))))).toInt =
      ((indexOf lookup (Props.pixelColour nb stride buf y x) : Nat) : Int) := by
    intro x hx y hy
    have hi := hf.index hx hy
    rw [Nat.zero_add, Nat.zero_add, wide_toInt (Or.inl rfl), toInt_ofNat_small (Or.inl rfl) (by unfold quarter; omega)]
  have hrows : ∀ c ∈ List.range nb, Palette.invRows guess true ((palettePlane nb colours).channel (-1)) 0 (min depth 24) (indexChannel nb lookup stride buf w h) c =
      some ((List.range h).map fun y => (List.range w).map fun x => BitVec.ofNat 32 (buf.getD (y * stride + x * nb + c) 0)) := by
    intro c hc
    rw [List.mem_range] at hc
    have hir : (indexChannel nb lookup stride buf w h).rows =
        (List.range h).map fun y => (List.range w).map fun x => wide (BitVec.ofNat 16 (indexOf lookup (Props.pixelColour nb stride buf (0 + y) (0 + x)))) := by
      simp only [indexChannel, Plane.channel, indexPlane, List.map_map, Function.comp_def]
    unfold Palette.invRows
    rw [if_neg (show (indexChannel nb lookup stride buf w h).w ≠ 0 from by show w ≠ 0; omega), if_pos ⟨rfl, rfl⟩, hir]
    show (if nb = 1 then Palette.inv1 _ (colours.length + 1) _ _ else Palette.invC _ (colours.length + 1) _ _ _) = _
    split
    · have hc0 : c = 0 := by omega
      subst hc0
      unfold Palette.inv1
      refine mapOpt_rows fun y hy x hx => ?_
      have hi := hf.index hx hy
      rw [hint x hx y hy]
      unfold Palette.clamp1
      rw [if_neg (by omega), if_neg (by omega)]
      exact hval 0 hc x hx y hy
    · unfold Palette.invC
      refine mapOpt_rows fun y hy x hx => ?_
      rw [hint x hx y hy]
      exact hval c hc x hx y hy
  unfold Palette.invPalette
  rw [if_neg (show ¬ (1 : Nat) < 1 by omega)]
  dsimp only [List.getElem?_cons_zero, List.getElem?_cons_succ]
  rw [if_neg (show ¬ ((palettePlane nb colours).channel (-1)).h < 1 from Nat.not_lt.mpr h1)]
  show (Palette.mapOpt _ (List.range nb)).bind _ = _
  rw [Palette.mapOpt_map hrows, Option.bind_some]
  simp [Palette.invMeta, indexChannel, Plane.channel, indexPlane, Function.comp_def]

/-! ## Header -/

theorem emit_flatten : ∀ {wss : List (List (Nat × Nat))}, (∀ ws ∈ wss, ∀ w ∈ ws, w.2 < 2 ^ w.1) → emit 0 wss.flatten = wss.flatMap (emit 0)
  | [], _ => rfl
  | ws :: wss, h => by
    have e := emit_fit [] ws (h ws (by simp))
    rw [List.append_nil, emit, List.append_nil] at e
    rw [List.flatten_cons, List.flatMap_cons, emit_fit _ _ (h ws (by simp)), emit_flatten fun x hx => h x (by simp [hx]), e]

/-- The header of an image with a palette. -/
def palHeader (nb n : Nat) : GroupHeader.Header := ⟨true, Wp.defaultHeader, [.palette 0 nb n 0 0]⟩

@[inherit_doc palHeader] def palHeaderWrites (nb n : Nat) : List (Nat × Nat) := [(1, 1), (1, 1)] ++ paletteHeader nb n

theorem pal_header_written : ∀ nb < 5, ∀ n < 513, 1 ≤ nb → GroupHeader.write (palHeader nb n) = some (bitsFor (palHeaderWrites nb n)) := by decide +kernel

theorem pal_header_read {nb n : Nat} (h1 : 1 ≤ nb) (h4 : nb ≤ 4) (hn : n ≤ 512) (rest : List Bool) :
    GroupHeader.read (bitsFor (palHeaderWrites nb n) ++ rest) = some (palHeader nb n, rest) := by
  have hok : GroupHeader.Ok (palHeader nb n) := by
    refine ⟨show Wp.defaultHeader.Ok by unfold Wp.Header.Ok; decide, by simp [palHeader], fun t ht => ?_⟩
    simp only [palHeader, List.mem_singleton] at ht
    subst ht
    exact ⟨by omega, by omega, by omega, by omega, by omega⟩
  obtain ⟨bits, b1, b2⟩ := Props.C65_round_trip _ hok
  rw [pal_header_written nb (by omega) n (by omega) h1] at b1
  injection b1 with b1
  rw [b1]
  exact b2 rest

theorem pal_header_fit {nb n : Nat} (h4 : nb ≤ 4) (hn : n ≤ 512) : ∀ w ∈ palHeaderWrites nb n, w.2 < 2 ^ w.1 := by
  intro w hw
  simp only [palHeaderWrites, paletteHeader, List.mem_append] at hw
  rcases hw with hw | ((hw | hw) | hw) | hw
  · simp at hw; subst hw; decide
  · simp at hw; rcases hw with rfl | rfl | rfl <;> decide
  · split at hw
    · simp at hw; subst hw; decide
    · split at hw
      · simp at hw; subst hw; decide
      · split at hw
        · simp at hw; subst hw; decide
        · simp at hw
          rcases hw with rfl | rfl
          · decide
          · show nb - 1 < 2 ^ 13
            omega
  · split at hw
    · simp at hw
      rcases hw with rfl | rfl
      · decide
      · show n < 2 ^ 8
        omega
    · simp at hw
      rcases hw with rfl | rfl
      · decide
      · show n - 256 < 2 ^ 10
        omega
  · simp at hw; rcases hw with rfl | rfl <;> decide

theorem pal_global_bits {nb n : Nat} (h4 : nb ≤ 4) (hn : n ≤ 512) {hs : List (Nat × Nat)} {hb : List Bool} (h : ∀ more, emit 0 (hs ++ more) = hb ++ emit 0 more)
    {wss : List (List (Nat × Nat))} (hw : ∀ ws ∈ wss, ∀ w ∈ ws, w.2 < 2 ^ w.1) :
    emit 0 (paletteGlobalWrites nb n hs ++ wss.flatten) =
      bitsFor [(1, 1), (1, 1)] ++ (bitsFor treeWrites ++ (hb ++ (bitsFor (palHeaderWrites nb n) ++ wss.flatMap (emit 0)))) := by
  have e : paletteGlobalWrites nb n hs = [(1, 1), (1, 1)] ++ (treeWrites ++ (hs ++ palHeaderWrites nb n)) := rfl
  rw [e, List.append_assoc, emit_fit _ _ (by decide), List.append_assoc, emit_fit _ _ (by decide), List.append_assoc, h, emit_fit _ _ (pal_header_fit h4 hn), emit_flatten hw]

/-! ## Channels -/

/-- The image that is decoded when a palette was announced. -/
theorem pal_meta {junk junk' : Nat → Nat → Nat → Px} {w h nb n : Nat} (h1 : 1 ≤ nb) : metaAllTr junk (palHeader nb n).transforms (Frame.frameImage junk' w h nb) =
    some ((palHeader nb n).transforms, ⟨[⟨n, nb, -1, -1, List.replicate nb (List.replicate n 0)⟩, blank (junk' 0) ⟨w, h, 0, 0⟩], 1⟩) := by
  have hlen : (Frame.frameImage junk' w h nb).channel.length = nb := by simp [Frame.frameImage]
  have heq : checkEqualChannels (Frame.frameImage junk' w h nb) 0 (nb - 1) = true := by
    have hsh := frame_shaped junk' w h nb
    unfold checkEqualChannels
    rw [if_neg (by omega), if_neg (by simp [Frame.frameImage]), List.getElem?_eq_getElem (by omega)]
    obtain ⟨a1, a2, a3, a4, -⟩ := hsh _ (List.getElem_mem (show 0 < (Frame.frameImage junk' w h nb).channel.length by omega))
    refine List.all_eq_true.mpr fun b hb => ?_
    obtain ⟨b1, b2, b3, b4, -⟩ := hsh b (List.mem_of_mem_drop (List.mem_of_mem_take hb))
    rw [a1, a2, a3, a4, b1, b2, b3, b4]
    simp
  have htake : (Frame.frameImage junk' w h nb).channel.take 1 = [blank (junk' 0) ⟨w, h, 0, 0⟩] := by
    obtain ⟨m, rfl⟩ := Nat.exists_eq_add_of_le h1
    simp only [Frame.frameImage, Nat.add_comm 1 m, List.range_succ_eq_map, List.map_cons]
    rfl
  have hdrop : (Frame.frameImage junk' w h nb).channel.drop (nb - 1 + 1) = [] := List.drop_eq_nil_of_le (by omega)
  simp only [palHeader, metaAllTr, metaTr, Nat.zero_add, Palette.metaPalette, heq, if_true, htake, hdrop, Nat.sub_zero, Nat.add_zero]
  rw [show nb - 1 + 1 = nb by omega]
  rfl

theorem decWidth_ge (nbMeta mx : Nat) : ∀ (ds : List Channel) (i acc : Nat), acc ≤ decWidth nbMeta mx i ds acc
  | [], _, _ => Nat.le_refl _
  | d :: ds, i, acc => by
    rw [decWidth]
    split
    · exact Nat.le_refl _
    · split
      · exact decWidth_ge nbMeta mx ds (i + 1) acc
      · refine Nat.le_trans ?_ (decWidth_ge nbMeta mx ds (i + 1) _)
        split <;> omega

/-- Channels of which the first one is a palette. -/
theorem pal_channels_read {env : Stream.Env} {dc : Stream.Code} {hd : GroupHeader.Header} {group mx w h : Nat} {p : Channel} {ds cs : List Channel} {s : List Bool} {st0 st : Stream.St}
    (hp : 1 ≤ p.w) (hq : 1 ≤ p.h) (hs : Shaped w h ds) (hgt : hd.globalTree = true) (hst : Stream.start dc.tables s = .ok st0)
    (hdec : decodeChannels (ticks fastDtree) (codeInfo dc) hd.wp fastTree dc.map group (entropyReader dc (decWidth 1 mx 0 (p :: ds) 0)) 1 mx [] (p :: ds) (.ok st0) = some (cs, .ok st))
    (hfin : Stream.finalOk st = true) :
    readChannels env (some (fastTree, dc)) hd group 256 mx ⟨p :: ds, 1⟩ s = .ok (⟨cs, 1⟩, st.bits) := by
  have hv : validDims 256 ⟨p :: ds, 1⟩ = validDims 256 ⟨ds, 0⟩ := rfl
  have hn : numCoded 1 mx 0 (p :: ds) ≠ 0 := by
    rw [numCoded, if_neg (by simp [tooLarge]), if_neg (by omega)]
    omega
  unfold readChannels
  rw [hv, shaped_valid (by decide) (by decide) hs]
  dsimp only
  rw [if_neg hn]
  unfold readCode
  rw [hgt, if_pos rfl]
  dsimp only
  rw [if_neg (by decide)]
  show readSamples hd group mx ⟨p :: ds, 1⟩ fastTree dc s = _
  unfold readSamples
  dsimp only
  rw [hst, ticksOf_eq fastTree_wf.rep (by rfl)]
  show (match decodeChannels (ticks fastDtree) (codeInfo dc) hd.wp fastTree dc.map group (entropyReader dc (decWidth 1 mx 0 (p :: ds) 0)) 1 mx [] (p :: ds) (.ok st0) with
    | none => _
    | some (chs, r) => _) = _
  rw [hdec]
  show (if Stream.finalOk st then Stream.Out.ok (_, st.bits) else .bad) = _
  rw [if_pos hfin]

/-! ## Small images -/

theorem caller_eq (nb stride w h : Nat) (buf : List Nat) : Props.callerImage ⟨1, false, nb, stride, 0, 0, w, h⟩ buf =
    ⟨(List.range nb).map fun c => ⟨w, h, 0, 0, (List.range h).map fun y => (List.range w).map fun x => BitVec.ofNat 32 (buf.getD (y * stride + x * nb + c) 0)⟩, 0⟩ := by
  unfold Props.callerImage
  congr 1
  refine List.map_congr_left fun c _ => ?_
  simp only [sampleChannel, Props.areaSample, Props.sampleAt, Props.bytePos, if_true, Nat.zero_add, Nat.mul_one, Nat.add_assoc]

/-- The palette as the decoder makes room for it. -/
def palRoom (nb n : Nat) : Channel := ⟨n, nb, -1, -1, List.replicate nb (List.replicate n 0)⟩

theorem palRoom_wf (nb n : Nat) : (palRoom nb n).Wf := by
  refine ⟨by simp [palRoom], fun r hr => ?_⟩
  rw [(List.mem_replicate.mp hr).2, List.length_replicate]
  rfl

theorem palRoom_width {nb n : Nat} (h1 : 1 ≤ nb) (ds : List Channel) : decWidth 1 256 0 (palRoom nb (n + 1) :: ds) 0 ≠ 0 := by
  have := decWidth_ge 1 256 ds (0 + 1) (if (palRoom nb (n + 1)).w > 0 then (palRoom nb (n + 1)).w else 0)
  have e : (palRoom nb (n + 1)).w = n + 1 := rfl
  have e' : (palRoom nb (n + 1)).h = nb := rfl
  rw [decWidth, if_neg (by simp [tooLarge]), if_neg (by omega)]
  rw [e, if_pos (by omega)] at this ⊢
  omega

theorem palette_final {nb w h stride : Nat} {buf colours : List Nat} {lookup : Nat → Nat} (hb : Props.BytesOk nb w h stride buf) (hf : Faithful nb w h stride buf colours lookup)
    (hw : 1 ≤ w) (u : Build) {g : Frame.Global} (hi : g.img = ⟨[(palettePlane nb colours).channel (-1), indexChannel nb lookup stride buf w h], 1⟩)
    (ht : g.undo = [.palette 0 nb (colours.length + 1) 0 0]) : Frame.finalImage u g = .ok (Props.callerImage ⟨1, false, nb, stride, 0, 0, w, h⟩ buf) := by
  unfold Frame.finalImage
  rw [hi, ht, caller_eq]
  show (match Palette.invPalette u.guess true ⟨[(palettePlane nb colours).channel (-1), indexChannel nb lookup stride buf w h], 1⟩ 0 0 u.depth with
    | none => Stream.Out.ub
    | some none => .bad
    | some (some i) => .ok i) = _
  rw [palette_undone hb hf hw]

theorem frame_ne {junk : Nat → Nat → Nat → Px} {w h nb : Nat} (h1 : 1 ≤ nb) : (Frame.frameImage junk w h nb).channel ≠ [] := by
  intro e
  have := congrArg List.length e
  simp [Frame.frameImage] at this
  omega

/-- Reading the first section of an image with a palette comes down to the channels. -/
theorem pal_global_read {env : Stream.Env} (henv : Stream.EnvOk env) {hb : List Bool} {dc : Stream.Code}
    (hdc : ∀ rest, Stream.decodeHistograms env 4 (hb ++ rest) = .ok (dc, rest)) (junk : Nat → Nat → Nat → Px) {w h nb n : Nat} (h1 : 1 ≤ nb) (h4 : nb ≤ 4) (hn : n ≤ 512) (s : List Bool)
    {cs : List Channel} {rest : List Bool}
    (hch : readChannels env (some (fastTree, dc)) (palHeader nb n) 0 256 256 ⟨[palRoom nb n, blank (junk 0) ⟨w, h, 0, 0⟩], 1⟩ s = .ok (⟨cs, 1⟩, rest)) :
    Frame.readGlobal env junk 256 w h nb (bitsFor [(1, 1), (1, 1)] ++ (bitsFor treeWrites ++ (hb ++ (bitsFor (palHeaderWrites nb n) ++ s)))) =
      .ok (⟨some (fastTree, dc), palHeader nb n, ⟨cs, 1⟩, [.palette 0 nb n 0 0], []⟩, rest) := by
  rw [global_read henv hdc]
  unfold readCoded
  rw [if_neg (frame_ne h1), pal_header_read h1 h4 hn]
  dsimp only
  rw [pal_meta h1]
  show ((readChannels env (some (fastTree, dc)) (palHeader nb n) 0 256 256 ⟨[palRoom nb n, blank (junk 0) ⟨w, h, 0, 0⟩], 1⟩ s).bind _).bind _ = _
  rw [hch]
  have hm : Frame.moveTransforms 256 ⟨cs, 1⟩ [.palette 0 nb n 0 0] = ([], [.palette 0 nb n 0 0]) := by
    unfold Frame.moveTransforms
    split <;> rfl
  show Stream.Out.ok _ = _
  rw [show (palHeader nb n).transforms = [.palette 0 nb n 0 0] from rfl, hm]

theorem pal_useFull (c : Option (List Node × Stream.Code)) (hd : GroupHeader.Header) (img : Image) (t : Tr) (m : List Tr) : Frame.useFull 256 ⟨c, hd, img, [t], m⟩ = true := by
  simp [Frame.useFull]

theorem palette_small (chans : List Chan) (h4 : chans.length = 4) (hok : ∀ ch ∈ chans, ChanOk ch ∧ (dropZeros ch.raw).length = 11) :
    ∃ codes, chans.mapM (fun ch => prefixCode ch.lo ch.hi ch.raw ch.lz) = some codes ∧
      ∀ (nb w h stride : Nat) (buf colours : List Nat) (lookup : Nat → Nat) (k : Nat) (pad : Nat → Nat → List Nat), Props.BytesOk nb w h stride buf →
        Faithful nb w h stride buf colours lookup → 1 ≤ w → w ≤ 256 → 1 ≤ h → h ≤ 256 → 1 ≤ k →
        (∀ y, (colours.length + 1 + (k - 1)) / k * k ≤ colours.length + 1 + (pad 0 y).length) → (∀ y, (w + (k - 1)) / k * k ≤ w + (pad 1 y).length) →
        ∃ bits, writePaletteSingle k codes nb colours lookup stride buf w h pad = some bits ∧
          ∀ (env : Stream.Env) (u : Build) (junk : Nat → Nat → Nat → Px) (rest : List Bool), Stream.EnvOk env →
            ∃ g, Frame.readGlobal env junk 256 w h nb (bits ++ rest) = .ok (g, rest) ∧ Frame.useFull 256 g = true ∧
              Frame.finalImage u g = .ok (Props.callerImage ⟨1, false, nb, stride, 0, 0, w, h⟩ buf) ∧
              ∀ stream minShift maxShift rect s, Frame.readGroup env u junk 256 g stream minShift maxShift rect s = .ok (⟨[], 0⟩, s) := by
  obtain ⟨codes, hs, hb, dc, e1, e2, e3, e4, e5⟩ := planes_lossless chans h4 hok
  refine ⟨codes, e1, fun nb w h stride buf colours lookup k pad hbuf hf hw1 hw2 hh1 hh2 hk hp0 hp1 => ?_⟩
  obtain ⟨hn1, hn4⟩ := hbuf.chans
  let P : Nat → Plane := fun c => if c = 0 then palettePlane nb colours else indexPlane nb lookup stride buf 0 0 w h
  have hP : ∀ c, c < 2 → PlaneOk (P c) := by
    intro c hc
    by_cases h0 : c = 0
    · subst h0
      exact palettePlane_ok hn1 hn4 hf.count
    · show PlaneOk (if c = 0 then _ else _)
      rw [if_neg h0]
      exact indexPlane_ok hf hw1 hh1 hw2 hh2 (by omega) (by omega)
  obtain ⟨R, wss, r1, w1, w2, w3⟩ := e5 2 P k pad (by decide) hk hP fun c hc y => by
    have : c = 0 ∨ c = 1 := by omega
    rcases this with rfl | rfl
    · exact hp0 y
    · exact hp1 y
  have r10 : planeResiduals (paletteRows nb colours) (pad 0) = some (R 0) := r1 0 (by decide)
  have r11 : planeResiduals (indexPlane nb lookup stride buf 0 0 w h).rows (pad 1) = some (R 1) := r1 1 (by decide)
  have w1 : writeChannels k codes [R 0, R 1] = some wss := w1
  refine ⟨_, by rw [writePaletteSingle, e2, r10, indexRows_eq hbuf lookup (by omega) (by omega), Option.bind_eq_bind, Option.bind_eq_bind, Option.bind_eq_bind, Option.bind_eq_bind]
                simp only [Option.bind_some, r11, w1]; rfl, fun env u junk rest henv => ?_⟩
  have hsh : Shaped w h [blank (junk 0) ⟨w, h, 0, 0⟩] := by
    intro d hd
    rw [List.mem_singleton.mp hd]
    exact ⟨rfl, rfl, rfl, rfl, blank_wf _ _⟩
  obtain ⟨st0, st, c1, c2, c3, c4⟩ := w3 (decWidth 1 256 0 [palRoom nb (colours.length + 1), blank (junk 0) ⟨w, h, 0, 0⟩] 0) rest (codeInfo dc) Wp.defaultHeader 0 1 256
    (fun c => if c = 0 then -1 else 0) [] [palRoom nb (colours.length + 1), blank (junk 0) ⟨w, h, 0, 0⟩] (palRoom_width hn1 _) (by unfold Wp.Header.Ok; decide)
    (fun c hc => by
      have : c = 0 ∨ c = 1 := by omega
      rcases this with rfl | rfl
      · rfl
      · show (decide (1 ≤ 1) && (decide (256 < w) || decide (256 < h))) = false
        simp; omega)
    (Or.inl rfl) (by simp) ⟨⟨rfl, rfl, rfl, rfl⟩, palRoom_wf _ _, ⟨rfl, rfl, rfl, rfl⟩, blank_wf _ _, trivial⟩
  have hres : restored 1 256 0 ((List.range 2).map (fun c => (P c).channel (if c = 0 then -1 else 0)) ++ []) [palRoom nb (colours.length + 1), blank (junk 0) ⟨w, h, 0, 0⟩] =
      [(palettePlane nb colours).channel (-1), indexChannel nb lookup stride buf w h] := by
    show restored 1 256 0 [(palettePlane nb colours).channel (-1), indexChannel nb lookup stride buf w h] _ = _
    rw [restored, if_neg (by omega), restored, if_neg (by show ¬ (1 ≤ 0 + 1 ∧ (256 < w ∨ 256 < h)); omega), restored]
    simp
  rw [hres] at c2
  have hch := pal_channels_read (env := env) (hd := palHeader nb (colours.length + 1)) (p := palRoom nb (colours.length + 1)) (by simp [palRoom]) hn1 hsh rfl c1 c2 c4
  rw [c3] at hch
  refine ⟨⟨some (fastTree, dc), palHeader nb (colours.length + 1), ⟨[(palettePlane nb colours).channel (-1), indexChannel nb lookup stride buf w h], 1⟩,
    [.palette 0 nb (colours.length + 1) 0 0], []⟩, ?_, pal_useFull _ _ _ _ _, palette_final hbuf hf hw1 u rfl rfl, ?_⟩
  · rw [pal_global_bits hn4 hf.count e3 w2]
    simp only [List.append_assoc]
    exact pal_global_read henv (fun r => e4 env r henv) junk hn1 hn4 hf.count _ hch
  · intro stream minShift maxShift rect s
    unfold Frame.readGroup
    have : (Frame.groupImage junk 256 minShift maxShift rect ⟨[(palettePlane nb colours).channel (-1), indexChannel nb lookup stride buf w h], 1⟩).channel = [] := by
      unfold Frame.groupImage
      dsimp only
      have : (decide ((indexChannel nb lookup stride buf w h).w ≤ 256 ∧ (indexChannel nb lookup stride buf w h).h ≤ 256)) = true := decide_eq_true ⟨hw2, hh2⟩
      rw [List.drop_succ_cons, List.drop_zero, List.dropWhile_cons_of_pos (p := fun c : Channel => decide (c.w ≤ 256 ∧ c.h ≤ 256)) this]
      rfl
    rw [if_pos this]

/-! ## Large images -/

/-- A channel of indices of the size of the frame of which some groups are done. -/
structure Filled (nb : Nat) (lookup : Nat → Nat) (stride : Nat) (buf : List Nat) (w h : Nat) (done : List (Nat × Nat)) (c : Channel) : Prop where
  shape : Shaped w h [c]
  value : ∀ y < h, ∀ x < w, (x / 256, y / 256) ∈ done →
    ((c.rows[y]?).bind fun r => r[x]?) = some (wide (BitVec.ofNat 16 (indexOf lookup (Props.pixelColour nb stride buf y x))))

theorem filled_all {nb : Nat} {lookup : Nat → Nat} {stride : Nat} {buf : List Nat} {w h : Nat} {done : List (Nat × Nat)} {c : Channel}
    (hf : Filled nb lookup stride buf w h done c) (hall : ∀ gx gy, gx * 256 < w → gy * 256 < h → (gx, gy) ∈ done) : c = indexChannel nb lookup stride buf w h := by
  obtain ⟨c1, c2, c3, c4, c5⟩ := hf.shape c (by simp)
  have hrows : c.rows = (indexChannel nb lookup stride buf w h).rows := by
    have hl1 : c.rows.length = h := by rw [← c2]; exact c5.1
    have hl2 : (indexChannel nb lookup stride buf w h).rows.length = h := by simp [indexChannel, Plane.channel, indexPlane]
    refine List.ext_getElem (by omega) fun y hy1 hy2 => ?_
    have hr1 : (c.rows[y]).length = w := by rw [← c1]; exact c5.2 _ (List.getElem_mem _)
    have hr2 : ((indexChannel nb lookup stride buf w h).rows[y]).length = w := by simp [indexChannel, Plane.channel, indexPlane]
    refine List.ext_getElem (by omega) fun x hx1 hx2 => ?_
    have hv := hf.value y (by omega) x (by omega) (hall _ _ (by omega) (by omega))
    rw [List.getElem?_eq_getElem hy1, Option.bind_some, List.getElem?_eq_getElem hx1] at hv
    injection hv with hv
    rw [hv]
    simp [indexChannel, Plane.channel, indexPlane]
  obtain ⟨cw, ch, ch1, ch2, cr⟩ := c
  dsimp only at c1 c2 c3 c4 hrows
  subst c1 c2 c3 c4 hrows
  rfl

theorem filled_place {nb : Nat} {lookup : Nat → Nat} {stride : Nat} {buf : List Nat} {w h : Nat} {done : List (Nat × Nat)} {c : Channel}
    (hf : Filled nb lookup stride buf w h done c) {gx gy : Nat} :
    Filled nb lookup stride buf w h ((gx, gy) :: done)
      (Frame.placeChannel (gx * 256) (gy * 256)
        ((indexPlane nb lookup stride buf (gx * 256) (gy * 256) (min (w - gx * 256) 256) (min (h - gy * 256) 256)).channel 0) c) := by
  obtain ⟨c1, c2, c3, c4, c5⟩ := hf.shape c (by simp)
  have hl1 : c.rows.length = h := by rw [← c2]; exact c5.1
  refine ⟨fun d hd => ?_, fun y hy x hx hm => ?_⟩
  · rw [List.mem_singleton.mp hd]
    refine ⟨c1, c2, c3, c4, by simp [Frame.placeChannel, c5.1], fun r hr => ?_⟩
    obtain ⟨i, hi, rfl⟩ := List.mem_mapIdx.mp hr
    rw [List.length_mapIdx]
    exact c5.2 _ (List.getElem_mem hi)
  · have hr1 : (c.rows[y]'(by omega)).length = w := by rw [← c1]; exact c5.2 _ (List.getElem_mem _)
    have hget : (((Frame.placeChannel (gx * 256) (gy * 256)
        ((indexPlane nb lookup stride buf (gx * 256) (gy * 256) (min (w - gx * 256) 256) (min (h - gy * 256) 256)).channel 0) c).rows[y]?).bind fun r => r[x]?) =
        some (if gy * 256 ≤ y ∧ y < gy * 256 + min (h - gy * 256) 256 ∧ gx * 256 ≤ x ∧ x < gx * 256 + min (w - gx * 256) 256 then
          ((((indexPlane nb lookup stride buf (gx * 256) (gy * 256) (min (w - gx * 256) 256) (min (h - gy * 256) 256)).channel 0).rows[y - gy * 256]?).bind
            fun gr => gr[x - gx * 256]?).getD ((c.rows[y]'(by omega))[x]'(by omega)) else (c.rows[y]'(by omega))[x]'(by omega)) := by
      unfold Frame.placeChannel
      dsimp only
      rw [List.getElem?_mapIdx, List.getElem?_eq_getElem (show y < c.rows.length by omega), Option.map_some, Option.bind_some, List.getElem?_mapIdx,
        List.getElem?_eq_getElem (show x < (c.rows[y]'(by omega)).length by omega), Option.map_some]
      rfl
    rw [hget]
    by_cases hin : gy * 256 ≤ y ∧ y < gy * 256 + min (h - gy * 256) 256 ∧ gx * 256 ≤ x ∧ x < gx * 256 + min (w - gx * 256) 256
    · rw [if_pos hin]
      simp only [indexPlane, Plane.channel, List.map_map, List.getElem?_map]
      rw [List.getElem?_range (by omega), Option.map_some, Option.bind_some]
      simp only [Function.comp_apply, List.getElem?_map]
      rw [List.getElem?_range (by omega), Option.map_some, Option.map_some, Option.getD_some, show gy * 256 + (y - gy * 256) = y by omega,
        show gx * 256 + (x - gx * 256) = x by omega]
    · rw [if_neg hin]
      rcases List.mem_cons.mp hm with e | e
      · injection e with e1 e2
        exact absurd ⟨by omega, by omega, by omega, by omega⟩ hin
      · have := hf.value y hy x hx e
        rw [List.getElem?_eq_getElem (show y < c.rows.length by omega), Option.bind_some,
          List.getElem?_eq_getElem (show x < (c.rows[y]'(by omega)).length by omega)] at this
        exact this

theorem store_one {w h : Nat} (hl : 256 < w ∨ 256 < h) {p c gc : Channel} (hs : Shaped w h [c]) {gx gy : Nat} (hx : gx * 256 < w) (hy : gy * 256 < h) :
    Frame.storeGroup 256 0 2 ⟨gx * 256, gy * 256, 256, 256⟩ ⟨[p, c], 1⟩ ⟨[gc], 0⟩ = ⟨[p, Frame.placeChannel (gx * 256) (gy * 256) gc c], 1⟩ := by
  obtain ⟨c1, c2, c3, c4, -⟩ := hs c (by simp)
  have hgc : Frame.groupChannel (fun _ _ => 0) 0 2 ⟨gx * 256, gy * 256, 256, 256⟩ c = some (blank (fun _ _ => 0) ⟨min (w - gx * 256) 256, min (h - gy * 256) 256, 0, 0⟩) := by
    unfold Frame.groupChannel
    rw [c1, c2, c3, c4]
    have e1 : FrameDim.clampedSize (gx * 256) 256 w = min (w - gx * 256) 256 := by unfold FrameDim.clampedSize; split <;> omega
    have e2 : FrameDim.clampedSize (gy * 256) 256 h = min (h - gy * 256) 256 := by unfold FrameDim.clampedSize; split <;> omega
    simp only [FrameDim.Rect.clamped, Int.toNat_zero, Nat.shiftRight_zero, e1, e2]
    rw [if_neg (by decide), if_neg (by omega)]
  have hbig : ¬ (decide (c.w ≤ 256 ∧ c.h ≤ 256) = true) := by rw [c1, c2]; simp; omega
  have hpa : Frame.placeAll 0 2 ⟨gx * 256, gy * 256, 256, 256⟩ [c] [gc] = [Frame.placeChannel (gx * 256) (gy * 256) gc c] := by
    simp only [Frame.placeAll, hgc, c3, c4]
    rfl
  unfold Frame.storeGroup
  dsimp only
  rw [show List.drop 1 [p, c] = [c] from rfl, List.takeWhile_cons_of_neg (p := fun c : Channel => decide (c.w ≤ 256 ∧ c.h ≤ 256)) hbig,
    List.dropWhile_cons_of_neg (p := fun c : Channel => decide (c.w ≤ 256 ∧ c.h ≤ 256)) hbig, hpa]
  rfl

theorem palette_large (chans : List Chan) (h4 : chans.length = 4) (hok : ∀ ch ∈ chans, ChanOk ch ∧ (dropZeros ch.raw).length = 11) :
    ∃ codes, chans.mapM (fun ch => prefixCode ch.lo ch.hi ch.raw ch.lz) = some codes ∧
      ∀ (nb w h stride : Nat) (buf colours : List Nat) (lookup : Nat → Nat) (k : Nat) (pad : Nat → Nat → List Nat) (gpad : Nat → Nat → Nat → Nat → List Nat),
        Props.BytesOk nb w h stride buf → Faithful nb w h stride buf colours lookup → 1 ≤ w → 1 ≤ h → 256 < w ∨ 256 < h → 1 ≤ k →
        (∀ y, (colours.length + 1 + (k - 1)) / k * k ≤ colours.length + 1 + (pad 0 y).length) →
        (∀ gx gy y, (min (w - gx * 256) 256 + (k - 1)) / k * k ≤ min (w - gx * 256) 256 + (gpad gx gy 0 y).length) →
        ∃ (bits : List Bool) (sect : Nat → Nat → List Bool), writePaletteGlobal k codes nb colours pad = some bits ∧ bits.length % 8 = 0 ∧
          (∀ gx gy, gx * 256 < w → gy * 256 < h → writePaletteGroup k codes nb lookup stride buf (gx * 256) (gy * 256) (min (w - gx * 256) 256) (min (h - gy * 256) 256)
            (gpad gx gy) = some (sect gx gy)) ∧
          ∀ (env : Stream.Env) (u : Build) (junk : Nat → Nat → Nat → Px), Stream.EnvOk env → ∃ g n, n < 8 ∧
            (∀ rest, Frame.readGlobal env junk 256 w h nb (bits ++ rest) = .ok (g, List.replicate n false ++ rest)) ∧ Frame.useFull 256 g = true ∧
            (∀ stream rect s, Frame.readGroup env u junk 256 g stream 3 1000 rect s = .ok (⟨[], 0⟩, s)) ∧
            ∀ (gs : List (Nat × Nat × Nat)) (after : Nat → Nat → List Bool), (∀ t ∈ gs, t.2.1 * 256 < w ∧ t.2.2 * 256 < h) →
              (∀ gx gy, gx * 256 < w → gy * 256 < h → ∃ s, (s, gx, gy) ∈ gs) →
              ∃ g', Frame.readGroups env u junk 256 0 2 g (gs.map fun t => (t.1, ⟨t.2.1 * 256, t.2.2 * 256, 256, 256⟩, sect t.2.1 t.2.2 ++ after t.2.1 t.2.2)) = .ok g' ∧
                Frame.finalImage u g' = .ok (Props.callerImage ⟨1, false, nb, stride, 0, 0, w, h⟩ buf) := by
  obtain ⟨codes, hs, hb, dc, e1, e2, e3, e4, e5⟩ := planes_lossless chans h4 hok
  refine ⟨codes, e1, fun nb w h stride buf colours lookup k pad gpad hbuf hf hw1 hh1 hl hk hp0 hp1 => ?_⟩
  obtain ⟨hn1, hn4⟩ := hbuf.chans
  -- the groups
  have hgroup : ∀ gx gy, gx * 256 < w → gy * 256 < h → ∃ gbits, writePaletteGroup k codes nb lookup stride buf (gx * 256) (gy * 256) (min (w - gx * 256) 256) (min (h - gy * 256) 256)
      (gpad gx gy) = some gbits ∧ ∀ (env : Stream.Env) (u : Build) (junk : Nat → Nat → Nat → Px) (hd : GroupHeader.Header) (p c : Channel) (t : Tr) (stream : Nat) (rest : List Bool), Shaped w h [c] →
        Frame.readGroup env u junk 256 ⟨some (fastTree, dc), hd, ⟨[p, c], 1⟩, [t], []⟩ stream 0 2 ⟨gx * 256, gy * 256, 256, 256⟩ (gbits ++ rest) =
          .ok (⟨[(indexPlane nb lookup stride buf (gx * 256) (gy * 256) (min (w - gx * 256) 256) (min (h - gy * 256) 256)).channel 0], 0⟩, rest) := by
    intro gx gy hx hy
    have hpl := indexPlane_ok hf (x0 := gx * 256) (y0 := gy * 256) (xs := min (w - gx * 256) 256) (ys := min (h - gy * 256) 256) (by omega) (by omega) (by omega) (by omega) (by omega) (by omega)
    have hrows := indexRows_eq hbuf lookup (x0 := gx * 256) (y0 := gy * 256) (xs := min (w - gx * 256) 256) (ys := min (h - gy * 256) 256) (by omega) (by omega)
    have hpad : ∀ y, (min (w - gx * 256) 256 + (k - 1)) / k * k ≤ min (w - gx * 256) 256 + (gpad gx gy 0 y).length := hp1 gx gy
    have hx1 : 1 ≤ min (w - gx * 256) 256 := by omega
    have hx2 : min (w - gx * 256) 256 ≤ 256 := by omega
    have hy1 : 1 ≤ min (h - gy * 256) 256 := by omega
    have hy2 : min (h - gy * 256) 256 ≤ 256 := by omega
    have hgs : ∀ (junk : Nat → Nat → Nat → Px) (c : Channel), Shaped w h [c] → _ := fun junk c hc => group_shaped junk hl hc hx hy
    generalize min (w - gx * 256) 256 = xs at *
    generalize min (h - gy * 256) 256 = ys at *
    obtain ⟨R, wss, r1, w1, w2, w3⟩ := e5 1 (fun _ => indexPlane nb lookup stride buf (gx * 256) (gy * 256) xs ys) k (fun _ => gpad gx gy 0) (by decide) hk (fun c hc => hpl) fun c hc y => hpad y
    have r10 : planeResiduals (indexPlane nb lookup stride buf (gx * 256) (gy * 256) xs ys).rows (gpad gx gy 0) = some (R 0) := r1 0 (by decide)
    have w1 : writeChannels k codes [R 0] = some wss := w1
    refine ⟨emit 0 (groupWrites ++ wss.flatten), by simp only [writePaletteGroup, hrows, Option.bind_eq_bind, Option.bind_some, r10, w1], fun env u junk hd p c t stream rest hc => ?_⟩
    obtain ⟨s1, s2⟩ := hgs junk c hc
    have hgi : Frame.groupImage junk 256 0 2 ⟨gx * 256, gy * 256, 256, 256⟩ ⟨[p, c], 1⟩ =
      ⟨(Frame.groupImage junk 256 0 2 ⟨gx * 256, gy * 256, 256, 256⟩ ⟨[c], 0⟩).channel, 0⟩ := rfl
    rw [Frame.readGroup]
    dsimp only
    rw [hgi]
    generalize (Frame.groupImage junk 256 0 2 ⟨gx * 256, gy * 256, 256, 256⟩ ⟨[c], 0⟩).channel = ds at s1 s2 ⊢
    match ds, s2 with
    | [d], _ =>
    obtain ⟨d1, d2, d3, d4, d5⟩ := s1 d (by simp)
    obtain ⟨st0, st, c1, c2, c3, c4⟩ := w3 xs rest (codeInfo dc) Wp.defaultHeader stream 0 0xFFFFFF (fun _ => 0) [] [d] (by omega) (by unfold Wp.Header.Ok; decide)
      (fun c hc => by
        show (decide (0 ≤ c) && (decide (0xFFFFFF < xs) || decide (0xFFFFFF < ys))) = false
        simp; omega)
      (Or.inl rfl) (by simp) ⟨⟨d1, d2, d3, d4⟩, d5, trivial⟩
    have hres : restored 0 0xFFFFFF 0 ((List.range 1).map (fun _ => (indexPlane nb lookup stride buf (gx * 256) (gy * 256) xs ys).channel 0) ++ []) [d] =
        [(indexPlane nb lookup stride buf (gx * 256) (gy * 256) xs ys).channel 0] := by
      show restored 0 0xFFFFFF 0 [(indexPlane nb lookup stride buf (gx * 256) (gy * 256) xs ys).channel 0] [d] = _
      rw [restored, if_neg (by show ¬ (0 ≤ 0 ∧ (0xFFFFFF < xs ∨ 0xFFFFFF < ys)); omega), restored]
      simp
    rw [hres] at c2
    rw [if_neg (by simp), readImage, emit_fit _ groupWrites (by decide), emit_flatten w2, List.append_assoc, coded_read (img := ⟨[d], 0⟩) (by simp) (group_header_read _) rfl,
      channels_read (hd := ⟨true, Wp.defaultHeader, []⟩) (groupDim := 0x1FFFFFFF) s1 (by simp) hx1 hy1 (by omega) (by omega) (by decide) (by decide) rfl c1 c2 c4, c3]
    show (if [(xs, ys)] = [(d.w, d.h)] then Stream.Out.ok ((⟨[(indexPlane nb lookup stride buf (gx * 256) (gy * 256) xs ys).channel 0], 0⟩ : Image), rest) else .bad).bind _ = _
    rw [if_pos (by rw [d1, d2])]
    simp only [pal_useFull, if_true]
    rfl
  -- the first section
  obtain ⟨R, wss, r1, w1, w2, w3⟩ := e5 1 (fun _ => palettePlane nb colours) k pad (by decide) hk (fun _ _ => palettePlane_ok hn1 hn4 hf.count) fun c hc y => by
    have : c = 0 := by omega
    subst this
    exact hp0 y
  have r10 : planeResiduals (paletteRows nb colours) (pad 0) = some (R 0) := r1 0 (by decide)
  have w1 : writeChannels k codes [R 0] = some wss := w1
  refine ⟨_, fun gx gy => (writePaletteGroup k codes nb lookup stride buf (gx * 256) (gy * 256) (min (w - gx * 256) 256) (min (h - gy * 256) 256) (gpad gx gy)).getD [],
    by rw [writePaletteGlobal, e2, r10, Option.bind_eq_bind, Option.bind_eq_bind]; simp only [Option.bind_some, w1]; rfl, ?_, fun gx gy hx hy => ?_, fun env u junk henv => ?_⟩
  · simp only [List.length_append, List.length_replicate]
    omega
  · obtain ⟨gbits, g1, -⟩ := hgroup gx gy hx hy
    dsimp only
    rw [g1]
    rfl
  have hsh : Shaped w h [blank (junk 0) ⟨w, h, 0, 0⟩] := by
    intro d hd
    rw [List.mem_singleton.mp hd]
    exact ⟨rfl, rfl, rfl, rfl, blank_wf _ _⟩
  have hread : ∀ rest, Frame.readGlobal env junk 256 w h nb (emit 0 (paletteGlobalWrites nb (colours.length + 1) hs ++ wss.flatten) ++ rest) =
      .ok (⟨some (fastTree, dc), palHeader nb (colours.length + 1), ⟨[(palettePlane nb colours).channel (-1), blank (junk 0) ⟨w, h, 0, 0⟩], 1⟩,
        [.palette 0 nb (colours.length + 1) 0 0], []⟩, rest) := by
    intro rest
    obtain ⟨st0, st, c1, c2, c3, c4⟩ := w3 (decWidth 1 256 0 [palRoom nb (colours.length + 1), blank (junk 0) ⟨w, h, 0, 0⟩] 0) rest (codeInfo dc) Wp.defaultHeader 0 1 256
      (fun _ => -1) [blank (junk 0) ⟨w, h, 0, 0⟩] [palRoom nb (colours.length + 1), blank (junk 0) ⟨w, h, 0, 0⟩] (palRoom_width hn1 _) (by unfold Wp.Header.Ok; decide)
      (fun c hc => by
        have : c = 0 := by omega
        subst this
        rfl)
      (Or.inr ⟨_, _, rfl, by
        show (decide (1 ≤ 1) && (decide (256 < w) || decide (256 < h))) = true
        simp; omega⟩) (fun c hc => by rw [List.mem_singleton.mp hc]; exact blank_wf _ _)
      ⟨⟨rfl, rfl, rfl, rfl⟩, palRoom_wf _ _, ⟨rfl, rfl, rfl, rfl⟩, blank_wf _ _, trivial⟩
    have hres : restored 1 256 0 ((List.range 1).map (fun _ => (palettePlane nb colours).channel (-1)) ++ [blank (junk 0) ⟨w, h, 0, 0⟩])
        [palRoom nb (colours.length + 1), blank (junk 0) ⟨w, h, 0, 0⟩] = [(palettePlane nb colours).channel (-1), blank (junk 0) ⟨w, h, 0, 0⟩] := by
      show restored 1 256 0 [(palettePlane nb colours).channel (-1), blank (junk 0) ⟨w, h, 0, 0⟩] _ = _
      rw [restored, if_neg (by omega), restored, if_pos (by show 1 ≤ 0 + 1 ∧ (256 < w ∨ 256 < h); omega)]
    rw [hres] at c2
    have hch := pal_channels_read (env := env) (hd := palHeader nb (colours.length + 1)) (p := palRoom nb (colours.length + 1)) (by simp [palRoom]) hn1 hsh rfl c1 c2 c4
    rw [c3] at hch
    rw [pal_global_bits hn4 hf.count e3 w2]
    simp only [List.append_assoc]
    exact pal_global_read henv (fun r => e4 env r henv) junk hn1 hn4 hf.count _ hch
  refine ⟨⟨some (fastTree, dc), palHeader nb (colours.length + 1), ⟨[(palettePlane nb colours).channel (-1), blank (junk 0) ⟨w, h, 0, 0⟩], 1⟩,
      [.palette 0 nb (colours.length + 1) 0 0], []⟩, (8 - (emit 0 (paletteGlobalWrites nb (colours.length + 1) hs ++ wss.flatten)).length % 8) % 8, by omega, fun rest => ?_,
    pal_useFull _ _ _ _ _, fun stream rect s => ?_, fun gs after hin hall => ?_⟩
  · rw [List.append_assoc]
    exact hread _
  · unfold Frame.readGroup
    have : (Frame.groupImage junk 256 3 1000 rect ⟨[(palettePlane nb colours).channel (-1), blank (junk 0) ⟨w, h, 0, 0⟩], 1⟩).channel = [] := by
      unfold Frame.groupImage
      dsimp only
      rw [List.filterMap_eq_nil_iff]
      intro c hc
      obtain ⟨i, hi, rfl⟩ := List.mem_mapIdx.mp hc
      obtain ⟨-, -, q3, q4, -⟩ := hsh _ ((List.dropWhile_suffix _).subset (List.getElem_mem hi))
      unfold Frame.groupChannel
      rw [q3, q4]
      rfl
    rw [if_pos this]
  · have hloop : ∀ (gs : List (Nat × Nat × Nat)) (done : List (Nat × Nat)) (c : Channel), (∀ t ∈ gs, t.2.1 * 256 < w ∧ t.2.2 * 256 < h) → Filled nb lookup stride buf w h done c →
        ∃ c', Frame.readGroups env u junk 256 0 2 ⟨some (fastTree, dc), palHeader nb (colours.length + 1), ⟨[(palettePlane nb colours).channel (-1), c], 1⟩,
            [.palette 0 nb (colours.length + 1) 0 0], []⟩
          (gs.map fun t => (t.1, ⟨t.2.1 * 256, t.2.2 * 256, 256, 256⟩,
            (writePaletteGroup k codes nb lookup stride buf (t.2.1 * 256) (t.2.2 * 256) (min (w - t.2.1 * 256) 256) (min (h - t.2.2 * 256) 256) (gpad t.2.1 t.2.2)).getD [] ++ after t.2.1 t.2.2)) =
          .ok ⟨some (fastTree, dc), palHeader nb (colours.length + 1), ⟨[(palettePlane nb colours).channel (-1), c'], 1⟩, [.palette 0 nb (colours.length + 1) 0 0], []⟩ ∧
          ∃ done', Filled nb lookup stride buf w h done' c' ∧ (∀ d ∈ done, d ∈ done') ∧ ∀ t ∈ gs, t.2 ∈ done' := by
      intro gs
      induction gs with
      | nil => exact fun done c _ hc => ⟨c, rfl, done, hc, fun d hd => hd, by simp⟩
      | cons t gs ih =>
        intro done c hin hc
        obtain ⟨stream, gx, gy⟩ := t
        obtain ⟨hx, hy⟩ := hin _ (List.mem_cons_self ..)
        dsimp only at hx hy
        obtain ⟨gbits, g1, g2⟩ := hgroup gx gy hx hy
        obtain ⟨c', i1, done', i2, i3, i4⟩ := ih ((gx, gy) :: done) _ (fun t ht => hin t (by simp [ht])) (filled_place hc (gx := gx) (gy := gy))
        refine ⟨c', ?_, done', i2, fun d hd => i3 d (by simp [hd]), fun t ht => ?_⟩
        · rw [List.map_cons, Frame.readGroups]
          dsimp only
          rw [g1, Option.getD_some, g2 env u junk _ _ _ _ stream _ hc.shape]
          show Frame.readGroups env u junk 256 0 2 ⟨_, _, Frame.storeGroup 256 0 2 ⟨gx * 256, gy * 256, 256, 256⟩ ⟨[_, c], 1⟩ ⟨[_], 0⟩, _, _⟩ _ = _
          rw [store_one hl hc.shape hx hy]
          exact i1
        · rcases List.mem_cons.mp ht with rfl | ht
          · exact i3 _ (List.mem_cons_self ..)
          · exact i4 t ht
    obtain ⟨c', l1, done', l2, -, l4⟩ := hloop gs [] _ hin ⟨hsh, by simp⟩
    refine ⟨_, l1, palette_final hbuf hf hw1 u ?_ rfl⟩
    rw [filled_all l2 fun gx gy hx hy => by
      obtain ⟨s, hs⟩ := hall gx gy hx hy
      exact l4 _ hs]

/-! ## Counters -/

theorem sum_le_of_getD : ∀ (l m : List Nat), l.length = m.length → (∀ i, l.getD i 0 ≤ m.getD i 0) → l.sum ≤ m.sum
  | [], [], _, _ => Nat.le_refl _
  | [], _ :: _, h, _ => by cases h
  | _ :: _, [], h, _ => by cases h
  | a :: l, b :: m, h, hi => by
    have h0 := hi 0
    have := sum_le_of_getD l m (by simpa using h) fun i => by simpa using hi (i + 1)
    simp only [List.getD_cons_zero] at h0
    rw [List.sum_cons, List.sum_cons]
    omega

theorem palette_token : ∀ n < 513, (hybrid000 (packSigned (BitVec.ofNat 32 (n - 1))).toNat).1 ≤ 10 ∨ n = 0 := by decide +kernel

theorem paletteCounts_ok {lo hi raw lz : List Nat} (hok : ChanOk ⟨lo, hi, raw, lz⟩) (hl : (dropZeros raw).length = 11) {n : Nat} (h1 : 1 ≤ n) (hn : n ≤ 512) :
    ChanOk ⟨lo, hi, paletteCounts n raw, lz⟩ ∧ (dropZeros (paletteCounts n raw)).length = 11 := by
  obtain ⟨hd, hc, hz⟩ := hok
  dsimp only at hd hc hz
  have hpos : ∀ i, i < 11 → raw.getD i 0 ≠ 0 := fun i h => hc.rawPos i (by omega)
  have hzero : ∀ i, 11 ≤ i → raw.getD i 0 = 0 := by
    obtain ⟨k, d1, -⟩ := Huffman.dropZeros_spec raw
    intro i h
    rw [d1, List.getD_eq_getElem?_getD, List.getElem?_append_right (by omega), List.getElem?_replicate]
    split <;> rfl
  have htok := (palette_token n (by omega)).resolve_right (by omega)
  have hlen : (paletteCounts n raw).length = 19 := by simp [paletteCounts, hc.rawLen]
  have hget : ∀ i, (i < 11 → 1 ≤ (paletteCounts n raw).getD i 0) ∧ (paletteCounts n raw).getD i 0 ≤ raw.getD i 0 := by
    intro i
    unfold paletteCounts
    dsimp only
    generalize (hybrid000 (packSigned (BitVec.ofNat 32 (n - 1))).toNat).1 = token at htok ⊢
    have hp := hpos i
    rw [List.getD_eq_getElem?_getD] at hp
    rw [List.getD_eq_getElem?_getD, List.getD_eq_getElem?_getD, List.getElem?_mapIdx]
    cases hv : raw[i]? with
    | none =>
      rw [hv] at hp
      exact ⟨fun h => absurd rfl (hp h), Nat.le_refl _⟩
    | some v =>
      rw [hv] at hp
      simp only [Option.getD_some, Option.map_some] at hp ⊢
      by_cases h11 : i < 11
      · have := hp h11
        split
        · omega
        · split <;> omega
      · rw [if_neg (by omega), if_neg (by omega)]
        exact ⟨fun h => absurd h h11, Nat.le_refl _⟩
  have hdz : (dropZeros (paletteCounts n raw)).length = 11 := by
    refine dropZeros_length (by omega) (fun _ => ?_) fun i hi => ?_
    · have := (hget 10).1 (by omega)
      show (paletteCounts n raw).getD 10 0 ≠ 0
      omega
    · have := (hget i).2
      rw [hzero i hi] at this
      omega
  refine ⟨⟨by dsimp only; rw [hdz, ← hl]; exact hd, ⟨hlen, hc.lzLen, fun i hi => ?_, hc.lzTwo, hc.lzMany, ?_⟩, hz⟩, hdz⟩
  · rw [hdz] at hi
    have := (hget i).1 hi
    show (paletteCounts n raw).getD i 0 ≠ 0
    omega
  · have := sum_le_of_getD (paletteCounts n raw) raw (by rw [hlen, hc.rawLen]) fun i => (hget i).2
    have := hc.small
    show (paletteCounts n raw).sum + lz.sum < 2 ^ 59
    omega

end Jxl.FastCode
