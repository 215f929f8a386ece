import Verif.Lemmas.Sections
import Verif.Lemmas.SqueezeImage
namespace Jxl.Passes
open Jxl Jxl.Modular Jxl.Modular.Squeeze Jxl.Modular.GroupHeader Jxl.Modular.Whole Jxl.MaTree

/-! ## Transforms keep channels within the frame -/

/-- `Fits` for the size and shifts alone. -/
structure FitsG (w h : Nat) (g : Geom) : Prop where
  h0 : 0 ≤ g.hshift
  v0 : 0 ≤ g.vshift
  width : ∀ x < g.w, x * 2 ^ g.hshift.toNat < w
  height : ∀ y < g.h, y * 2 ^ g.vshift.toNat < h

theorem fits_geom {w h : Nat} {c : Channel} : FitsG w h (geom c) ↔ Fits w h c := ⟨fun f => ⟨f.h0, f.v0, f.width, f.height⟩, fun f => ⟨f.h0, f.v0, f.width, f.height⟩⟩

theorem half_fits {n m : Nat} {s : Int} (h0 : 0 ≤ s) (h : ∀ x < n, x * 2 ^ s.toNat < m) {k : Nat} (hk : k ≤ (n + 1) / 2) :
    ∀ x < k, x * 2 ^ (s + 1).toNat < m := by
  intro x hx
  have e : (s + 1).toNat = s.toNat + 1 := by omega
  have := h (2 * x) (by omega)
  rw [e, Nat.pow_succ]
  calc x * (2 ^ s.toNat * 2) = 2 * x * 2 ^ s.toNat := by grind
    _ < m := this

theorem metaGeom_fits {w h : Nat} {hor : Bool} {g a r : Geom} (hf : FitsG w h g) (e : metaGeom hor g = some (a, r)) : FitsG w h a ∧ FitsG w h r := by
  obtain ⟨f1, f2, f3, f4⟩ := hf
  unfold metaGeom at e
  split at e
  · cases e
  · split at e
    · cases e
    · split at e
      · injection e with e
        injection e with e1 e2
        subst e1 e2
        exact ⟨⟨by dsimp only; omega, f2, half_fits f1 f3 (Nat.le_refl _), f4⟩,
          ⟨by dsimp only; omega, f2, half_fits f1 f3 (show g.w - (g.w + 1) / 2 ≤ (g.w + 1) / 2 by omega), f4⟩⟩
      · injection e with e
        injection e with e1 e2
        subst e1 e2
        exact ⟨⟨f1, by dsimp only; omega, f3, half_fits f2 f4 (Nat.le_refl _)⟩,
          ⟨f1, by dsimp only; omega, f3, half_fits f2 f4 (show g.h - (g.h + 1) / 2 ≤ (g.h + 1) / 2 by omega)⟩⟩

/-- All elements from index `nb` on. -/
def After {α : Type} (nb : Nat) (P : α → Prop) (l : List α) : Prop := ∀ i a, nb ≤ i → l[i]? = some a → P a

theorem after_step {α : Type} {nb c rc : Nat} {P : α → Prop} {l : List α} {a r : α} (h : After nb P l) (hrc : nb ≤ rc) (ha : P a) (hr : P r) :
    After nb P ((l.set c a).insertIdx rc r) := by
  intro i b hi hb
  have hset : ∀ j b, nb ≤ j → (l.set c a)[j]? = some b → P b := by
    intro j b hj hb
    rw [List.getElem?_set] at hb
    split at hb
    · split at hb
      · injection hb with hb
        subst hb
        exact ha
      · cases hb
    · exact h j b hj hb
  rw [List.getElem?_insertIdx] at hb
  split at hb
  · exact hset i b hi hb
  · split at hb
    · split at hb
      · injection hb with hb
        subst hb
        exact hr
      · cases hb
    · exact hset _ b (by omega) hb

theorem after_meta_step {α : Type} {nb c rc : Nat} {P : α → Prop} {l : List α} {a r : α} (h : After nb P l) (hc : c < nb) (hrc : rc ≤ nb) :
    After (nb + 1) P ((l.set c a).insertIdx rc r) := by
  intro i b hi hb
  rw [List.getElem?_insertIdx, if_neg (by omega), if_neg (by omega), List.getElem?_set, if_neg (by omega)] at hb
  exact h _ b (by omega) hb

theorem after_chans {α : Type} {f : α → Option (α × α)} {P : α → Prop} (hf : ∀ x a r, P x → f x = some (a, r) → P a ∧ P r) {nb : Nat} :
    ∀ (k c rc : Nat) (l l' : List α), nb ≤ c → nb ≤ rc → After nb P l → fwdChans f k c rc l = some l' → After nb P l'
  | 0, _, _, l, l', _, _, h, e => by
    simp only [fwdChans] at e
    cases e
    exact h
  | k + 1, c, rc, l, l', hc, hrc, h, e => by
    simp only [fwdChans, Option.bind_eq_bind] at e
    obtain ⟨ch, h1, e⟩ := Option.bind_eq_some_iff.mp e
    obtain ⟨⟨a, r⟩, h2, e⟩ := Option.bind_eq_some_iff.mp e
    obtain ⟨pa, pr⟩ := hf ch a r (h c ch hc h1) h2
    exact after_chans hf k (c + 1) (rc + 1) _ l' (by omega) (by omega) (after_step h hrc pa pr) e

theorem after_meta_chans {α : Type} {f : α → Option (α × α)} {P : α → Prop} :
    ∀ (k c rc nb : Nat) (l l' : List α), c + k ≤ nb → rc ≤ nb → After nb P l → fwdChans f k c rc l = some l' → After (nb + k) P l'
  | 0, _, _, nb, l, l', _, _, h, e => by
    simp only [fwdChans] at e
    cases e
    exact h
  | k + 1, c, rc, nb, l, l', hc, hrc, h, e => by
    simp only [fwdChans, Option.bind_eq_bind] at e
    obtain ⟨ch, h1, e⟩ := Option.bind_eq_some_iff.mp e
    obtain ⟨⟨a, r⟩, h2, e⟩ := Option.bind_eq_some_iff.mp e
    have := after_meta_chans k (c + 1) (rc + 1) (nb + 1) _ l' (by omega) (by omega) (after_meta_step h (by omega) hrc) e
    rwa [show nb + 1 + k = nb + (k + 1) from by omega] at this

theorem metaOne_fits {w h : Nat} {p : Params} {s t : Nat × List Geom} (hf : After s.1 (FitsG w h) s.2) (e : metaOne p s = some t) : After t.1 (FitsG w h) t.2 := by
  unfold metaOne at e
  split at e
  · rename_i hck
    simp only [checkParams, decide_eq_true_eq] at hck
    simp only [Option.bind_eq_bind] at e
    obtain ⟨nb, h1, e⟩ := Option.bind_eq_some_iff.mp e
    obtain ⟨gs, h2, e⟩ := Option.bind_eq_some_iff.mp e
    injection e with e
    subst e
    unfold metaNb at h1
    split at h1
    · split at h1
      · cases h1
      · split at h1
        · rename_i hin
          injection h1 with h1
          subst h1
          rw [show fwdOffset p s.2.length = p.beginC + p.numC from by unfold fwdOffset; rw [if_pos hin]] at h2
          exact after_meta_chans _ _ _ _ _ _ (by omega) (by omega) hf h2
        · cases h1
    · injection h1 with h1
      subst h1
      exact after_chans (fun x a r hx hm => metaGeom_fits hx hm) _ _ _ _ _ (by omega) (by unfold fwdOffset; split <;> omega) hf h2
  · cases e

theorem metaAll_fits {w h : Nat} : ∀ (ps : List Params) (s t : Nat × List Geom), After s.1 (FitsG w h) s.2 → metaAll ps s = some t → After t.1 (FitsG w h) t.2
  | [], s, t, hf, e => by
    simp only [metaAll] at e
    cases e
    exact hf
  | p :: ps, s, t, hf, e => by
    simp only [metaAll, Option.bind_eq_bind] at e
    obtain ⟨s1, h1, e⟩ := Option.bind_eq_some_iff.mp e
    exact metaAll_fits ps s1 t (metaOne_fits hf h1) e

theorem checkEqual_spec {img : Image} {b e : Nat} (h : checkEqualChannels img b e = true) : b ≤ e ∧ e < img.channel.length ∧ (img.nbMeta ≤ b ∨ e < img.nbMeta) := by
  unfold checkEqualChannels at h
  split at h
  · cases h
  · split at h
    · cases h
    · omega

theorem metaTr_fits {w h : Nat} {junk : Nat → Nat → Nat → Px} {img : Image} {t : Tr} {r : Tr × Image} (hf : After img.nbMeta (Fits w h) img.channel)
    (e : metaTr junk img t = some r) : After r.2.nbMeta (Fits w h) r.2.channel := by
  cases t with
  | rct b t =>
    simp only [metaTr] at e
    split at e
    · cases e
      exact hf
    · cases e
  | palette b n c d p =>
    simp only [metaTr] at e
    obtain ⟨i, h1, e⟩ := Option.map_eq_some_iff.mp e
    subst e
    unfold Palette.metaPalette at h1
    split at h1
    · rename_i hck
      obtain ⟨q1, q2, q3⟩ := checkEqual_spec hck
      dsimp only at h1
      generalize b + n - 1 = l at *
      have key : ∀ nb : Nat, (img.nbMeta ≤ b ∧ nb = img.nbMeta + 1 ∨ l < img.nbMeta ∧ nb = img.nbMeta + 2 - (l - b + 1)) → ∀ (pch : Channel),
          After nb (Fits w h) (pch :: (img.channel.take (b + 1) ++ img.channel.drop (l + 1))) := by
        intro nb hnb pch i a hi ha
        have hi0 : i ≠ 0 := by omega
        obtain ⟨j, rfl⟩ := Nat.exists_eq_succ_of_ne_zero hi0
        rw [List.getElem?_cons_succ, List.getElem?_append, List.length_take] at ha
        split at ha
        · rename_i hj
          rw [List.getElem?_take] at ha
          split at ha
          · exact hf j a (by omega) ha
          · cases ha
        · rename_i hj
          rw [List.getElem?_drop] at ha
          refine hf _ a ?_ ha
          omega
      split at h1
      · injection h1 with h1
        subst h1
        exact key _ (Or.inl ⟨by assumption, rfl⟩) _
      · split at h1
        · injection h1 with h1
          subst h1
          exact key _ (Or.inr ⟨by assumption, rfl⟩) _
        · cases h1
    · cases h1
  | squeeze ps =>
    simp only [metaTr] at e
    obtain ⟨⟨ps', nb, gs⟩, h1, e⟩ := Option.map_eq_some_iff.mp e
    subst e
    simp only [metaSqueeze, Option.bind_eq_bind] at h1
    obtain ⟨qs, h2, h1⟩ := Option.bind_eq_some_iff.mp h1
    obtain ⟨s, h3, h1⟩ := Option.bind_eq_some_iff.mp h1
    injection h1 with h1
    injection h1 with h1 h4
    have hg : After img.nbMeta (FitsG w h) (img.channel.map geom) := by
      intro i a hi ha
      rw [List.getElem?_map] at ha
      obtain ⟨c, hc, rfl⟩ := Option.map_eq_some_iff.mp ha
      exact fits_geom.mpr (hf i c hi hc)
    have hs := metaAll_fits qs _ s hg h3
    rw [h4] at hs
    intro i a hi ha
    dsimp only at hi ha hs
    rw [List.getElem?_mapIdx] at ha
    obtain ⟨g, hg, rfl⟩ := Option.map_eq_some_iff.mp ha
    have := hs i g hi hg
    exact ⟨this.h0, this.v0, this.width, this.height⟩

theorem metaAllTr_fits {w h : Nat} {junk : Nat → Nat → Nat → Px} : ∀ (ts : List Tr) (img : Image) (r : List Tr × Image), After img.nbMeta (Fits w h) img.channel →
    metaAllTr junk ts img = some r → After r.2.nbMeta (Fits w h) r.2.channel
  | [], img, r, hf, e => by
    simp only [metaAllTr] at e
    cases e
    exact hf
  | t :: ts, img, r, hf, e => by
    simp only [metaAllTr] at e
    obtain ⟨p, h1, e⟩ := Option.bind_eq_some_iff.mp e
    obtain ⟨q, h2, e⟩ := Option.map_eq_some_iff.mp e
    subst e
    exact metaAllTr_fits ts p.2 q (metaTr_fits hf h1) h2

/-! ## Any first section -/

theorem decodeChannels_dims {ρ : Type} {tk : Ticks} {ci : CodeInfo} {hd : Wp.Header} {tree : List Node} {cm : List Nat} {group : Nat} {R : Reader ρ} {nb mx : Nat} :
    ∀ (cs before : List Channel) (r : ρ) (out : List Channel × ρ), decodeChannels tk ci hd tree cm group R nb mx before cs r = some out →
      out.1.map Channel.dims = (before ++ cs).map Channel.dims
  | [], before, r, out, e => by
    simp only [decodeChannels] at e
    cases e
    simp
  | c :: cs, before, r, out, e => by
    simp only [decodeChannels] at e
    split at e
    · cases e
      rfl
    · split at e
      · rw [decodeChannels_dims cs _ _ _ e]
        simp
      · obtain ⟨a, h1, e⟩ := Option.bind_eq_some_iff.mp e
        rw [decodeChannels_dims cs _ _ _ e]
        simp [Channel.dims]

theorem out_bind {α β : Type} {x : Stream.Out α} {f : α → Stream.Out β} {b : β} (h : x.bind f = .ok b) : ∃ a, x = .ok a ∧ f a = .ok b := by
  cases x with
  | ok a => exact ⟨a, rfl, h⟩
  | _ => cases h

theorem readChannels_layout {env : Stream.Env} {glob : Option (List Node × Stream.Code)} {h : GroupHeader.Header} {group gd mx : Nat} {img : Image} {s : List Bool}
    {r : Image × List Bool} (e : readChannels env glob h group gd mx img s = .ok r) : SameLayout img r.1 ∧ validDims gd img = some true := by
  unfold readChannels at e
  split at e
  · cases e
  · cases e
  · rename_i hv
    refine ⟨?_, hv⟩
    split at e
    · cases e
      exact ⟨rfl, rfl⟩
    · obtain ⟨p, -, e⟩ := out_bind e
      unfold readSamples at e
      obtain ⟨st, -, e⟩ := out_bind e
      split at e
      · cases e
      · rename_i chs q hd
        obtain ⟨st2, -, e⟩ := out_bind e
        split at e
        · cases e
          have := decodeChannels_dims _ _ _ _ hd
          exact ⟨this.symm, rfl⟩
        · cases e

theorem fits_dims {w h : Nat} {c d : Channel} (e : c.dims = d.dims) (hf : Fits w h c) : Fits w h d := by
  unfold Channel.dims at e
  injection e with e1 e
  injection e with e2 e
  injection e with e3 e4
  obtain ⟨f1, f2, f3, f4⟩ := hf
  exact ⟨by rw [← e3]; exact f1, by rw [← e4]; exact f2, by rw [← e1, ← e3]; exact f3, by rw [← e2, ← e4]; exact f4⟩

theorem after_layout {w h : Nat} {a b : Image} (hl : SameLayout a b) (hf : After a.nbMeta (Fits w h) a.channel) : After b.nbMeta (Fits w h) b.channel := by
  intro i c hi hc
  have e : (a.channel.map Channel.dims)[i]? = (b.channel.map Channel.dims)[i]? := by rw [hl.1]
  rw [List.getElem?_map, List.getElem?_map, hc, Option.map_some] at e
  obtain ⟨c', h1, h2⟩ := Option.map_eq_some_iff.mp e
  exact fits_dims h2 (hf i c' (by rw [hl.2]; exact hi) h1)

theorem readCoded_fits {w h : Nat} {env : Stream.Env} {junk : Nat → Nat → Nat → Px} {glob : Option (List Node × Stream.Code)} {group gd mx : Nat} {img : Image} {s : List Bool}
    {r : GroupHeader.Header × List Tr × Image × List Bool} (hf : After img.nbMeta (Fits w h) img.channel) (e : readCoded env junk glob group gd mx img s = .ok r) :
    After r.2.2.1.nbMeta (Fits w h) r.2.2.1.channel ∧ (r.2.2.1.channel = [] ∨ validDims gd r.2.2.1 = some true) := by
  unfold readCoded at e
  split at e
  · rename_i h0
    cases e
    exact ⟨hf, Or.inl h0⟩
  · split at e
    · cases e
    · split at e
      · cases e
      · rename_i ts img1 hm
        obtain ⟨p, h1, e⟩ := out_bind e
        cases e
        obtain ⟨l1, l2⟩ := readChannels_layout h1
        exact ⟨after_layout l1 (metaAllTr_fits _ _ _ hf hm), Or.inr (by rw [validDims_layout l1]; exact l2)⟩

/-! ## What the check of dimensions gives -/

theorem allTiles_mem {gd : Nat} {dc : Bool} : ∀ (cs : List Channel), allTiles gd dc cs = some true → ∀ c ∈ cs, tileOk gd dc c = some true
  | [], _, _, h => by cases h
  | c :: cs, e, d, h => by
    simp only [allTiles] at e
    obtain ⟨b, h1, e⟩ := Option.bind_eq_some_iff.mp e
    split at e
    · rename_i hb
      subst hb
      rcases List.mem_cons.mp h with rfl | h
      · exact h1
      · exact allTiles_mem cs e d h
    · cases e

theorem shr_ne_zero {K m : Nat} (h : (2 ^ K) >>> m ≠ 0) : m ≤ K := by
  rw [Nat.shiftRight_eq_div_pow] at h
  by_cases hm : m ≤ K
  · exact hm
  · exact absurd (Nat.div_eq_of_lt (Nat.pow_lt_pow_right (by omega) (by omega))) h

theorem valid_tiles {gd K : Nat} (hK : gd = 2 ^ K) (hs : K ≤ 60) {img : Image} (hv : validDims gd img = some true) {c : Channel} (hc : c ∈ later gd img)
    (hw : c.w ≠ 0) (hh : c.h ≠ 0) : TileOk K c := by
  unfold validDims at hv
  dsimp only at hv
  obtain ⟨b, h1, hv⟩ := Option.bind_eq_some_iff.mp hv
  split at hv
  · rename_i hb
    subst hb
    have t1 := allTiles_mem _ h1 c hc
    have t2 := allTiles_mem _ hv c hc
    have hp : (2 : Nat) ^ K < 2 ^ 64 := Nat.pow_lt_pow_right (by omega) (by omega)
    have hp3 : (2 : Nat) ^ (K + 3) < 2 ^ 64 := Nat.pow_lt_pow_right (by omega) (by omega)
    have e3 : (2 : Nat) ^ K * 8 = 2 ^ (K + 3) := by rw [Nat.pow_add]
    unfold tileOk at t1 t2
    rw [if_neg (by omega)] at t1 t2
    by_cases h3 : 3 ≤ min c.hshift c.vshift
    · rw [if_neg (by simp [h3])] at t1
      split at t1
      · cases t1
      · rename_i hr
        injection t1 with t1
        rw [hK, if_pos rfl, e3, Nat.mod_eq_of_lt hp3] at t1
        have := shr_ne_zero (by simpa using t1)
        exact ⟨fun h => absurd h3 h, fun _ => this, by omega⟩
    · rw [if_neg (by simp [h3])] at t2
      split at t2
      · cases t2
      · rename_i hr
        injection t2 with t2
        rw [hK, if_neg (by decide), Nat.mul_one, Nat.mod_eq_of_lt hp] at t2
        have := shr_ne_zero (by simpa using t2)
        exact ⟨fun _ => this, fun h => absurd h h3, by omega⟩
  · cases hv

theorem later_after {gd : Nat} {img : Image} {P : Channel → Prop} (h : After img.nbMeta P img.channel) {c : Channel} (hc : c ∈ later gd img) : P c := by
  have hm := (List.dropWhile_sublist _).subset hc
  obtain ⟨i, hi⟩ := List.mem_iff_getElem?.mp hm
  rw [List.getElem?_drop] at hi
  exact h _ c (by omega) hi

theorem colour_fits (d : FrameDim.Dims) (hs vs : Nat) : FitsG d.xsize d.ysize (colourGeom d hs vs) := by
  have p : ∀ n, 0 < 1 <<< n := fun n => by rw [Nat.one_shiftLeft]; exact Nat.pow_pos (by omega)
  refine ⟨Int.natCast_nonneg _, Int.natCast_nonneg _, fun x hx => ?_, fun x hx => ?_⟩
  · have := (FrameDim.lt_divCeil _ _ x (p hs)).mp hx
    rwa [Nat.one_shiftLeft] at this
  · have := (FrameDim.lt_divCeil _ _ x (p vs)).mp hx
    rwa [Nat.one_shiftLeft] at this

theorem extra_fits (xpx ypx gs mh mv up ec : Nat) (m : Bool) (h : up ≤ ec) :
    FitsG (FrameDim.set xpx ypx gs mh mv m (2 ^ up)).xsize (FrameDim.set xpx ypx gs mh mv m (2 ^ up)).ysize (extraGeom (FrameDim.set xpx ypx gs mh mv m (2 ^ up)) up ec) := by
  have p : ∀ n, 0 < 2 ^ n := fun n => Nat.pow_pos (by omega)
  have e : ((ec : Int) - up).toNat = ec - up := by omega
  have key : ∀ n x, x < FrameDim.divCeil n (2 ^ ec) → x * 2 ^ ((ec : Int) - up).toNat < FrameDim.divCeil n (2 ^ up) := by
    intro n x hx
    have h1 := (FrameDim.lt_divCeil _ _ x (p ec)).mp hx
    rw [FrameDim.lt_divCeil _ _ _ (p up), e, Nat.mul_assoc, ← Nat.pow_add, show ec - up + up = ec from by omega]
    exact h1
  refine ⟨?_, ?_, key xpx, key ypx⟩
  · show (0 : Int) ≤ (ec : Int) - up
    omega
  · show (0 : Int) ≤ (ec : Int) - up
    omega

/-- What is known about a channel when the first section was accepted. -/
theorem later_facts {env : Jxl.Stream.Env} {junk : Nat → Nat → Nat → Px} {glob : Option (List MaTree.Node × Jxl.Stream.Code)} {xpx ypx gs mh mv up : Nat} {m : Bool}
    {d : FrameDim.Dims} (hd : d = FrameDim.set xpx ypx gs mh mv m (2 ^ up)) (hgs : gs < 4) {img : Image} (hs : Start d up img) {s : List Bool}
    {h : GroupHeader.Header} {ts : List GroupHeader.Tr} {img' : Image} {rest : List Bool}
    (hr : readCoded env junk glob 0 d.groupDim d.groupDim img s = .ok (h, ts, img', rest)) {c : Channel} (hc : c ∈ later d.groupDim img') :
    Fits d.xsize d.ysize c ∧ (c.w ≠ 0 → c.h ≠ 0 → TileOk (7 + gs) c) := by
  have hf : After img.nbMeta (Fits d.xsize d.ysize) img.channel := by
    intro i c _ hc
    rcases hs.2 c (List.mem_of_getElem? hc) with ⟨a, b, e⟩ | ⟨ec, hle, e⟩
    · exact fits_geom.mp (e ▸ colour_fits d a b)
    · exact fits_geom.mp (by rw [e, hd]; exact extra_fits _ _ _ _ _ _ _ _ hle)
  obtain ⟨r1, r2⟩ := readCoded_fits hf hr
  refine ⟨later_after r1 hc, fun hw hh => ?_⟩
  have hg : d.groupDim = 2 ^ (7 + gs) := by rw [hd]; exact (grid_of _ _ _ _ _ _ _).dim
  rcases r2 with r2 | r2
  · unfold later at hc
    rw [show img'.channel = [] from r2] at hc
    simp at hc
  · exact valid_tiles hg (by omega) r2 hc hw hh

end Jxl.Passes
