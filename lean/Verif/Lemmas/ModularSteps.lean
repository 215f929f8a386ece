import Verif.Spec.ModularStream
import Verif.Props.Rct
import Verif.Props.Squeeze
import Verif.Props.Palette
/-! # Transforms of a modular image, one after the other -/
namespace Jxl.Modular.Whole
open Jxl Jxl.Modular Jxl.Modular.Squeeze Jxl.Modular.GroupHeader

/-! ## Layouts -/

/-- `checkEqualChannels` on sizes and shifts. -/
def checkDims (l : List (Nat × Nat × Int × Int)) (nb c1 c2 : Nat) : Bool :=
  if c1 > l.length ∨ c2 ≥ l.length ∨ c2 < c1 then false
  else if c1 < nb ∧ c2 ≥ nb then false
  else match l[c1]? with
    | none => false
    | some a => (l.drop (c1 + 1)).take (c2 - c1) |>.all fun b => a.1 == b.1 && a.2.1 == b.2.1 && a.2.2.1 == b.2.2.1 && a.2.2.2 == b.2.2.2

theorem check_dims (img : Image) (i j : Nat) : checkEqualChannels img i j = checkDims (img.channel.map Channel.dims) img.nbMeta i j := by
  unfold checkEqualChannels checkDims
  rw [List.length_map, List.getElem?_map]
  cases img.channel[i]? with
  | none => rfl
  | some a =>
    simp only [Option.map_some, ← List.map_drop, ← List.map_take, List.all_map]
    rfl

theorem check_layout {a b : Image} (h : SameLayout a b) (i j : Nat) : checkEqualChannels a i j = checkEqualChannels b i j := by
  rw [check_dims, check_dims, h.1, h.2]

theorem geom_layout {a b : Image} (h : SameLayout a b) : a.channel.map geom = b.channel.map geom := by
  have e : (geom : Channel → Geom) = (fun d : Nat × Nat × Int × Int => Geom.mk d.1 d.2.1 d.2.2.1 d.2.2.2) ∘ Channel.dims := rfl
  rw [e, ← List.map_map, h.1, List.map_map]

theorem dims_geom {l : List Channel} {gs : List Geom} (h : l.map geom = gs) : l.map Channel.dims = gs.map fun g => (g.w, g.h, g.hshift, g.vshift) := by
  rw [← h, List.map_map]; rfl

theorem blank_wf (f : Nat → Nat → Px) (g : Geom) : (blank f g).Wf := by
  refine ⟨by simp [blank], fun r hr => ?_⟩
  obtain ⟨y, -, rfl⟩ := List.mem_map.mp hr
  simp [blank]

theorem blank_dims (junk : Nat → Nat → Nat → Px) (gs : List Geom) :
    (gs.mapIdx fun i g => blank (junk i) g).map Channel.dims = gs.map fun g => (g.w, g.h, g.hshift, g.vshift) := by
  apply List.ext_getElem?
  intro i
  rw [List.getElem?_map, List.getElem?_map, List.getElem?_mapIdx]
  cases gs[i]? <;> rfl

/-! ## Colours -/

theorem set3_wf {l : List Channel} {m : Nat} {a b c : Channel} (hl : ∀ x ∈ l, x.Wf) (ha : a.Wf) (hb : b.Wf) (hc : c.Wf) :
    ∀ x ∈ ((l.set m a).set (m + 1) b).set (m + 2) c, x.Wf := by
  intro x hx
  rcases List.mem_or_eq_of_mem_set hx with hx | rfl
  · rcases List.mem_or_eq_of_mem_set hx with hx | rfl
    · rcases List.mem_or_eq_of_mem_set hx with hx | rfl
      · exact hl x hx
      · exact ha
    · exact hb
  · exact hc

theorem set_dims {l : List Channel} {m : Nat} {a o : Channel} (h : l[m]? = some o) (hd : a.dims = o.dims) :
    (l.set m a).map Channel.dims = l.map Channel.dims := by
  rw [List.map_set, hd]
  apply List.ext_getElem?
  intro i
  rw [List.getElem?_set]
  split
  · rename_i e
    subst e
    rw [List.getElem?_map, h]
    have := (List.getElem?_eq_some_iff.mp h).1
    simp [this]
  · rfl

theorem zip3_length (a b c : List Px) {w : Nat} (ha : a.length = w) (hb : b.length = w) (hc : c.length = w) : (Rct.zip3 a b c).length = w := by
  unfold Rct.zip3; simp; omega

theorem mapRows_shape (t w : Nat) : ∀ (a b c : List (List Px)) (h : Nat), a.length = h → b.length = h → c.length = h →
    (∀ r ∈ a, r.length = w) → (∀ r ∈ b, r.length = w) → (∀ r ∈ c, r.length = w) → ∀ x y z, Rct.mapRows (List.map (Rct.fwd1 t)) a b c = (x, y, z) →
    (x.length = h ∧ ∀ r ∈ x, r.length = w) ∧ (y.length = h ∧ ∀ r ∈ y, r.length = w) ∧ (z.length = h ∧ ∀ r ∈ z, r.length = w)
  | [], b, c, h, ha, hb, hc, _, _, _, x, y, z, e => by
    simp only [Rct.mapRows, Prod.mk.injEq] at e
    obtain ⟨rfl, rfl, rfl⟩ := e
    simp at ha
    subst ha
    simp
  | _ :: _, [], c, h, ha, hb, hc, _, _, _, x, y, z, e => by simp at ha hb; omega
  | _ :: _, _ :: _, [], h, ha, hb, hc, _, _, _, x, y, z, e => by simp at ha hc; omega
  | a :: as, b :: bs, c :: cs, h, ha, hb, hc, wa, wb, wc, x, y, z, e => by
    rw [List.length_cons] at ha hb hc
    rcases hm : Rct.mapRows (List.map (Rct.fwd1 t)) as bs cs with ⟨xs, ys, zs⟩
    simp only [Rct.mapRows, hm, Rct.unzip3, Prod.mk.injEq] at e
    obtain ⟨rfl, rfl, rfl⟩ := e
    have hz := zip3_length a b c (wa a (by simp)) (wb b (by simp)) (wc c (by simp))
    obtain ⟨i1, i2, i3⟩ := mapRows_shape t w as bs cs (h - 1) (by omega) (by omega) (by omega) (fun r hr => wa r (by simp [hr]))
      (fun r hr => wb r (by simp [hr])) (fun r hr => wc r (by simp [hr])) xs ys zs hm
    refine ⟨⟨?_, ?_⟩, ⟨?_, ?_⟩, ⟨?_, ?_⟩⟩
    · rw [List.length_cons]; omega
    · intro r hr
      rcases List.mem_cons.mp hr with rfl | hr
      · simp [hz]
      · exact i1.2 r hr
    · rw [List.length_cons]; omega
    · intro r hr
      rcases List.mem_cons.mp hr with rfl | hr
      · simp [hz]
      · exact i2.2 r hr
    · rw [List.length_cons]; omega
    · intro r hr
      rcases List.mem_cons.mp hr with rfl | hr
      · simp [hz]
      · exact i3.2 r hr

theorem rct_shape {img img' : Image} {m t : Nat} (ht : t < 42) (hw : img.Wf) (h : Rct.fwd img m t = some img') :
    checkEqualChannels img m (m + 2) = true ∧ img'.Wf ∧ SameLayout img img' := by
  unfold Rct.fwd at h
  split at h
  · cases h
  rename_i hck
  replace hck : checkEqualChannels img m (m + 2) = true := by simpa using hck
  split at h
  · cases h
  obtain ⟨A, B, C, hA, hB, hC, sAB, sAC⟩ := Rct.check_spec hck
  have hp := Rct.perm_cases (t / 7) (by omega)
  rcases hpe : Rct.perm (t / 7) with ⟨i, j, k⟩
  rw [hpe] at hp
  simp only [hpe] at h
  have all : ∀ q, q < 3 → ∃ D, img.channel[m + q]? = some D ∧ (A.w = D.w ∧ A.h = D.h) := by
    intro q hq
    rcases q with _ | _ | _ | q
    · exact ⟨A, hA, rfl, rfl⟩
    · exact ⟨B, hB, sAB.1, sAB.2.1⟩
    · exact ⟨C, hC, sAC.1, sAC.2.1⟩
    · omega
  have hlt : i < 3 ∧ j < 3 ∧ k < 3 := by
    simp only [List.mem_cons, Prod.mk.injEq, List.not_mem_nil, or_false] at hp
    omega
  obtain ⟨a, ha, sa⟩ := all i hlt.1
  obtain ⟨b, hb, sb⟩ := all j hlt.2.1
  obtain ⟨c, hc, sc⟩ := all k hlt.2.2
  have wa := hw a (List.mem_of_getElem? ha)
  have wb := hw b (List.mem_of_getElem? hb)
  have wc := hw c (List.mem_of_getElem? hc)
  rw [ha, hb, hc, hA, hB, hC] at h
  simp only [Option.bind_eq_bind, Option.bind_some, Option.some.injEq] at h
  rcases hm : Rct.mapRows (List.map (Rct.fwd1 (t % 7))) a.rows b.rows c.rows with ⟨x, y, z⟩
  rw [hm] at h
  simp only at h
  obtain ⟨s1, s2, s3⟩ := mapRows_shape (t % 7) A.w a.rows b.rows c.rows A.h (by rw [wa.1, sa.2]) (by rw [wb.1, sb.2]) (by rw [wc.1, sc.2])
    (by rw [sa.1]; exact wa.2) (by rw [sb.1]; exact wb.2) (by rw [sc.1]; exact wc.2) x y z hm
  subst h
  refine ⟨hck, set3_wf hw s1 (by rw [Channel.Wf, ← sAB.1, ← sAB.2.1]; exact s2) (by rw [Channel.Wf, ← sAC.1, ← sAC.2.1]; exact s3), ?_, rfl⟩
  show List.map Channel.dims img.channel = _
  dsimp only
  symm
  have gB : ∀ q : Channel, (img.channel.set m q)[m + 1]? = some B := fun q => by rw [List.getElem?_set_ne (by omega)]; exact hB
  have gC : ∀ q q' : Channel, ((img.channel.set m q).set (m + 1) q')[m + 2]? = some C := fun q q' => by
    rw [List.getElem?_set_ne (by omega), List.getElem?_set_ne (by omega)]; exact hC
  exact (set_dims (a := { C with rows := z }) (gC _ _) rfl).trans
    ((set_dims (a := { B with rows := y }) (gB _) rfl).trans (set_dims (a := { A with rows := x }) hA rfl))

/-! ## Palettes -/

theorem mapOpt_rows {f : Px → Option Nat} {rows : List (List Px)} {idx : List (List Nat)} (h : Palette.mapOpt (Palette.mapOpt f) rows = some idx) {w : Nat}
    (hw : ∀ r ∈ rows, r.length = w) : idx.length = rows.length ∧ ∀ r ∈ idx, r.length = w := by
  obtain ⟨h1, h2⟩ := Palette.mapOpt_get h
  refine ⟨h1, fun r hr => ?_⟩
  obtain ⟨i, hi, rfl⟩ := List.getElem_of_mem hr
  obtain ⟨b, b1, b2⟩ := h2 i _ (List.getElem?_eq_getElem (by omega : i < rows.length))
  rw [List.getElem?_eq_getElem hi] at b2
  injection b2 with b2
  rw [b2, (Palette.mapOpt_get b1).1]
  exact hw _ (List.getElem_mem _)

theorem meta_palette {img d : Image} (h : SameLayout img d) {b e n : Nat} (hc : checkEqualChannels img b e = true) (hm : ¬ b < img.nbMeta) :
    Palette.metaPalette d b e n 0 = some ⟨Channel.mk n (e - b + 1) (-1) (-1) (List.replicate (e - b + 1) (List.replicate n 0)) ::
      (d.channel.take (b + 1) ++ d.channel.drop (e + 1)), d.nbMeta + 1⟩ := by
  unfold Palette.metaPalette
  rw [← check_layout h, hc, if_pos rfl]
  dsimp only
  rw [if_pos (by rw [← h.2]; omega), Nat.add_zero]

/-- What both forms of a palette leave behind. -/
theorem palette_shape {img : Image} {b e : Nat} (hc : checkEqualChannels img b e = true) {ch : Channel} (hch : img.channel[b]? = some ch) (hw : img.Wf) {pal idx : List (List Px)}
    {n : Nat} (hp : pal.length = e - b + 1) (hpw : ∀ r ∈ pal, r.length = n) (hi : idx.length = ch.h) (hiw : ∀ r ∈ idx, r.length = ch.w) (hm : ¬ b < img.nbMeta) :
    let img' : Image := ⟨Channel.mk n (e - b + 1) (-1) (-1) pal :: (img.channel.take b ++ { ch with rows := idx } :: img.channel.drop (e + 1)), img.nbMeta + 1⟩
    img'.Wf ∧ ∀ d : Image, d.Wf → SameLayout img d → ∃ d', Palette.metaPalette d b e n 0 = some d' ∧ SameLayout img' d' ∧ d'.Wf := by
  refine ⟨?_, fun d hd hs => ⟨_, meta_palette hs hc hm, ⟨?_, by rw [hs.2]⟩, ?_⟩⟩
  · intro c hc'
    rcases List.mem_cons.mp hc' with rfl | hc'
    · exact ⟨hp, hpw⟩
    rcases List.mem_append.mp hc' with hc' | hc'
    · exact hw c (List.mem_of_mem_take hc')
    rcases List.mem_cons.mp hc' with rfl | hc'
    · exact ⟨hi, hiw⟩
    · exact hw c (List.mem_of_mem_drop hc')
  · obtain ⟨hb, he⟩ := List.getElem?_eq_some_iff.mp hch
    have hlen : d.channel.length = img.channel.length := by
      have := congrArg List.length hs.1
      simpa using this.symm
    rw [List.map_cons, List.map_cons, List.map_append, List.map_append, List.map_cons, List.map_take, List.map_drop, List.map_take, List.map_drop, ← hs.1]
    congr 1
    rw [List.take_add_one, List.getElem?_map, hch]
    simp
    rfl
  · intro c hc'
    rcases List.mem_cons.mp hc' with rfl | hc'
    · exact ⟨by simp, fun r hr => by rw [(List.mem_replicate.mp hr).2]; simp⟩
    rcases List.mem_append.mp hc' with hc' | hc'
    · exact hd c (List.mem_of_mem_take hc')
    · exact hd c (List.mem_of_mem_drop hc')

theorem palette_step {srt : List (List Px) → List (List Px)} {img img' : Image} {b e limit depth : Nat} (hw : img.Wf)
    (h : Palette.fwdPalette srt img b e limit depth = some (some img')) :
    img'.Wf ∧ ∀ d : Image, d.Wf → SameLayout img d → ∃ d', Palette.metaPalette d b e (paletteWidth img') 0 = some d' ∧ SameLayout img' d' ∧ d'.Wf := by
  unfold Palette.fwdPalette at h
  split at h
  · cases h
  rename_i hc
  replace hc : checkEqualChannels img b e = true := by simpa using hc
  split at h
  · cases h
  rename_i hm
  split at h
  · cases h
  split at h
  · cases h
  rename_i ch hch
  have hcw := hw ch (List.mem_of_getElem? hch)
  obtain ⟨b1, b2, b3, ch', b4, b5, b6, b7⟩ := Palette.checkEqual_spec hc
  rw [hch] at b4
  injection b4 with b4
  subst b4
  split at h
  · rename_i hbe
    subst hbe
    obtain ⟨r, hr, hk⟩ := Palette.channelPalette_spec limit ch.rows
    rw [hr] at h
    cases r with
    | none => cases h
    | some r =>
      obtain ⟨-, f, hf, -⟩ := hk r.1 r.2 rfl
      injection h with h
      injection h with h
      subst h
      obtain ⟨i1, i2⟩ := mapOpt_rows hf hcw.2
      have := palette_shape hc hch hw (pal := [r.1.map (BitVec.ofInt 32)]) (idx := r.2.map (List.map (BitVec.ofNat 32))) (n := r.1.length) (by simp) (by simp)
        (by rw [List.length_map, i1, hcw.1]) (by intro q hq; obtain ⟨q', hq', rfl⟩ := List.mem_map.mp hq; rw [List.length_map]; exact i2 q' hq') hm
      have e1 : b - b + 1 = 1 := by omega
      rw [e1] at this
      exact this
  · rename_i hbe
    have hlen : ((img.channel.drop b).take (e + 1 - b)).length = e - b + 1 := by
      rw [List.length_take, List.length_drop]; omega
    generalize hchs : (img.channel.drop b).take (e + 1 - b) = chs at *
    dsimp only at h
    unfold Palette.multiPalette at h
    cases hI : Palette.implicitColors chs.length depth with
    | none => rw [hI] at h; cases h
    | some implicit =>
      rw [hI, Option.bind_some] at h
      dsimp only at h
      generalize (List.range ch.h).flatMap (Palette.colorsRow chs ch.w) = pixels at h
      split at h
      · cases h
      · rename_i order used _
        split at h
        · cases h
        · generalize srt (order ++ implicit.filter fun c => decide (10 < pixels.count c)) = ord at h
          injection h with h
          injection h with h
          subst h
          have hl0 : (((List.range chs.length).map fun c => ord.map fun col => col.getD c 0).getD 0 []).length = ord.length := by
            rw [List.getD_eq_getElem?_getD, List.getElem?_map, List.getElem?_range (by omega)]
            simp
          have := palette_shape hc hch hw (pal := (List.range chs.length).map fun c => ord.map fun col => col.getD c 0)
            (idx := (List.range ch.h).map fun y => (Palette.colorsRow chs ch.w y).map fun col => BitVec.ofNat 32 (Palette.invPal implicit ord col)) (n := ord.length) (by simp [hlen])
            (by intro q hq; obtain ⟨y, -, rfl⟩ := List.mem_map.mp hq; simp) (by simp)
            (by intro q hq; obtain ⟨y, -, rfl⟩ := List.mem_map.mp hq; simp [Palette.colorsRow]) hm
          unfold paletteWidth
          dsimp only at this ⊢
          rw [hl0, hlen]
          rw [hlen] at this
          exact this

/-! ## Squeezes -/

theorem fwdAll_wf : ∀ (ps : List Params) (chs out : List Channel), fwdAll ps chs = some out → (∀ c ∈ chs, c.Wf) → ∀ c ∈ out, c.Wf
  | [], chs, out, h, hw => by cases h; exact hw
  | p :: ps, chs, out, h, hw => by
    simp only [fwdAll, Option.bind_eq_bind] at h
    obtain ⟨c1, h1, h2⟩ := Option.bind_eq_some_iff.mp h
    exact fwdAll_wf ps c1 out h2 (fwdOne_wf p chs c1 h1 hw)

/-! ## One transform -/

theorem step {u : Build} (hK : u.kernels = scalarK) {srt : List (List Px) → List (List Px)} (hsrt : ∀ l, (srt l).Perm l) {r : Request} {img img' : Image} {t : Tr} (hw : img.Wf) (hok : RequestOk u.depth img r)
    (h : fwdTr srt u.depth img r = some (some (t, img'))) :
    img'.Wf ∧ ∃ t', invTr u img' t' = .ok img ∧ ∀ junk (d : Image), d.Wf → SameLayout img d → ∃ d', metaTr junk d t = some (t', d') ∧ SameLayout img' d' ∧ d'.Wf := by
  cases r with
  | rct b ty =>
    simp only [fwdTr, Option.some.injEq, Option.map_eq_some_iff, Prod.mk.injEq] at h
    obtain ⟨i, hi, rfl, rfl⟩ := h
    obtain ⟨h1, h2, h3⟩ := rct_shape hok hw hi
    refine ⟨h2, .rct b ty, ?_, fun junk d hd hs => ⟨d, ?_, ⟨h3.1.symm.trans hs.1, h3.2.symm.trans hs.2⟩, hd⟩⟩
    · simp only [invTr]
      rw [Props.C17_round_trip u.lanes img i b ty hok hw hi]
    · simp only [metaTr]
      rw [if_pos (by rw [← check_layout hs]; exact h1)]
  | palette b n limit =>
    obtain ⟨o1, o2, o3⟩ := hok
    simp only [fwdTr, Option.map_eq_some_iff] at h
    obtain ⟨o, ho, he⟩ := h
    obtain ⟨i, rfl, e⟩ := he
    simp only [Prod.mk.injEq] at e
    obtain ⟨rfl, rfl⟩ := e
    obtain ⟨p1, p2⟩ := palette_step hw ho
    refine ⟨p1, .palette b n (paletteWidth i) 0 0, ?_, fun junk d hd hs => ?_⟩
    · obtain ⟨r, r1, r2⟩ := Props.C19_round_trip_partial srt hsrt img b (b + n - 1) limit u.depth hw o2
      rw [ho] at r1
      injection r1 with r1
      simp only [invTr]
      rw [show ((0 : Nat) == 0) = true from rfl, r2 i r1.symm (o3.imp (fun h => by omega) id) u.guess]
    · obtain ⟨d', d1, d2, d3⟩ := p2 d hd hs
      exact ⟨d', by simp only [metaTr]; rw [d1]; rfl, d2, d3⟩
  | squeeze ps =>
    obtain ⟨o1, ⟨ps', nb', gs'⟩, o2, o3⟩ := hok
    simp only [fwdTr, Option.some.injEq, Option.map_eq_some_iff, Prod.mk.injEq] at h
    obtain ⟨chs, hc, rfl, rfl⟩ := h
    have o2' := o2
    simp only [metaSqueeze, Option.bind_eq_bind] at o2
    obtain ⟨ps1, q1, q2⟩ := Option.bind_eq_some_iff.mp o2
    obtain ⟨s, q3, q4⟩ := Option.bind_eq_some_iff.mp q2
    simp only [Option.some.injEq, Prod.mk.injEq] at q4
    obtain ⟨rfl, rfl⟩ := q4
    simp only [fwdSqueeze, Option.bind_eq_bind, q1, Option.bind_some] at hc
    split at hc
    · cases hc
    obtain ⟨a1, a2⟩ := Props.C18_announced_channels ps1 img.channel chs img.nbMeta nb' gs' hc q3 o3 o1
    subst a1 a2
    refine ⟨fwdAll_wf _ _ _ hc hw, .squeeze ps1, ?_, fun junk d hd hs => ⟨⟨(chs.map geom).mapIdx fun i g => blank (junk i) g, img.nbMeta⟩, ?_, ⟨?_, rfl⟩, ?_⟩⟩
    · simp only [invTr]
      rw [hK, Props.C18_image_round_trip ps1 img.channel chs img.nbMeta img.nbMeta _ hw hc q3]
    · simp only [metaTr]
      rw [← geom_layout hs, ← hs.2, o2']
      rfl
    · rw [blank_dims, dims_geom rfl]
    · intro c hc'
      obtain ⟨i, hi, rfl⟩ := List.mem_mapIdx.mp hc'
      exact blank_wf _ _

/-! ## All of them -/

theorem steps {u : Build} (hK : u.kernels = scalarK) {srt : List (List Px) → List (List Px)} (hsrt : ∀ l, (srt l).Perm l) : ∀ (rs : List Request) (img img' : Image) (ts : List Tr), img.Wf →
    RequestsOk srt u.depth rs img → fwdAllTr srt u.depth rs img = some (some (ts, img')) →
    img'.Wf ∧ ∃ ts', undoAll u ts' img' = .ok img ∧ ∀ junk (d : Image), d.Wf → SameLayout img d → ∃ d', metaAllTr junk ts d = some (ts', d') ∧ SameLayout img' d' ∧ d'.Wf
  | [], img, img', ts, hw, _, h => by
    simp only [fwdAllTr, Option.some.injEq, Prod.mk.injEq] at h
    obtain ⟨rfl, rfl⟩ := h
    exact ⟨hw, [], rfl, fun _ d hd hs => ⟨d, rfl, hs, hd⟩⟩
  | r :: rs, img, img', ts, hw, hok, h => by
    rw [fwdAllTr] at h
    obtain ⟨o, ho, he⟩ := Option.bind_eq_some_iff.mp h
    cases o with
    | none => cases he
    | some p =>
      obtain ⟨t, i1⟩ := p
      simp only [Option.map_eq_some_iff] at he
      obtain ⟨q, hq, ⟨ts1, i2⟩, rfl, e⟩ := he
      simp only [Prod.mk.injEq] at e
      obtain ⟨rfl, rfl⟩ := e
      obtain ⟨w1, t', v1, m1⟩ := step hK hsrt hw hok.1 ho
      obtain ⟨w2, ts', v2, m2⟩ := steps hK hsrt rs i1 i2 ts1 w1 (hok.2 t i1 ho) hq
      refine ⟨w2, t' :: ts', by rw [undoAll, v2]; exact v1, fun junk d hd hs => ?_⟩
      obtain ⟨d1, e1, s1, x1⟩ := m1 junk d hd hs
      obtain ⟨d2, e2, s2, x2⟩ := m2 junk d1 x1 s1
      exact ⟨d2, by rw [metaAllTr, e1, Option.bind_some, e2]; rfl, s2, x2⟩

end Jxl.Modular.Whole
