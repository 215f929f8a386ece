import Verif.Model.ModularFrame
import Verif.Model.FastFrame
import Verif.Props.FastPixels
import Verif.Props.ModularStream
/-!
# The sections of the fast lossless encoder are read
-/
namespace Jxl.FastCode
open Jxl.Modular Jxl.Modular.Whole Jxl.Modular.GroupHeader MaTree TreeStream
open Jxl.Props (literals)

/-! ## The tree -/

/-- The choices of the encoder for its tree: all contexts together, a prefix code for four symbols of two bits. -/
def treePlan : Stream.Plan := ⟨none, [0, 0, 0, 0, 0, 0], [⟨0, 0, 0⟩], .huff [[1, 1, 1, 1]], false, true⟩

def treeTokens : List (Nat × Nat) :=
  [(1, 1), (0, 2), (1, 1), (0, 4), (1, 1), (0, 0), (1, 0), (2, 5), (3, 0), (4, 0), (5, 0), (1, 0), (2, 5), (3, 0), (4, 0), (5, 0),
   (1, 0), (2, 5), (3, 0), (4, 0), (5, 0), (1, 0), (2, 5), (3, 0), (4, 0), (5, 0)]

theorem treePlan_sound : Stream.Sound [] treePlan := by
  rw [Stream.Sound.eq_def]
  exact ⟨⟨by simp [treePlan], by decide, rfl, (by decide : ∀ c ∈ [[1, 1, 1, 1]], c.length ≤ 2 ^ 15 ∧ c.sum ≤ 2 ^ 30 ∧ c.countP (· ≠ 0) ≤ 1292),
    by decide, by decide, by decide, by decide⟩, fun hc => absurd hc (by decide)⟩

theorem treeTokens_ok : ∀ t ∈ literals treeTokens, Stream.TokenOk treePlan 0 t := by
  intro t ht
  simp [literals, treeTokens] at ht
  rcases ht with rfl | rfl | rfl | rfl | rfl | rfl | rfl | rfl | rfl | rfl | rfl | rfl | rfl | rfl | rfl | rfl | rfl | rfl | rfl | rfl | rfl | rfl | rfl | rfl | rfl | rfl <;>
    exact ⟨by decide, by decide, by decide, by decide, fun h z hz => by cases hz⟩

theorem tree_written (mem : Nat → List Alias.Entry) : writeTree mem [] treePlan (literals treeTokens) = some (bitsFor treeWrites) := by
  cbv

theorem tree_tokens : tokenizeLoop fastTree 8 [0] 0 [] [] = some (some (fastTree, treeTokens)) := by decide +kernel

theorem tree_read {env : Stream.Env} (henv : Stream.EnvOk env) {limit : Nat} (hl : 1024 ≤ limit) (rest : List Bool) :
    readTree env limit (bitsFor treeWrites ++ rest) = .ok (fastTree, rest) := by
  have hW : ∀ (i : Nat) (n : Node), fastTree[i]? = some n → Writable n := by
    intro i n h
    have hall : ∀ n ∈ fastTree, (n.property = -1 → n.predictor < kNumModularPredictors ∧ 0 < n.multiplier ∧ n.multiplier < 2 ^ 31 ∧ minInt ≤ n.offset ∧ n.offset ≤ maxInt) ∧
      (n.property ≠ -1 → 0 ≤ n.property ∧ n.property ≤ 255 ∧ minInt ≤ n.splitval ∧ n.splitval ≤ maxInt) := by decide
    exact hall n (List.mem_of_getElem? h)
  have hlive : fastDtree.Live fun _ => True := by
    have hp : ∀ v : Int, minInt ≤ v → v ≤ maxInt → PropsOk fun _ => v := fun v h1 h2 _ => ⟨h1, h2⟩
    exact ⟨⟨⟨fun _ => 3, hp _ (by decide) (by decide), by decide⟩, ⟨fun _ => 2, hp _ (by decide) (by decide), by decide⟩⟩,
      ⟨⟨fun _ => 1, hp _ (by decide) (by decide), by decide⟩, ⟨fun _ => 0, hp _ (by decide) (by decide), by decide⟩⟩⟩
  obtain ⟨out, toks, h1, -, h3⟩ := Props.C64_round_trip_partial (limit := limit) fastTree_wf.rep hW (by decide) hlive
    (by have : fastDtree.size = 7 := rfl
        unfold kMaxTreeSize; omega) (mem := fun la => List.replicate (2 ^ la) ⟨0, 0, 0, 0, 0⟩)
    (fun la => List.length_replicate) treePlan_sound rfl (Or.inl rfl)
  have e := h1.symm.trans tree_tokens
  simp only [Option.some.injEq, Prod.mk.injEq] at e
  obtain ⟨rfl, rfl⟩ := e
  obtain ⟨bits, b1, b2⟩ := h3 (literals treeTokens) (Props.literals_ok rfl treeTokens_ok (by decide))
  rw [tree_written] at b1
  injection b1 with b1
  rw [b1]
  exact b2 env henv rest

/-! ## Channels of one size -/

/-- All channels have this size, and no shift. -/
def Shaped (w h : Nat) (ds : List Channel) : Prop := ∀ d ∈ ds, d.w = w ∧ d.h = h ∧ d.hshift = 0 ∧ d.vshift = 0 ∧ d.Wf

theorem blank_wf (junk : Nat → Nat → Px) (g : Squeeze.Geom) : (blank junk g).Wf := by
  refine ⟨by simp [blank], fun r hr => ?_⟩
  obtain ⟨y, -, rfl⟩ := List.mem_map.mp hr
  simp [blank]

theorem frame_shaped (junk : Nat → Nat → Nat → Px) (w h nb : Nat) : Shaped w h (Frame.frameImage junk w h nb).channel := by
  intro d hd
  obtain ⟨i, -, rfl⟩ := List.mem_map.mp hd
  exact ⟨rfl, rfl, rfl, rfl, blank_wf _ _⟩

theorem shaped_equal {w h : Nat} {ds : List Channel} (hs : Shaped w h ds) (hl : 3 ≤ ds.length) : checkEqualChannels ⟨ds, 0⟩ 0 2 = true := by
  match ds, hl with
  | a :: b :: c :: ds, _ =>
    obtain ⟨a1, a2, a3, a4, -⟩ := hs a (by simp)
    obtain ⟨b1, b2, b3, b4, -⟩ := hs b (by simp)
    obtain ⟨c1, c2, c3, c4, -⟩ := hs c (by simp)
    simp [checkEqualChannels, a1, a2, a3, a4, b1, b2, b3, b4, c1, c2, c3, c4]

theorem shaped_width {w h mx : Nat} (hw : 1 ≤ w) (hh : 1 ≤ h) (hwm : w ≤ mx) (hhm : h ≤ mx) : ∀ (ds : List Channel) (i acc : Nat), Shaped w h ds → acc ≤ w →
    decWidth 0 mx i ds acc = if ds = [] then acc else w
  | [], _, _, _, _ => rfl
  | d :: ds, i, acc, hs, ha => by
    obtain ⟨d1, d2, -⟩ := hs d (by simp)
    have ht : tooLarge 0 mx i d = false := by simp [tooLarge, d1, d2]; omega
    rw [decWidth, ht, d1, d2, if_neg (by simp), if_neg (by omega), shaped_width hw hh hwm hhm ds (i + 1) _ (fun x hx => hs x (by simp [hx])) (by split <;> omega)]
    rw [if_neg (List.cons_ne_nil _ _)]
    split
    · split <;> omega
    · rfl

theorem shaped_coded {w h mx : Nat} (hw : 1 ≤ w) (hh : 1 ≤ h) (hwm : w ≤ mx) (hhm : h ≤ mx) {ds : List Channel} (hs : Shaped w h ds) (hne : ds ≠ []) :
    numCoded 0 mx 0 ds ≠ 0 := by
  match ds, hne with
  | d :: ds, _ =>
    obtain ⟨d1, d2, -⟩ := hs d (by simp)
    have ht : tooLarge 0 mx 0 d = false := by simp [tooLarge, d1, d2]; omega
    rw [numCoded, ht, d1, d2, if_neg (by simp), if_neg (by omega)]
    omega

theorem shaped_none {w h mx : Nat} (hl : mx < w ∨ mx < h) {ds : List Channel} (hs : Shaped w h ds) : numCoded 0 mx 0 ds = 0 := by
  match ds with
  | [] => rfl
  | d :: ds =>
    obtain ⟨d1, d2, -⟩ := hs d (by simp)
    have ht : tooLarge 0 mx 0 d = true := by simp [tooLarge, d1, d2]; omega
    rw [numCoded, ht, if_pos rfl]

theorem shaped_tiles {w h g : Nat} (hg : 1 ≤ g) (hg' : g < 2 ^ 60) (dc : Bool) : ∀ {ds : List Channel}, Shaped w h ds → allTiles g dc ds = some true
  | [], _ => rfl
  | d :: ds, hs => by
    obtain ⟨d1, d2, d3, d4, -⟩ := hs d (by simp)
    have : tileOk g dc d = some true := by
      unfold tileOk
      rw [d3, d4]
      split
      · rfl
      · cases dc
        · rw [if_neg (by decide), if_neg (by decide)]
          simp
          omega
        · rw [if_pos (by decide)]
    rw [allTiles, this, Option.bind_some, if_pos rfl, shaped_tiles hg hg' dc fun x hx => hs x (by simp [hx])]

theorem shaped_valid {w h g : Nat} (hg : 1 ≤ g) (hg' : g < 2 ^ 60) {ds : List Channel} (hs : Shaped w h ds) : validDims g ⟨ds, 0⟩ = some true := by
  have hr : Shaped w h (ds.dropWhile fun c => decide (c.w ≤ g ∧ c.h ≤ g)) := fun d hd => hs d ((List.dropWhile_suffix _).subset hd)
  unfold validDims
  dsimp only
  rw [List.drop_zero, shaped_tiles hg hg' true hr, Option.bind_some, if_pos rfl, shaped_tiles hg hg' false hr]

/-! ## Samples -/

theorem channels_read {env : Stream.Env} {dc : Stream.Code} {hd : GroupHeader.Header} {group groupDim mx w h : Nat} {ds cs : List Channel} {s : List Bool} {st0 st : Stream.St}
    (hs : Shaped w h ds) (hne : ds ≠ []) (hw : 1 ≤ w) (hh : 1 ≤ h) (hwm : w ≤ mx) (hhm : h ≤ mx) (hg : 1 ≤ groupDim) (hg' : groupDim < 2 ^ 60) (hgt : hd.globalTree = true)
    (hst : Stream.start dc.tables s = .ok st0)
    (hdec : decodeChannels (ticks fastDtree) (codeInfo dc) hd.wp fastTree dc.map group (entropyReader dc w) 0 mx [] ds (.ok st0) = some (cs, .ok st))
    (hfin : Stream.finalOk st = true) :
    readChannels env (some (fastTree, dc)) hd group groupDim mx ⟨ds, 0⟩ s = .ok (⟨cs, 0⟩, st.bits) := by
  unfold readChannels
  rw [shaped_valid hg hg' hs]
  dsimp only
  rw [if_neg (shaped_coded hw hh hwm hhm hs hne)]
  unfold readCode
  rw [hgt, if_pos rfl]
  dsimp only
  rw [if_neg (by decide)]
  show readSamples hd group mx ⟨ds, 0⟩ fastTree dc s = _
  unfold readSamples
  dsimp only
  rw [hst, shaped_width hw hh hwm hhm ds 0 0 hs (by omega), if_neg hne, ticksOf_eq fastTree_wf.rep (by rfl)]
  show (match decodeChannels (ticks fastDtree) (codeInfo dc) hd.wp fastTree dc.map group (entropyReader dc w) 0 mx [] ds (.ok st0) with
    | none => _
    | some (chs, r) => _) = _
  rw [hdec]
  show (if Stream.finalOk st then Stream.Out.ok (_, st.bits) else .bad) = _
  rw [if_pos hfin]

/-! ## Headers -/

/-- The header of the image in the first section. -/
def globalHeader (nb : Nat) : GroupHeader.Header := ⟨true, Wp.defaultHeader, if nb > 2 then [.rct 0 6] else []⟩

@[inherit_doc globalHeader] def headerWrites (nb : Nat) : List (Nat × Nat) :=
  [(1, 1), (1, 1)] ++ (if nb > 2 then [(2, 0b01), (2, 0b00), (5, 0b00000), (2, 0b00)] else [(2, 0b00)])

theorem global_header_read (nb : Nat) (rest : List Bool) : GroupHeader.read (bitsFor (headerWrites nb) ++ rest) = some (globalHeader nb, rest) := by
  unfold headerWrites globalHeader
  by_cases h : nb > 2
  · simp only [h, if_true]
    cbv
  · simp only [h, if_false]
    cbv

theorem group_header_read (rest : List Bool) : GroupHeader.read (bitsFor groupWrites ++ rest) = some (⟨true, Wp.defaultHeader, []⟩, rest) := global_header_read 0 rest

/-! ## Sections -/

theorem global_read {env : Stream.Env} (henv : Stream.EnvOk env) {hb : List Bool} {dc : Stream.Code}
    (hdc : ∀ rest, Stream.decodeHistograms env 4 (hb ++ rest) = .ok (dc, rest)) (junk : Nat → Nat → Nat → Px) (w h nb : Nat) (s : List Bool) :
    Frame.readGlobal env junk 256 w h nb (bitsFor [(1, 1), (1, 1)] ++ (bitsFor treeWrites ++ (hb ++ s))) =
      (readCoded env junk (some (fastTree, dc)) 0 256 256 (Frame.frameImage junk w h nb) s).bind fun q =>
        .ok (⟨some (fastTree, dc), q.1, q.2.2.1, (Frame.moveTransforms 256 q.2.2.1 q.2.1).2, (Frame.moveTransforms 256 q.2.2.1 q.2.1).1⟩, q.2.2.2) := by
  have e : bitsFor [(1, 1), (1, 1)] ++ (bitsFor treeWrites ++ (hb ++ s)) = true :: true :: (bitsFor treeWrites ++ (hb ++ s)) := rfl
  rw [e]
  unfold Frame.readGlobal
  show (Frame.readFrameTree env (min (2 ^ 22) (1024 + w * h * nb / 16)) true (bitsFor treeWrites ++ (hb ++ s))).bind _ = _
  unfold Frame.readFrameTree
  dsimp only
  rw [tree_read henv (by omega)]
  show ((Stream.decodeHistograms env ((fastTree.length + 1) / 2) (hb ++ s)).bind _).bind _ = _
  rw [show (fastTree.length + 1) / 2 = 4 from rfl, hdc]
  rfl

theorem meta_global {junk junk' : Nat → Nat → Nat → Px} {w h nb : Nat} : metaAllTr junk (globalHeader nb).transforms (Frame.frameImage junk' w h nb) =
    some ((globalHeader nb).transforms, Frame.frameImage junk' w h nb) := by
  unfold globalHeader
  by_cases hn : nb > 2
  · have e : checkEqualChannels (Frame.frameImage junk' w h nb) 0 2 = true := shaped_equal (frame_shaped junk' w h nb) (by simp [Frame.frameImage]; omega)
    simp only [hn, if_true, metaAllTr, metaTr, Nat.zero_add, e, Option.bind_some, Option.map_some]
  · simp only [hn, if_false, metaAllTr]

theorem coded_read {env : Stream.Env} {junk : Nat → Nat → Nat → Px} {glob : Option (List Node × Stream.Code)} {group g mx : Nat} {img : Image} (hne : img.channel ≠ [])
    {s s' : List Bool} {h : GroupHeader.Header} (hr : GroupHeader.read s = some (h, s')) (hm : metaAllTr junk h.transforms img = some (h.transforms, img)) :
    readCoded env junk glob group g mx img s = (readChannels env glob h group g mx img s').bind fun p => .ok (h, h.transforms, p.1, p.2) := by
  unfold readCoded
  rw [if_neg hne, hr]
  dsimp only
  rw [hm]

theorem something {w h : Nat} {cs : List Channel} (hs : Shaped w h cs) (hne : cs ≠ []) : Frame.haveSomething 256 ⟨cs, 0⟩ = decide (w ≤ 256 ∧ h ≤ 256) := by
  unfold Frame.haveSomething
  dsimp only
  rw [List.drop_zero]
  by_cases hd : w ≤ 256 ∧ h ≤ 256
  · rw [decide_eq_true hd]
    match cs, hne with
    | c :: cs, _ =>
      obtain ⟨c1, c2, -⟩ := hs c (by simp)
      simp [c1, c2, hd]
  · rw [decide_eq_false hd, Bool.eq_false_iff]
    intro h
    obtain ⟨c, hc, h⟩ := List.any_eq_true.mp h
    obtain ⟨c1, c2, -⟩ := hs c hc
    rw [c1, c2] at h
    exact hd (by simpa using h)

theorem emit_continue {ws : List (Nat × Nat)} {b : List Bool} (hb : ∀ more, emit 0 (ws ++ more) = b ++ emit 0 more) {wss : List (List (Nat × Nat))} (hne : wss ≠ []) :
    (continueFirst ws wss).flatMap (emit 0) = b ++ wss.flatMap (emit 0) := by
  match wss, hne with
  | w :: wss, _ => rw [continueFirst, List.flatMap_cons, List.flatMap_cons, hb, List.append_assoc]

theorem global_bits {nb : Nat} {hs : List (Nat × Nat)} {hb : List Bool} (h : ∀ more, emit 0 (hs ++ more) = hb ++ emit 0 more) (more : List (Nat × Nat)) :
    emit 0 (globalWrites nb hs ++ more) = (bitsFor [(1, 1), (1, 1)] ++ (bitsFor treeWrites ++ (hb ++ bitsFor (headerWrites nb)))) ++ emit 0 more := by
  have hfit : ∀ w ∈ headerWrites nb, w.2 < 2 ^ w.1 := by
    unfold headerWrites
    split <;> decide
  have e : globalWrites nb hs = [(1, 1), (1, 1)] ++ (treeWrites ++ (hs ++ headerWrites nb)) := rfl
  rw [e, List.append_assoc, emit_fit _ _ (by decide), List.append_assoc, emit_fit _ _ (by decide), List.append_assoc, h, emit_fit _ _ hfit]
  simp only [List.append_assoc]

/-- The channels of a group of a large frame. -/
theorem group_shaped (junk : Nat → Nat → Nat → Px) {w h : Nat} (hl : 256 < w ∨ 256 < h) {cs : List Channel} (hs : Shaped w h cs) {gx gy : Nat} (hx : gx * 256 < w) (hy : gy * 256 < h) :
    Shaped (min (w - gx * 256) 256) (min (h - gy * 256) 256) (Frame.groupImage junk 256 0 2 ⟨gx * 256, gy * 256, 256, 256⟩ ⟨cs, 0⟩).channel ∧
      (Frame.groupImage junk 256 0 2 ⟨gx * 256, gy * 256, 256, 256⟩ ⟨cs, 0⟩).channel.length = cs.length := by
  have hone : ∀ (j : Nat → Nat → Px) (c : Channel), c ∈ cs → Frame.groupChannel j 0 2 ⟨gx * 256, gy * 256, 256, 256⟩ c =
      some (blank j ⟨min (w - gx * 256) 256, min (h - gy * 256) 256, 0, 0⟩) := by
    intro j c hc
    obtain ⟨c1, c2, c3, c4, -⟩ := hs c hc
    unfold Frame.groupChannel
    rw [c1, c2, c3, c4]
    have e1 : FrameDim.clampedSize (gx * 256) 256 w = min (w - gx * 256) 256 := by unfold FrameDim.clampedSize; split <;> omega
    have e2 : FrameDim.clampedSize (gy * 256) 256 h = min (h - gy * 256) 256 := by unfold FrameDim.clampedSize; split <;> omega
    simp only [FrameDim.Rect.clamped, Int.toNat_zero, Nat.shiftRight_zero, e1, e2]
    rw [if_neg (by decide), if_neg (by omega)]
  have hdrop : cs.dropWhile (fun c => decide (c.w ≤ 256 ∧ c.h ≤ 256)) = cs := by
    match cs with
    | [] => rfl
    | c :: cs =>
      obtain ⟨c1, c2, -⟩ := hs c (by simp)
      rw [List.dropWhile_cons_of_neg]
      rw [c1, c2]
      simp
      omega
  have hall : ∀ (l : List Channel) (f : Nat → Channel → Option Channel) (D : Nat → Channel), (∀ i c, c ∈ l → f i c = some (D i)) →
      (l.mapIdx f).filterMap id = l.mapIdx fun i _ => D i := by
    intro l
    induction l with
    | nil => intro f D h; rfl
    | cons c l ih =>
      intro f D h
      rw [List.mapIdx_cons, List.mapIdx_cons, h 0 c (by simp)]
      show D 0 :: List.filterMap id _ = _
      rw [ih (fun i => f (i + 1)) (fun i => D (i + 1)) fun i x hx => h (i + 1) x (by simp [hx])]
  have e : (Frame.groupImage junk 256 0 2 ⟨gx * 256, gy * 256, 256, 256⟩ ⟨cs, 0⟩).channel =
      cs.mapIdx fun i _ => blank (junk i) ⟨min (w - gx * 256) 256, min (h - gy * 256) 256, 0, 0⟩ := by
    unfold Frame.groupImage
    dsimp only
    rw [List.drop_zero, hdrop]
    exact hall cs _ _ fun i c hc => hone _ c hc
  rw [e]
  refine ⟨fun d hd => ?_, List.length_mapIdx⟩
  obtain ⟨i, hi, rfl⟩ := List.mem_mapIdx.mp hd
  exact ⟨rfl, rfl, rfl, rfl, blank_wf _ _⟩

end Jxl.FastCode
