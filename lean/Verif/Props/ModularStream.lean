import Verif.Lemmas.ModularStream
/-!
# C66: a whole modular image through the bits
-/
namespace Jxl.Props
open Jxl Jxl.Modular Jxl.Modular.Squeeze Jxl.Modular.Whole MaTree TreeStream

/-- **C66.** Any image, any list of transforms the encoder applied to it (colour transforms, palettes without loss, squeezes), any tree and
any sound choices of the two entropy coders: the stream — header, tree, code, tokens — is written, and a decoder that only knows the sizes
and shifts of the channels reads from it, up to exactly its last bit, the image before all transforms. Neither the memory the decoder finds
nor what follows the stream matters, nor what is in the channels before they are decoded.

Partial: the conditions of C20, C64 and C19 (`hB`, `hleaf`, palettes of several channels of at most 24 bits); contexts of 16 bits
(`hsmall`); no channel with columns but no rows (`hwid`); all channels are in this stream (`hA`) and at least one is not empty (`hsome`);
undoing squeezes without vectors. -/
theorem C66_round_trip_partial {u : Build} (hK : u.kernels = scalarK) {srt : List (List Px) → List (List Px)} (hsrt : ∀ l, (srt l).Perm l)
    -- the image and its transforms
    {img img' : Image} (hne : img.channel ≠ []) (hw : img.Wf) {rs : List Request} (hrs : RequestsOk srt u.depth rs img) {h : GroupHeader.Header} (hg : h.globalTree = false)
    (hh : GroupHeader.Ok h) (hf : fwdAllTr srt u.depth rs img = some (some (h.transforms, img'))) {groupDim mx : Nat} (hA : AllHere img'.nbMeta mx img'.channel)
    (hv : validDims groupDim img' = some true) (hsome : numCoded img'.nbMeta mx 0 img'.channel ≠ 0) (hwid : ∀ e ∈ img'.channel, e.h = 0 → e.w = 0)
    -- the tree
    {tree : List Node} {t : Dtree} (ht : Represents tree 0 t) (hW : ∀ (i : Nat) (n : Node), tree[i]? = some n → Writable n) (hheight : t.height ≤ 2046) (hl : t.Live fun _ => True)
    (hsize : t.size ≤ min (treeLimit img' mx) kMaxTreeSize + 1) (hsmall : t.size ≤ 131072)
    -- the codes
    {mem : Nat → List Alias.Entry} (hm : ∀ la, (mem la).length = 2 ^ la) {treeLayers layers : List Stream.Layer} {treePlan plan : Stream.Plan} (hts : Stream.Sound treeLayers treePlan)
    (htn : treePlan.map.length = if treePlan.lz.isSome then 6 + 1 else 6) (hleaf : LeavesShown treePlan) (hs : Stream.Sound layers plan)
    (hn : plan.map.length = if plan.lz.isSome then (t.size + 1) / 2 + 1 else (t.size + 1) / 2) (group : Nat) :
    ∃ out treeVals, tokenizeLoop tree (t.size + 1) [0] 0 [] [] = some (some (out, treeVals)) ∧ ∀ treeToks, Stream.Tokenised treePlan 0 0 treeToks treeVals →
      ∀ vals, encodeChannels (ticksOf out) h.wp out group false img'.nbMeta mx [] img'.channel = some (some vals) →
      (NoBoundary out ∨ (plan.lz = none ∧ ∀ e ∈ img'.channel, e.w = 0 ∨ e.h = 0 ∨ 8 < e.w)) →
      ∀ toks, Stream.Tokenised plan 0 (encWidth img'.nbMeta mx 0 img'.channel 0) toks vals →
      ∃ bits, writeImage mem h treeLayers treePlan treeToks layers plan toks = some bits ∧
        ∀ env, Stream.EnvOk env → ∀ junk glob (d : Image), d.Wf → SameLayout img d → ∀ rest,
          readImage env u junk glob group groupDim mx d (bits ++ rest) = .ok (img, rest) := by
  obtain ⟨hw', ts', hundo, hmeta⟩ := steps hK hsrt rs img img' h.transforms hw hrs hf
  obtain ⟨out, treeVals, k1, ⟨t', k2, k3⟩, k4⟩ := C64_round_trip_partial ht hW hheight hl hsize hm hts htn hleaf
  refine ⟨out, treeVals, k1, fun treeToks htt vals hvals hB toks htoks => ?_⟩
  obtain ⟨hb, g1, g2⟩ := C65_round_trip h hh
  obtain ⟨tb, b1, b2⟩ := k4 treeToks htt
  have henv0 : Stream.EnvOk ⟨List.replicate 32 ⟨0, 0⟩, fun la _ => mem la, List.replicate 64 0, 0⟩ := ⟨by simp, fun la _ => hm la, by simp, by simp⟩
  have hp : Stream.PlanOk plan := by rw [Stream.Sound.eq_def] at hs; exact hs.1
  have hread0 := b2 _ henv0 []
  have hlen : out.length = t.size := by
    obtain ⟨-, -, hk⟩ := C64_any_bits henv0 (treeLimit img' mx) (tb ++ [])
    obtain ⟨-, ⟨t1, r1, r2, -⟩, -⟩ := hk out [] hread0
    rw [← r2, represents_unique r1 k2, size_shape k3]
  have hcm : (out.length + 1) / 2 ≤ plan.map.length := by rw [hn, hlen]; split <;> omega
  obtain ⟨t1, w1, w2, w3⟩ := read_tree_ok henv0 hread0 (by omega) hcm fun c hc => by have := hp.inMap c hc; have := hp.few; omega
  obtain ⟨cb, infos, c1, c2⟩ := Stream.header_back hm layers plan hs
  have hfuel : Stream.nesting plan ≤ 2 := by unfold Stream.nesting; (repeat' split) <;> omega
  obtain ⟨c0, -, a0, f0⟩ := c2 2 ((out.length + 1) / 2) false _ [] henv0 hfuel (by simp) (by rw [hn, hlen])
  have hsam : ∀ (c : Stream.Code), Stream.Agrees plan c → Stream.Fits plan.stats infos c.tables → ∀ d : Image, d.Wf → SameLayout img' d →
      ∃ bits, Stream.writeTokens plan infos 0 toks = some bits ∧ ∀ rest, readSamples h group mx d out c (bits ++ rest) = .ok (img', rest) := by
    intro c ca cf d hd hsd
    exact samples_back hh.1 hw' hd hsd hA w1 w2 hp w3 ca cf hB hwid hvals htoks
  obtain ⟨db, d1, -⟩ := hsam c0 a0 f0 img' hw' ⟨rfl, rfl⟩
  refine ⟨hb ++ (tb ++ (cb ++ db)), ?_, fun env henv junk glob d hd hsd rest => ?_⟩
  · unfold writeImage
    rw [g1, b1, c1]
    simp only [Option.bind_eq_bind, Option.bind_some, d1]
  obtain ⟨d', m1, m2, m3⟩ := hmeta junk d hd hsd
  obtain ⟨c, r1, ca, cf⟩ := c2 2 ((out.length + 1) / 2) false env (db ++ rest) henv hfuel (by simp) (by rw [hn, hlen])
  obtain ⟨db', e1, e2⟩ := hsam c ca cf d' m3 m2
  rw [d1] at e1
  injection e1 with e1
  subst e1
  have hdne : d.channel ≠ [] := by
    intro e
    have := congrArg List.length hsd.1
    rw [e, List.length_map, List.length_map, List.length_nil] at this
    exact hne (List.length_eq_zero_iff.mp this)
  unfold readImage readCoded
  rw [if_neg hdne, List.append_assoc, g2]
  dsimp only
  rw [m1]
  dsimp only
  have hlim : treeLimit d' mx = treeLimit img' mx := by unfold treeLimit; rw [← m2.2, numPixels_dims _ _ _ _ _ m2.1]
  have hch : readChannels env glob h group groupDim mx d' ((tb ++ (cb ++ db)) ++ rest) = .ok (img', rest) := by
    unfold readChannels
    rw [validDims_layout m2, hv]
    dsimp only
    rw [← m2.2, numCoded_dims _ _ _ _ _ m2.1, if_neg hsome, hlim]
    unfold readCode
    rw [hg, if_neg (by decide), List.append_assoc, b2 env henv]
    show ((Stream.decodeHistograms env ((out.length + 1) / 2) ((cb ++ db) ++ rest)).bind fun q => Stream.Out.ok (out, q.1, q.2)).bind _ = _
    unfold Stream.decodeHistograms
    rw [List.append_assoc, r1]
    exact e2 rest
  rw [hch]
  show (undoAll u ts' img').bind _ = _
  rw [hundo]
  show (if img.channel.map (fun c => (c.w, c.h)) = d.channel.map (fun c => (c.w, c.h)) then Stream.Out.ok (img, rest) else .bad) = _
  have hsz : img.channel.map (fun c => (c.w, c.h)) = d.channel.map (fun c => (c.w, c.h)) := by
    have e : (fun c : Channel => (c.w, c.h)) = (fun q : Nat × Nat × Int × Int => (q.1, q.2.1)) ∘ Channel.dims := rfl
    rw [e, ← List.map_map, hsd.1, List.map_map]
  rw [if_pos hsz]

/-! ## An image with a colour transform and a palette -/

def wholeImage : Image := ⟨[⟨2, 1, 0, 0, [[1, 2]]⟩, ⟨2, 1, 0, 0, [[0, 1]]⟩, ⟨2, 1, 0, 0, [[3, 3]]⟩], 0⟩

def wholeCoded : Image := ⟨[⟨2, 1, -1, -1, [[-2, -1]]⟩, ⟨2, 1, 0, 0, [[1, 1]]⟩, ⟨2, 1, 0, 0, [[-2, -1]]⟩, ⟨2, 1, 0, 0, [[0, 1]]⟩], 1⟩

def wholeHeader : GroupHeader.Header := ⟨false, Wp.defaultHeader, [.rct 0 6, .palette 2 1 2 0 0]⟩

def wholeTree : List Node := [⟨-1, 0, 0, 0, 5, 0, 1⟩]

def wholeTreeValues : List (Nat × Nat) := [(1, 0), (2, 5), (3, 0), (4, 0), (5, 0)]

def wholeValues : List (Nat × Nat) := [(0, 3), (0, 2), (0, 2), (0, 0), (0, 3), (0, 2), (0, 0), (0, 2)]

def wholePlan : Stream.Plan := ⟨none, [0], [⟨4, 1, 1⟩], .ans 5 [⟨0, 0, 16, 16, 0, 1, List.replicate 16 256⟩], false, true⟩

def literals (l : List (Nat × Nat)) : List Ans.Token := l.map fun v => ⟨false, v.1, v.2⟩

theorem literals_ok {p : Stream.Plan} (hz : p.lz = none) {l : List (Nat × Nat)} {mult : Nat} (hok : ∀ t ∈ literals l, Stream.TokenOk p 0 t) (hlen : l.length < 2 ^ 32) :
    Stream.Tokenised p 0 mult (literals l) l := by
  have hst : ∀ (l : List (Nat × Nat)) (h : List Nat), Stream.Stands (p.meaning mult) p.lz.isSome 0 h (literals l) l := by
    intro l
    induction l with
    | nil => intro h; exact .done h
    | cons v l ih => intro h; exact .literal (ih _)
  refine ⟨hok, ⟨0, fun h => absurd hz h, hst l []⟩, fun v hv => ?_, hlen⟩
  exact (hok ⟨false, v.1, v.2⟩ (List.mem_map_of_mem hv)).ctx

theorem wholePlan_sound : Stream.Sound [] wholePlan := by
  rw [Stream.Sound.eq_def]
  refine ⟨⟨by simp [wholePlan], by decide, rfl, ⟨by decide, by decide, fun h hh => ?_⟩, by decide, by decide, by decide, by decide⟩, fun hc => absurd hc (by decide)⟩
  simp at hh
  subst hh
  exact ⟨.flat rfl (by decide) (by decide) (fun s => rfl), by decide⟩

theorem shownPlan_sound : Stream.Sound [] shownPlan := by
  rw [Stream.Sound.eq_def]
  refine ⟨⟨by simp [shownPlan], by decide, rfl, ⟨by decide, by decide, fun h hh => ?_⟩, by decide, by decide, by decide, by decide⟩, fun hc => absurd hc (by decide)⟩
  simp at hh
  subst hh
  exact ⟨.flat rfl (by decide) (by decide) (fun s => rfl), by decide⟩

/-- The conditions are met, and so the image comes back from the bits. -/
example {mem : Nat → List Alias.Entry} (hm : ∀ la, (mem la).length = 2 ^ la) (guess : Nat → List (List Px) → List Px → Int) :
    ∃ bits, writeImage mem wholeHeader [] shownPlan (literals wholeTreeValues) [] wholePlan (literals wholeValues) = some bits ∧
      ∀ env, Stream.EnvOk env → ∀ junk (d : Image), d.Wf → SameLayout wholeImage d → ∀ rest,
        readImage env ⟨8, scalarK, guess, 8⟩ junk none 7 256 1024 d (bits ++ rest) = .ok (wholeImage, rest) := by
  have hch : ∀ c ∈ wholeCoded.channel, c.w = 2 ∧ c.h = 1 := by decide
  obtain ⟨out, tv, h1, h2⟩ := C66_round_trip_partial (u := ⟨8, scalarK, guess, 8⟩) rfl (srt := id) (fun _ => .refl _) (img := wholeImage) (img' := wholeCoded) (by decide)
    (by unfold Image.Wf Channel.Wf; decide) (rs := [.rct 0 6, .palette 2 1 16]) ⟨by show 6 < 42; decide, fun t i _ => ⟨⟨by decide, by decide, Or.inl rfl⟩, fun _ _ _ => trivial⟩⟩
    (h := wholeHeader) rfl ⟨by unfold Wp.Header.Ok; decide, by decide, fun t ht => by
      simp [wholeHeader] at ht
      rcases ht with rfl | rfl
      · exact ⟨by decide, by decide⟩
      · exact ⟨by decide, by decide, by decide, by decide, by decide⟩⟩
    (by show fwdAllTr id 8 _ _ = _; decide +kernel) (groupDim := 256) (mx := 1024) (fun i c hc _ => by have := hch c (List.mem_of_getElem? hc); omega) (by decide +kernel) (by decide +kernel)
    (fun e he h0 => by have := hch e he; omega)
    (tree := wholeTree) (t := .leaf ⟨0, 5, 0, 1⟩) (.leaf (n := ⟨-1, 0, 0, 0, 5, 0, 1⟩) rfl rfl)
    (fun i n hi => by
      match i, hi with
      | 0, hi => injection hi with hi; subst hi; exact ⟨by decide, by decide⟩
      | i + 1, hi => cases hi)
    (by decide) ⟨fun _ => 0, fun _ => (by decide : minInt ≤ 0 ∧ 0 ≤ maxInt), trivial⟩ (by decide +kernel) (by decide) hm shownPlan_sound rfl (Or.inl rfl) wholePlan_sound rfl 7
  have e : tokenizeLoop wholeTree ((Dtree.leaf ⟨0, 5, 0, 1⟩).size + 1) [0] 0 [] [] = some (some (wholeTree, wholeTreeValues)) := by decide +kernel
  rw [e] at h1
  injection h1 with h1
  injection h1 with h1
  injection h1 with e1 e2
  subst e1 e2
  obtain ⟨bits, b1, b2⟩ := h2 (literals wholeTreeValues) (literals_ok rfl (fun t ht => by
      simp [literals, wholeTreeValues] at ht
      rcases ht with rfl | rfl | rfl | rfl | rfl <;> exact ⟨by decide, by decide, by decide, by decide, fun h z hz => by cases hz⟩) (by decide))
    wholeValues (by decide +kernel) (Or.inl fun i n hi => by
      match i, hi with
      | 0, hi => injection hi with hi; subst hi; decide
      | i + 1, hi => cases hi)
    (literals wholeValues) (literals_ok rfl (fun t ht => by
      simp [literals, wholeValues] at ht
      rcases ht with rfl | rfl | rfl | rfl | rfl | rfl | rfl <;> exact ⟨by decide, by decide, by decide, by decide, fun h z hz => by cases hz⟩) (by decide))
  exact ⟨bits, b1, fun env henv junk d hd hs rest => b2 env henv junk none d hd hs rest⟩

end Jxl.Props
