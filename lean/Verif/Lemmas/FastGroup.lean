import Verif.Lemmas.FastTokens
import Verif.Props.FastChannel
import Verif.Props.ModularChannel
import Verif.Props.Rct
/-!
# A group of the fast lossless encoder through the modular decoder
-/
namespace Jxl.FastCode
open Modular MaTree

theorem mapM_all {α β : Type} {f : α → Option β} {g : α → β} : ∀ {l : List α}, (∀ x ∈ l, f x = some (g x)) → l.mapM f = some (l.map g)
  | [], _ => rfl
  | a :: l, h => by
    rw [List.mapM_cons, h a (by simp), mapM_all fun x hx => h x (by simp [hx])]
    rfl

/-! ## What is stored -/

/-- The sample of channel `c` of a pixel with samples `g`, as an integer. -/
def storedInt (nb : Nat) (g : Nat → Nat) (c : Nat) : Int :=
  if 3 ≤ nb ∧ c = 0 then (ycocg (g 0) (g 1) (g 2)).1
  else if 3 ≤ nb ∧ c = 1 then (ycocg (g 0) (g 1) (g 2)).2.1
  else if 3 ≤ nb ∧ c = 2 then (ycocg (g 0) (g 1) (g 2)).2.2
  else g c

def stored (n nb : Nat) (g : Nat → Nat) (c : Nat) : BitVec n := BitVec.ofInt n (storedInt nb g c)

/-- The window of the samples of an image. -/
def winSize (depth nb : Nat) : Nat := if 3 ≤ nb then depth + 1 else depth
def winLow (depth nb : Nat) : Int := if 3 ≤ nb then -2 ^ depth else 0

theorem pixelBits_cases (depth : Nat) : pixelBits depth = 16 ∨ pixelBits depth = 32 := by
  unfold pixelBits; split <;> simp

theorem depth_quarter {depth : Nat} (h : depth ≤ 16) : (2 : Int) ^ depth ≤ quarter (pixelBits depth) := by
  unfold pixelBits
  by_cases h14 : depth ≤ 14
  · rw [if_pos h14]
    have : (2 : Nat) ^ depth ≤ 2 ^ 14 := Nat.pow_le_pow_right (by decide) h14
    have e : quarter 16 = 16384 := by decide
    have e2 : ((2 ^ depth : Nat) : Int) = 2 ^ depth := by push_cast; rfl
    omega
  · rw [if_neg h14]
    have : (2 : Nat) ^ depth ≤ 2 ^ 16 := Nat.pow_le_pow_right (by decide) h
    have e : quarter 32 = 1073741824 := by decide
    have e2 : ((2 ^ depth : Nat) : Int) = 2 ^ depth := by push_cast; rfl
    omega

theorem pow_pos_int (k : Nat) : (0 : Int) < 2 ^ k := by
  have : ((2 ^ k : Nat) : Int) = 2 ^ k := by push_cast; rfl
  have h : 0 < (2 : Nat) ^ k := Nat.pow_pos (by decide)
  omega

theorem window_ok {depth nb : Nat} (h : depth ≤ 16) : Window (pixelBits depth) (winSize depth nb) (winLow depth nb) := by
  have hq := depth_quarter h
  have hp := pow_pos_int depth
  have e : (2 : Int) ^ (depth + 1) = 2 * 2 ^ depth := by rw [Int.pow_succ]; omega
  have hw : (winSize depth nb = depth + 1 ∧ winLow depth nb = -2 ^ depth) ∨ (winSize depth nb = depth ∧ winLow depth nb = 0) := by
    unfold winSize winLow
    by_cases h3 : 3 ≤ nb
    · left; simp [h3]
    · right; simp [h3]
  rcases hw with ⟨w1, w2⟩ | ⟨w1, w2⟩ <;> rw [w1, w2] <;> exact ⟨pixelBits_cases depth, by omega, by omega, by omega, by omega⟩

/-- Each stored sample is in the window, and is what the transform computes. -/
theorem fillPixel_ok {depth nb : Nat} (hd : depth ≤ 16) (h1 : 1 ≤ nb) (h4 : nb ≤ 4) {g : Nat → Nat} (hg : ∀ c, c < nb → g c < 2 ^ depth) :
    fillPixel (pixelBits depth) ((List.range nb).map g) = some ((List.range nb).map (stored (pixelBits depth) nb g)) ∧
      ∀ c, c < nb → In (winSize depth nb) (winLow depth nb) (stored (pixelBits depth) nb g c).toInt ∧
        (stored (pixelBits depth) nb g c).toInt = storedInt nb g c := by
  have hq := depth_quarter hd
  have hp := pow_pos_int depth
  have hn := pixelBits_cases depth
  have e : (2 : Int) ^ (depth + 1) = 2 * 2 ^ depth := by rw [Int.pow_succ]; omega
  have ec : ((2 ^ depth : Nat) : Int) = 2 ^ depth := by push_cast; rfl
  have plain : ∀ c, c < nb → ((BitVec.ofInt (pixelBits depth) (g c : Int)).toInt = g c ∧ (g c : Int) < 2 ^ depth) := by
    intro c hc
    have := hg c hc
    exact ⟨toInt_small hn (by omega) (by omega), by omega⟩
  have ofn : ∀ v : Nat, BitVec.ofNat (pixelBits depth) v = BitVec.ofInt (pixelBits depth) (v : Int) := fun v => (BitVec.ofInt_natCast _ v).symm
  by_cases h3 : 3 ≤ nb
  · obtain ⟨y, co, cg, s1, s2, s3, s4, s5⟩ := storeYCoCg_eq hn (m := 2 ^ depth) (r := g 0) (g := g 1) (b := g 2) (by omega)
      (hg 0 (by omega)) (hg 1 (by omega)) (hg 2 (by omega))
    have ey : y.toInt = (ycocg (g 0) (g 1) (g 2)).1 := congrArg (·.1) s2
    have eco : co.toInt = (ycocg (g 0) (g 1) (g 2)).2.1 := congrArg (·.2.1) s2
    have ecg : cg.toInt = (ycocg (g 0) (g 1) (g 2)).2.2 := congrArg (·.2.2) s2
    have c0 : stored (pixelBits depth) nb g 0 = y := by
      simp only [stored, storedInt, h3, true_and, if_true]
      rw [← ey, BitVec.ofInt_toInt]
    have c1 : stored (pixelBits depth) nb g 1 = co := by
      simp only [stored, storedInt, h3, true_and, if_true, Nat.one_ne_zero, if_false]
      rw [← eco, BitVec.ofInt_toInt]
    have c2 : stored (pixelBits depth) nb g 2 = cg := by
      simp only [stored, storedInt, h3, true_and, if_true, show (2 : Nat) ≠ 0 by decide, show (2 : Nat) ≠ 1 by decide, if_false]
      rw [← ecg, BitVec.ofInt_toInt]
    have c3 : stored (pixelBits depth) nb g 3 = BitVec.ofNat (pixelBits depth) (g 3) := by
      simp only [stored, storedInt, h3, true_and, if_true, show (3 : Nat) ≠ 0 by decide, show (3 : Nat) ≠ 1 by decide, show (3 : Nat) ≠ 2 by decide, if_false]
      rw [ofn]
    constructor
    · have : nb = 3 ∨ nb = 4 := by omega
      rcases this with rfl | rfl
      · show fillPixel _ [g 0, g 1, g 2] = some [_, _, _]
        rw [c0, c1, c2, fillPixel, s1]
        rfl
      · show fillPixel _ [g 0, g 1, g 2, g 3] = some [_, _, _, _]
        rw [c0, c1, c2, c3, fillPixel, s1]
        rfl
    · intro c hc
      have hw : ∀ v : Int, -2 ^ depth ≤ v → v < 2 ^ depth → In (winSize depth nb) (winLow depth nb) v := by
        intro v v1 v2
        unfold In winSize winLow
        rw [if_pos h3, if_pos h3]
        omega
      have hc4 : c = 0 ∨ c = 1 ∨ c = 2 ∨ c = 3 := by omega
      rcases hc4 with rfl | rfl | rfl | rfl
      · rw [c0]
        refine ⟨hw _ (by omega) (by omega), ?_⟩
        simp only [storedInt, h3, true_and, if_true]
        exact ey
      · rw [c1]
        refine ⟨hw _ (by omega) (by omega), ?_⟩
        simp only [storedInt, h3, true_and, if_true, Nat.one_ne_zero, if_false]
        exact eco
      · rw [c2]
        refine ⟨hw _ (by omega) (by omega), ?_⟩
        simp only [storedInt, h3, true_and, if_true, show (2 : Nat) ≠ 0 by decide, show (2 : Nat) ≠ 1 by decide, if_false]
        exact ecg
      · obtain ⟨p1, p2⟩ := plain 3 hc
        rw [c3, ofn, p1]
        refine ⟨hw _ (by omega) p2, ?_⟩
        simp only [storedInt, h3, true_and, show (3 : Nat) ≠ 0 by decide, show (3 : Nat) ≠ 1 by decide, show (3 : Nat) ≠ 2 by decide, if_false]
  · have hs : ∀ c, stored (pixelBits depth) nb g c = BitVec.ofInt (pixelBits depth) (g c : Int) ∧ storedInt nb g c = g c := by
      intro c
      simp only [stored, storedInt, h3, false_and, if_false, and_self]
    constructor
    · have : nb = 1 ∨ nb = 2 := by omega
      rcases this with rfl | rfl
      · show fillPixel _ [g 0] = some [_]
        rw [(hs 0).1, ← ofn]
        rfl
      · show fillPixel _ [g 0, g 1] = some [_, _]
        rw [(hs 0).1, (hs 1).1, ← ofn, ← ofn]
        rfl
    · intro c hc
      obtain ⟨p1, p2⟩ := plain c hc
      rw [(hs c).1, (hs c).2, p1]
      refine ⟨?_, rfl⟩
      unfold In winSize winLow
      rw [if_neg h3, if_neg h3]
      omega

/-! ## The residuals of an area -/

/-- The rows of a channel as they are stored. -/
def storedRows (n : Nat) (a : Area) (f : Nat → Nat → Nat → Nat) (c : Nat) : List (List (BitVec n)) :=
  (List.range a.ys).map fun y => (List.range a.xs).map fun x => stored n a.nbChans (f y x) c

/-- The samples of the area are `f`, and fit the bit depth. -/
def Samples (depth : Nat) (a : Area) (buf : List Nat) (f : Nat → Nat → Nat → Nat) : Prop :=
  ∀ y x c, y < a.ys → x < a.xs → c < a.nbChans → loadSample a.bytes a.big buf (a.pos y x c) = some (f y x c) ∧ f y x c < 2 ^ depth

theorem rows_filled {depth : Nat} (hd : depth ≤ 16) {a : Area} (h1 : 1 ≤ a.nbChans) (h4 : a.nbChans ≤ 4) {buf : List Nat} {f : Nat → Nat → Nat → Nat}
    (hs : Samples depth a buf f) : (List.range a.ys).mapM (fillRow (pixelBits depth) a buf) =
      some ((List.range a.ys).map fun y => (List.range a.xs).map fun x => (List.range a.nbChans).map (stored (pixelBits depth) a.nbChans (f y x))) := by
  apply mapM_all
  intro y hy
  have hy := List.mem_range.mp hy
  unfold fillRow
  apply mapM_all
  intro x hx
  have hx := List.mem_range.mp hx
  rw [mapM_all (g := f y x) fun c hc => (hs y x c hy hx (List.mem_range.mp hc)).1]
  exact (fillPixel_ok hd h1 h4 fun c hc => (hs y x c hy hx hc).2).1

theorem channel_filled {n : Nat} {a : Area} {f : Nat → Nat → Nat → Nat} {c : Nat} (hc : c < a.nbChans) :
    ((List.range a.ys).map fun y => (List.range a.xs).map fun x => (List.range a.nbChans).map (stored n a.nbChans (f y x))).mapM (channelRow c) =
      some (storedRows n a f c) := by
  unfold storedRows
  rw [List.mapM_map]
  apply mapM_all
  intro y _
  dsimp only [Function.comp]
  unfold channelRow
  rw [List.mapM_map]
  apply mapM_all
  intro x _
  dsimp only [Function.comp]
  rw [List.getElem?_map, List.getElem?_range hc]
  rfl

theorem storedRows_ok {depth : Nat} (hd : depth ≤ 16) {a : Area} (h1 : 1 ≤ a.nbChans) (h4 : a.nbChans ≤ 4) {buf : List Nat} {f : Nat → Nat → Nat → Nat}
    (hs : Samples depth a buf f) {c : Nat} (hc : c < a.nbChans) :
    ∀ r ∈ storedRows (pixelBits depth) a f c, r.length = a.xs ∧ ∀ u ∈ r, In (winSize depth a.nbChans) (winLow depth a.nbChans) u.toInt := by
  intro r hr
  obtain ⟨y, hy, rfl⟩ := List.mem_map.mp hr
  refine ⟨by simp, fun u hu => ?_⟩
  obtain ⟨x, hx, rfl⟩ := List.mem_map.mp hu
  exact ((fillPixel_ok hd h1 h4 fun c hc => (hs y x c (List.mem_range.mp hy) (List.mem_range.mp hx) hc).2).2 c hc).1

/-- A channel as the decoder will have it. -/
def codedChannel (n : Nat) (a : Area) (f : Nat → Nat → Nat → Nat) (c : Nat) : Channel :=
  { w := a.xs, h := a.ys, rows := (storedRows n a f c).map (List.map wide) }

/-- Residuals and tokens of all channels. -/
theorem area_tokens {depth : Nat} (hd : depth ≤ 16) {a : Area} (h1 : 1 ≤ a.nbChans) (h4 : a.nbChans ≤ 4) {buf : List Nat} {f : Nat → Nat → Nat → Nat}
    (hs : Samples depth a buf f) : ∃ R : Nat → List (List Nat),
      (∀ pad : Nat → Nat → List Nat, areaResiduals (pixelBits depth) a buf pad =
        some ((List.range a.nbChans).map fun c => (R c).mapIdx fun y r => (r, pad c y))) ∧
      ∀ c, c < a.nbChans → (R c).length = a.ys ∧ (∀ rs ∈ R c, rs.length = a.xs ∧ ∀ r ∈ rs, r < 2 ^ (winSize depth a.nbChans + 1)) ∧
        ∀ ctx, encLoop (pathGradient ctx) tokSub (codedChannel (pixelBits depth) a f c) () = some (some ((R c).flatten.map fun r => (ctx, r))) := by
  have key : ∀ c, c < a.nbChans → ∃ rss, residualRows none (storedRows (pixelBits depth) a f c) = some rss ∧ rss.length = a.ys ∧
      (∀ rs ∈ rss, rs.length = a.xs ∧ ∀ r ∈ rs, r < 2 ^ (winSize depth a.nbChans + 1)) ∧
      ∀ ctx, encLoop (pathGradient ctx) tokSub (codedChannel (pixelBits depth) a f c) () = some (some (rss.flatten.map fun r => (ctx, r))) := by
    intro c hc
    have hr := storedRows_ok hd h1 h4 hs hc
    obtain ⟨rss, k1, k2, k3, -⟩ := channel_tokens (window_ok (nb := a.nbChans) hd) 0 (c := codedChannel (pixelBits depth) a f c) rfl hr
    refine ⟨rss, k1, by rw [k2]; simp [storedRows], k3, fun ctx => ?_⟩
    obtain ⟨rss', k1', -, -, k4'⟩ := channel_tokens (window_ok (nb := a.nbChans) hd) ctx (c := codedChannel (pixelBits depth) a f c) rfl hr
    rw [k1] at k1'
    injection k1' with k1'
    rw [k4', k1']
  let R : Nat → List (List Nat) := fun c => (residualRows none (storedRows (pixelBits depth) a f c)).getD []
  have hR : ∀ c, c < a.nbChans → residualRows none (storedRows (pixelBits depth) a f c) = some (R c) := by
    intro c hc
    obtain ⟨rss, k1, -⟩ := key c hc
    show _ = some (Option.getD _ _)
    rw [k1]
    rfl
  refine ⟨R, fun pad => ?_, fun c hc => ?_⟩
  · unfold areaResiduals
    rw [rows_filled hd h1 h4 hs]
    simp only [Option.bind_eq_bind, Option.bind_some]
    apply mapM_all
    intro c hc
    have hc := List.mem_range.mp hc
    rw [channel_filled hc, Option.bind_some, hR c hc, Option.bind_some]
  · obtain ⟨rss, k1, k2⟩ := key c hc
    rw [hR c hc] at k1
    injection k1 with k1
    rw [k1]
    exact k2

/-! ## The tree -/

/-- The tree as a decision tree. -/
def fastDtree : Dtree :=
  .split 0 1 (.split 0 2 (.leaf ⟨0, 5, 0, 1⟩) (.leaf ⟨1, 5, 0, 1⟩)) (.split 0 0 (.leaf ⟨2, 5, 0, 1⟩) (.leaf ⟨3, 5, 0, 1⟩))

theorem fastTree_wf : Props.TreeWf fastTree fastDtree := by
  refine ⟨?_, ?_, ?_⟩
  · intro i n h
    have hi : i < 7 := (List.getElem?_eq_some_iff.mp h).1
    have hall : ∀ i < 7, ∀ n ∈ fastTree[i]?, n.property = -1 ∨ (0 ≤ n.property ∧ i < n.lchild ∧ n.lchild < fastTree.length ∧ i < n.rchild ∧ n.rchild < fastTree.length) := by decide
    exact hall i hi n h
  · have l3 : Represents fastTree 3 (.leaf ⟨0, 5, 0, 1⟩) := Represents.leaf (i := 3) (n := ⟨-1, 0, 0, 0, 5, 0, 1⟩) rfl rfl
    have l4 : Represents fastTree 4 (.leaf ⟨1, 5, 0, 1⟩) := Represents.leaf (i := 4) (n := ⟨-1, 0, 1, 0, 5, 0, 1⟩) rfl rfl
    have l5 : Represents fastTree 5 (.leaf ⟨2, 5, 0, 1⟩) := Represents.leaf (i := 5) (n := ⟨-1, 0, 2, 0, 5, 0, 1⟩) rfl rfl
    have l6 : Represents fastTree 6 (.leaf ⟨3, 5, 0, 1⟩) := Represents.leaf (i := 6) (n := ⟨-1, 0, 3, 0, 5, 0, 1⟩) rfl rfl
    have s1 : Represents fastTree 1 _ := Represents.split (i := 1) (n := ⟨0, 2, 3, 4, 0, 0, 1⟩) rfl (by decide) l3 l4
    have s2 : Represents fastTree 2 _ := Represents.split (i := 2) (n := ⟨0, 0, 5, 6, 0, 0, 1⟩) rfl (by decide) l5 l6
    exact Represents.split (i := 0) (n := ⟨0, 1, 1, 2, 0, 0, 1⟩) rfl (by decide) s1 s2
  · have w : ∀ k : Int, minInt ≤ k → k ≤ maxInt → PropsOk (fun _ => k) := fun k h1 h2 _ => ⟨h1, h2⟩
    refine ⟨⟨⟨fun _ => 3, w 3 (by decide) (by decide), ?_⟩, ⟨fun _ => 2, w 2 (by decide) (by decide), ?_⟩⟩, ⟨⟨fun _ => 1, w 1 (by decide) (by decide), ?_⟩, ⟨fun _ => 0, w 0 (by decide) (by decide), ?_⟩⟩⟩ <;> simp

theorem fastTree_ok : Props.TreeOk fastTree [4, 3, 2, 1, 0] := by
  refine ⟨?_, by decide, ?_⟩
  · intro i n h hp
    have hi : i < 7 := (List.getElem?_eq_some_iff.mp h).1
    have hall : ∀ i < 7, ∀ n ∈ fastTree[i]?, n.property = -1 → n.lchild < 5 ∧ n.lchild < 65536 := by decide
    exact hall i hi n h hp
  · intro i n h hp
    have hi : i < 7 := (List.getElem?_eq_some_iff.mp h).1
    have hall : ∀ i < 7, ∀ n ∈ fastTree[i]?, n.property = -1 → n.multiplier < 2147483648 ∧ n.offset.natAbs ≤ 2147483648 := by decide
    exact hall i hi n h hp

theorem fastTree_noBoundary : Props.NoBoundary fastTree := by
  intro i n h hp
  have hi : i < 7 := (List.getElem?_eq_some_iff.mp h).1
  have hall : ∀ i < 7, ∀ n ∈ fastTree[i]?, n.property = 15 → n.splitval ≠ -8193 := by decide
  exact hall i hi n h hp

/-- The tokens of one channel. -/
theorem encode_fast {hd : Wp.Header} {group : Nat} {before : List Channel} (hb : before.length < 4) {c : Channel} (hw : c.w ≠ 0) (hh : c.h ≠ 0) :
    encodeChannel (ticks fastDtree) hd fastTree group false before c = encLoop (pathGradient (3 - before.length)) tokSub c () := by
  unfold encodeChannel
  rw [if_neg (by omega)]
  have hcase : before.length = 0 ∨ before.length = 1 ∨ before.length = 2 ∨ before.length = 3 := by omega
  rcases hcase with h | h | h | h <;> rw [h] <;> rfl

/-- The tokens of the channels from number `j` on. -/
theorem encode_all {hd : Wp.Header} {group maxSize : Nat} {C : Nat → Channel} {R : Nat → List (List Nat)} {nb : Nat} (h4 : nb ≤ 4)
    (hC : ∀ c, c < nb → (C c).w ≠ 0 ∧ (C c).h ≠ 0 ∧ (C c).w ≤ maxSize ∧ (C c).h ≤ maxSize ∧
      ∀ ctx, encLoop (pathGradient ctx) tokSub (C c) () = some (some ((R c).flatten.map fun r => (ctx, r)))) :
    ∀ (m j : Nat) (before : List Channel), before.length = j → j + m = nb →
      encodeChannels (ticks fastDtree) hd fastTree group false 0 maxSize before ((List.range' j m).map C) =
        some (some ((List.range' j m).flatMap fun c => (R c).flatten.map fun r => (3 - c, r)))
  | 0, _, _, _, _ => rfl
  | m + 1, j, before, hb, hj => by
    obtain ⟨c1, c2, c3, c4, c5⟩ := hC j (by omega)
    rw [List.range'_succ, List.map_cons, encodeChannels, List.flatMap_cons]
    have hl : tooLarge 0 maxSize before.length (C j) = false := by
      unfold tooLarge
      simp only [Nat.zero_le, decide_true, Bool.true_and, Bool.or_eq_false_iff, decide_eq_false_iff_not]
      omega
    rw [if_neg (by rw [hl]; decide), if_neg (by omega), encode_fast (by omega) c1 c2, c5]
    dsimp only
    rw [encode_all h4 hC m (j + 1) (before ++ [C j]) (by simp [hb]) (by omega), hb]
    rfl

/-! ## The reader -/

theorem delivers_values {dc : Stream.Code} {mult : Nat} : ∀ (ctxs vs : List Nat) (st st' : Stream.St), Stream.readValues dc mult ctxs st = .ok (vs, st') →
    Delivers (entropyReader dc mult) (.ok st) (Props.clustered dc.map (List.zip ctxs vs)) (.ok st')
  | [], vs, st, st', h => by
    cases h
    exact rfl
  | x :: ctxs, vs, st, st', h => by
    rw [Stream.readValues] at h
    cases hm : dc.map[x]? with
    | none => rw [hm] at h; cases h
    | some k =>
      rw [hm] at h
      replace h : ((Stream.readValue dc mult k st).bind fun r => (Stream.readValues dc mult ctxs r.2).bind fun q => .ok (r.1 :: q.1, q.2)) = .ok (vs, st') := h
      cases hr : Stream.readValue dc mult k st with
      | ub => rw [hr] at h; cases h
      | deep => rw [hr] at h; cases h
      | bad => rw [hr] at h; cases h
      | ok r =>
        rw [hr] at h
        replace h : ((Stream.readValues dc mult ctxs r.2).bind fun q => Stream.Out.ok (r.1 :: q.1, q.2)) = .ok (vs, st') := h
        cases hq : Stream.readValues dc mult ctxs r.2 with
        | ub => rw [hq] at h; cases h
        | deep => rw [hq] at h; cases h
        | bad => rw [hq] at h; cases h
        | ok q =>
          rw [hq] at h
          cases h
          refine ⟨.ok r.2, ?_, delivers_values ctxs q.1 r.2 q.2 hq⟩
          show (entropyReader dc mult).read (.ok st) (dc.map.getD x 0) = (r.1, _)
          rw [List.getD_eq_getElem?_getD, hm]
          show (match Stream.readValue dc mult k st with
            | .ok (v, st) => (v, Stream.Out.ok st)
            | .ub => (0, .ub)
            | .deep => (0, .deep)
            | .bad => (0, .bad)) = _
          rw [hr]

/-- The contexts and values of a group. -/
theorem zip_contexts {R : Nat → List (List Nat)} {pad : Nat → Nat → List Nat} : ∀ (m j : Nat),
    List.zip (contexts j ((List.range' j m).map fun c => (R c).mapIdx fun y r => (r, pad c y)))
      (((List.range' j m).map fun c => (R c).mapIdx fun y r => (r, pad c y)).flatMap fun rows => rows.flatMap (·.1)) =
      (List.range' j m).flatMap fun c => (R c).flatten.map fun r => (3 - c, r)
  | 0, _ => rfl
  | m + 1, j => by
    have hflat : ∀ c, ((R c).mapIdx fun y r => (r, pad c y)).flatMap (·.1) = (R c).flatten := by
      intro c
      rw [List.flatMap_def]
      congr 1
      apply List.ext_getElem?
      intro i
      rw [List.getElem?_map, List.getElem?_mapIdx]
      cases (R c)[i]? <;> rfl
    rw [List.range'_succ, List.map_cons, contexts, List.flatMap_cons, List.flatMap_cons, hflat, List.zip_append (by simp), zip_contexts m (j + 1)]
    congr 1
    generalize (R j).flatten = l
    induction l with
    | nil => rfl
    | cons a l ih => rw [List.length_cons, List.replicate_succ, List.zip_cons_cons, ih, List.map_cons]

/-! ## The transform -/

/-- The image the samples make. -/
def sampleChannel (a : Area) (f : Nat → Nat → Nat → Nat) (c : Nat) : Channel :=
  { w := a.xs, h := a.ys, rows := (List.range a.ys).map fun y => (List.range a.xs).map fun x => BitVec.ofNat 32 (f y x c) }

theorem coded_rows {depth : Nat} (hd : depth ≤ 16) {a : Area} (h1 : 1 ≤ a.nbChans) (h4 : a.nbChans ≤ 4) {buf : List Nat} {f : Nat → Nat → Nat → Nat}
    (hs : Samples depth a buf f) {c : Nat} (hc : c < a.nbChans) :
    (codedChannel (pixelBits depth) a f c).rows = (List.range a.ys).map fun y => (List.range a.xs).map fun x => BitVec.ofInt 32 (storedInt a.nbChans (f y x) c) := by
  unfold codedChannel storedRows
  dsimp only
  rw [List.map_map]
  apply List.map_congr_left
  intro y hy
  dsimp only [Function.comp]
  rw [List.map_map]
  apply List.map_congr_left
  intro x hx
  dsimp only [Function.comp, wide]
  rw [((fillPixel_ok hd h1 h4 fun c hc => (hs y x c (List.mem_range.mp hy) (List.mem_range.mp hx) hc).2).2 c hc).2]

theorem zip3_map (l : List Nat) (p q r : Nat → Px) : Rct.zip3 (l.map p) (l.map q) (l.map r) = l.map fun x => (p x, q x, r x) := by
  induction l with
  | nil => rfl
  | cons a l ih =>
    rw [List.map_cons, List.map_cons, List.map_cons, List.map_cons, ← ih]
    rfl

theorem mapRows_map (g : Px × Px × Px → Px × Px × Px) (m : List Nat) (l : List Nat) (p q r : Nat → Nat → Px) :
    Rct.mapRows (List.map g) (m.map fun y => l.map (p y)) (m.map fun y => l.map (q y)) (m.map fun y => l.map (r y)) =
      (m.map fun y => l.map fun x => (g (p y x, q y x, r y x)).1, m.map fun y => l.map fun x => (g (p y x, q y x, r y x)).2.1,
        m.map fun y => l.map fun x => (g (p y x, q y x, r y x)).2.2) := by
  induction m with
  | nil => rfl
  | cons y m ih =>
    simp only [List.map_cons]
    rw [Rct.mapRows, ih, zip3_map]
    simp only [Rct.unzip3, List.map_map, Function.comp_def]

/-- The stored channels are the transformed image. -/
theorem transformed {depth : Nat} (hd : depth ≤ 16) {a : Area} (h3 : 3 ≤ a.nbChans) (h4 : a.nbChans ≤ 4) {buf : List Nat} {f : Nat → Nat → Nat → Nat}
    (hs : Samples depth a buf f) :
    Rct.fwd ⟨(List.range a.nbChans).map (sampleChannel a f), 0⟩ 0 6 = some ⟨(List.range a.nbChans).map (codedChannel (pixelBits depth) a f), 0⟩ := by
  have hrow := fun c hc => coded_rows hd (show 1 ≤ a.nbChans by omega) h4 hs (c := c) hc
  have hmap := mapRows_map (Rct.fwd1 6) (List.range a.ys) (List.range a.xs) (fun y x => BitVec.ofNat 32 (f y x 0)) (fun y x => BitVec.ofNat 32 (f y x 1))
    (fun y x => BitVec.ofNat 32 (f y x 2))
  have hx : ∀ y x, y < a.ys → x < a.xs → Rct.fwd1 6 (BitVec.ofNat 32 (f y x 0), BitVec.ofNat 32 (f y x 1), BitVec.ofNat 32 (f y x 2)) =
      (BitVec.ofInt 32 (storedInt a.nbChans (f y x) 0), BitVec.ofInt 32 (storedInt a.nbChans (f y x) 1), BitVec.ofInt 32 (storedInt a.nbChans (f y x) 2)) := by
    intro y x hy hx
    have hp : (2 : Nat) ^ depth ≤ 2 ^ 16 := Nat.pow_le_pow_right (by decide) hd
    rw [fwd1_eq (Nat.lt_of_lt_of_le (hs y x 0 hy hx (by omega)).2 hp) (Nat.lt_of_lt_of_le (hs y x 1 hy hx (by omega)).2 hp)
      (Nat.lt_of_lt_of_le (hs y x 2 hy hx (by omega)).2 hp)]
    simp only [storedInt, h3, true_and, if_true, Nat.one_ne_zero, show (2 : Nat) ≠ 0 by decide, show (2 : Nat) ≠ 1 by decide, if_false]
  have hmap' : Rct.mapRows (List.map (Rct.fwd1 6)) (sampleChannel a f 0).rows (sampleChannel a f 1).rows (sampleChannel a f 2).rows =
      ((codedChannel (pixelBits depth) a f 0).rows, (codedChannel (pixelBits depth) a f 1).rows, (codedChannel (pixelBits depth) a f 2).rows) := by
    rw [hrow 0 (by omega), hrow 1 (by omega), hrow 2 (by omega)]
    refine Eq.trans hmap ?_
    refine Prod.ext ?_ (Prod.ext ?_ ?_)
    all_goals
      apply List.map_congr_left
      intro y hy
      apply List.map_congr_left
      intro x hx'
      rw [hx y x (List.mem_range.mp hy) (List.mem_range.mp hx')]
  have c3 : a.nbChans = 4 → codedChannel (pixelBits depth) a f 3 = sampleChannel a f 3 := by
    intro h
    have hr := hrow 3 (by omega)
    unfold codedChannel at hr ⊢
    unfold sampleChannel
    dsimp only at hr
    rw [hr]
    congr 1
    apply List.map_congr_left
    intro y _
    apply List.map_congr_left
    intro x _
    simp only [storedInt, h3, true_and, show (3 : Nat) ≠ 0 by decide, show (3 : Nat) ≠ 1 by decide, show (3 : Nat) ≠ 2 by decide, if_false]
    exact BitVec.ofInt_natCast _ _
  have h : a.nbChans = 3 ∨ a.nbChans = 4 := by omega
  rcases h with h | h
  · rw [h]
    show Rct.fwd ⟨[sampleChannel a f 0, sampleChannel a f 1, sampleChannel a f 2], 0⟩ 0 6 =
      some ⟨[codedChannel (pixelBits depth) a f 0, codedChannel (pixelBits depth) a f 1, codedChannel (pixelBits depth) a f 2], 0⟩
    unfold Rct.fwd
    rw [if_neg (by simp [checkEqualChannels, sampleChannel])]
    rw [if_neg (by decide)]
    show (match Rct.mapRows (List.map (Rct.fwd1 6)) (sampleChannel a f 0).rows (sampleChannel a f 1).rows (sampleChannel a f 2).rows with
      | (x, y, z) => some (Image.mk [{ sampleChannel a f 0 with rows := x }, { sampleChannel a f 1 with rows := y }, { sampleChannel a f 2 with rows := z }] 0)) = _
    rw [hmap']
    rfl
  · rw [h]
    show Rct.fwd ⟨[sampleChannel a f 0, sampleChannel a f 1, sampleChannel a f 2, sampleChannel a f 3], 0⟩ 0 6 =
      some ⟨[codedChannel (pixelBits depth) a f 0, codedChannel (pixelBits depth) a f 1, codedChannel (pixelBits depth) a f 2, codedChannel (pixelBits depth) a f 3], 0⟩
    unfold Rct.fwd
    rw [if_neg (by simp [checkEqualChannels, sampleChannel])]
    rw [if_neg (by decide)]
    show (match Rct.mapRows (List.map (Rct.fwd1 6)) (sampleChannel a f 0).rows (sampleChannel a f 1).rows (sampleChannel a f 2).rows with
      | (x, y, z) => some (Image.mk [{ sampleChannel a f 0 with rows := x }, { sampleChannel a f 1 with rows := y }, { sampleChannel a f 2 with rows := z }, sampleChannel a f 3] 0)) = _
    rw [hmap', c3 h]
    rfl

theorem untransformed {depth : Nat} (hd : depth ≤ 16) {a : Area} (h1 : 1 ≤ a.nbChans) (h3 : ¬3 ≤ a.nbChans) {buf : List Nat} {f : Nat → Nat → Nat → Nat}
    (hs : Samples depth a buf f) : (List.range a.nbChans).map (codedChannel (pixelBits depth) a f) = (List.range a.nbChans).map (sampleChannel a f) := by
  apply List.map_congr_left
  intro c hc
  have hr := coded_rows hd h1 (by omega) hs (List.mem_range.mp hc)
  unfold codedChannel at hr ⊢
  unfold sampleChannel
  dsimp only at hr
  rw [hr]
  congr 1
  apply List.map_congr_left
  intro y _
  apply List.map_congr_left
  intro x _
  simp only [storedInt, h3, false_and, if_false]
  exact BitVec.ofInt_natCast _ _

end Jxl.FastCode
