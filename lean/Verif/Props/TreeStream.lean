import Verif.Lemmas.TreeStream
import Verif.Props.MaTree
import Verif.Props.EntropyStream
/-!
# C64: a decision tree in the stream
-/
namespace Jxl.Props
open MaTree TreeStream
open Ans (Token)

theorem zip_halves : ∀ l : List (Nat × Nat), List.zip (l.map Prod.fst) (l.map Prod.snd) = l
  | [] => rfl
  | a :: l => by rw [List.map_cons, List.map_cons, List.zip_cons_cons, zip_halves l]

/-- The histogram of the kinds of nodes shows that there are leaves: with prefix codes or without LZ77 it always does. -/
def LeavesShown (p : Stream.Plan) : Prop :=
  p.lz = none ∨ (∃ cs, p.stats = .huff cs) ∨ 0 < Stream.weight p.stats (p.map.getD kPropertyContext 0) 0

/-- **C64 (round trip).** For every tree of the encoder in the ranges of the format, of height at most 2046, without leaves that cannot be
selected and no larger than the limit of the reader, and for all sound choices of the entropy coder for its tokens: the stream is written,
and from any memory contents the decoder reads from it, up to exactly its last bit, the array the encoder computed alongside, which holds
the same tree up to the numbering of contexts.

Partial: with ANS and LZ77 together, some leaf must be written without LZ77 (`LeavesShown`); see `C64_copied_leaves_refused`. -/
theorem C64_round_trip_partial {tree : List Node} {t : Dtree} (ht : Represents tree 0 t) (hW : ∀ (i : Nat) (n : Node), tree[i]? = some n → Writable n)
    (hh : t.height ≤ 2046) (hl : t.Live fun _ => True) {limit : Nat} (hsize : t.size ≤ min limit kMaxTreeSize + 1)
    {mem : Nat → List Alias.Entry} (hm : ∀ la, (mem la).length = 2 ^ la) {layers : List Stream.Layer} {p : Stream.Plan}
    (hs : Stream.Sound layers p) (hn : p.map.length = if p.lz.isSome then 6 + 1 else 6) (hleaf : LeavesShown p) :
    ∃ out toks, tokenizeLoop tree (t.size + 1) [0] 0 [] [] = some (some (out, toks)) ∧ (∃ t', Represents out 0 t' ∧ t'.shape = t.shape) ∧
      ∀ ts, Stream.Tokenised p 0 0 ts toks → ∃ bits, writeTree mem layers p ts = some bits ∧
        ∀ env, Stream.EnvOk env → ∀ rest, readTree env limit (bits ++ rest) = .ok (out, rest) := by
  obtain ⟨out, toks, h1, h2, h3, h4, -⟩ := C44_tree_round_trip tree t ht hW (min limit kMaxTreeSize) hsize []
  refine ⟨out, toks, h1, h2, fun ts hts => ?_⟩
  have hdec := h4 ⟨hh, hl⟩
  rw [List.append_nil] at hdec
  have hp : Stream.PlanOk p := by rw [Stream.Sound.eq_def] at hs; exact hs.1
  obtain ⟨hbits, infos, w1, w2⟩ := Stream.header_back hm layers p hs
  have key : ∀ (c : Stream.Code), Stream.Agrees p c → Stream.Fits p.stats infos c.tables → ∃ bits, Stream.writeTokens p infos 0 ts = some bits ∧
      ∀ rest, ∃ st, Stream.decode c 0 (toks.map Prod.fst) (bits ++ rest) = .ok (toks.map Prod.snd, st) ∧ Stream.finalOk st = true ∧ st.bits = rest := by
    intro c ha hf
    obtain ⟨bits, b1, b2⟩ := Stream.values_read hp ha hf hts
    refine ⟨bits, b1, fun rest => ?_⟩
    obtain ⟨s, -, s2⟩ := b2 rest
    have e : (toks.map fun v => 0 + v.1) = toks.map Prod.fst := List.map_congr_left (fun v _ => Nat.zero_add _)
    rw [e] at s2
    exact ⟨_, s2, rfl, rfl⟩
  have henv0 : Stream.EnvOk ⟨List.replicate 32 ⟨0, 0⟩, fun la _ => mem la, List.replicate 64 0, 0⟩ := ⟨by simp, fun la _ => hm la, by simp, by simp⟩
  have hfuel : Stream.nesting p ≤ 2 := by unfold Stream.nesting; (repeat' split) <;> omega
  obtain ⟨c0, -, a0, f0⟩ := w2 2 6 false _ [] henv0 hfuel (by simp) hn
  obtain ⟨tbits, t1, -⟩ := key c0 a0 f0
  refine ⟨hbits ++ tbits, by unfold writeTree; rw [w1]; simp only [Option.bind_eq_bind, Option.bind_some, t1], fun env henv rest => ?_⟩
  obtain ⟨c, c1, ca, cf⟩ := w2 2 6 false env (tbits ++ rest) henv hfuel (by simp) hn
  obtain ⟨tb, t1', t2⟩ := key c ca cf
  rw [t1] at t1'
  injection t1' with t1'
  subst t1'
  obtain ⟨st, d1, d2, d3⟩ := t2 rest
  have hmap : c.map[kPropertyContext]? = some (p.map.getD kPropertyContext 0) := by
    rw [ca.map, List.getD_eq_getElem?_getD, List.getElem?_eq_getElem (by rw [hn]; split <;> decide)]
    rfl
  have hleafTok : (kPropertyContext, 0) ∈ toks := by
    unfold decodeTree at hdec
    split at hdec
    · cases hdec
    · cases hdec
    · rename_i t' r' hd
      split at hdec
      · cases hdec
      · cases hdec
      · injection hdec with hdec
        injection hdec with hdec
        injection hdec with e1 e2
        rw [e2] at hd
        exact leaf_mem _ _ _ _ _ _ _ (by omega) hd
  have hdeg : ¬ degenerate c.tables (p.map.getD kPropertyContext 0) > 0 := by
    refine degenerate_fits cf ?_
    rcases hleaf with h | h | h
    · right
      obtain ⟨dctx, -, hst⟩ := hts.stands
      rw [h] at hst
      have hc := (hts.ok _ (stands_mem hst hleafTok)).counted
      have e : Stream.symbol p 0 ⟨false, kPropertyContext, 0⟩ = 0 := by
        unfold Stream.symbol
        rw [h]
        show (Hybrid.encode _ 0).1 = 0
        unfold Hybrid.encode
        rw [if_pos (Nat.two_pow_pos _)]
      rw [e] at hc
      unfold Stream.cluster at hc
      rwa [Nat.zero_add] at hc
    · exact Or.inl h
    · exact Or.inr h
  unfold readTree
  rw [List.append_assoc]
  unfold Stream.decodeHistograms
  rw [c1]
  show ((Stream.req c.map[kPropertyContext]?).bind _ : Stream.Out _) = _
  rw [hmap]
  show (if degenerate c.tables (p.map.getD kPropertyContext 0) > 0 then _ else _) = _
  rw [if_neg hdeg]
  unfold Stream.decode at d1
  cases hst : Stream.start c.tables (tbits ++ rest) with
  | ub => rw [hst] at d1; cases d1
  | deep => rw [hst] at d1; cases d1
  | bad => rw [hst] at d1; cases d1
  | ok st0 =>
    rw [hst] at d1
    have d1 : Stream.readValues c 0 (toks.map Prod.fst) st0 = .ok (toks.map Prod.snd, st) := d1
    have hfeed := feed_values _ _ _ _ d1
    rw [zip_halves] at hfeed
    show finishTree (decodeTree (contextReader c 0) (.ok st0) (min limit kMaxTreeSize)) = _
    rw [decodeTree_sim hfeed hdec]
    show (if Stream.finalOk st then Stream.Out.ok (out, st.bits) else .bad) = _
    rw [if_pos d2, d3]

/-- **C64 (any bits).** Reading a tree from any bits, with any memory contents, is defined and nests code within code at most twice.  What it
accepts is one tree using every entry of the array, within the size limit (one node more than it) and of height at most 2046, with every leaf
selected by some properties, all children inside the array, and leaf contexts below half its size. -/
theorem C64_any_bits {env : Stream.Env} (he : Stream.EnvOk env) (limit : Nat) (s : List Bool) :
    readTree env limit s ≠ .ub ∧ readTree env limit s ≠ .deep ∧ ∀ tree rest, readTree env limit s = .ok (tree, rest) →
      tree.length ≤ min limit kMaxTreeSize + 1 ∧
      (∃ t, Represents tree 0 t ∧ t.size = tree.length ∧ t.height ≤ 2046 ∧ t.Live (fun _ => True)) ∧
      (∀ (i : Nat) (n : Node), tree[i]? = some n →
        (n.property = -1 ∧ n.predictor < 14 ∧ 0 < n.multiplier ∧ n.multiplier < 2 ^ 31 ∧ minInt ≤ n.offset ∧ n.offset ≤ maxInt ∧ n.lchild < (tree.length + 1) / 2) ∨
        (0 ≤ n.property ∧ n.property ≤ 255 ∧ minInt ≤ n.splitval ∧ n.splitval ≤ maxInt ∧ i < n.lchild ∧ n.rchild = n.lchild + 1 ∧ n.rchild < tree.length)) := by
  have h := readTree_safe he limit s
  refine ⟨fun e => ?_, fun e => ?_, fun tree rest e => ?_⟩
  · rw [e] at h; exact h
  · rw [e] at h; exact h
  · rw [e] at h
    obtain ⟨c, st, r', hd⟩ : ∃ c st r', decodeTree (contextReader c 0) (.ok st) (min limit kMaxTreeSize) = some (some (tree, r')) := h
    obtain ⟨o, ho, hk⟩ := C22_decoded_tree (contextReader c 0) (.ok st) (min limit kMaxTreeSize)
    rw [hd] at ho
    injection ho with ho
    obtain ⟨k1, k2, k3, -⟩ := hk tree r' ho.symm
    exact ⟨k1, k2, k3⟩

/-! ## Leaves that are all in copies -/

/-- Two splits and three leaves. -/
def copiedTree : List Node := [⟨1, 0, 1, 2, 0, 0, 1⟩, ⟨2, 1, 3, 4, 0, 0, 1⟩, ⟨-1, 0, 0, 0, 3, 0, 1⟩, ⟨-1, 0, 1, 0, 0, 0, 1⟩, ⟨-1, 0, 2, 0, 0, 0, 1⟩]

/-- The kinds of nodes have a cluster of their own in which the properties 1 and 2 have the same symbol; nothing else is written in it. -/
def copiedPlan : Stream.Plan :=
  ⟨some ⟨8, 3, ⟨0, 0, 0⟩⟩, [0, 1, 0, 0, 0, 0, 0], [⟨4, 1, 1⟩, ⟨0, 0, 0⟩],
    .ans 5 [⟨0, 0, 16, 16, 0, 1, List.replicate 16 256⟩, ⟨1, 0, 3, 1, 2, 0, [0, 0, 4096]⟩], false, true⟩

def copiedTokens : List Token :=
  [⟨false, 1, 2⟩, ⟨false, 0, 0⟩, ⟨false, 1, 3⟩, ⟨true, 0, 0⟩, ⟨false, 6, 2⟩, ⟨false, 3, 0⟩, ⟨true, 4, 9⟩, ⟨false, 6, 0⟩]

def copiedValues : List (Nat × Nat) :=
  [(1, 2), (0, 0), (1, 3), (0, 2), (1, 0), (2, 3), (3, 0), (4, 0), (5, 0), (1, 0), (2, 0), (3, 0), (4, 0), (5, 0), (1, 0), (2, 0), (3, 0), (4, 0), (5, 0)]

theorem copied_sound : Stream.Sound [] copiedPlan ∧ Stream.Tokenised copiedPlan 0 0 copiedTokens copiedValues := by
  have h : Stream.PlanOk copiedPlan :=
    ⟨fun z hz => by cases hz; exact ⟨by decide, by decide, by decide, by decide⟩, by decide, rfl, ⟨by decide, by decide, fun h hh => by
      simp at hh
      rcases hh with rfl | rfl
      · exact ⟨.flat rfl (by decide) (by decide) (fun s => rfl), by decide⟩
      · refine ⟨.single (by decide) rfl (by decide) (by decide) rfl (fun s hs => ?_), by decide⟩
        match s, hs with
        | 0, _ => rfl
        | 1, _ => rfl
        | 2, hs => exact absurd rfl hs
        | s + 3, _ => rfl⟩, by decide, by decide, by decide, by decide⟩
  refine ⟨?_, ?_, ?_, by decide, by decide⟩
  · rw [Stream.Sound.eq_def]
    exact ⟨h, fun hc => absurd hc (by decide)⟩
  · intro t ht
    simp [copiedTokens] at ht
    rcases ht with rfl | rfl | rfl | rfl | rfl | rfl | rfl | rfl <;>
      exact ⟨by decide, by decide, by decide, by decide, fun h z hz => by cases hz; revert h; decide⟩
  · exact ⟨6, by decide, .literal (.literal (.literal (.copy (x := (0, 2)) (xs := [(1, 0), (2, 3)]) rfl (by decide)
      (.literal (.copy (x := (4, 0)) (xs := [(5, 0), (1, 0), (2, 0), (3, 0), (4, 0), (5, 0), (1, 0), (2, 0), (3, 0), (4, 0), (5, 0)]) rfl (by decide) (.done _))))))⟩

/-- The header of their stream. -/
def copiedHead : List Bool :=
  [true, true, true, false, false, false, false, false, false, false, false, false, false, false, false, false,
    false, false, false, false, false, false, false, false, true, true, false, false, true, false, false, false, false,
    false, false, false, false, false, false, true, true, false, false, true, false, false, false, false, false, true,
    true, true, true, false, true, true, true, true, false, true, true, false, false, false]

def isRefused {α : Type} : Stream.Out α → Bool
  | .bad => true
  | _ => false

theorem storeAns_bits {mem : List Alias.Entry} {la : Nat} {h : Histo.Hist} {b : List Bool} {i : List Ans.Info} (e : Stream.storeAns mem la h = some (b, i)) :
    Histo.encode h = some b := by
  unfold Stream.storeAns at e
  obtain ⟨t, -, e⟩ := Option.bind_eq_some_iff.mp e
  obtain ⟨j, -, e⟩ := Option.bind_eq_some_iff.mp e
  obtain ⟨c, hc, e⟩ := Option.bind_eq_some_iff.mp e
  cases e
  exact hc

theorem copied_head {mem : Nat → List Alias.Entry} {b : List Bool} {i : Stream.Infos} (h : Stream.writeHeader mem [] copiedPlan = some (b, i)) :
    b = copiedHead := by
  unfold Stream.writeHeader Stream.writeHeaderWith at h
  obtain ⟨a, ha, h⟩ := Option.bind_eq_some_iff.mp h
  obtain ⟨m, hm, h⟩ := Option.bind_eq_some_iff.mp h
  obtain ⟨⟨c, i'⟩, hc, h⟩ := Option.bind_eq_some_iff.mp h
  dsimp only at h
  have hc : (Stream.storeAll (Stream.storeAns (mem 5) 5) [⟨0, 0, 16, 16, 0, 1, List.replicate 16 256⟩, ⟨1, 0, 3, 1, 2, 0, [0, 0, 4096]⟩]).map
      (fun q => (bitsOf 1 0 ++ bitsOf 2 (5 - 5) ++ copiedPlan.config.flatMap (Hybrid.writeConfig 5) ++ q.1, Stream.Infos.ans q.2)) = some (c, i') := hc
  obtain ⟨⟨d, j⟩, hd, hc⟩ := Option.map_eq_some_iff.mp hc
  rw [Stream.storeAll] at hd
  obtain ⟨⟨d1, j1⟩, hd1, hd⟩ := Option.bind_eq_some_iff.mp hd
  obtain ⟨⟨d2, j2⟩, hd2, hd⟩ := Option.bind_eq_some_iff.mp hd
  rw [Stream.storeAll] at hd2
  obtain ⟨⟨d3, j3⟩, hd3, hd2⟩ := Option.bind_eq_some_iff.mp hd2
  have he1 := storeAns_bits hd1
  have he3 := storeAns_bits hd3
  cases hd2
  cases hd
  cases hc
  cases h
  have k1 : Histo.encode ⟨0, 0, 16, 16, 0, 1, List.replicate 16 256⟩ = some [false, true, true, true, true, false, true, true, true] := by decide +kernel
  have k2 : Histo.encode ⟨1, 0, 3, 1, 2, 0, [0, 0, 4096]⟩ = some [true, false, true, true, false, false, false] := by decide +kernel
  rw [k1] at he1
  rw [k2] at he3
  have k3 : Stream.writeLz copiedPlan.lz = some [true, true, true, false, false, false, false, false, false, false, false, false, false, false, false, false,
    false, false, false, false, false, false, false, false] := by decide +kernel
  have k4 : Stream.writeMap none copiedPlan = some [true, true, false, false, true, false, false, false, false, false] := by decide +kernel
  rw [k3] at ha
  rw [k4] at hm
  cases ha
  cases hm
  cases he1
  cases he3
  dsimp only
  decide +kernel

set_option maxRecDepth 20000 in
theorem copied_refused (t : List Bool) : isRefused (readTree streamEnv 100 (copiedHead ++ t)) = true := by
  cbv

/-- **C64 (finding).** If all leaves are inside copies, the decoder may take the tree for an endless one: here is a tree with a sound
stream for its tokens — which, read as tokens, are accepted — that is written and then refused. -/
theorem C64_copied_leaves_refused {mem : Nat → List Alias.Entry} (hm : ∀ la, (mem la).length = 2 ^ la) :
    tokenizeLoop copiedTree 6 [0] 0 [] [] = some (some (copiedTree, copiedValues)) ∧
    decodeTree tokReader (some copiedValues) 100 = some (some (copiedTree, some [])) ∧
    Stream.Sound [] copiedPlan ∧ Stream.Tokenised copiedPlan 0 0 copiedTokens copiedValues ∧
    ∃ bits, writeTree mem [] copiedPlan copiedTokens = some bits ∧ Stream.EnvOk streamEnv ∧ readTree streamEnv 100 bits = .bad := by
  have henv : Stream.EnvOk streamEnv := ⟨rfl, fun la i => by simp [streamEnv], rfl, by decide⟩
  obtain ⟨hs, ht⟩ := copied_sound
  have hp : Stream.PlanOk copiedPlan := by rw [Stream.Sound.eq_def] at hs; exact hs.1
  obtain ⟨hb, infos, w1, w2⟩ := Stream.header_back hm [] copiedPlan hs
  obtain ⟨c, -, ca, cf⟩ := w2 2 6 false _ [] henv (by unfold Stream.nesting; (repeat' split) <;> omega) (by simp) rfl
  obtain ⟨tb, t1, -⟩ := Stream.values_read hp ca cf ht
  refine ⟨by decide +kernel, by decide +kernel, hs, ht, hb ++ tb, by unfold writeTree; rw [w1]; simp only [Option.bind_eq_bind, Option.bind_some, t1], henv, ?_⟩
  have h := copied_refused tb
  rw [← copied_head w1] at h
  generalize readTree streamEnv 100 (hb ++ tb) = x at h
  cases x <;> first | rfl | cases h

/-! A tree and choices for its stream that satisfy the conditions of the round trip, and bits. -/

def shownPlan : Stream.Plan := ⟨none, [0, 0, 0, 0, 0, 0], [⟨4, 1, 1⟩], .ans 5 [⟨0, 0, 16, 16, 0, 1, List.replicate 16 256⟩], false, true⟩

def shownTokens : List Token := copiedValues.map fun v => ⟨false, v.1, v.2⟩

example : Represents copiedTree 0 (.split 1 0 (.split 2 1 (.leaf ⟨1, 0, 0, 1⟩) (.leaf ⟨2, 0, 0, 1⟩)) (.leaf ⟨0, 3, 0, 1⟩)) :=
  .split (n := ⟨1, 0, 1, 2, 0, 0, 1⟩) rfl (by decide)
    (.split (n := ⟨2, 1, 3, 4, 0, 0, 1⟩) rfl (by decide) (.leaf (n := ⟨-1, 0, 1, 0, 0, 0, 1⟩) rfl rfl) (.leaf (n := ⟨-1, 0, 2, 0, 0, 0, 1⟩) rfl rfl))
    (.leaf (n := ⟨-1, 0, 0, 0, 3, 0, 1⟩) rfl rfl)

example : Stream.Sound [] shownPlan ∧ Stream.Tokenised shownPlan 0 0 shownTokens copiedValues ∧ LeavesShown shownPlan ∧
    shownPlan.map.length = if shownPlan.lz.isSome then 6 + 1 else 6 := by
  have h : Stream.PlanOk shownPlan :=
    ⟨by simp [shownPlan], by decide, rfl, ⟨by decide, by decide, fun h hh => by
      simp at hh
      subst hh
      exact ⟨.flat rfl (by decide) (by decide) (fun s => rfl), by decide⟩⟩, by decide, by decide, by decide, by decide⟩
  refine ⟨?_, ⟨?_, ⟨0, by decide, ?_⟩, by decide, by decide⟩, Or.inl rfl, rfl⟩
  · rw [Stream.Sound.eq_def]
    exact ⟨h, fun hc => absurd hc (by decide)⟩
  · intro t ht
    simp [shownTokens, copiedValues] at ht
    rcases ht with rfl | rfl | rfl | rfl | rfl | rfl | rfl | rfl | rfl | rfl | rfl | rfl | rfl | rfl | rfl | rfl | rfl | rfl | rfl <;>
      exact ⟨by decide, by decide, by decide, by decide, fun h z hz => by cases hz⟩
  · unfold shownTokens copiedValues
    simp only [List.map_cons, List.map_nil]
    repeat' constructor

end Jxl.Props

