import Verif.Lemmas.PatchDict
/-!
# Properties: the dictionary of patches
-/
namespace Jxl.Props
open Jxl.Patches

/-- **C72 (round trip).** A dictionary whose patches can be drawn in the frame is written, with all sound choices of the entropy coder.  From these bits, with any
memory contents and whatever the decoder's object held before, the decoder reads up to exactly the last bit a dictionary that draws, in the same order, the same
rectangles of the same saved frames at the same places.  If the object held no blendings yet, every patch is blended as the encoder said.

Partial: with blendings left over from an earlier frame the patches are blended with those, see `C72_second_frame_blended_wrong`. -/
theorem C72_round_trip_partial {frames : Nat → Frame} {xs ys nec : Nat} {d : Dict} (h : d.Ok frames xs ys nec) {mem : Nat → List Alias.Entry} (hm : ∀ la, (mem la).length = 2 ^ la)
    {layers : List Stream.Layer} {p : Stream.Plan} (hs : Stream.Sound layers p) (hn : p.map.length = if p.lz.isSome then 10 + 1 else 10) :
    ∃ toks, tokens d = some toks ∧ ∀ ts, Stream.Tokenised p 0 0 ts toks → ∃ bits, writeDict mem layers p ts = some bits ∧
      ∀ env, Stream.EnvOk env → ∀ old rest, ∃ d' u, readDict env frames xs ys nec old (bits ++ rest) = .ok ((d', u), rest) ∧
        (drawn d').map (fun p => (p.x, p.y, p.source)) = (drawn d).map (fun p => (p.x, p.y, p.source)) ∧
        (old.blends = [] → drawn d' = (drawn d).map (Patch.norm nec)) := by
  obtain ⟨toks, ht⟩ := tokens_some h
  refine ⟨toks, ht, fun ts hts => ?_⟩
  obtain ⟨bits, b1, b2⟩ := bits_back h hm hs hn ht hts
  refine ⟨bits, b1, fun env henv old rest => ?_⟩
  obtain ⟨d', u, e1, e2⟩ := b2 env henv old rest
  exact ⟨d', u, e1, back_places e2, back_drawn e2 h.stride⟩

/-- **C72 (any bits).** Reading a dictionary from any bits, with any memory contents, is defined.  Whatever is accepted can be drawn: every patch lies within the frame,
its source is a rectangle within a saved frame that may be used, it has one blending for colour and one for each extra channel, and the alpha channel they name
exists; this holds for objects that were used before, too.  There are at most four times 1024 plus a quarter of the pixels. -/
theorem C72_any_bits {env : Stream.Env} (he : Stream.EnvOk env) (frames : Nat → Frame) (xs ys nec : Nat) {old : Dict} (ho : ∀ b ∈ old.blends, BlendOk nec b) (s : List Bool) :
    readDict env frames xs ys nec old s ≠ .ub ∧ readDict env frames xs ys nec old s ≠ .deep ∧ ∀ d u rest, readDict env frames xs ys nec old s = .ok ((d, u), rest) →
      (∀ p ∈ drawn d, p.Ok frames xs ys nec) ∧ d.positions.length ≤ 4 * (1024 + xs * ys / 4) ∧ d.stride = nec + 1 := by
  have h := readDict_safe he frames xs ys nec old s
  refine ⟨fun e => ?_, fun e => ?_, fun d u rest e => ?_⟩
  · rw [e] at h; exact h
  · rw [e] at h; exact h
  · rw [e] at h
    obtain ⟨c, st, r', hd⟩ : ∃ c st r', decode (TreeStream.contextReader c 0) frames xs ys nec old (.ok st) = some ((d, u), r') := h
    exact decode_ok hd ho

/-! Two frames of an image: a first with one patch that replaces, a second with two patches from another saved frame that are added. -/

def twoSaved : Nat → Frame := fun i => if i < 2 then ⟨8, 8, true⟩ else ⟨0, 0, false⟩

def firstDict : Dict := ⟨[⟨1, 2, 0⟩], [⟨0, 0, 0, 4, 4⟩], [⟨1, 0, false⟩], 1⟩

def secondDict : Dict := ⟨[⟨0, 0, 0⟩, ⟨3, 5, 0⟩], [⟨1, 2, 2, 3, 2⟩], [⟨2, 0, false⟩, ⟨3, 0, true⟩], 1⟩

def dictPlan : Stream.Plan := ⟨none, List.replicate 10 0, [⟨4, 1, 1⟩], .ans 5 [⟨0, 0, 16, 16, 0, 1, List.replicate 16 256⟩], false, true⟩

def dictValues (d : Dict) : List (Nat × Nat) := (tokens d).getD []

def dictTokens (d : Dict) : List Ans.Token := (dictValues d).map fun v => ⟨false, v.1, v.2⟩

theorem twoDicts_ok : firstDict.Ok twoSaved 8 8 0 ∧ secondDict.Ok twoSaved 8 8 0 := by
  have hs : ∀ i < 4, (twoSaved i).w ≤ 2 ^ 32 ∧ (twoSaved i).h ≤ 2 ^ 32 := by decide
  constructor
  · refine ⟨by decide, by decide, rfl, rfl, fun p hp => ?_, by decide, by decide, hs, by decide, by decide, by decide, Or.inl (by decide)⟩
    rw [show drawn firstDict = [⟨1, 2, some ⟨0, 0, 0, 4, 4⟩, [⟨1, 0, false⟩]⟩] from rfl, List.mem_singleton] at hp
    subst hp
    exact ⟨⟨_, rfl, ⟨by decide, by decide, rfl, by decide, by decide, by decide, by decide⟩, by decide, by decide⟩, rfl, by decide⟩
  · refine ⟨by decide, by decide, rfl, rfl, fun p hp => ?_, by decide, by decide, hs, by decide, by decide, by decide, Or.inl (by decide)⟩
    rw [show drawn secondDict = [⟨0, 0, some ⟨1, 2, 2, 3, 2⟩, [⟨2, 0, false⟩]⟩, ⟨3, 5, some ⟨1, 2, 2, 3, 2⟩, [⟨3, 0, true⟩]⟩] from rfl] at hp
    rcases List.mem_cons.mp hp with rfl | hp
    · exact ⟨⟨_, rfl, ⟨by decide, by decide, rfl, by decide, by decide, by decide, by decide⟩, by decide, by decide⟩, rfl, by decide⟩
    · rw [List.mem_singleton] at hp
      subst hp
      exact ⟨⟨_, rfl, ⟨by decide, by decide, rfl, by decide, by decide, by decide, by decide⟩, by decide, by decide⟩, rfl, by decide⟩

theorem dictPlan_sound : Stream.Sound [] dictPlan := by
  have h : Stream.PlanOk dictPlan :=
    ⟨by simp [dictPlan], by decide, rfl, ⟨by decide, by decide, fun h hh => by
      simp at hh
      subst hh
      exact ⟨.flat rfl (by decide) (by decide) (fun s => rfl), by decide⟩⟩, by decide, by decide, by decide, by decide⟩
  rw [Stream.Sound.eq_def]
  exact ⟨h, fun hc => absurd hc (by decide)⟩

example : dictValues secondDict = [(0, 1), (1, 1), (3, 2), (3, 2), (2, 2), (2, 1), (7, 1), (4, 0), (4, 0), (5, 2), (6, 6), (6, 10), (5, 3), (9, 1)] := by decide +kernel

theorem dict_tokenised : Stream.Tokenised dictPlan 0 0 (dictTokens firstDict) (dictValues firstDict) ∧ Stream.Tokenised dictPlan 0 0 (dictTokens secondDict) (dictValues secondDict) := by
  have e1 : dictValues firstDict = [(0, 1), (1, 0), (3, 0), (3, 0), (2, 3), (2, 3), (7, 0), (4, 1), (4, 2), (5, 1)] := by decide +kernel
  have e2 : dictValues secondDict = [(0, 1), (1, 1), (3, 2), (3, 2), (2, 2), (2, 1), (7, 1), (4, 0), (4, 0), (5, 2), (6, 6), (6, 10), (5, 3), (9, 1)] := by decide +kernel
  unfold dictTokens
  rw [e1, e2]
  constructor
  · refine ⟨?_, ⟨0, by decide, ?_⟩, by decide, by decide⟩
    · intro t ht
      simp at ht
      rcases ht with rfl | rfl | rfl | rfl | rfl | rfl | rfl | rfl | rfl <;>
        exact ⟨by decide, by decide, by decide, by decide, fun h z hz => by cases hz⟩
    · simp only [List.map_cons, List.map_nil]
      repeat' constructor
  · refine ⟨?_, ⟨0, by decide, ?_⟩, by decide, by decide⟩
    · intro t ht
      simp at ht
      rcases ht with rfl | rfl | rfl | rfl | rfl | rfl | rfl | rfl | rfl | rfl | rfl | rfl <;>
        exact ⟨by decide, by decide, by decide, by decide, fun h z hz => by cases hz⟩
    · simp only [List.map_cons, List.map_nil]
      repeat' constructor

/-! Read into a new object, the second dictionary comes back. -/
example (env : Stream.Env) (he : Stream.EnvOk env) (mem : Nat → List Alias.Entry) (hm : ∀ la, (mem la).length = 2 ^ la) :
    ∃ bits, writeDict mem [] dictPlan (dictTokens secondDict) = some bits ∧ ∃ d u, readDict env twoSaved 8 8 0 fresh bits = .ok ((d, u), []) ∧ drawn d = drawn secondDict := by
  obtain ⟨toks, h1, h2⟩ := C72_round_trip_partial twoDicts_ok.2 hm dictPlan_sound rfl
  obtain ⟨bits, b1, b2⟩ := h2 _ (by
    have : dictValues secondDict = toks := by unfold dictValues; rw [h1]; rfl
    rw [← this]
    exact dict_tokenised.2)
  obtain ⟨d, u, d1, -, d2⟩ := b2 env he fresh []
  rw [List.append_nil] at d1
  exact ⟨bits, b1, d, u, d1, d2 rfl⟩

example : ∀ b ∈ fresh.blends, BlendOk 0 b := by intro b hb; cases hb

/-- **C72 (finding).** Reading a dictionary clears only the places of the object the frames of an image share, not the sources and the blendings.  So here are two frames,
both with dictionaries in the ranges of the format, that are written and read: the patches of the second frame, which should be added and multiplied, are drawn with
the replacement of the first frame's patch and with the addition meant for the first patch, and the second frame still claims to need the saved frame that only
the first one uses. -/
theorem C72_second_frame_blended_wrong {mem : Nat → List Alias.Entry} (hm : ∀ la, (mem la).length = 2 ^ la) :
    firstDict.Ok twoSaved 8 8 0 ∧ secondDict.Ok twoSaved 8 8 0 ∧ ∃ b1 b2, writeDict mem [] dictPlan (dictTokens firstDict) = some b1 ∧ writeDict mem [] dictPlan (dictTokens secondDict) = some b2 ∧
      ∀ env, Stream.EnvOk env → ∀ r1 r2, ∃ d1 u1 d2 u2, readDict env twoSaved 8 8 0 fresh (b1 ++ r1) = .ok ((d1, u1), r1) ∧ readDict env twoSaved 8 8 0 d1 (b2 ++ r2) = .ok ((d2, u2), r2) ∧
        (drawn secondDict).map (·.blends) = [[⟨2, 0, false⟩], [⟨3, 0, true⟩]] ∧ (drawn d2).map (·.blends) = [[⟨1, 0, false⟩], [⟨2, 0, false⟩]] ∧
        (references d2).testBit 0 = true ∧ (drawn d2).map (·.source) = [some ⟨1, 2, 2, 3, 2⟩, some ⟨1, 2, 2, 3, 2⟩] := by
  obtain ⟨h1, h2⟩ := twoDicts_ok
  obtain ⟨t1, t2⟩ := dict_tokenised
  obtain ⟨b1, w1, k1⟩ := bits_back h1 hm dictPlan_sound rfl (toks := dictValues firstDict) (by decide +kernel) t1
  obtain ⟨b2, w2, k2⟩ := bits_back h2 hm dictPlan_sound rfl (toks := dictValues secondDict) (by decide +kernel) t2
  refine ⟨h1, h2, b1, b2, w1, w2, fun env henv r1 r2 => ?_⟩
  obtain ⟨d1, u1, e1, s1, q1, p1, -⟩ := k1 env henv fresh r1
  obtain ⟨d2, u2, e2, s2, q2, p2, rs, f2, -⟩ := k2 env henv d1 r2
  refine ⟨d1, u1, d2, u2, e1, e2, rfl, ?_, ?_, ?_⟩
  · have hlen : d2.positions.length = 2 := by
      have := congrArg List.length p2
      rwa [List.length_map, List.length_map] at this
    match hp : d2.positions, hlen with
    | [a, b], _ =>
      unfold drawn
      rw [hp, q2, q1, s2]
      rfl
  · have hm1 : (⟨0, 0, 0, 4, 4⟩ : RefPos) ∈ d1.refs := by
      have hlen : d1.positions.length = 1 := by
        have := congrArg List.length p1
        rwa [List.length_map, List.length_map] at this
      match hp : d1.positions, hlen with
      | [a], _ =>
        rw [hp] at p1
        have p1' : [(a.x, a.y, d1.refs[a.idx]?)] = [(1, 2, some ⟨0, 0, 0, 4, 4⟩)] := p1
        injection p1' with p1'
        injection p1' with _ p1'
        injection p1' with _ p1'
        exact List.mem_of_getElem? p1'
    exact references_bit (f := ⟨0, 0, 0, 4, 4⟩) (by rw [f2]; exact List.mem_append_left _ hm1)
  · have := congrArg (List.map fun t : Nat × Nat × Option RefPos => t.2.2) p2
    rw [List.map_map, List.map_map] at this
    have e : (drawn d2).map (·.source) = d2.positions.map ((fun t : Nat × Nat × Option RefPos => t.2.2) ∘ fun p => (p.x, p.y, d2.refs[p.idx]?)) := by
      apply List.ext_getElem?
      intro i
      rw [List.getElem?_map, drawn_get, List.getElem?_map, Option.map_map]
      rfl
    rw [e, this]
    rfl

end Jxl.Props
