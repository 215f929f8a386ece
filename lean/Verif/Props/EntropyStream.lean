import Verif.Lemmas.EntropySafe
/-!
# C55: a whole entropy-coded stream
-/
namespace Jxl.Props
open Stream
open Ans (Token)

/-- **C55 (round trip).** For all sound choices of the encoder (LZ77 parameters, clusters, codings of integers, ANS or prefix codes with
their statistics, the form of the context map, and likewise for the streams that code context maps), the header is written, and the
decoder reads it back from any memory contents and vector size, up to exactly its last bit.  With the code it has read it decodes every
stream of tokens written with these choices, at any context offset, to the values the tokens stand for: it stops exactly after the last
bit, in the final state, and not marked as damaged.

Partial: statistics of prefix codes are within the limits of C54 (at most 2^15 symbols, 1292 of them counted, counts summing to at most
2^30); histograms of ANS are those C13 covers. -/
theorem C55_round_trip_partial {mem : Nat → List Alias.Entry} (hm : ∀ la, (mem la).length = 2 ^ la) {layers : List Layer} {p : Plan}
    (hs : Sound layers p) {n : Nat} (hn : p.map.length = if p.lz.isSome then n + 1 else n) :
    ∃ hbits infos, writeHeader mem layers p = some (hbits, infos) ∧ ∀ env, EnvOk env → ∀ rest, ∃ c,
      decodeHistograms env n (hbits ++ rest) = .ok (c, rest) ∧ ∀ off mult ts vs, Tokenised p off mult ts vs →
        ∃ bits, writeTokens p infos off ts = some bits ∧ ∀ rest', ∃ st,
          decode c mult (vs.map fun v => off + v.1) (bits ++ rest') = .ok (vs.map Prod.snd, st) ∧
            finalOk st = true ∧ st.lz.bad = false ∧ st.bits = rest' := by
  obtain ⟨hbits, infos, h1, h2⟩ := header_back hm layers p hs
  refine ⟨hbits, infos, h1, fun env henv rest => ?_⟩
  obtain ⟨c, c1, c2, c3⟩ := h2 2 n false env rest henv (by unfold nesting; (repeat' split) <;> omega) (by simp) hn
  refine ⟨c, c1, fun off mult ts vs ht => ?_⟩
  have hp : PlanOk p := by rw [Sound.eq_def] at hs; exact hs.1
  obtain ⟨bits, b1, b2⟩ := values_read hp c2 c3 ht
  refine ⟨bits, b1, fun rest' => ?_⟩
  obtain ⟨s, s1, s2⟩ := b2 rest'
  exact ⟨_, s2, rfl, s1, rfl⟩

/-- **C55 (any bits).** Reading the header of an entropy-coded stream from any bits for any number of contexts is defined and calls itself
at most twice.  If a code was read, decoding values with it from any bits, in any sequence of its contexts and with any row length, is
defined as well. -/
theorem C55_any_bits {env : Env} (he : EnvOk env) (n : Nat) (s : List Bool) :
    decodeHistograms env n s ≠ .ub ∧ decodeHistograms env n s ≠ .deep ∧
      ∀ c rest, decodeHistograms env n s = .ok (c, rest) → ∀ (mult : Nat) (ctxs : List Nat), (∀ x ∈ ctxs, x < n) → ∀ s',
        decode c mult ctxs s' ≠ .ub ∧ decode c mult ctxs s' ≠ .deep ∧
          ∀ vs st, decode c mult ctxs s' = .ok (vs, st) → vs.length = ctxs.length := by
  have h := histograms_safe he n s
  refine ⟨fun e => ?_, fun e => ?_, fun c rest e mult ctxs hx s' => ?_⟩
  · rw [e] at h; exact h
  · rw [e] at h; exact h
  · rw [e] at h
    have hd := decode_safe (c := c) h mult ctxs (fun x hm => by
      have := hx x hm
      have hl : c.map.length = if c.lz.isSome then n + 1 else n := CodeOk.map h
      rw [hl]; split <;> omega) s'
    refine ⟨fun e => ?_, fun e => ?_, fun vs st e => ?_⟩
    · rw [e] at hd; exact hd
    · rw [e] at hd; exact hd
    · rw [e] at hd; exact hd

/-- **C55 (finding).** A prefix code that announces more than 2^15 symbols is refused, except for 2^16 symbols, the most that can be
announced: the size wraps to zero, and a code of the single symbol 0 is used. -/
theorem C55_oversized_alphabet (n size : Nat) (h1 : 2 ^ 15 < size) (h2 : size ≤ 2 ^ 16) (rest : List Bool) :
    (size < 2 ^ 16 → readSizes (n + 1) (storeVarLen16 (size - 1) ++ rest) = none) ∧
    (size = 2 ^ 16 → readSizes 1 (storeVarLen16 (size - 1) ++ rest) = some ([0], rest) ∧
      ∀ env, readHuffTables env [0] rest = .ok ([List.replicate 256 ⟨0, 0⟩], rest)) := by
  refine ⟨fun h => ?_, fun h => ⟨?_, fun env => rfl⟩⟩
  · rw [readSizes, readVarLen16_store (by omega)]
    dsimp only
    rw [show (size - 1 + 1) % 2 ^ 16 = size by omega, if_pos h1]
  · rw [readSizes, readVarLen16_store (by omega)]
    dsimp only
    rw [show (size - 1 + 1) % 2 ^ 16 = 0 by omega, if_neg (by omega), readSizes]
    rfl

/-! Witnesses: two contexts in two clusters, LZ77 with a third context for distances, an entropy-coded context map. -/

/-- The stream of the context map `[0, 1, 1]`, with ANS. -/
def streamInner : Layer :=
  { plan := ⟨none, [0], [⟨4, 1, 1⟩], .ans 5 [⟨0, 0, 2, 2, 0, 1, [2048, 2048]⟩], false, false⟩
    tokens := [⟨false, 0, 0⟩, ⟨false, 0, 1⟩, ⟨false, 0, 1⟩] }

/-- The stream itself, with prefix codes. -/
def streamOuter : Plan :=
  ⟨some ⟨224, 3, ⟨0, 0, 0⟩⟩, [0, 1, 1], [⟨4, 1, 1⟩, ⟨4, 1, 1⟩], .huff [[0, 0, 0, 0, 0, 3] ++ List.replicate 219 0 ++ [1], [0, 4, 0, 0, 0, 0, 0, 1]], false, false⟩

/-- Values 5 and 7, and a copy of length 3 at distance 2. -/
def streamTokens : List Token := [⟨false, 0, 5⟩, ⟨false, 1, 7⟩, ⟨true, 0, 1⟩, ⟨false, 2, 1⟩]

example : Sound [streamInner] streamOuter ∧ Tokenised streamOuter 0 0 streamTokens [(0, 5), (1, 7), (0, 5), (1, 7), (1, 5), (0, 7)] := by
  have h1 : PlanOk streamInner.plan :=
    ⟨by simp [streamInner], by decide, rfl, ⟨by decide, by decide, fun h hh => by
      simp at hh; subst hh
      exact ⟨.flat rfl (by decide) (by decide) (fun s => rfl), by decide⟩⟩, by decide, by decide, by decide, by decide⟩
  have h2 : PlanOk streamOuter :=
    ⟨fun z hz => by cases hz; exact ⟨by decide, by decide, by decide, by decide⟩, by decide, rfl, (by decide +kernel : ∀ c ∈ _, _), by decide, by decide, by decide, by decide⟩
  refine ⟨?_, ?_, ?_, by decide, by decide⟩
  · rw [Sound]
    refine ⟨h2, fun _ => ⟨?_, rfl, by decide, [0, 1, 1], rfl, ?_, ?_, by decide, by decide⟩⟩
    · rw [Sound]
      exact ⟨h1, fun h => absurd h (by decide)⟩
    · intro t ht
      simp [streamInner] at ht
      rcases ht with rfl | rfl <;> exact ⟨by decide, by decide, by decide, by decide, by decide⟩
    · exact ⟨0, by decide, .literal (.literal (.literal (.done _)))⟩
  · intro t ht
    simp [streamTokens] at ht
    rcases ht with rfl | rfl | rfl | rfl <;> exact ⟨by decide, by decide, by decide, by decide, fun h z hz => by cases hz; revert h; decide⟩
  · exact ⟨2, by decide, .literal (.literal (.copy (x := (0, 5)) (xs := [(1, 7), (1, 5), (0, 7)]) rfl (by decide) (.done _)))⟩

/-- Some memory contents. -/
def streamEnv : Env := ⟨List.replicate 32 ⟨3, 7⟩, fun la _ => List.replicate (2 ^ la) default, List.replicate 64 9, 4⟩

example : EnvOk streamEnv := ⟨rfl, fun la i => by simp [streamEnv], rfl, by decide⟩

-- bits that are refused, and bits that are read as a code for three contexts in one cluster
example : (match decodeHistograms streamEnv 3 (List.replicate 40 true) with | .bad => true | _ => false) = true ∧
    (match decodeHistograms streamEnv 3 ([false, true, false, false, true] ++ List.replicate 9 false) with
      | .ok (c, rest) => c.map == [0, 0, 0] && rest.length == 4
      | _ => false) = true := by decide +kernel

end Jxl.Props
