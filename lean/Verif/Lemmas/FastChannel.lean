import Verif.Lemmas.FastPrefixStore
import Verif.Lemmas.EntropyValues
import Verif.Model.FastChannel
/-!
# Runs and values of the fast lossless encoder
-/
namespace Jxl.FastCode
open Huffman (dropZeros)

theorem hybrid000_eq {v : Nat} (h : v < 2 ^ 32) : hybrid000 v = Hybrid.encode ⟨0, 0, 0⟩ v := by
  unfold hybrid000 floorLog2 Hybrid.encode
  dsimp only
  rw [show Hybrid.Config.splitToken ⟨0, 0, 0⟩ = 1 from rfl]
  by_cases h0 : v = 0
  · subst h0; rfl
  · have h1 := Nat.log2_self_le h0
    have h2 : v < 2 ^ (v.log2 + 1) := Nat.lt_log2_self
    have h3 : v.log2 < 32 := (Nat.log2_lt h0).mpr h
    rw [Nat.pow_succ] at h2
    have h4 : (v - 2 ^ v.log2) >>> v.log2 = 0 := by
      rw [Nat.shiftRight_eq_div_pow, Nat.div_eq_of_lt (by omega)]
    have h5 : v &&& (2 ^ v.log2 - 1) = v - 2 ^ v.log2 := by
      rw [Nat.and_two_pow_sub_one_eq_mod, Nat.mod_eq_sub_mod h1, Nat.mod_eq_of_lt (by omega)]
    simp only [h0, ne_eq, not_false_eq_true, if_true, Nat.sub_zero, Nat.add_zero, Nat.shiftLeft_zero, Nat.shiftRight_zero, h4, h5,
      Nat.pow_zero, Nat.sub_self, Nat.and_zero, if_neg (show ¬ v < 1 by omega)]
    rw [Nat.mod_eq_of_lt (by omega), Nat.add_comm]

theorem hybridLz_eq {v : Nat} (h : v < 2 ^ 32) : hybridLz v = Hybrid.encode ⟨4, 0, 0⟩ v := by
  unfold hybridLz floorLog2 Hybrid.encode
  dsimp only
  rw [show Hybrid.Config.splitToken ⟨4, 0, 0⟩ = 16 from rfl]
  by_cases hs : v < 16
  · simp [hs]
  · have h0 : v ≠ 0 := by omega
    have h1 := Nat.log2_self_le h0
    have h2 : v < 2 ^ (v.log2 + 1) := Nat.lt_log2_self
    have h3 : v.log2 < 32 := (Nat.log2_lt h0).mpr h
    have h6 : 4 ≤ v.log2 := (Nat.le_log2 h0).mpr (by omega)
    rw [Nat.pow_succ] at h2
    have h4 : (v - 2 ^ v.log2) >>> v.log2 = 0 := by
      rw [Nat.shiftRight_eq_div_pow, Nat.div_eq_of_lt (by omega)]
    have h5 : v &&& (2 ^ v.log2 - 1) = v - 2 ^ v.log2 := by
      rw [Nat.and_two_pow_sub_one_eq_mod, Nat.mod_eq_sub_mod h1, Nat.mod_eq_of_lt (by omega)]
    simp only [h0, hs, if_false, ne_eq, not_false_eq_true, if_true, Nat.sub_zero, Nat.add_zero, Nat.shiftLeft_zero, Nat.shiftRight_zero, h4, h5,
      Nat.pow_zero, Nat.sub_self, Nat.and_zero]
    rw [Nat.mod_eq_of_lt (by omega)]
    congr 1
    omega

/-- Two fields joined in one value. -/
theorem join {d n w b : Nat} (hw : w < 2 ^ d) (hb : b < 2 ^ n) :
    w ||| b <<< d < 2 ^ (d + n) ∧ bitsOf (d + n) (w ||| b <<< d) = bitsOf d w ++ bitsOf n b := by
  have h1 : w ||| (b <<< d) = 2 ^ d * b + w := by
    rw [Nat.shiftLeft_eq, Nat.mul_comm, Nat.or_comm, Nat.two_pow_add_eq_or_of_lt hw]
  have h2 : 2 ^ d * b + w < 2 ^ (d + n) := by
    rw [Nat.pow_add]
    have : 2 ^ d * (b + 1) ≤ 2 ^ d * 2 ^ n := Nat.mul_le_mul_left _ hb
    rw [Nat.mul_succ] at this
    omega
  rw [h1]
  refine ⟨h2, ?_⟩
  rw [bitsOf_add]
  congr 1
  · rw [← bitsOf_mod d (2 ^ d * b + w), Nat.mul_add_mod, Nat.mod_eq_of_lt hw]
  · rw [Nat.mul_add_div (Nat.two_pow_pos _), Nat.div_eq_of_lt hw, Nat.add_zero]

theorem shl_lt {b n d : Nat} (h : b < 2 ^ n) : b <<< d < 2 ^ (d + n) := by
  rw [Nat.shiftLeft_eq, Nat.add_comm, Nat.pow_add]
  exact Nat.mul_lt_mul_of_pos_right h (Nat.two_pow_pos _)

theorem pow_mono {a b : Nat} (h : a ≤ b) : 2 ^ a ≤ 2 ^ b := Nat.pow_le_pow_right (by omega) h

theorem hybrid000_bounds {v : Nat} : (hybrid000 v).2.2 < 2 ^ (hybrid000 v).2.1 ∧ (hybrid000 v).2.1 + 1 ≤ max 1 (hybrid000 v).1 := by
  unfold hybrid000 floorLog2
  dsimp only
  by_cases h0 : v = 0
  · subst h0; decide
  · have h1 := Nat.log2_self_le h0
    have h2 : v < 2 ^ (v.log2 + 1) := Nat.lt_log2_self
    rw [Nat.pow_succ] at h2
    simp only [h0, ne_eq, not_false_eq_true, if_true]
    omega

theorem hybridLz_bounds {v : Nat} : (hybridLz v).2.2 < 2 ^ (hybridLz v).2.1 ∧ (hybridLz v).2.1 ≤ (hybridLz v).1 := by
  unfold hybridLz floorLog2
  dsimp only
  by_cases hs : v < 16
  · simp [hs]
  · have h0 : v ≠ 0 := by omega
    have h1 := Nat.log2_self_le h0
    have h2 : v < 2 ^ (v.log2 + 1) := Nat.lt_log2_self
    rw [Nat.pow_succ] at h2
    simp only [hs, h0, ne_eq, not_false_eq_true, if_true, if_false]
    omega

/-- A value whose symbol was counted. -/
def RawOk (raw : List Nat) (v : Nat) : Prop := v < 2 ^ 32 ∧ (hybrid000 v).1 < 19 ∧ raw.getD (hybrid000 v).1 0 ≠ 0

/-- A run that is long enough and whose symbol was counted. -/
def RunOk (raw lz : List Nat) (k : Nat) : Prop :=
  8 ≤ k ∧ k - 8 < 2 ^ 32 ∧ raw.getD 0 0 ≠ 0 ∧ (hybridLz (k - 8)).1 < 33 ∧ lz.getD (hybridLz (k - 8)).1 0 ≠ 0

variable {lo hi raw lz : List Nat} {c : Code}

theorem raw_entry (g : Good lo hi raw lz c) {i : Nat} (h : i < 19) :
    c.raw[i]? = some (c.raw.getD i 0) ∧ c.rawBits[i]? = some (c.rawBits.getD i 0) := by
  have h1 : i < c.raw.length := by rw [g.rawLen]; exact h
  have h2 : i < c.rawBits.length := by rw [g.rawBitsLen]; exact h
  simp [List.getD, h1, h2]

theorem lz_entry (g : Good lo hi raw lz c) {i : Nat} (h : i < 33) :
    c.lz[i]? = some (c.lz.getD i 0) ∧ c.lzBits[i]? = some (c.lzBits.getD i 0) := by
  have h1 : i < c.lz.length := by rw [g.lzLen]; exact h
  have h2 : i < c.lzBits.length := by rw [g.lzBitsLen]; exact h
  simp [List.getD, h1, h2]

theorem lz_le (g : Good lo hi raw lz c) (i : Nat) : c.lz.getD i 0 ≤ 15 := by
  by_cases h : c.lz.getD i 0 = 0
  · omega
  · refine g.complete.1 _ ?_
    rw [Code.lens]
    exact List.mem_append_right _ (List.mem_of_getElem? (some_of_getD h))

theorem writeRaw_ok (g : Good lo hi raw lz c) {v : Nat} (h : RawOk raw v) :
    ∃ w, writeRaw c v = some w ∧ w.2 < 2 ^ w.1 ∧ w.1 ≤ 56 ∧
      bitsOf w.1 w.2 = bitsOf (c.raw.getD (hybrid000 v).1 0) (c.rawBits.getD (hybrid000 v).1 0) ++ bitsOf (hybrid000 v).2.1 (hybrid000 v).2.2 := by
  obtain ⟨h0, h1, h2⟩ := h
  have hu := (g.rawUsed _ h1).mpr h2
  have hw := (g.rawWord _ hu).2
  have hs := g.rawShort (hybrid000 v).1
  obtain ⟨b1, b2⟩ := hybrid000_bounds (v := v)
  obtain ⟨e1, e2⟩ := raw_entry g h1
  obtain ⟨j1, j2⟩ := join hw b1
  have hl := shl_lt (d := c.raw.getD (hybrid000 v).1 0) b1
  have hp := pow_mono (a := c.raw.getD (hybrid000 v).1 0 + (hybrid000 v).2.1) (b := 32) (by omega)
  refine ⟨(c.raw.getD (hybrid000 v).1 0 + (hybrid000 v).2.1, _), ?_, j1, by dsimp only; omega, j2⟩
  unfold writeRaw
  dsimp only
  simp only [e1, e2, Option.bind_eq_bind, Option.bind_some]
  rw [Nat.mod_eq_of_lt (Nat.lt_of_lt_of_le hl hp)]

theorem writeRun_ok (g : Good lo hi raw lz c) {k : Nat} (h : RunOk raw lz k) :
    ∃ w, writeRun c k = some [w] ∧ w.2 < 2 ^ w.1 ∧ w.1 ≤ 56 ∧
      bitsOf w.1 w.2 = bitsOf (c.raw.getD 0 0) (c.rawBits.getD 0 0) ++ (bitsOf (c.lz.getD (hybridLz (k - 8)).1 0) (c.lzBits.getD (hybridLz (k - 8)).1 0) ++
        bitsOf (hybridLz (k - 8)).2.1 (hybridLz (k - 8)).2.2) := by
  obtain ⟨h8, h32, hr, hl, hlc⟩ := h
  have hur := (g.rawUsed 0 (by omega)).mpr hr
  have hul := (g.lzUsed _ hl).mpr hlc
  have hwr := (g.rawWord _ hur).2
  have hwl := (g.lzWord _ hul).2
  have hsr := g.rawShort 0
  have hsl := lz_le g (hybridLz (k - 8)).1
  obtain ⟨b1, b2⟩ := hybridLz_bounds (v := k - 8)
  obtain ⟨e1, e2⟩ := raw_entry g (i := 0) (by omega)
  obtain ⟨e3, e4⟩ := lz_entry g hl
  have hn : (hybridLz (k - 8)).2.1 ≤ 31 := by
    by_cases h0 : k - 8 < 16
    · simp [hybridLz, h0]
    · have := (Nat.log2_lt (show k - 8 ≠ 0 by omega)).mpr h32
      simp only [hybridLz, h0, if_false, floorLog2, show k - 8 ≠ 0 by omega, ne_eq, not_false_eq_true, if_true]
      omega
  obtain ⟨j1, j2⟩ := join hwl b1
  obtain ⟨i1, i2⟩ := join hwr j1
  rw [j2] at i2
  have hs1 := shl_lt (d := c.lz.getD (hybridLz (k - 8)).1 0) b1
  have hs2 := shl_lt (d := c.raw.getD 0 0) j1
  have hcount : (k + 2 ^ 64 - 8) % 2 ^ 64 = k - 8 := by
    rw [show k + 2 ^ 64 - 8 = (k - 8) + 2 ^ 64 by omega, Nat.add_mod_right, Nat.mod_eq_of_lt (by omega)]
  refine ⟨(c.lz.getD (hybridLz (k - 8)).1 0 + (hybridLz (k - 8)).2.1 + c.raw.getD 0 0,
    c.rawBits.getD 0 0 ||| (c.lzBits.getD (hybridLz (k - 8)).1 0 ||| (hybridLz (k - 8)).2.2 <<< c.lz.getD (hybridLz (k - 8)).1 0) <<< c.raw.getD 0 0), ?_, ?_, by dsimp only; omega, ?_⟩
  · unfold writeRun
    rw [if_neg (by omega)]
    dsimp only
    rw [hcount]
    split
    · next hc =>
      have hn2 : (hybridLz (k - 8)).2.1 ≤ 4 := by
        by_cases h0 : k - 8 < 16
        · simp [hybridLz, h0]
        · have := (Nat.log2_lt (k := 5) (show k - 8 ≠ 0 by omega)).mpr (by omega)
          simp only [hybridLz, h0, if_false, floorLog2, show k - 8 ≠ 0 by omega, ne_eq, not_false_eq_true, if_true]
          omega
      have p1 := pow_mono (a := c.lz.getD (hybridLz (k - 8)).1 0 + (hybridLz (k - 8)).2.1) (b := 32) (by omega)
      have p2 := pow_mono (a := c.raw.getD 0 0 + (c.lz.getD (hybridLz (k - 8)).1 0 + (hybridLz (k - 8)).2.1)) (b := 32) (by omega)
      unfold cacheEntry
      dsimp only
      simp only [e1, e2, e3, e4, Option.bind_eq_bind, Option.bind_some, Option.map_some]
      rw [Nat.mod_eq_of_lt (Nat.lt_of_lt_of_le hs1 p1), Nat.or_comm _ (c.lzBits.getD _ 0),
        Nat.mod_eq_of_lt (Nat.lt_of_lt_of_le hs2 p2), Nat.or_comm _ (c.rawBits.getD 0 0), Nat.mod_eq_of_lt (show c.lz.getD (hybridLz (k - 8)).1 0 + (hybridLz (k - 8)).2.1 + c.raw.getD 0 0 < 256 by omega)]
    · have p1 := pow_mono (a := c.lz.getD (hybridLz (k - 8)).1 0 + (hybridLz (k - 8)).2.1) (b := 64) (by omega)
      have p2 := pow_mono (a := c.raw.getD 0 0 + (c.lz.getD (hybridLz (k - 8)).1 0 + (hybridLz (k - 8)).2.1)) (b := 64) (by omega)
      unfold writeLong
      rw [Nat.mod_eq_of_lt (a := k - 8) (by omega)]
      dsimp only
      simp only [e1, e2, e3, e4, Option.bind_eq_bind, Option.bind_some, Option.map_some]
      rw [Nat.mod_eq_of_lt (Nat.lt_of_lt_of_le hs1 p1), Nat.or_comm _ (c.lzBits.getD _ 0),
        Nat.mod_eq_of_lt (Nat.lt_of_lt_of_le hs2 p2), Nat.or_comm _ (c.rawBits.getD 0 0)]
  · dsimp only
    rw [Nat.add_comm]
    exact i1
  · dsimp only
    rw [Nat.add_comm]
    exact i2


/-! ## Operations -/

/-- What is written for a channel: values and runs of zeros. -/
inductive Op where
  | lit (v : Nat)
  | zeros (k : Nat)

/-- The values an operation stands for. -/
def Op.vals : Op → List Nat
  | .lit v => [v]
  | .zeros k => List.replicate k 0

@[inherit_doc RawOk]
def Op.Ok (raw lz : List Nat) : Op → Prop
  | .lit v => RawOk raw v
  | .zeros k => RunOk raw lz k

/-- The bits of an operation. -/
def Op.bits (c : Code) : Op → List Bool
  | .lit v => bitsOf (c.raw.getD (hybrid000 v).1 0) (c.rawBits.getD (hybrid000 v).1 0) ++ bitsOf (hybrid000 v).2.1 (hybrid000 v).2.2
  | .zeros k => bitsOf (c.raw.getD 0 0) (c.rawBits.getD 0 0) ++ (bitsOf (c.lz.getD (hybridLz (k - 8)).1 0) (c.lzBits.getD (hybridLz (k - 8)).1 0) ++
      bitsOf (hybridLz (k - 8)).2.1 (hybridLz (k - 8)).2.2)

/-- Calls of `Write` that fit, stand for the given operations, and announce at most 56 bits each. -/
structure Writes (c : Code) (ws : List (Nat × Nat)) (ops : List Op) : Prop where
  fit : ∀ w ∈ ws, w.2 < 2 ^ w.1 ∧ w.1 ≤ 56
  bits : bitsFor ws = ops.flatMap (Op.bits c)

theorem Writes.nil : Writes c [] [] := ⟨by simp, rfl⟩

theorem Writes.append {a b : List (Nat × Nat)} {p q : List Op} (h1 : Writes c a p) (h2 : Writes c b q) : Writes c (a ++ b) (p ++ q) := by
  refine ⟨fun w hw => (List.mem_append.mp hw).elim (h1.fit w) (h2.fit w), ?_⟩
  have e : bitsFor (a ++ b) = bitsFor a ++ bitsFor b := by simp [bitsFor]
  rw [e, h1.bits, h2.bits, List.flatMap_append]

theorem raws_ok (g : Good lo hi raw lz c) : ∀ vs : List Nat, (∀ v ∈ vs, RawOk raw v) →
    ∃ ws, vs.mapM (writeRaw c) = some ws ∧ Writes c ws (vs.map .lit)
  | [], _ => ⟨[], rfl, .nil⟩
  | v :: vs, h => by
    obtain ⟨ws, h1, h2⟩ := raws_ok g vs fun x hx => h x (by simp [hx])
    obtain ⟨w, k1, k2, k3, k4⟩ := writeRaw_ok g (h v (by simp))
    refine ⟨w :: ws, by simp [List.mapM_cons, k1, h1], ?_⟩
    have : Writes c [w] [.lit v] := ⟨by simpa using ⟨k2, k3⟩, by simp [bitsFor, Op.bits, k4]⟩
    exact this.append h2

/-- Nothing, or a run. -/
def runOps (k : Nat) : List Op := if k = 0 then [] else [.zeros k]

theorem run_ok (g : Good lo hi raw lz c) {k : Nat} (h : k = 0 ∨ RunOk raw lz k) :
    ∃ ws, writeRun c k = some ws ∧ Writes c ws (runOps k) := by
  rcases Nat.eq_zero_or_pos k with h0 | h0
  · subst h0; exact ⟨[], rfl, .nil⟩
  · obtain ⟨w, k1, k2, k3, k4⟩ := writeRun_ok g (h.resolve_left (by omega))
    refine ⟨[w], k1, ?_⟩
    rw [runOps, if_neg (by omega)]
    exact ⟨by simpa using ⟨k2, k3⟩, by simp [bitsFor, Op.bits, k4]⟩

theorem chunk_ok (g : Good lo hi raw lz c) {run skip n : Nat} {res : List Nat} (hr : run = 0 ∨ RunOk raw lz run)
    (hv : ∀ v ∈ (res.take n).drop skip, RawOk raw v) :
    ∃ ws, writeChunk c run res skip n = some ws ∧ Writes c ws (runOps run ++ ((res.take n).drop skip).map .lit) := by
  obtain ⟨a, a1, a2⟩ := run_ok g hr
  obtain ⟨b, b1, b2⟩ := raws_ok g _ hv
  exact ⟨a ++ b, by simp [writeChunk, a1, b1], a2.append b2⟩

/-- All runs up to `m` can be written. -/
def Runs (raw lz : List Nat) (m : Nat) : Prop := ∀ k, 8 ≤ k → k ≤ m → RunOk raw lz k

/-- A run is empty or long enough. -/
def Long (run : Nat) : Prop := run = 0 ∨ 8 ≤ run

/-- What was written stands for everything before the pending run. -/
structure Step (raw lz : List Nat) (c : Code) (run : Nat) (vs : List Nat) (run' : Nat) (ws : List (Nat × Nat)) : Prop where
  long : Long run'
  bound : run' ≤ run + vs.length
  written : ∃ ops, Writes c ws ops ∧ (∀ o ∈ ops, o.Ok raw lz) ∧ ops.flatMap Op.vals ++ List.replicate run' 0 = List.replicate run 0 ++ vs

theorem zeroPrefix_le (l : List Nat) : zeroPrefix l ≤ l.length := by
  rw [zeroPrefix]
  exact (List.takeWhile_sublist _).length_le

theorem zeroPrefix_take : ∀ (l : List Nat) (p : Nat), p ≤ zeroPrefix l → l.take p = List.replicate p 0
  | [], p, h => by
    have : p = 0 := by have := zeroPrefix_le []; simp at this; omega
    subst this; rfl
  | a :: l, 0, _ => rfl
  | a :: l, p + 1, h => by
    by_cases ha : a = 0
    · subst ha
      have : zeroPrefix (0 :: l) = zeroPrefix l + 1 := by simp [zeroPrefix]
      rw [List.take_succ_cons, List.replicate_succ, zeroPrefix_take l p (by omega)]
    · have : zeroPrefix (a :: l) = 0 := by simp [zeroPrefix, ha]
      omega

theorem vals_lits (vs : List Nat) : (vs.map Op.lit).flatMap Op.vals = vs := by
  induction vs with
  | nil => rfl
  | cons v vs ih => rw [List.map_cons, List.flatMap_cons, ih]; rfl

theorem vals_run (k : Nat) : (runOps k).flatMap Op.vals = List.replicate k 0 := by
  unfold runOps
  split
  · next h => subst h; rfl
  · simp [Op.vals]

theorem rep_append (a b : Nat) : List.replicate a 0 ++ List.replicate b 0 = List.replicate (a + b) (0 : Nat) := by
  rw [List.replicate_append_replicate]

theorem processChunk_ok (g : Good lo hi raw lz c) {run n : Nat} {res : List Nat} (hl : Long run) (hn : n ≤ res.length)
    (hr : Runs raw lz (run + n)) (hv : ∀ v ∈ res.take n, RawOk raw v) :
    ∃ run' ws, processChunk c run res n = some (run', ws) ∧ Step raw lz c run (res.take n) run' ws := by
  have hlen : (res.take n).length = n := by rw [List.length_take]; omega
  have hp : (res.take n).take (min n (zeroPrefix res)) = List.replicate (min n (zeroPrefix res)) 0 := by
    rw [List.take_take, Nat.min_eq_left (Nat.min_le_left _ _)]
    exact zeroPrefix_take _ _ (Nat.min_le_right _ _)
  have hpn : min n (zeroPrefix res) ≤ n := Nat.min_le_left _ _
  have hsplit := List.take_append_drop (min n (zeroPrefix res)) (res.take n)
  unfold processChunk
  dsimp only
  generalize min n (zeroPrefix res) = p at hp hpn hsplit ⊢
  split
  · next h =>
    refine ⟨_, _, rfl, ?_, ?_, [], .nil, by simp, ?_⟩
    · rcases hl with h0 | h0
      · exact Or.inr (by omega)
      · exact Or.inr (by omega)
    · omega
    · have : res.take n = List.replicate p 0 := by
        rw [← hp, h.1, List.take_take, Nat.min_self]
      rw [this, rep_append]
      rfl
  · split
    · next h1 h2 =>
      obtain ⟨ws, w1, w2⟩ := chunk_ok (run := run + p) (skip := p) (n := n) (res := res) g (Or.inr (hr _ (by omega) (by omega)))
        fun v hv' => hv v (List.mem_of_mem_drop hv')
      refine ⟨0, ws, by rw [w1]; rfl, Or.inl rfl, by omega, _, w2, ?_, ?_⟩
      · intro o ho
        rcases List.mem_append.mp ho with h | h
        · rw [runOps, if_neg (by omega)] at h
          simp only [List.mem_singleton] at h
          subst h
          exact hr _ (by omega) (by omega)
        · obtain ⟨v, h3, rfl⟩ := List.mem_map.mp h
          exact hv v (List.mem_of_mem_drop h3)
      · rw [List.flatMap_append, vals_lits, vals_run, List.replicate_zero, List.append_nil, ← rep_append, ← hp, List.append_assoc, hsplit]
    · next h1 h2 =>
      have hrun : run = 0 := by rcases hl with h | h <;> omega
      subst hrun
      obtain ⟨ws, w1, w2⟩ := chunk_ok (run := 0) (skip := 0) (n := n) (res := res) g (Or.inl rfl)
        fun v hv' => hv v (List.mem_of_mem_drop hv')
      refine ⟨0, ws, by rw [w1]; rfl, Or.inl rfl, by omega, _, w2, ?_, ?_⟩
      · intro o ho
        rcases List.mem_append.mp ho with h | h
        · simp [runOps] at h
        · obtain ⟨v, h3, rfl⟩ := List.mem_map.mp h
          exact hv v (List.mem_of_mem_drop h3)
      · rw [List.flatMap_append, vals_lits, vals_run, List.drop_zero]
        simp

theorem Step.trans {r r' r'' : Nat} {u v : List Nat} {a b : List (Nat × Nat)} (h1 : Step raw lz c r u r' a) (h2 : Step raw lz c r' v r'' b) :
    Step raw lz c r (u ++ v) r'' (a ++ b) := by
  obtain ⟨p, p1, p2, p3⟩ := h1.written
  obtain ⟨q, q1, q2, q3⟩ := h2.written
  refine ⟨h2.long, ?_, p ++ q, p1.append q1, fun o ho => (List.mem_append.mp ho).elim (p2 o) (q2 o), ?_⟩
  · have := h1.bound
    have := h2.bound
    rw [List.length_append]
    omega
  · rw [List.flatMap_append, List.append_assoc, q3, ← List.append_assoc, p3, List.append_assoc]

theorem Step.refl {r : Nat} (h : Long r) : Step raw lz c r [] r [] := ⟨h, by simp, [], .nil, by simp, by simp⟩

theorem chunks_ok (g : Good lo hi raw lz c) {k : Nat} : ∀ (m run : Nat) (mem : List Nat) (xs : Nat), Long run → xs ≤ m * k → m * k ≤ mem.length →
    Runs raw lz (run + xs) → (∀ v ∈ mem.take xs, RawOk raw v) →
    ∃ run' ws, processChunks k c m run mem xs = some (run', ws) ∧ Step raw lz c run (mem.take xs) run' ws
  | 0, run, mem, xs, hl, h1, _, _, _ => by
    have : xs = 0 := by omega
    subst this
    exact ⟨run, [], rfl, Step.refl hl⟩
  | m + 1, run, mem, xs, hl, h1, h2, hr, hv => by
    rw [Nat.add_mul, Nat.one_mul] at h1 h2
    have hk : k ≤ mem.length := by omega
    have e1 : (mem.take k).take (min k xs) = mem.take (min k xs) := by rw [List.take_take]; congr 1; omega
    have e2 : mem.take (min k xs) ++ (mem.drop k).take (xs - k) = mem.take xs := by
      by_cases h : xs ≤ k
      · rw [show xs - k = 0 by omega, List.take_zero, List.append_nil, Nat.min_eq_right h]
      · rw [Nat.min_eq_left (by omega), ← List.take_add]
        congr 1; omega
    have e3 : (mem.take (min k xs)).length = min k xs := by rw [List.length_take]; omega
    obtain ⟨r1, w1, a1, a2⟩ := processChunk_ok (run := run) (n := min k xs) (res := mem.take k) g hl (by rw [List.length_take]; omega)
      (fun j j1 j2 => hr j j1 (by omega)) (fun v hv' => by
        rw [e1] at hv'
        exact hv v (by rw [← e2]; exact List.mem_append_left _ hv'))
    rw [e1] at a2
    have hb := a2.bound
    rw [e3] at hb
    obtain ⟨r2, w2, b1, b2⟩ := chunks_ok (k := k) g m r1 (mem.drop k) (xs - k) a2.long (by omega)
      (by rw [List.length_drop]; omega) (fun j j1 j2 => hr j j1 (by omega))
      (fun v hv' => hv v (by rw [← e2]; exact List.mem_append_right _ hv'))
    refine ⟨r2, w1 ++ w2, ?_, by rw [← e2]; exact a2.trans b2⟩
    rw [processChunks, if_neg (by omega), a1, Option.bind_eq_bind, Option.bind_some]
    dsimp only
    rw [b1]
    rfl

/-- A row in memory: whole chunks can be read. -/
def RowOk (k : Nat) (row : List Nat × List Nat) : Prop := (row.1.length + (k - 1)) / k * k ≤ row.1.length + row.2.length

theorem row_ok (g : Good lo hi raw lz c) {k : Nat} (hk : 1 ≤ k) {run : Nat} (hl : Long run) {row : List Nat × List Nat} (hm : RowOk k row)
    (hr : Runs raw lz (run + row.1.length)) (hv : ∀ v ∈ row.1, RawOk raw v) :
    ∃ run' ws, processRow k c run row = some (run', ws) ∧ Step raw lz c run row.1 run' ws := by
  have e : (row.1 ++ row.2).take row.1.length = row.1 := by simp
  have hd : row.1.length ≤ (row.1.length + (k - 1)) / k * k := by
    have h1 := Nat.div_add_mod (row.1.length + (k - 1)) k
    have h2 := Nat.mod_lt (row.1.length + (k - 1)) (y := k) (by omega)
    rw [Nat.mul_comm k] at h1
    omega
  have := chunks_ok g ((row.1.length + (k - 1)) / k) run (row.1 ++ row.2) row.1.length hl hd (by rw [List.length_append]; exact hm) hr
    (by rw [e]; exact hv)
  rwa [e] at this

theorem rows_ok (g : Good lo hi raw lz c) {k : Nat} (hk : 1 ≤ k) : ∀ (rows : List (List Nat × List Nat)) (run : Nat), Long run →
    (∀ r ∈ rows, RowOk k r) → Runs raw lz (run + (rows.flatMap (·.1)).length) → (∀ v ∈ rows.flatMap (·.1), RawOk raw v) →
    ∃ run' ws, processRows k c run rows = some (run', ws) ∧ Step raw lz c run (rows.flatMap (·.1)) run' ws
  | [], run, hl, _, _, _ => ⟨run, [], rfl, Step.refl hl⟩
  | r :: rs, run, hl, hm, hr, hv => by
    rw [List.flatMap_cons] at hr hv ⊢
    rw [List.length_append] at hr
    obtain ⟨r1, w1, a1, a2⟩ := row_ok (run := run) g hk hl (hm r (by simp)) (fun j j1 j2 => hr j j1 (by omega))
      (fun v h => hv v (List.mem_append_left _ h))
    have hb := a2.bound
    obtain ⟨r2, w2, b1, b2⟩ := rows_ok g hk rs r1 a2.long (fun r hr' => hm r (by simp [hr'])) (fun j j1 j2 => hr j j1 (by omega))
      (fun v h => hv v (List.mem_append_right _ h))
    refine ⟨r2, w1 ++ w2, ?_, a2.trans b2⟩
    rw [processRows, a1, Option.bind_eq_bind, Option.bind_some]
    dsimp only
    rw [b1]
    rfl

/-- A channel is written, as operations that stand for its values. -/
theorem channel_ok (g : Good lo hi raw lz c) {k : Nat} (hk : 1 ≤ k) {rows : List (List Nat × List Nat)} (hm : ∀ r ∈ rows, RowOk k r)
    (hr : Runs raw lz (rows.flatMap (·.1)).length) (hv : ∀ v ∈ rows.flatMap (·.1), RawOk raw v) :
    ∃ ws ops, writeChannel k c rows = some ws ∧ Writes c ws ops ∧ (∀ o ∈ ops, o.Ok raw lz) ∧ ops.flatMap Op.vals = rows.flatMap (·.1) := by
  obtain ⟨run, a, a1, a2⟩ := rows_ok g hk rows 0 (Or.inl rfl) hm (by simpa using hr) hv
  obtain ⟨ops, p1, p2, p3⟩ := a2.written
  have hb := a2.bound
  have hrun : run = 0 ∨ RunOk raw lz run := a2.long.imp_right fun h => hr _ h (by omega)
  obtain ⟨b, b1, b2⟩ := run_ok g hrun
  refine ⟨a ++ b, ops ++ runOps run, ?_, p1.append b2, ?_, ?_⟩
  · rw [writeChannel, a1, Option.bind_eq_bind, Option.bind_some]
    dsimp only
    rw [b1]
    rfl
  · intro o ho
    rcases List.mem_append.mp ho with h | h
    · exact p2 o h
    · unfold runOps at h
      split at h
      · simp at h
      · next h0 =>
        simp only [List.mem_singleton] at h
        subst h
        exact hrun.resolve_left h0
  · rw [List.flatMap_append, vals_run, p3]
    simp

end Jxl.FastCode
