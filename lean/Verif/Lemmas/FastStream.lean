import Verif.Lemmas.FastChannel
import Verif.Lemmas.EntropyHeader
import Verif.Props.FastPrefix
/-!
# The stream of the fast lossless encoder: its header is read back
-/
namespace Jxl.FastCode
open Stream (Out readLz readMapIf readMap readEntries readConfigs readSizes readHuffTable readHuffTables readCodes chk req ok_bind chk_some req_some HuffFits)
open Huffman (dropZeros)

theorem bitsFor_append (a b : List (Nat × Nat)) : bitsFor (a ++ b) = bitsFor a ++ bitsFor b := by simp [bitsFor]

/-! ## The parts of the header -/

def segLz : List (Nat × Nat) := [(1, 1), (2, 0), (4, 10), (4, 4), (3, 0), (3, 0)]
def segMap : List (Nat × Nat) := [(1, 1), (2, 3), (3, 4), (3, 3), (3, 2), (3, 1), (3, 0)]
def segConfig : List (Nat × Nat) := [(4, 0), (4, 0), (4, 0), (4, 0), (4, 0)]
def segSizes : List (Nat × Nat) := [(5, 1), (1, 1), (4, 8), (8, 0), (1, 1), (4, 8), (8, 0), (1, 1), (4, 8), (8, 0), (1, 1), (4, 8), (8, 0)]
def segDist : List (Nat × Nat) := [(2, 1), (2, 0), (1, 1)]

theorem start_bits (x : List (Nat × Nat)) : emit 0 (streamStart ++ x) =
    bitsFor segLz ++ (bitsFor segMap ++ (bitsOf 1 1 ++ (bitsFor segConfig ++ (bitsFor segSizes ++ (bitsFor segDist ++ emit 0 x))))) := by
  have e : streamStart ++ x = (segLz ++ segMap ++ [(1, 1)] ++ segConfig ++ [(5, 1), (1, 1), (4, 8)]) ++ ((8, 256) :: (1, 1) :: (4, 8) :: (8, 256) ::
    (1, 1) :: (4, 8) :: (8, 256) :: (1, 1) :: (4, 8) :: (8, 256) :: (2, 1) :: ([(2, 0), (1, 1)] ++ x)) := rfl
  rw [e, emit_fit _ _ (by decide)]
  simp only [bitsFor_append, List.append_assoc]
  congr 3

theorem read_lz (rest : List Bool) : readLz (bitsFor segLz ++ rest) = some (some ⟨224, 7, ⟨4, 0, 0⟩⟩, rest) := by
  obtain ⟨b, h1, h2⟩ := Stream.readLz_write (some ⟨224, 7, ⟨4, 0, 0⟩⟩) (by
    intro y hy
    injection hy with hy
    subst hy
    exact ⟨by decide, by decide, by decide, by decide⟩)
  have : Stream.writeLz (some ⟨224, 7, ⟨4, 0, 0⟩⟩) = some (bitsFor segLz) := by decide +kernel
  rw [this] at h1
  injection h1 with h1
  rw [h1]
  exact h2 rest

theorem read_map (env : Stream.Env) (dec : Nat → List Bool → Out (List Nat × List Bool)) (rest : List Bool) :
    readMapIf env dec 5 (bitsFor segMap ++ rest) = .ok ([4, 3, 2, 1, 0], 5, rest) := by
  have hs : CtxMap.readSimple 5 (bitsOf 2 3 ++ (bitsOf 3 4 ++ (bitsOf 3 3 ++ (bitsOf 3 2 ++ (bitsOf 3 1 ++ (bitsOf 3 0 ++ rest)))))) =
      some ([4, 3, 2, 1, 0], rest) := by
    simp [CtxMap.readSimple, CtxMap.readEntries, rdBits_append]
  have he : readEntries env dec 5 (bitsFor segMap ++ rest) = .ok ([4, 3, 2, 1, 0], rest) := by
    unfold readEntries
    simp only [segMap, bitsFor, List.flatMap_cons, List.flatMap_nil, List.append_nil, List.append_assoc]
    rw [rdBits_append (by decide), chk_some, ok_bind]
    dsimp only
    rw [if_pos rfl, hs, chk_some]
  unfold readMapIf readMap
  rw [if_pos (by decide), he, ok_bind]
  dsimp only
  rw [if_neg (by decide), if_pos (by decide)]
  rfl

theorem read_config (rest : List Bool) : readConfigs 15 5 (bitsFor segConfig ++ rest) = some (List.replicate 5 ⟨0, 0, 0⟩, rest) := by
  have h : ∀ s, Hybrid.readConfig 15 (bitsOf 4 0 ++ s) = some (⟨0, 0, 0⟩, s) := by
    intro s
    unfold Hybrid.readConfig
    rw [show Lehmer.ceilLog2 (15 + 1) = 4 from by decide, rdBits_append (by decide)]
    have : Lehmer.ceilLog2 (0 + 1) = 0 := by decide
    have h0 : ∀ s, rdBits 0 s = some (0, s) := fun s => by simp [rdBits]
    simp [this, h0]
  simp only [segConfig, bitsFor, List.flatMap_cons, List.flatMap_nil, List.append_nil, List.append_assoc, readConfigs, h, Option.bind_eq_bind, Option.bind_some]
  rfl

theorem read_sizes (rest : List Bool) : readSizes 5 (bitsFor segSizes ++ rest) = some ([2, 257, 257, 257, 257], rest) := by
  have := Stream.readSizes_store [List.replicate 2 0, List.replicate 257 0, List.replicate 257 0, List.replicate 257 0, List.replicate 257 0]
    (by intro c hc; simp only [List.mem_cons, List.not_mem_nil, or_false] at hc; rcases hc with rfl | rfl | rfl | rfl | rfl <;> (rw [List.length_replicate]; decide)) rest
  simp only [List.flatMap_cons, List.flatMap_nil, List.length_replicate, List.map_cons, List.map_nil, List.length_cons, List.length_nil] at this
  have e : Stream.storeVarLen16 (max 1 2 - 1) ++ (Stream.storeVarLen16 (max 1 257 - 1) ++ (Stream.storeVarLen16 (max 1 257 - 1) ++
    (Stream.storeVarLen16 (max 1 257 - 1) ++ (Stream.storeVarLen16 (max 1 257 - 1) ++ [])))) = bitsFor segSizes := by decide +kernel
  rw [e] at this
  exact this

/-- The table of the single distance. -/
def distTable : List Huffman.Entry := List.replicate 256 ⟨0, 1⟩

theorem read_dist (env : Stream.Env) (rest : List Bool) : readHuffTable env 2 (bitsFor segDist ++ rest) = .ok (distTable, rest) := by
  have hd : Huffman.doubleUp ([⟨0, 1⟩] ++ (List.replicate 256 (⟨0, 0⟩ : Huffman.Entry)).drop 1) 0 8 = some distTable := by decide +kernel
  have hsyms : Huffman.readSyms 2 1 (bitsOf 1 1 ++ rest) = some ([1], rest) := by
    rfl
  have hs : Huffman.readSimple (List.replicate 256 ⟨0, 0⟩) 2 (bitsOf 2 0 ++ (bitsOf 1 1 ++ rest)) = some (some (distTable, rest)) := by
    have e1 : ofBits ((bitsOf 2 0 ++ (bitsOf 1 1 ++ rest)).take 2) + 1 = 1 := rfl
    have e2 : (bitsOf 2 0 ++ (bitsOf 1 1 ++ rest)).drop 2 = bitsOf 1 1 ++ rest := rfl
    rw [Huffman.readSimple, e1, e2, hsyms]
    dsimp only
    rw [if_neg (by decide)]
    have e3 : Huffman.simpleEntries (Huffman.kindOf [1].length rest).1 [1] = some (0, [⟨0, 1⟩]) := rfl
    rw [e3]
    generalize List.replicate 256 (⟨0, 0⟩ : Huffman.Entry) = T at hd ⊢
    show (Huffman.doubleUp ([⟨0, 1⟩] ++ T.drop 1) 0 8).map _ = _
    rw [hd]
    rfl
  unfold readHuffTable
  rw [if_pos (by decide)]
  have : Huffman.readCode env.t5 2 (bitsFor segDist ++ rest) = some (some (distTable, rest)) := by
    rw [Huffman.readCode, if_neg (by decide)]
    have e : bitsFor segDist ++ rest = bitsOf 2 1 ++ (bitsOf 2 0 ++ (bitsOf 1 1 ++ rest)) := rfl
    rw [e, if_pos (by rfl)]
    exact hs
  rw [this]
  rfl

theorem dist_reads (rest : List Bool) : Huffman.readSymbol distTable rest = some (1, rest) := by
  unfold Huffman.readSymbol distTable
  have hlt : ofBits (rest.take 8) < 256 := by
    have := ofBits_lt (rest.take 8)
    have h2 : 2 ^ (rest.take 8).length ≤ 2 ^ 8 := Nat.pow_le_pow_right (by omega) (by rw [List.length_take]; omega)
    omega
  rw [List.getElem?_replicate, if_pos hlt]
  rfl

theorem read_tables {env : Stream.Env} : ∀ (wss : List (List (Nat × Nat))) (ts : List (List Huffman.Entry)), wss.length = ts.length →
    (∀ (i : Nat) ws t, wss[i]? = some ws → ts[i]? = some t → ∀ more, Huffman.readCode env.t5 257 (emit 0 (ws ++ more)) = some (some (t, emit 0 more))) →
    ∀ more, readHuffTables env (List.replicate wss.length 257) (emit 0 (wss.flatten ++ more)) = .ok (ts, emit 0 more)
  | [], [], _, _, _ => rfl
  | ws :: wss, t :: ts, hl, h, more => by
    have ih := read_tables wss ts (by simpa using hl) (fun i a b ha hb => h (i + 1) a b (by simpa using ha) (by simpa using hb)) more
    have h1 : readHuffTable env 257 (emit 0 (ws ++ (wss.flatten ++ more))) = .ok (t, emit 0 (wss.flatten ++ more)) := by
      rw [readHuffTable, if_pos (by decide), h 0 ws t rfl rfl]
      rfl
    rw [List.length_cons, List.replicate_succ, List.flatten_cons, List.append_assoc, readHuffTables, h1, ok_bind]
    dsimp only
    rw [ih]
    rfl
  | [], _ :: _, hl, _, _ => by simp at hl
  | _ :: _, [], hl, _, _ => by simp at hl

/-- The code the decoder makes of the header. -/
def streamCode (ts : List (List Huffman.Entry)) : Stream.Code :=
  ⟨some ⟨224, 7, ⟨4, 0, 0⟩⟩, [4, 3, 2, 1, 0], List.replicate 5 ⟨0, 0, 0⟩, .huff (distTable :: ts)⟩

theorem header_back {env : Stream.Env} {codes : List Code} {wss : List (List (Nat × Nat))} {ts : List (List Huffman.Entry)} (hw : codes.mapM writeTo = some wss)
    (hl : wss.length = 4) (hl' : ts.length = 4)
    (h : ∀ (i : Nat) ws t, wss[i]? = some ws → ts[i]? = some t → ∀ more, Huffman.readCode env.t5 257 (emit 0 (ws ++ more)) = some (some (t, emit 0 more)))
    (more : List (Nat × Nat)) :
    ∃ ws, writeStreamHeader codes = some ws ∧ Stream.decodeHistograms env 4 (emit 0 (ws ++ more)) = .ok (streamCode ts, emit 0 more) := by
  refine ⟨streamStart ++ wss.flatten, by rw [writeStreamHeader, hw]; rfl, ?_⟩
  have ht := read_tables wss ts (by omega) h more
  rw [hl] at ht
  have hts : readHuffTables env [2, 257, 257, 257, 257] (bitsFor segDist ++ emit 0 (wss.flatten ++ more)) = .ok (distTable :: ts, emit 0 more) := by
    rw [readHuffTables, read_dist, ok_bind]
    dsimp only
    have e : [257, 257, 257, 257] = List.replicate 4 257 := rfl
    rw [e, ht]
    rfl
  have hc : readCodes env 5 (bitsOf 1 1 ++ (bitsFor segConfig ++ (bitsFor segSizes ++ (bitsFor segDist ++ emit 0 (wss.flatten ++ more))))) =
      .ok (List.replicate 5 ⟨0, 0, 0⟩, .huff (distTable :: ts), emit 0 more) := by
    unfold readCodes
    rw [rdBits_append (by decide), chk_some, ok_bind]
    dsimp only
    rw [if_pos rfl, read_config, chk_some, ok_bind]
    dsimp only
    rw [read_sizes, chk_some, ok_bind]
    dsimp only
    rw [hts]
    rfl
  rw [List.append_assoc, start_bits]
  unfold Stream.decodeHistograms Stream.readHeader Stream.readHeaderWith
  rw [read_lz, chk_some, ok_bind]
  dsimp only
  rw [if_neg (by simp)]
  show Out.bind (readMapIf env _ 5 _) _ = _
  rw [read_map]
  show Out.bind (readCodes env 5 _) _ = _
  rw [hc]
  rfl

end Jxl.FastCode
