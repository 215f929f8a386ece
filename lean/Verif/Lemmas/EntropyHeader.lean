import Verif.Lemmas.EntropyValues
import Verif.Lemmas.Coders
import Verif.Props.ContextMap
/-!
# The header of an entropy-coded stream is read back
-/
namespace Jxl.Stream
open Ans (Token)

theorem u32_back {e : U32.Enc} {v : Nat} (hv : v < 2 ^ 32) (h : (U32.write e v).isSome = true) :
    ∃ b, U32.write e v = some b ∧ ∀ rest, U32.read e (b ++ rest) = some (v, rest) := by
  match hc : U32.chooseSelector e v with
  | none => rw [U32.write, hc] at h; cases h
  | some (sel, total) =>
    obtain ⟨b, h1, _, _⟩ := U32.write_read hv hc []
    refine ⟨b, h1, fun rest => ?_⟩
    obtain ⟨b', h1', _, h2'⟩ := U32.write_read hv hc rest
    rw [h1] at h1'
    injection h1' with h1'
    rw [h1']; exact h2'

theorem readLz_write (z : Option Lz) (hz : ∀ y, z = some y → LzOk y) : ∃ b, writeLz z = some b ∧ ∀ rest, readLz (b ++ rest) = some (z, rest) := by
  match z with
  | none => exact ⟨_, rfl, fun rest => by unfold readLz; rw [rdBits_append (by decide)]; rfl⟩
  | some y =>
    obtain ⟨⟨h1, h1'⟩, ⟨h2, h2'⟩, ⟨h3, h3'⟩, h4⟩ := hz y rfl
    obtain ⟨a, a1, a2⟩ := u32_back h1' h1
    obtain ⟨b, b1, b2⟩ := u32_back h2' h2
    refine ⟨bitsOf 1 1 ++ a ++ b ++ Hybrid.writeConfig 8 y.lengthConfig, by rw [writeLz, a1, b1]; rfl, fun rest => ?_⟩
    have hc : Hybrid.readConfig 8 (Hybrid.writeConfig 8 y.lengthConfig ++ rest) = some (y.lengthConfig, rest) := by
      by_cases he : y.lengthConfig.splitExp = 8
      · rw [h4 he]
        show Hybrid.readConfig 8 (bitsOf 4 8 ++ [] ++ rest) = _
        unfold Hybrid.readConfig
        rw [List.append_nil, show Lehmer.ceilLog2 (8 + 1) = 4 from by decide, rdBits_append (by decide)]
        rfl
      · exact (Props.C10_config 8 y.lengthConfig h3 h3' rest).1 he
    unfold readLz
    rw [List.append_assoc, List.append_assoc, List.append_assoc, rdBits_append (by decide), Option.bind_eq_bind, Option.bind_some]
    dsimp only
    rw [if_pos rfl, a2]
    simp only [Option.bind_eq_bind, Option.bind_some, b2, hc]

theorem readVarLen16_store {n : Nat} (h : n < 2 ^ 16) (s : List Bool) : readVarLen16 (storeVarLen16 n ++ s) = (n, s) := by
  unfold storeVarLen16
  by_cases h0 : n = 0
  · subst h0
    rw [if_pos rfl]; unfold readVarLen16; rw [Histo.rd_append (by decide)]; rfl
  · rw [if_neg h0, List.append_assoc, List.append_assoc]
    have h1 := Nat.log2_self_le h0
    have h2 := Nat.lt_log2_self (n := n)
    have h3 : n.log2 < 2 ^ 4 := (Nat.log2_lt h0).2 (by omega)
    rw [Nat.pow_succ] at h2
    unfold readVarLen16
    rw [Histo.rd_append (by decide)]
    dsimp only
    rw [if_pos rfl, Histo.rd_append h3]
    dsimp only
    rw [Histo.rd_append (by omega)]
    dsimp only
    by_cases hz : n.log2 = 0
    · rw [if_pos hz]
      rw [hz] at h1 h2 ⊢
      simp at h1 h2 ⊢
      omega
    · rw [if_neg hz]
      exact Prod.ext (by dsimp only; omega) rfl

/-! ### Codes -/

/-- Codings of integers that read the same values. -/
def SameReads (la : Nat) (cs ds : List Hybrid.Config) : Prop :=
  ds.length = cs.length ∧ ∀ (h : Nat) a b, cs[h]? = some a → ds[h]? = some b → ∀ token s, token < 2 ^ la → Hybrid.read b token s = Hybrid.read a token s

theorem readConfigs_write (la : Nat) (cs : List Hybrid.Config) (hcs : ∀ c ∈ cs, c.msb + c.lsb ≤ c.splitExp ∧ c.splitExp ≤ la) (rest : List Bool) :
    ∃ ds, readConfigs la cs.length (cs.flatMap (Hybrid.writeConfig la) ++ rest) = some (ds, rest) ∧ SameReads la cs ds := by
  induction cs with
  | nil => exact ⟨[], rfl, rfl, by simp⟩
  | cons c cs ih =>
    obtain ⟨ds, h1, h2, h3⟩ := ih fun c hc => hcs c (by simp [hc])
    obtain ⟨k1, k2⟩ := hcs c (by simp)
    have hone : ∃ d, Hybrid.readConfig la (Hybrid.writeConfig la c ++ (cs.flatMap (Hybrid.writeConfig la) ++ rest)) =
        some (d, cs.flatMap (Hybrid.writeConfig la) ++ rest) ∧ ∀ token s, token < 2 ^ la → Hybrid.read d token s = Hybrid.read c token s := by
      obtain ⟨g1, g2⟩ := Props.C10_config la c k1 k2 (cs.flatMap (Hybrid.writeConfig la) ++ rest)
      by_cases he : c.splitExp = la
      · obtain ⟨d, e1, _, e3⟩ := g2 he
        exact ⟨d, e1, fun token s ht => by rw [(e3 token s ht).1, (e3 token s ht).2]⟩
      · exact ⟨c, g1 he, fun _ _ _ => rfl⟩
    obtain ⟨d, d1, d2⟩ := hone
    refine ⟨d :: ds, ?_, by simp [h2], ?_⟩
    · rw [List.length_cons, readConfigs, List.flatMap_cons, List.append_assoc, d1, Option.bind_eq_bind, Option.bind_some]
      dsimp only
      rw [h1]; rfl
    · intro h a b ha hb
      match h with
      | 0 =>
        simp only [List.getElem?_cons_zero, Option.some.injEq] at ha hb
        subst ha hb; exact d2
      | h + 1 =>
        rw [List.getElem?_cons_succ] at ha hb
        exact h3 h a b ha hb

theorem ansTables_back {la : Nat} (hla : 5 ≤ la ∧ la ≤ 8) {mem : List Alias.Entry} (hm : mem.length = 2 ^ la) (hs : List Histo.Hist)
    (hh : ∀ h ∈ hs, Props.Storable h ∧ h.size ≤ 2 ^ la) :
    ∃ bits infos, storeAll (storeAns mem la) hs = some (bits, infos) ∧ ∀ env, EnvOk env → ∀ i rest, ∃ ts,
      readAnsTables env la hs.length i (bits ++ rest) = .ok (ts, rest) ∧ Fits (.ans la hs) (.ans infos) (.ans la ts) := by
  induction hs with
  | nil => exact ⟨[], [], rfl, fun env _ i rest => ⟨[], rfl, rfl, rfl, rfl, by simp⟩⟩
  | cons h hs ih =>
    obtain ⟨bits, infos, e1, e2⟩ := ih fun h hh' => hh h (by simp [hh'])
    obtain ⟨b, info, g1, g2⟩ := storeAns_fits (hh h (by simp)).1 hla (hh h (by simp)).2 hm
    refine ⟨b ++ bits, info :: infos, by rw [storeAll, g1, e1]; rfl, fun env henv i rest => ?_⟩
    obtain ⟨ts, k1, _, k2, k3, k4⟩ := e2 env henv (i + 1) rest
    obtain ⟨c, table, q1, q2, q3, q4⟩ := g2 (env.alias la i) (henv.alias la i) (bits ++ rest)
    refine ⟨table :: ts, ?_, rfl, by simp [k2], by simp [k3], ?_⟩
    · rw [List.length_cons, readAnsTables, List.append_assoc, q1]
      show (if c.length > 2 ^ la then _ else _ : Out _) = _
      rw [if_neg (by omega), q3]
      show Out.bind (readAnsTables env la hs.length (i + 1) (bits ++ rest)) _ = _
      rw [k1]; rfl
    · intro n hist inf tab a1 a2 a3
      match n with
      | 0 =>
        simp only [List.getElem?_cons_zero, Option.some.injEq] at a1 a2 a3
        subst a1 a2 a3; exact q4
      | n + 1 =>
        rw [List.getElem?_cons_succ] at a1 a2 a3
        exact k4 n hist inf tab a1 a2 a3

theorem readSizes_store (cs : List (List Nat)) (h : ∀ c ∈ cs, c.length ≤ 2 ^ 15) (rest : List Bool) :
    readSizes cs.length (cs.flatMap (fun c => storeVarLen16 (max 1 c.length - 1)) ++ rest) = some (cs.map fun c => max 1 c.length, rest) := by
  induction cs with
  | nil => rfl
  | cons c cs ih =>
    have hc := h c (by simp)
    rw [List.length_cons, readSizes, List.flatMap_cons, List.append_assoc, readVarLen16_store (by omega)]
    dsimp only
    rw [show max 1 c.length - 1 + 1 = max 1 c.length by omega, Nat.mod_eq_of_lt (by omega), if_neg (by omega), ih fun c hc => h c (by simp [hc])]
    rfl

theorem huffTables_back (cs : List (List Nat)) (hh : ∀ c ∈ cs, c.length ≤ 2 ^ 15 ∧ c.sum ≤ 2 ^ 30 ∧ c.countP (· ≠ 0) ≤ 1292) :
    ∃ bits infos, storeAll storeHuff cs = some (bits, infos) ∧ ∀ env, EnvOk env → ∀ rest, ∃ ts,
      readHuffTables env (cs.map fun c => max 1 c.length) (bits ++ rest) = .ok (ts, rest) ∧ Fits (.huff cs) (.huff infos) (.huff ts) := by
  induction cs with
  | nil => exact ⟨[], [], rfl, fun env _ rest => ⟨[], rfl, rfl, rfl, by simp⟩⟩
  | cons c cs ih =>
    obtain ⟨bits, infos, e1, e2⟩ := ih fun h hh' => hh h (by simp [hh'])
    obtain ⟨c1, c2, c3⟩ := hh c (by simp)
    obtain ⟨b, info, g1, g2⟩ := storeHuff_fits c1 c2 c3
    refine ⟨b ++ bits, info :: infos, by rw [storeAll, g1, e1]; rfl, fun env henv rest => ?_⟩
    obtain ⟨ts, k1, k2, k3, k4⟩ := e2 env henv rest
    obtain ⟨table, q1, q2⟩ := g2 env henv.t5 (bits ++ rest)
    refine ⟨table :: ts, ?_, by simp [k2], by simp [k3], ?_⟩
    · rw [List.map_cons, readHuffTables, List.append_assoc, q1]
      show Out.bind (readHuffTables env _ (bits ++ rest)) _ = _
      rw [k1]; rfl
    · intro n hist inf tab a1 a2 a3
      match n with
      | 0 =>
        simp only [List.getElem?_cons_zero, Option.some.injEq] at a1 a2 a3
        subst a1 a2 a3; exact q2
      | n + 1 =>
        rw [List.getElem?_cons_succ] at a1 a2 a3
        exact k4 n hist inf tab a1 a2 a3

theorem codes_back {p : Plan} (hp : PlanOk p) {mem : Nat → List Alias.Entry} (hm : ∀ la, (mem la).length = 2 ^ la) :
    ∃ bits infos, storeCodes mem p = some (bits, infos) ∧ ∀ env, EnvOk env → ∀ rest, ∃ cs t,
      readCodes env p.clusters (bits ++ rest) = .ok (cs, t, rest) ∧ SameReads p.stats.la p.config cs ∧ Fits p.stats infos t := by
  have hst := hp.stats
  have hcl := hp.configs
  have hcf := hp.config
  unfold storeCodes
  match hs : p.stats with
  | .ans la hists =>
    rw [hs] at hst hcf
    have hn : p.clusters = hists.length := by rw [Plan.clusters, hs]
    obtain ⟨b, infos, e1, e2⟩ := ansTables_back ⟨hst.1, hst.2.1⟩ (hm la) hists hst.2.2
    dsimp only
    refine ⟨_, _, by rw [e1]; rfl, fun env henv rest => ?_⟩
    obtain ⟨ts, k1, k2⟩ := e2 env henv 0 rest
    obtain ⟨ds, d1, d2⟩ := readConfigs_write la p.config hcf (b ++ rest)
    rw [hcl, hn] at d1
    refine ⟨ds, .ans la ts, ?_, d2, k2⟩
    have h5 := hst.1
    have h8 := hst.2.1
    unfold readCodes
    rw [List.append_assoc, List.append_assoc, List.append_assoc, rdBits_append (n := 1) (by decide)]
    simp only [chk_some, ok_bind]
    rw [if_neg (by decide), rdBits_append (n := 2) (v := la - 5) (by omega)]
    simp only [chk_some, ok_bind, show la - 5 + 5 = la by omega, hn, d1, k1]
  | .huff counts =>
    rw [hs] at hst hcf
    have hn : p.clusters = counts.length := by rw [Plan.clusters, hs]
    obtain ⟨b, infos, e1, e2⟩ := huffTables_back counts hst
    dsimp only
    refine ⟨_, _, by rw [e1]; rfl, fun env henv rest => ?_⟩
    obtain ⟨ts, k1, k2⟩ := e2 env henv rest
    obtain ⟨ds, d1, d2⟩ := readConfigs_write 15 p.config hcf (counts.flatMap (fun c => storeVarLen16 (max 1 c.length - 1)) ++ (b ++ rest))
    rw [hcl, hn] at d1
    refine ⟨ds, .huff ts, ?_, d2, k2⟩
    unfold readCodes
    rw [List.append_assoc, List.append_assoc, List.append_assoc, rdBits_append (n := 1) (by decide)]
    simp only [chk_some, ok_bind]
    rw [if_pos trivial, hn, d1]
    simp only [chk_some, ok_bind, readSizes_store counts (fun c hc => (hst c hc).1), k1]

/-! ### Context map -/

theorem map_back {p : Plan} (hp : PlanOk p) {b : List Bool} {env : Env} (henv : EnvOk env) {dec : Nat → List Bool → Out (List Nat × List Bool)} (rest : List Bool)
    (hdec : p.coded → ∃ syms, p.symbols = some syms ∧ dec p.map.length (b ++ rest) = .ok (syms, rest)) (hlen : p.map.length > 1) :
    ∃ bits, CtxMap.encode p.useMtf p.simpleCheaper (fun _ => b) p.map p.clusters = some bits ∧
      readMap env dec p.map.length (bits ++ rest) = .ok (p.map, p.clusters, rest) := by
  have h1 := hp.inMap
  have h2 := hp.allUsed
  have hne := hp.nonempty
  have h256 := hp.few
  obtain ⟨a, ha⟩ := List.exists_mem_of_ne_nil p.map hne
  have hpos : 1 ≤ p.clusters := by have := h1 a ha; omega
  have hmax : CtxMap.maxElem p.map + 1 = p.clusters := by
    have l := CtxMap.maxElem_lt p.map p.clusters hpos h1
    have g := CtxMap.le_maxElem p.map (p.clusters - 1) (h2 _ (by omega))
    omega
  have hbyte : ∀ x ∈ p.map, x < 256 := fun x hx => by have := h1 x hx; omega
  have fin : (if p.map = [] then .ub else if CtxMap.verify p.map (CtxMap.maxElem p.map + 1) then .ok (p.map, CtxMap.maxElem p.map + 1, rest)
      else .bad : Out (List Nat × Nat × List Bool)) = .ok (p.map, p.clusters, rest) := by
    rw [if_neg hne, hmax, CtxMap.verify_complete p.map p.clusters h1 h2, if_pos rfl]
  by_cases hc : p.clusters = 1
  · refine ⟨_, by rw [CtxMap.encode, if_pos hc], ?_⟩
    have hz : p.map = List.replicate p.map.length 0 := by
      rw [List.eq_replicate_iff]
      exact ⟨rfl, fun b hb => by have := h1 b hb; omega⟩
    unfold readMap readEntries
    rw [List.append_assoc, rdBits_append (n := 1) (by omega)]
    simp only [chk_some, ok_bind]
    have : CtxMap.readSimple p.map.length (bitsOf 2 0 ++ rest) = some (p.map, rest) := by
      unfold CtxMap.readSimple
      rw [rdBits_append (n := 2) (by omega)]
      simp only [Option.bind_eq_bind, Option.bind_some, ne_eq, not_true_eq_false, if_false, ← hz]
    rw [if_pos trivial, this]
    exact fin
  · obtain ⟨t, t1, t2, t3, t4⟩ := Props.C14_move_to_front env.k henv.k env.pad henv.pad p.map hbyte
    have hb := Lehmer.ceilLog2_spec p.clusters hpos
    have hb0 : Lehmer.ceilLog2 p.clusters ≠ 0 := by
      intro e; rw [e] at hb; omega
    refine ⟨_, by rw [CtxMap.encode, if_neg hc, t1, Option.map_some], ?_⟩
    dsimp only
    by_cases hs : Lehmer.ceilLog2 p.clusters < 4 ∧ p.simpleCheaper = true
    · rw [if_pos hs]
      unfold readMap readEntries
      rw [List.append_assoc, List.append_assoc, rdBits_append (n := 1) (by omega)]
      simp only [chk_some, ok_bind]
      have : CtxMap.readSimple p.map.length (bitsOf 2 (Lehmer.ceilLog2 p.clusters) ++ (p.map.flatMap (bitsOf (Lehmer.ceilLog2 p.clusters)) ++ rest)) =
          some (p.map, rest) := by
        unfold CtxMap.readSimple
        rw [rdBits_append (n := 2) (by omega)]
        simp only [Option.bind_eq_bind, Option.bind_some, ne_eq, hb0, not_false_eq_true, if_true]
        exact CtxMap.readEntries_write _ p.map (fun x hx => by have := h1 x hx; omega) rest
      rw [if_pos trivial, this]
      exact fin
    · obtain ⟨syms, s1, s2⟩ := hdec ⟨hlen, hc, hs⟩
      rw [if_neg hs]
      unfold readMap readEntries
      rw [List.append_assoc, List.append_assoc, rdBits_append (n := 1) (by omega)]
      simp only [chk_some, ok_bind]
      rw [if_neg (by decide), rdBits_append (n := 1) (by split <;> decide)]
      simp only [chk_some, ok_bind, s2]
      unfold Plan.symbols at s1
      rcases hu : p.useMtf with _ | _
      · rw [hu] at s1
        injection s1 with s1
        subst s1
        have := CtxMap.maxElem_lt p.map 256 (by omega) hbyte
        rw [if_neg (by omega), if_neg (by decide)]
        exact fin
      · rw [hu, if_pos rfl, t1] at s1
        injection s1 with s1
        subst s1
        have := CtxMap.maxElem_lt t 256 (by omega) t3
        rw [if_neg (by omega), if_pos (by decide), t4]
        exact fin

/-! ### The whole header -/

/-- How many nested streams reading the header takes at most. -/
def nesting (p : Plan) : Nat := if p.map.length ≤ 1 then 0 else if p.map.length ≤ 2 then 1 else 2

/-- What is left once the map is taken care of. -/
theorem rest_back {mem : Nat → List Alias.Entry} (hm : ∀ la, (mem la).length = 2 ^ la) {p : Plan} (hp : PlanOk p) {nested : Option (List Bool)}
    {mb : List Bool} (hw : writeMap nested p = some mb) :
    ∃ bits infos, writeHeaderWith mem nested p = some (bits, infos) ∧ ∀ (n : Nat) (disallow : Bool) (env : Env) (dec) (rest : List Bool), EnvOk env →
      (∀ rest, readMapIf env dec p.map.length (mb ++ rest) = .ok (p.map, p.clusters, rest)) →
      (disallow = true → p.lz = none) → p.map.length = (if p.lz.isSome then n + 1 else n) →
      ∃ c, readHeaderWith env dec disallow n (bits ++ rest) = .ok (c, rest) ∧ Agrees p c ∧ Fits p.stats infos c.tables := by
  obtain ⟨lzb, z1, z2⟩ := readLz_write p.lz hp.lz
  obtain ⟨cb, infos, c1, c2⟩ := codes_back hp hm
  refine ⟨lzb ++ (mb ++ cb), infos, by simp [writeHeaderWith, z1, hw, c1], fun n disallow env dec rest henv hr hdis hlen => ?_⟩
  obtain ⟨cs, t, d1, d2, d3⟩ := c2 env henv rest
  refine ⟨⟨p.lz, p.map, cs, t⟩, ?_, ⟨rfl, rfl, d2.1, d2.2⟩, d3⟩
  rw [readHeaderWith]
  simp only [List.append_assoc, z2, chk_some, ok_bind]
  rw [if_neg (by
    rintro ⟨h1, h2⟩
    rw [hdis h2] at h1; cases h1), ← hlen, hr]
  simp only [ok_bind, d1]

theorem header_back {mem : Nat → List Alias.Entry} (hm : ∀ la, (mem la).length = 2 ^ la) : ∀ (layers : List Layer) (p : Plan), Sound layers p →
    ∃ bits infos, writeHeader mem layers p = some (bits, infos) ∧ ∀ (fuel n : Nat) (disallow : Bool) (env : Env) (rest : List Bool), EnvOk env →
      nesting p ≤ fuel → (disallow = true → p.lz = none) → p.map.length = (if p.lz.isSome then n + 1 else n) →
      ∃ c, readHeader env fuel disallow n (bits ++ rest) = .ok (c, rest) ∧ Agrees p c ∧ Fits p.stats infos c.tables := by
  have henv0 : EnvOk ⟨List.replicate 32 ⟨0, 0⟩, fun la _ => mem la, List.replicate 64 0, 0⟩ := ⟨by simp, fun la _ => hm la, by simp, by simp⟩
  -- maps that are not entropy coded
  have plain : ∀ (nested : Option (List Bool)) (p : Plan), PlanOk p → (p.map.length ≤ 1 ∨ ¬ p.coded) →
      ∃ mb, writeMap nested p = some mb ∧ ∀ env, EnvOk env → ∀ dec rest, readMapIf env dec p.map.length (mb ++ rest) = .ok (p.map, p.clusters, rest) := by
    intro nested p hp hc
    by_cases hlen : p.map.length > 1
    · have hnc : ¬ p.coded := by rcases hc with h | h; · omega
                                 · exact h
      obtain ⟨mb, m1, _⟩ := map_back hp (b := []) henv0 (dec := fun _ _ => .bad) [] (fun h => absurd h hnc) hlen
      refine ⟨mb, by rw [writeMap, if_pos hlen, if_neg hnc, m1], fun env henv dec rest => ?_⟩
      obtain ⟨mb', m1', m2'⟩ := map_back hp (b := []) henv (dec := dec) rest (fun h => absurd h hnc) hlen
      rw [m1] at m1'
      injection m1' with m1'
      rw [readMapIf, if_pos hlen, m1']; exact m2'
    · have hs := plan_single hp (by omega)
      have h1 : p.clusters = 1 := by
        have h1 := hp.inMap 0 (by rw [hs]; simp)
        rcases Nat.lt_or_ge 1 p.clusters with h | h
        · have := hp.allUsed 1 h; rw [hs] at this; simp at this
        · omega
      refine ⟨[], by rw [writeMap, if_neg hlen], fun env henv dec rest => ?_⟩
      rw [readMapIf, if_neg hlen, h1, hs]; rfl
  intro layers
  induction layers with
  | nil =>
    intro p hsound
    rw [Sound] at hsound
    obtain ⟨hp, hcoded⟩ := hsound
    obtain ⟨mb, m1, m2⟩ := plain none p hp (.inr fun h => hcoded h)
    obtain ⟨bits, infos, w, back⟩ := rest_back hm hp m1
    refine ⟨bits, infos, w, fun fuel n disallow env rest henv _ hd hl => ?_⟩
    cases fuel with
    | zero => exact back n disallow env _ rest henv (m2 env henv _) hd hl
    | succ f => exact back n disallow env _ rest henv (m2 env henv _) hd hl
  | cons l ls ih =>
    intro p hsound
    rw [Sound] at hsound
    obtain ⟨hp, hcoded⟩ := hsound
    rw [writeHeader]
    by_cases hc : p.map.length ≤ 1 ∨ ¬ p.coded
    · obtain ⟨mb, m1, m2⟩ := plain _ p hp hc
      obtain ⟨bits, infos, w, back⟩ := rest_back hm hp m1
      refine ⟨bits, infos, w, fun fuel n disallow env rest henv _ hd hl => ?_⟩
      cases fuel with
      | zero => exact back n disallow env _ rest henv (m2 env henv _) hd hl
      | succ f => exact back n disallow env _ rest henv (m2 env henv _) hd hl
    · have hlen : p.map.length > 1 := by omega
      have hco : p.coded := by
        by_cases h : p.coded
        · exact h
        · exact absurd (.inr h) hc
      obtain ⟨s1, s2, s3, syms, y1, y2⟩ := hcoded hco
      obtain ⟨hb, hi, iw, iback⟩ := ih l.plan s1
      have hl1 : l.plan.map.length = (if l.plan.lz.isSome then 1 + 1 else 1) := s2
      have hp2 : PlanOk l.plan := by rw [Sound.eq_def] at s1; exact s1.1
      have hlsyms : syms.length = p.map.length := by
        rw [Plan.symbols] at y1
        split at y1
        · obtain ⟨r, r1, r2, _⟩ := Props.C14_move_to_front 0 (by omega) (List.replicate 64 0) (by simp) p.map
            (fun x hx => Nat.lt_of_lt_of_le (hp.inMap x hx) hp.few)
          rw [r1] at y1; injection y1 with y1; rw [← y1, r2]
        · injection y1 with y1; rw [y1]
      obtain ⟨c0, _, ha0, hf0⟩ := iback 1 1 false _ [] henv0 (by unfold nesting; rw [s2]; split <;> split <;> simp_all) (by simp) hl1
      obtain ⟨tb, t1, _⟩ := values_read hp2 ha0 hf0 y2
      have hdec : ∀ env, EnvOk env → ∀ fuel, nesting p ≤ fuel → ∀ rest, ∃ f, fuel = f + 1 ∧
          readMapSymbols (readHeader env f) p.map.length ((hb ++ tb) ++ rest) = .ok (syms, rest) := by
        intro env henv fuel hfuel rest
        unfold nesting at hfuel
        rw [if_neg (by omega)] at hfuel
        obtain ⟨f, rfl⟩ : ∃ f, fuel = f + 1 := ⟨fuel - 1, by split at hfuel <;> omega⟩
        refine ⟨f, rfl, ?_⟩
        obtain ⟨c, r1, ha, hf⟩ := iback f 1 (decide (p.map.length ≤ 2)) env (tb ++ rest) henv (by
          unfold nesting
          by_cases h2 : p.map.length ≤ 2
          · rw [s3 h2] at s2; simp at s2; rw [if_pos (by omega)]; omega
          · rw [if_neg h2] at hfuel
            have : l.plan.map.length ≤ 2 := by rw [s2]; split <;> omega
            rw [if_pos this]
            split <;> omega) (by simpa using s3) hl1
        obtain ⟨tb', t1', t2'⟩ := values_read hp2 ha hf y2
        rw [t1] at t1'
        injection t1' with t1'
        subst t1'
        obtain ⟨s, hs1, hs2⟩ := t2' rest
        have e : (syms.map fun y => ((0 : Nat), y)).map (fun v => 0 + v.1) = List.replicate p.map.length 0 := by
          rw [← hlsyms]
          apply List.ext_getElem (by simp)
          intro i h1 h2; simp
        rw [e] at hs2
        rw [readMapSymbols, List.append_assoc, r1]
        simp only [ok_bind, hs2]
        simp [finalOk, List.map_map, Function.comp_def]
      obtain ⟨mb, m1, _⟩ := map_back hp (b := hb ++ tb) henv0 (dec := readMapSymbols (readHeader _ 1)) [] (fun _ => by
        obtain ⟨f, e1, e2⟩ := hdec _ henv0 2 (by unfold nesting; (repeat' split) <;> omega) []
        injection e1 with e1; subst e1
        exact ⟨syms, y1, e2⟩) hlen
      obtain ⟨bits, infos, w, back⟩ := rest_back hm hp (nested := some (hb ++ tb)) (mb := mb) (by
        rw [writeMap, if_pos hlen, if_pos hco]; exact m1)
      refine ⟨bits, infos, by rw [iw]; simp only [Option.bind_eq_bind, Option.bind_some, t1]; exact w, fun fuel n disallow env rest henv hfuel hd hl => ?_⟩
      obtain ⟨f, rfl, _⟩ := hdec env henv fuel hfuel []
      refine back n disallow env _ rest henv (fun rest => ?_) hd hl
      obtain ⟨mb', m1', m2'⟩ := map_back hp (b := hb ++ tb) henv (dec := readMapSymbols (readHeader env f)) rest (fun _ => by
        obtain ⟨f', e1, e2⟩ := hdec _ henv (f + 1) hfuel rest
        injection e1 with e1; subst e1
        exact ⟨syms, y1, e2⟩) hlen
      rw [m1] at m1'
      injection m1' with m1'
      rw [readMapIf, if_pos hlen, m1']; exact m2'

end Jxl.Stream
