import Verif.Spec.BlockCtx
import Verif.Lemmas.Splines
import Verif.Lemmas.EntropySafe
import Verif.Lemmas.AcTokensBlock
import Verif.Props.Headers
/-!
# Reading back maps of block contexts
-/
namespace Jxl.BlockCtx
open Jxl.Stream (Out chk chk_some ok_bind safe_bind safe_chk)
open Jxl.AcTokens (BlockCtxMap)

/-! ### Thresholds -/

theorem u32_back {e : U32.Enc} {v : Nat} (hv : v < 2 ^ 32) (h : ∃ t < 4, U32.Represents (e.get t) v) :
    ∃ b, U32.write e v = some b ∧ ∀ rest, U32.read e (b ++ rest) = some (v, rest) := by
  obtain ⟨b, h1, _⟩ := (Props.C03_u32 e v hv []).1 h
  refine ⟨b, h1, fun rest => ?_⟩
  obtain ⟨b', h1', _, h2, _⟩ := (Props.C03_u32 e v hv rest).1 h
  rw [h1] at h1'
  injection h1' with h1'
  subst h1'
  exact h2

theorem dc_back {v : Nat} (hv : v < 2 ^ 32) : ∃ b, U32.write dcEnc v = some b ∧ ∀ rest, U32.read dcEnc (b ++ rest) = some (v, rest) := by
  have key : ∀ t < 4, U32.isDirect (dcEnc.get t) = false := by decide
  apply u32_back hv
  have e0 : U32.offset (dcEnc.get 0) = 0 ∧ U32.extraBits (dcEnc.get 0) = 4 := by decide
  have e1 : U32.offset (dcEnc.get 1) = 16 ∧ U32.extraBits (dcEnc.get 1) = 8 := by decide
  have e2 : U32.offset (dcEnc.get 2) = 272 ∧ U32.extraBits (dcEnc.get 2) = 16 := by decide
  have e3 : U32.offset (dcEnc.get 3) = 65808 ∧ U32.extraBits (dcEnc.get 3) = 32 := by decide
  have r : ∀ t < 4, U32.offset (dcEnc.get t) ≤ v ∧ v < U32.offset (dcEnc.get t) + 2 ^ U32.extraBits (dcEnc.get t) → U32.Represents (dcEnc.get t) v := by
    intro t ht h
    unfold U32.Represents
    rw [key t ht]
    exact h
  by_cases h0 : v < 16
  · exact ⟨0, by omega, r 0 (by omega) (by rw [e0.1, e0.2]; omega)⟩
  · by_cases h1 : v < 272
    · exact ⟨1, by omega, r 1 (by omega) (by rw [e1.1, e1.2]; omega)⟩
    · by_cases h2 : v < 65808
      · exact ⟨2, by omega, r 2 (by omega) (by rw [e2.1, e2.2]; omega)⟩
      · exact ⟨3, by omega, r 3 (by omega) (by rw [e3.1, e3.2]; omega)⟩

theorem qf_back {v : Nat} (hv : v < 300) : ∃ b, U32.write qfEnc v = some b ∧ ∀ rest, U32.read qfEnc (b ++ rest) = some (v, rest) := by
  have key : ∀ t < 4, U32.isDirect (qfEnc.get t) = false := by decide
  apply u32_back (by omega)
  have e0 : U32.offset (qfEnc.get 0) = 0 ∧ U32.extraBits (qfEnc.get 0) = 2 := by decide
  have e1 : U32.offset (qfEnc.get 1) = 4 ∧ U32.extraBits (qfEnc.get 1) = 3 := by decide
  have e2 : U32.offset (qfEnc.get 2) = 12 ∧ U32.extraBits (qfEnc.get 2) = 5 := by decide
  have e3 : U32.offset (qfEnc.get 3) = 44 ∧ U32.extraBits (qfEnc.get 3) = 8 := by decide
  have r : ∀ t < 4, U32.offset (qfEnc.get t) ≤ v ∧ v < U32.offset (qfEnc.get t) + 2 ^ U32.extraBits (qfEnc.get t) → U32.Represents (qfEnc.get t) v := by
    intro t ht h
    unfold U32.Represents
    rw [key t ht]
    exact h
  by_cases h0 : v < 4
  · exact ⟨0, by omega, r 0 (by omega) (by rw [e0.1, e0.2]; omega)⟩
  · by_cases h1 : v < 12
    · exact ⟨1, by omega, r 1 (by omega) (by rw [e1.1, e1.2]; omega)⟩
    · by_cases h2 : v < 44
      · exact ⟨2, by omega, r 2 (by omega) (by rw [e2.1, e2.2]; omega)⟩
      · exact ⟨3, by omega, r 3 (by omega) (by rw [e3.1, e3.2]; omega)⟩

theorem pack_lt (t : Int) : Splines.pack t < 2 ^ 32 := BitVec.isLt _

theorem dc_list : ∀ (l : List Int), (∀ t ∈ l, -2 ^ 31 ≤ t ∧ t < 2 ^ 31) →
    ∃ bs, l.mapM (fun t => U32.write dcEnc (Splines.pack t)) = some bs ∧ ∀ rest, readDc l.length (bs.flatten ++ rest) = some (l, rest)
  | [], _ => ⟨[], rfl, fun _ => rfl⟩
  | t :: l, h => by
    obtain ⟨bs, h1, h2⟩ := dc_list l fun t ht => h t (.tail _ ht)
    obtain ⟨b, b1, b2⟩ := dc_back (pack_lt t)
    refine ⟨b :: bs, by simp [List.mapM_cons, b1, h1], fun rest => ?_⟩
    have ht := h t (.head _)
    simp only [List.length_cons, readDc, List.flatten_cons, List.append_assoc, b2, Option.bind_eq_bind, Option.bind_some, h2,
      Splines.unpack_pack32 ht.1 ht.2]

theorem qf_list : ∀ (l : List Nat), (∀ t ∈ l, 1 ≤ t ∧ t ≤ 300) →
    ∃ bs, l.mapM (fun t => U32.write qfEnc ((t + (2 ^ 32 - 1)) % 2 ^ 32)) = some bs ∧ ∀ rest, readQf l.length (bs.flatten ++ rest) = some (l, rest)
  | [], _ => ⟨[], rfl, fun _ => rfl⟩
  | t :: l, h => by
    obtain ⟨bs, h1, h2⟩ := qf_list l fun t ht => h t (.tail _ ht)
    have ht := h t (.head _)
    have e : (t + (2 ^ 32 - 1)) % 2 ^ 32 = t - 1 := by omega
    obtain ⟨b, b1, b2⟩ := qf_back (v := t - 1) (by omega)
    refine ⟨b :: bs, by rw [List.mapM_cons, e, b1, h1]; rfl, fun rest => ?_⟩
    have e' : (t - 1 + 1) % 2 ^ 32 = t := by omega
    simp only [List.length_cons, readQf, List.flatten_cons, List.append_assoc, b2, Option.bind_eq_bind, Option.bind_some, h2, e']

theorem dcs_back {l : List Int} (hl : l.length < 16) (h : ∀ t ∈ l, -2 ^ 31 ≤ t ∧ t < 2 ^ 31) :
    ∃ b, writeDcs l = some b ∧ ∀ rest, readDcs (b ++ rest) = some (l, rest) := by
  obtain ⟨bs, h1, h2⟩ := dc_list l h
  refine ⟨bitsOf 4 l.length ++ bs.flatten, ?_, fun rest => ?_⟩
  · unfold writeDcs
    rw [h1, writeBitsField, if_neg (by omega)]
    rfl
  · unfold readDcs
    rw [List.append_assoc, rdBits_append (n := 4) (by omega)]
    exact h2 rest

theorem thresholds_back {m : Ctx} (hm : Fits m) : ∃ x y b q, writeDcs m.x = some x ∧ writeDcs m.y = some y ∧ writeDcs m.b = some b ∧
    writeQfs m.map.qfThresholds = some q ∧
    ∀ rest, readThresholds (x ++ (y ++ (b ++ (q ++ rest)))) = some ((m.x, m.y, m.b, m.map.qfThresholds), rest) := by
  obtain ⟨f1, f2, f3, f4⟩ := hm.few
  obtain ⟨x, x1, x2⟩ := dcs_back f1 fun t ht => hm.dc t (by simp [ht])
  obtain ⟨y, y1, y2⟩ := dcs_back f2 fun t ht => hm.dc t (by simp [ht])
  obtain ⟨b, b1, b2⟩ := dcs_back f3 fun t ht => hm.dc t (by simp [ht])
  obtain ⟨qs, q1, q2⟩ := qf_list m.map.qfThresholds hm.qf
  refine ⟨x, y, b, bitsOf 4 m.map.qfThresholds.length ++ qs.flatten, x1, y1, b1, ?_, fun rest => ?_⟩
  · unfold writeQfs
    rw [q1, writeBitsField, if_neg (by omega)]
    rfl
  · unfold readThresholds
    simp only [x2, y2, b2, Option.bind_eq_bind, Option.bind_some, List.append_assoc]
    rw [rdBits_append (n := 4) (by omega)]
    simp only [q2, Option.bind_some]

/-! ### The stored map -/

theorem size_pos {m : Ctx} (hm : Fits m) : 39 ≤ m.map.ctxMap.length := by
  have h := hm.size
  have : 0 < m.map.numDcCtxs * (m.map.qfThresholds.length + 1) := by
    rw [hm.dcs]
    exact Nat.mul_pos (Nat.mul_pos (Nat.mul_pos (by omega) (by omega)) (by omega)) (by omega)
  omega

theorem clusters_plan (useMtf simple : Bool) (m : BlockCtxMap) : (plan useMtf simple m).clusters = m.numCtxs := by
  simp [plan, Stream.Plan.clusters]

theorem plan_ok {m : Ctx} (hm : Fits m) (useMtf simple : Bool) : Stream.PlanOk (plan useMtf simple m.map) where
  lz := by intro z hz; cases hz
  config := by
    intro c hc
    rw [List.eq_of_mem_replicate hc]
    exact ⟨by decide, Nat.zero_le _⟩
  configs := by rw [clusters_plan]; simp [plan]
  stats := by
    intro c hc
    rw [List.eq_of_mem_replicate hc]
    exact ⟨by simp, by simp, by simp⟩
  nonempty := by
    intro h
    have := size_pos hm
    have e : m.map.ctxMap = [] := h
    rw [e] at this
    simp at this
  inMap := by rw [clusters_plan]; exact hm.entries
  allUsed := by rw [clusters_plan]; exact hm.used
  few := by rw [clusters_plan]; have := hm.contexts; omega

theorem map_stored {mem : Nat → List Alias.Entry} (hmem : ∀ la, (mem la).length = 2 ^ la) {m : Ctx} (hm : Fits m) {layers : List Stream.Layer}
    {useMtf simple : Bool} (hc : Choice layers useMtf simple m) :
    ∃ b, Stream.writeMap (nested mem layers) (plan useMtf simple m.map) = some b ∧ ∀ env, Stream.EnvOk env → ∀ rest,
      Stream.readMap env (Stream.readMapSymbols (Stream.readHeader env 1)) m.map.ctxMap.length (b ++ rest) = .ok (m.map.ctxMap, m.map.numCtxs, rest) := by
  have henv0 : Stream.EnvOk ⟨List.replicate 32 ⟨0, 0⟩, fun la _ => mem la, List.replicate 64 0, 0⟩ := ⟨by simp, fun la _ => hmem la, by simp, by simp⟩
  have hp := plan_ok hm useMtf simple
  have hsz := size_pos hm
  have hlen : (plan useMtf simple m.map).map.length > 1 := by show m.map.ctxMap.length > 1; omega
  have hcl := clusters_plan useMtf simple m.map
  by_cases hco : (plan useMtf simple m.map).coded
  · rcases hc with h | ⟨l, ls, syms, rfl, s1, s2, y1, y2⟩
    · obtain ⟨_, c1, c2⟩ := hco
      rw [hcl] at c1 c2
      rcases h with h | h
      · exact absurd h c1
      · exact absurd h c2
    · obtain ⟨hb, hi, iw, iback⟩ := Stream.header_back hmem ls l.plan s1
      have hl1 : l.plan.map.length = (if l.plan.lz.isSome then 1 + 1 else 1) := s2
      have hp2 : Stream.PlanOk l.plan := by rw [Stream.Sound.eq_def] at s1; exact s1.1
      have hnest : Stream.nesting l.plan ≤ 1 := by unfold Stream.nesting; rw [s2]; split <;> split <;> simp_all
      have hlsyms : syms.length = m.map.ctxMap.length := by
        split at y1
        · obtain ⟨r, r1, r2, _⟩ := Props.C14_move_to_front 0 (by omega) (List.replicate 64 0) (by simp) m.map.ctxMap
            (fun x hx => by have := hm.entries x hx; have := hm.contexts; omega)
          rw [r1] at y1; injection y1 with y1; rw [← y1, r2]
        · injection y1 with y1; rw [y1]
      obtain ⟨c0, _, ha0, hf0⟩ := iback 1 1 false _ [] henv0 hnest (by simp) hl1
      obtain ⟨tb, t1, _⟩ := Stream.values_read hp2 ha0 hf0 y2
      have hdec : ∀ env, Stream.EnvOk env → ∀ rest,
          Stream.readMapSymbols (Stream.readHeader env 1) m.map.ctxMap.length ((hb ++ tb) ++ rest) = .ok (syms, rest) := by
        intro env henv rest
        obtain ⟨c, r1, ha, hf⟩ := iback 1 1 (decide (m.map.ctxMap.length ≤ 2)) env (tb ++ rest) henv hnest (by
          intro h
          rw [decide_eq_true_eq] at h
          omega) hl1
        obtain ⟨tb', t1', t2'⟩ := Stream.values_read hp2 ha hf y2
        rw [t1] at t1'
        injection t1' with t1'
        subst t1'
        obtain ⟨s, hs1, hs2⟩ := t2' rest
        have e : (syms.map fun y => ((0 : Nat), y)).map (fun v => 0 + v.1) = List.replicate m.map.ctxMap.length 0 := by
          rw [← hlsyms]
          apply List.ext_getElem (by simp)
          intro i h1 h2; simp
        rw [e] at hs2
        rw [Stream.readMapSymbols, List.append_assoc, r1]
        simp only [ok_bind, hs2]
        simp [Stream.finalOk, List.map_map, Function.comp_def]
      obtain ⟨mb, m1, _⟩ := Stream.map_back hp (b := hb ++ tb) henv0 (dec := Stream.readMapSymbols (Stream.readHeader _ 1)) []
        (fun _ => ⟨syms, y1, hdec _ henv0 []⟩) hlen
      refine ⟨mb, ?_, fun env henv rest => ?_⟩
      · rw [Stream.writeMap, if_pos hlen, if_pos hco, nested, iw]
        simp only [Option.bind_eq_bind, Option.bind_some, t1]
        exact m1
      · obtain ⟨mb', m1', m2'⟩ := Stream.map_back hp (b := hb ++ tb) henv (dec := Stream.readMapSymbols (Stream.readHeader env 1)) rest
          (fun _ => ⟨syms, y1, hdec _ henv rest⟩) hlen
        rw [m1] at m1'
        injection m1' with m1'
        subst m1'
        rw [hcl] at m2'
        exact m2'
  · obtain ⟨mb, m1, _⟩ := Stream.map_back hp (b := []) henv0 (dec := fun _ _ => .bad) [] (fun h => absurd h hco) hlen
    refine ⟨mb, by rw [Stream.writeMap, if_pos hlen, if_neg hco, m1], fun env henv rest => ?_⟩
    obtain ⟨mb', m1', m2'⟩ := Stream.map_back hp (b := []) henv (dec := Stream.readMapSymbols (Stream.readHeader env 1)) rest (fun h => absurd h hco) hlen
    rw [m1] at m1'
    injection m1' with m1'
    subst m1'
    rw [hcl] at m2'
    exact m2'

/-! ### The whole map -/

theorem not_default {m : Ctx} (hm : Fits m) : isDefault m = false := by
  have h := size_pos hm
  have : (m.map.ctxMap.length == 21) = false := by rw [beq_eq_false_iff_ne]; omega
  simp [isDefault, this]

theorem written {mem : Nat → List Alias.Entry} (hmem : ∀ la, (mem la).length = 2 ^ la) {m : Ctx} (hm : Fits m) {layers : List Stream.Layer}
    {useMtf simple : Bool} (hc : Choice layers useMtf simple m) :
    ∃ b, write mem layers useMtf simple m = some (false :: b) ∧ ∀ env, Stream.EnvOk env → ∀ rest, read env (false :: b ++ rest) = .ok (m, rest) := by
  obtain ⟨x, y, b, q, x1, y1, b1, q1, back⟩ := thresholds_back hm
  obtain ⟨c, c1, c2⟩ := map_stored hmem hm hc
  refine ⟨x ++ (y ++ (b ++ (q ++ c))), ?_, fun env henv rest => ?_⟩
  · rw [write, not_default hm, if_neg (by decide), x1, y1, b1, q1, c1]
    rfl
  · have e : false :: (x ++ (y ++ (b ++ (q ++ c)))) ++ rest = bitsOf 1 0 ++ (x ++ (y ++ (b ++ (q ++ (c ++ rest))))) := by
      simp [bitsOf]
    rw [e, read, rdBits_append (n := 1) (by decide)]
    simp only [chk_some, ok_bind]
    rw [if_neg (by decide), back]
    simp only [chk_some, ok_bind]
    have hd := hm.dcs
    have hcomb := hm.combinations
    rw [← hd, if_neg (by omega), show 3 * 13 * m.map.numDcCtxs * (m.map.qfThresholds.length + 1) = m.map.ctxMap.length by
      rw [hm.size, Nat.mul_assoc]]
    rw [c2 env henv rest]
    simp only [ok_bind]
    have := hm.contexts
    rw [if_neg (by omega)]

/-! ### Arbitrary bits -/

theorem readDc_spec : ∀ {n : Nat} {s : List Bool} {r}, readDc n s = some r → r.1.length = n ∧ ∀ t ∈ r.1, -2 ^ 31 ≤ t ∧ t < 2 ^ 31
  | 0, s, r, h => by
    unfold readDc at h
    cases h
    simp
  | n + 1, s, r, h => by
    unfold readDc at h
    simp only [Option.bind_eq_bind, Option.bind_eq_some_iff] at h
    obtain ⟨⟨v, s1⟩, _, ⟨vs, s2⟩, h2, h⟩ := h
    cases h
    have ih := readDc_spec h2
    refine ⟨by simp [ih.1], fun t ht => ?_⟩
    rcases List.mem_cons.mp ht with rfl | ht
    · exact Splines.unpack_range v
    · exact ih.2 t ht

theorem qf_range {s : List Bool} {r} (h : U32.read qfEnc s = some r) : r.1 < 300 := by
  unfold U32.read at h
  simp only [Option.bind_eq_bind, Option.bind_eq_some_iff] at h
  obtain ⟨⟨sel, s1⟩, hsel, h⟩ := h
  have h4 := rdBits_lt hsel
  have key : ∀ t < 4, U32.isDirect (qfEnc.get t) = false ∧ U32.offset (qfEnc.get t) + 2 ^ U32.extraBits (qfEnc.get t) ≤ 300 := by decide
  dsimp only at h h4
  obtain ⟨k1, k2⟩ := key sel h4
  rw [k1, if_neg (by decide)] at h
  obtain ⟨⟨x, s2⟩, hx, h⟩ := Option.bind_eq_some_iff.mp h
  have hx := rdBits_lt hx
  cases h
  have : (x + U32.offset (qfEnc.get sel)) % 2 ^ 32 ≤ x + U32.offset (qfEnc.get sel) := Nat.mod_le _ _
  omega

theorem readQf_spec : ∀ {n : Nat} {s : List Bool} {r}, readQf n s = some r → r.1.length = n ∧ ∀ t ∈ r.1, 1 ≤ t ∧ t ≤ 300
  | 0, s, r, h => by
    unfold readQf at h
    cases h
    simp
  | n + 1, s, r, h => by
    unfold readQf at h
    simp only [Option.bind_eq_bind, Option.bind_eq_some_iff] at h
    obtain ⟨⟨v, s1⟩, h1, ⟨vs, s2⟩, h2, h⟩ := h
    cases h
    have ih := readQf_spec h2
    have hv := qf_range h1
    dsimp only at hv
    refine ⟨by simp [ih.1], fun t ht => ?_⟩
    rcases List.mem_cons.mp ht with rfl | ht
    · omega
    · exact ih.2 t ht

theorem readDcs_spec {s : List Bool} {r} (h : readDcs s = some r) : r.1.length < 16 ∧ ∀ t ∈ r.1, -2 ^ 31 ≤ t ∧ t < 2 ^ 31 := by
  unfold readDcs at h
  simp only [Option.bind_eq_bind, Option.bind_eq_some_iff] at h
  obtain ⟨⟨n, s1⟩, h1, h⟩ := h
  have hn := rdBits_lt h1
  have := readDc_spec h
  exact ⟨by omega, this.2⟩

theorem default_fits : Fits default where
  few := by decide
  dc := by simp [default]
  qf := by simp [default]
  dcs := by decide
  combinations := by decide
  size := by decide
  entries := by decide
  used := by decide
  contexts := by decide

theorem read_safe {env : Stream.Env} (he : Stream.EnvOk env) (s : List Bool) : (read env s).Safe fun r => Fits r.1 := by
  have h0 : ∀ s, (Stream.readHeader env 0 true 1 s).Safe fun r => Stream.CodeOk 1 r.1 := fun s =>
    Stream.header_with_safe he (fun m h1 h2 => by rcases h2 with h2 | ⟨_, h2⟩ <;> first | omega | cases h2) s
  have h1 : ∀ d s, (Stream.readHeader env 1 d 1 s).Safe fun r => Stream.CodeOk 1 r.1 := fun d s =>
    Stream.header_with_safe he (fun m h1 h2 s => Stream.symbols_safe (fun s => by
      rw [show decide (m ≤ 2) = true by simp; omega]; exact h0 s) s) s
  unfold read
  refine safe_bind Stream.safe_any (fun a _ => ?_)
  obtain ⟨d, s⟩ := a
  dsimp only
  split
  · exact default_fits
  · refine safe_bind (P := fun a => (a.1.1.length < 16 ∧ ∀ t ∈ a.1.1, -2 ^ 31 ≤ t ∧ t < 2 ^ 31) ∧ (a.1.2.1.length < 16 ∧ ∀ t ∈ a.1.2.1, -2 ^ 31 ≤ t ∧ t < 2 ^ 31) ∧
        (a.1.2.2.1.length < 16 ∧ ∀ t ∈ a.1.2.2.1, -2 ^ 31 ≤ t ∧ t < 2 ^ 31) ∧ a.1.2.2.2.length < 16 ∧ ∀ t ∈ a.1.2.2.2, 1 ≤ t ∧ t ≤ 300)
      (safe_chk fun a ha => ?_) (fun a ha => ?_)
    · unfold readThresholds at ha
      simp only [Option.bind_eq_bind, Option.bind_eq_some_iff] at ha
      obtain ⟨⟨x, s1⟩, hx, ⟨y, s2⟩, hy, ⟨b, s3⟩, hb, ⟨n, s4⟩, hn, ⟨q, s5⟩, hq, ha⟩ := ha
      cases ha
      have hn := rdBits_lt hn
      have hq := readQf_spec hq
      exact ⟨readDcs_spec hx, readDcs_spec hy, readDcs_spec hb, by dsimp only at hn hq ⊢; omega, hq.2⟩
    · obtain ⟨⟨x, y, b, q⟩, s⟩ := a
      obtain ⟨hx, hy, hb, hq1, hq2⟩ := ha
      dsimp only at hx hy hb hq1 hq2 ⊢
      split
      · trivial
      · rename_i h64
        refine safe_bind (P := fun r => r.1.length = 3 * 13 * ((x.length + 1) * (y.length + 1) * (b.length + 1)) * (q.length + 1) ∧
          (∀ c ∈ r.1, c < r.2.1) ∧ ∀ c < r.2.1, c ∈ r.1) ?_ (fun a ha => ?_)
        · unfold Stream.readMap
          refine safe_bind (Stream.entries_safe he (fun s => Stream.symbols_safe (fun s => h1 _ s) s) s) (fun a ha => ?_)
          obtain ⟨m, s⟩ := a
          dsimp only at ha ⊢
          split
          · rename_i h
            rw [h] at ha
            have h2 : 0 < 3 * 13 * ((x.length + 1) * (y.length + 1) * (b.length + 1)) * (q.length + 1) :=
              Nat.mul_pos (Nat.mul_pos (by omega) (Nat.mul_pos (Nat.mul_pos (by omega) (by omega)) (by omega))) (by omega)
            have := ha.1
            simp at this
          · split
            · rename_i hv
              have := CtxMap.verify_sound _ _ hv
              exact ⟨ha.1, this.1, this.2⟩
            · trivial
        · obtain ⟨m, n, s⟩ := a
          dsimp only at ha ⊢
          split
          · trivial
          · rename_i h16
            exact {
              few := ⟨hx.1, hy.1, hb.1, hq1⟩
              dc := by
                intro t ht
                rcases List.mem_append.mp ht with ht | ht
                · rcases List.mem_append.mp ht with ht | ht
                  · exact hx.2 t ht
                  · exact hy.2 t ht
                · exact hb.2 t ht
              qf := hq2
              dcs := rfl
              combinations := Nat.le_of_not_lt h64
              size := by rw [ha.1, Nat.mul_assoc]
              entries := ha.2.1
              used := ha.2.2
              contexts := by show n ≤ 16; omega }

/-! ### Looking up -/

theorem above_interval (ts : List Int) (v : Int) : above ts v = interval ts v := by
  have : ∀ (ts : List Int) (k : Nat), ts.foldl (fun n t => if v > t then n + 1 else n) k = k + ts.countP (· < v) := by
    intro ts
    induction ts with
    | nil => intro k; simp
    | cons t ts ih =>
      intro k
      rw [List.foldl_cons, ih, List.countP_cons]
      by_cases h : t < v
      · simp [h]; omega
      · simp [h]
  unfold above interval
  rw [this]; omega

theorem interval_le (ts : List Int) (v : Int) : interval ts v ≤ ts.length := List.countP_le_length

/-- Mixed radix digits stay in range. -/
theorem digit_lt {a b n k : Nat} (ha : a < n) (hb : b < k) : a * k + b < n * k := by
  have : (a + 1) * k ≤ n * k := Nat.mul_le_mul_right k (by omega)
  rw [Nat.succ_mul] at this
  omega

theorem bucket_eq {m : Ctx} (hm : Fits m) (x y b : Int) :
    bucket m x y b = (interval m.x x * (m.b.length + 1) + interval m.b b) * (m.y.length + 1) + interval m.y y ∧ bucket m x y b < m.map.numDcCtxs := by
  have hx := interval_le m.x x
  have hy := interval_le m.y y
  have hb := interval_le m.b b
  have h := digit_lt (digit_lt (Nat.lt_succ_of_le hx) (Nat.lt_succ_of_le hb)) (Nat.lt_succ_of_le hy)
  have e : m.map.numDcCtxs = (m.x.length + 1) * (m.b.length + 1) * (m.y.length + 1) := by
    rw [hm.dcs, Nat.mul_assoc, Nat.mul_comm (m.y.length + 1), ← Nat.mul_assoc]
  have h64 : m.map.numDcCtxs ≤ 64 := Nat.le_trans (Nat.le_mul_of_pos_right _ (by omega)) hm.combinations
  simp only [Nat.succ_eq_add_one] at h
  rw [← e] at h
  unfold bucket
  split
  · omega
  · simp only [above_interval]
    rw [Nat.mod_eq_of_lt (by omega)]
    exact ⟨rfl, h⟩

/-- Digits of a number in mixed radix. -/
theorem digit_div {a b k : Nat} (hb : b < k) : (a * k + b) / k = a ∧ (a * k + b) % k = b := by
  have hk : 0 < k := by omega
  rw [Nat.mul_comm, Nat.mul_add_div hk, Nat.mul_add_mod, Nat.div_eq_of_lt hb, Nat.mod_eq_of_lt hb]
  exact ⟨rfl, rfl⟩

/-- Channel number in the map: the second channel comes first. -/
theorem channel_lt {c : Nat} : (if c < 2 then c ^^^ 1 else 2) < 3 := by
  by_cases h : c < 2
  · have : c = 0 ∨ c = 1 := by omega
    rcases this with rfl | rfl <;> decide
  · rw [if_neg h]; omega

theorem channel_back {c : Nat} (hc : c < 3) : (let i := if c < 2 then c ^^^ 1 else 2; if i < 2 then i ^^^ 1 else 2) = c := by
  have : c = 0 ∨ c = 1 ∨ c = 2 := by omega
  rcases this with rfl | rfl | rfl <;> decide

/-- The entries for a wanted assignment of contexts, given by channel, order, intervals of quantisation and of DC values. -/
def entry (nx ny nb nq : Nat) (f : Nat → Nat → Nat → Nat → Nat → Nat → Nat) (i : Nat) : Nat :=
  let d := i % (nx * nb * ny)
  let i := i / (nx * nb * ny)
  let q := i % nq
  let i := i / nq
  let c := i / 13
  f (if c < 2 then c ^^^ 1 else 2) (i % 13) q (d / ny / nb) (d % ny) (d / ny % nb)

theorem entry_index {nx ny nb nq : Nat} (f : Nat → Nat → Nat → Nat → Nat → Nat → Nat) {c o q x y b : Nat} (hc : c < 3) (ho : o < 13) (hq : q < nq)
    (hx : x < nx) (hy : y < ny) (hb : b < nb) :
    entry nx ny nb nq f ((((if c < 2 then c ^^^ 1 else 2) * 13 + o) * nq + q) * (nx * nb * ny) + ((x * nb + b) * ny + y)) = f c o q x y b := by
  have h1 := digit_div (a := ((if c < 2 then c ^^^ 1 else 2) * 13 + o) * nq + q) (digit_lt (digit_lt hx hb) hy)
  have h2 := digit_div (a := (if c < 2 then c ^^^ 1 else 2) * 13 + o) hq
  have h3 := digit_div (a := if c < 2 then c ^^^ 1 else 2) ho
  have h4 := digit_div (a := x * nb + b) hy
  have h5 := digit_div (a := x) hb
  unfold entry
  simp only [h1.1, h1.2, h2.1, h2.2, h3.1, h3.2, h4.1, h4.2, h5.1, h5.2]
  have := channel_back hc
  dsimp only at this
  rw [this]

end Jxl.BlockCtx
