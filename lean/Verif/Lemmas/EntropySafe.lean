import Verif.Lemmas.EntropyHeader
import Verif.Props.HuffmanSimple
/-!
# Reading an entropy-coded stream from arbitrary bits
-/
namespace Jxl.Stream

/-- Neither undefined nor too deep, and results satisfy `P`. -/
def Out.Safe {α : Type} (P : α → Prop) : Out α → Prop
  | .ub => False
  | .deep => False
  | .bad => True
  | .ok a => P a

theorem safe_bind {α β : Type} {P : α → Prop} {Q : β → Prop} {x : Out α} {f : α → Out β} (h : x.Safe P) (hf : ∀ a, P a → (f a).Safe Q) :
    (x >>= f).Safe Q := by
  cases x with
  | ub => exact h
  | deep => exact h
  | bad => trivial
  | ok a => exact hf a h

theorem safe_chk {α : Type} {P : α → Prop} {o : Option α} (h : ∀ a, o = some a → P a) : (chk o).Safe P := by
  cases o with
  | none => trivial
  | some a => exact h a rfl

theorem safe_any {α : Type} {o : Option α} : (chk o).Safe fun _ => True := safe_chk fun _ _ => trivial

theorem safe_req {α : Type} {P : α → Prop} {o : Option α} (h : ∃ a, o = some a ∧ P a) : (req o).Safe P := by
  obtain ⟨a, rfl, h⟩ := h; exact h

theorem safe_mono {α : Type} {P Q : α → Prop} {x : Out α} (h : x.Safe P) (hf : ∀ a, P a → Q a) : x.Safe Q := by
  cases x with
  | ub => exact h
  | deep => exact h
  | bad => trivial
  | ok a => exact hf a h

/-- Tables in which every look-up is defined. -/
def TablesOk (k : Nat) : Tables → Prop
  | .ans la ts => ts.length = k ∧ ∀ t ∈ ts, ∀ v < 4096, ∃ r, Alias.lookup t la v = some r
  | .huff ts => ts.length = k ∧ ∀ t ∈ ts, ∀ s, ∃ r, Huffman.readSymbol t s = some r

/-- A code for `n` contexts (one more with LZ77) that can be used. -/
structure CodeOk (n : Nat) (c : Code) : Prop where
  map : c.map.length = if c.lz.isSome then n + 1 else n
  cluster : ∀ h ∈ c.map, h < c.config.length
  tables : TablesOk c.config.length c.tables
  lz : ∀ z, c.lz = some z → 1 ≤ z.minLength ∧ z.minLength < 2 ^ 32

theorem code_reads {t5 : List Huffman.Entry} (ht : t5.length = 32) {n : Nat} {s rest : List Bool} {t : List Huffman.Entry} (hn : 1 ≤ n)
    (h : Huffman.readCode t5 n s = some (some (t, rest))) (s' : List Bool) : ∃ r, Huffman.readSymbol t s' = some r := by
  unfold Huffman.readCode at h
  split at h
  · simp at h
  · split at h
    · obtain ⟨w, hw, hmin⟩ : ∃ w, n ≤ 2 ^ w ∧ ∀ v, n ≤ 2 ^ v → w ≤ v :=
        ⟨_, Props.maxBits_spec n hn⟩
      obtain ⟨syms, skew, _, hT⟩ := (Props.C15_simple_codes (List.replicate 256 ⟨0, 0⟩) List.length_replicate n w hn hw hmin _).1 t rest h
      rcases hT with ⟨y, _, hT⟩ | ⟨_, lens, _, _, _, _, hT⟩
      · exact ⟨_, hT s'⟩
      · obtain ⟨y, l, _, _, _, e⟩ := hT s'; exact ⟨_, e⟩
    · unfold Huffman.readGeneral at h
      dsimp only at h
      split at h
      · rw [Option.bind_eq_some_iff] at h
        obtain ⟨r, h1, h2⟩ := h
        split at h2
        · simp at h2
        · rename_i lens s2
          obtain ⟨hl, hc⟩ := Props.C15_only_complete_codes_accepted _ _ _ _ _ _ h1
          obtain ⟨size, t', b1, b2, _, b4⟩ := Props.C15_table_decodes_canonical_code lens hc (by omega) (List.replicate (n + 376) ⟨0, 0⟩) (by simp [hl])
          rw [b1, Option.map_some] at h2
          simp only [if_pos (show size > 0 from b2), Option.some.injEq, Prod.mk.injEq] at h2
          obtain ⟨rfl, _⟩ := h2
          obtain ⟨y, l, _, _, _, e⟩ := b4 s'; exact ⟨_, e⟩
      · simp at h

theorem configs_length {la : Nat} : ∀ {n : Nat} {s : List Bool} {r}, readConfigs la n s = some r → r.1.length = n
  | 0, s, r, h => by cases h; rfl
  | n + 1, s, r, h => by
    rw [readConfigs] at h
    simp only [Option.bind_eq_bind, Option.bind_eq_some_iff] at h
    obtain ⟨⟨c, s1⟩, _, ⟨cs, s2⟩, h2, h3⟩ := h
    cases h3
    simp [configs_length h2]

theorem ans_safe {env : Env} (he : EnvOk env) {la : Nat} (hla : 5 ≤ la ∧ la ≤ 8) : ∀ (n i : Nat) (s : List Bool),
    (readAnsTables env la n i s).Safe fun r => TablesOk n (.ans la r.1)
  | 0, i, s => ⟨rfl, by simp⟩
  | n + 1, i, s => by
    rw [readAnsTables]
    refine safe_bind (P := fun r => r.1.sum = 4096) (safe_chk fun a h => Props.C13_accepted_is_normalised (c := a.1) (rest := a.2) h) (fun a ha => ?_)
    obtain ⟨counts, s⟩ := a
    dsimp only at ha ⊢
    split
    · trivial
    · rename_i hlen
      obtain ⟨t, t1, _, t3⟩ := Props.C11_alias_partition counts la (env.alias la i) hla ha (by omega) (he.alias la i)
      rw [t1, req_some, ok_bind]
      refine safe_bind (ans_safe he hla n (i + 1) s) (fun r hr => ?_)
      refine ⟨by simp [hr.1], fun u hu v hv => ?_⟩
      rcases List.mem_cons.mp hu with rfl | hu
      · obtain ⟨y, o, e, _⟩ := t3.1 v hv; exact ⟨_, e⟩
      · exact hr.2 u hu v hv

theorem sizes_length : ∀ (n : Nat) (s : List Bool) (r), readSizes n s = some r → r.1.length = n := by
  intro n
  induction n with
  | zero => intro s r h; cases h; rfl
  | succ n ih =>
    intro s r h
    unfold readSizes at h
    generalize readVarLen16 s = q at h
    obtain ⟨v, s1⟩ := q
    dsimp only at h
    generalize (v + 1) % 2 ^ 16 = size at h
    split at h
    · cases h
    · rw [Option.map_eq_some_iff] at h
      obtain ⟨a, h1, h2⟩ := h
      have := ih _ _ h1
      rw [← h2]; simp [this]

theorem huff_safe {env : Env} (he : EnvOk env) : ∀ (zs : List Nat) (s : List Bool),
    (readHuffTables env zs s).Safe fun r => TablesOk zs.length (.huff r.1)
  | [], s => ⟨rfl, by simp⟩
  | z :: zs, s => by
    rw [readHuffTables]
    have one : (readHuffTable env z s).Safe fun r => ∀ s', ∃ q, Huffman.readSymbol r.1 s' = some q := by
      unfold readHuffTable
      split
      · have hd := Props.C15_reading_is_defined env.t5 he.t5 z s
        match hr : Huffman.readCode env.t5 z s with
        | none => exact absurd hr hd
        | some none => trivial
        | some (some (t, rest)) => exact fun s' => code_reads he.t5 (by omega) hr s'
      · exact fun s' => ⟨_, readSymbol_zero s'⟩
    refine safe_bind one (fun a ha => ?_)
    obtain ⟨t, s⟩ := a
    refine safe_bind (huff_safe he zs s) (fun r hr => ?_)
    refine ⟨by simp [hr.1], fun u hu v => ?_⟩
    rcases List.mem_cons.mp hu with rfl | hu
    · exact ha v
    · exact hr.2 u hu v

theorem codes_safe {env : Env} (he : EnvOk env) (k : Nat) (s : List Bool) :
    (readCodes env k s).Safe fun r => r.1.length = k ∧ TablesOk k r.2.1 := by
  unfold readCodes
  refine safe_bind (P := fun _ => True) (safe_chk fun _ _ => trivial) (fun a _ => ?_)
  obtain ⟨b, s⟩ := a
  dsimp only
  split
  · refine safe_bind (safe_chk fun a h => configs_length h) (fun cs hc => ?_)
    obtain ⟨cs, s⟩ := cs
    refine safe_bind (safe_chk fun a h => sizes_length _ _ a h) (fun zs hz => ?_)
    obtain ⟨zs, s⟩ := zs
    refine safe_bind (huff_safe he zs s) (fun r hr => ?_)
    exact ⟨hc, by dsimp only at hz hr ⊢; rw [hz] at hr; exact hr⟩
  · refine safe_bind (P := fun l => l.1 < 4) (safe_chk fun a h => rdBits_lt h) (fun l hl => ?_)
    obtain ⟨l, s⟩ := l
    refine safe_bind (safe_chk fun a h => configs_length h) (fun cs hc => ?_)
    obtain ⟨cs, s⟩ := cs
    refine safe_bind (ans_safe he (by dsimp only at hl; omega) _ 0 s) (fun r hr => ?_)
    exact ⟨hc, hr⟩

theorem entries_safe {env : Env} (he : EnvOk env) {dec} {n : Nat} (hd : ∀ s, (dec n s).Safe fun r => r.1.length = n) (s : List Bool) :
    (readEntries env dec n s).Safe fun r => r.1.length = n ∧ ∀ x ∈ r.1, x < 256 := by
  unfold readEntries
  refine safe_bind safe_any (fun a _ => ?_)
  obtain ⟨b, s⟩ := a
  dsimp only
  split
  · refine safe_chk fun a h => ?_
    unfold CtxMap.readSimple at h
    simp only [Option.bind_eq_bind, Option.bind_eq_some_iff] at h
    obtain ⟨⟨k, s2⟩, hk, h⟩ := h
    have hk4 := rdBits_lt hk
    dsimp only at h
    split at h
    · exact Props.readEntries_facts k n (by omega) _ a.2 a.1 h
    · cases h; simp
  · refine safe_bind safe_any (fun a _ => ?_)
    obtain ⟨b, s⟩ := a
    refine safe_bind (hd s) (fun a ha => ?_)
    obtain ⟨syms, s⟩ := a
    dsimp only at ha ⊢
    split
    · trivial
    · rename_i hmax
      have hall : ∀ x ∈ syms, x < 256 := fun x hx => by have := CtxMap.le_maxElem syms x hx; omega
      split
      · obtain ⟨r, r1, r2, r3⟩ := Props.C14_inverse_total env.k he.k env.pad he.pad syms hall
        rw [r1, req_some, ok_bind]
        exact ⟨by rw [← ha]; exact r2, r3⟩
      · exact ⟨ha, hall⟩

theorem map_safe {env : Env} (he : EnvOk env) {dec} {n : Nat} (hd : 2 ≤ n → ∀ s, (dec n s).Safe fun r => r.1.length = n) (s : List Bool) :
    (readMapIf env dec n s).Safe fun r => r.1.length = n ∧ ∀ x ∈ r.1, x < r.2.1 := by
  unfold readMapIf
  split
  · rename_i hn
    unfold readMap
    refine safe_bind (entries_safe he (hd hn) s) (fun a ha => ?_)
    obtain ⟨m, s⟩ := a
    dsimp only at ha ⊢
    split
    · rename_i h; rw [h] at ha; simp at ha; omega
    · split
      · rename_i hv
        exact ⟨ha.1, (CtxMap.verify_sound _ _ hv).1⟩
      · trivial
  · exact ⟨by simp, by simp⟩

theorem lz_safe {s : List Bool} {r} (h : readLz s = some r) : ∀ z, r.1 = some z → 1 ≤ z.minLength ∧ z.minLength < 2 ^ 32 := by
  unfold readLz at h
  simp only [Option.bind_eq_bind, Option.bind_eq_some_iff] at h
  obtain ⟨⟨e, s1⟩, _, h⟩ := h
  dsimp only at h
  split at h
  · simp only [Option.bind_eq_bind, Option.bind_eq_some_iff] at h
    obtain ⟨⟨a, s2⟩, _, ⟨b, s3⟩, hb, ⟨c, s4⟩, _, h⟩ := h
    cases h
    intro z hz
    cases hz
    unfold U32.read at hb
    simp only [Option.bind_eq_bind, Option.bind_eq_some_iff] at hb
    obtain ⟨⟨sel, s5⟩, hsel, hb⟩ := hb
    have hs4 := rdBits_lt hsel
    dsimp only at hb ⊢
    have : sel = 0 ∨ sel = 1 ∨ sel = 2 ∨ sel = 3 := by omega
    rcases this with rfl | rfl | rfl | rfl
    · rw [if_pos (by decide), Option.some.injEq, Prod.mk.injEq, show U32.direct (minLengthEnc.get 0) = 3 by decide] at hb; omega
    · rw [if_pos (by decide), Option.some.injEq, Prod.mk.injEq, show U32.direct (minLengthEnc.get 1) = 4 by decide] at hb; omega
    · rw [if_neg (by decide)] at hb
      simp only [Option.bind_eq_some_iff] at hb
      obtain ⟨⟨x, s6⟩, hx, hb⟩ := hb
      have hx := rdBits_lt hx
      rw [show U32.extraBits (minLengthEnc.get 2) = 2 by decide] at hx
      simp only [show U32.offset (minLengthEnc.get 2) = 5 by decide, Option.some.injEq, Prod.mk.injEq] at hb
      omega
    · rw [if_neg (by decide)] at hb
      simp only [Option.bind_eq_some_iff] at hb
      obtain ⟨⟨x, s6⟩, hx, hb⟩ := hb
      have hx := rdBits_lt hx
      rw [show U32.extraBits (minLengthEnc.get 3) = 8 by decide] at hx
      simp only [show U32.offset (minLengthEnc.get 3) = 9 by decide, Option.some.injEq, Prod.mk.injEq] at hb
      omega
  · cases h; intro z hz; cases hz

theorem header_with_safe {env : Env} (he : EnvOk env) {dec} {disallow : Bool} {n : Nat}
    (hd : ∀ m, 2 ≤ m → (m = n ∨ m = n + 1 ∧ disallow = false) → ∀ s, (dec m s).Safe fun r => r.1.length = m) (s : List Bool) :
    (readHeaderWith env dec disallow n s).Safe fun r => CodeOk n r.1 := by
  unfold readHeaderWith
  refine safe_bind (safe_chk fun a h => lz_safe h) (fun a hlz => ?_)
  obtain ⟨lz, s⟩ := a
  dsimp only at hlz ⊢
  split
  · trivial
  · rename_i hdis
    refine safe_bind (map_safe he (fun h2 => hd _ h2 ?_) s) (fun a ha => ?_)
    · split
      · rename_i h; right; refine ⟨rfl, ?_⟩
        cases disallow with
        | false => rfl
        | true => exact absurd ⟨h, rfl⟩ hdis
      · left; rfl
    · obtain ⟨m, k, s⟩ := a
      refine safe_bind (codes_safe he k s) (fun r hr => ?_)
      obtain ⟨cs, t, s⟩ := r
      dsimp only at ha hr ⊢
      exact ⟨ha.1, by dsimp only; rw [hr.1]; exact ha.2, by dsimp only; rw [hr.1]; exact hr.2, hlz⟩

/-! ## Values -/

/-- Every read of the window is defined. -/
def LzInv (l : Lz77.State) : Prop := Lz77.Rel l l ∧ l.toCopy < 2 ^ 32

theorem sym_safe {k : Nat} {t : Tables} (ht : TablesOk k t) {h : Nat} (hh : h < k) (state : Nat) (s : List Bool) :
    (readSym t h state s).Safe fun _ => True := by
  cases t with
  | ans la ts =>
    refine safe_bind (P := fun t => t ∈ ts) (safe_req ⟨ts[h]'(by rw [ht.1]; exact hh), List.getElem?_eq_getElem _, List.getElem_mem _⟩) (fun t hm => ?_)
    have h4 : state &&& 4095 < 4096 := by
      rw [show (4095 : Nat) = 2 ^ 12 - 1 by decide, Nat.and_two_pow_sub_one_eq_mod]; exact Nat.mod_lt _ (by decide)
    obtain ⟨r, hr⟩ := ht.2 t hm _ h4
    unfold readAns
    rw [hr, req_some, ok_bind]
    obtain ⟨a, b, c⟩ := r
    dsimp only
    split
    · exact safe_bind safe_any (fun _ _ => trivial)
    · trivial
  | huff ts =>
    refine safe_bind (P := fun t => t ∈ ts) (safe_req ⟨ts[h]'(by rw [ht.1]; exact hh), List.getElem?_eq_getElem _, List.getElem_mem _⟩) (fun t hm => ?_)
    obtain ⟨r, hr⟩ := ht.2 t hm s
    rw [hr, req_some, ok_bind]
    trivial

theorem int_safe {n : Nat} {c : Code} (hc : CodeOk n c) {h : Nat} (hh : h ∈ c.map) (state : Nat) (s : List Bool) :
    (readInt c h state s).Safe fun _ => True := by
  refine safe_bind (sym_safe hc.tables (hc.cluster h hh) state s) (fun a _ => ?_)
  obtain ⟨a, b, s⟩ := a
  dsimp only
  refine safe_bind (P := fun _ => True) (safe_req ⟨_, List.getElem?_eq_getElem (hc.cluster h hh), trivial⟩) (fun cfg _ => ?_)
  exact safe_bind safe_any (fun _ _ => trivial)

theorem copy_safe {st : St} (h : LzInv st.lz) (h0 : st.lz.toCopy > 0) : (copyOne st).Safe fun r => LzInv r.2.lz := by
  obtain ⟨v, s', t', a, b, c, d⟩ := Lz77.copyStep_rel h.1 h0 h.2
  rw [a] at b
  injection b with b
  injection b with b1 b2
  unfold copyOne
  rw [a, req_some, ok_bind]
  refine ⟨by rw [← b2] at c; exact c, ?_⟩
  have := h.2
  show s'.toCopy < 2 ^ 32
  omega

theorem value_safe {n : Nat} {c : Code} (hc : CodeOk n c) (mult : Nat) {h : Nat} (hh : h ∈ c.map) (st : St) (hs : LzInv st.lz) :
    (readValue c mult h st).Safe fun r => LzInv r.2.lz := by
  unfold readValue
  split
  · exact safe_bind (int_safe hc hh _ _) (fun a _ => hs)
  · rename_i z hz
    obtain ⟨z1, z2⟩ := hc.lz z hz
    split
    · rename_i h0; exact copy_safe hs h0
    · rename_i h0
      have h0' : st.lz.toCopy = 0 := by omega
      refine safe_bind (sym_safe hc.tables (hc.cluster h hh) _ _) (fun a _ => ?_)
      obtain ⟨sym, state, s⟩ := a
      dsimp only
      split
      · unfold readCopy
        refine safe_bind safe_any (fun a _ => ?_)
        obtain ⟨len, s⟩ := a
        dsimp only
        have hne : c.map ≠ [] := List.ne_nil_of_mem hh
        refine safe_bind (P := fun d => d ∈ c.map) (safe_req ⟨_, List.getLast?_eq_some_getLast hne, List.getLast_mem hne⟩) (fun d hd => ?_)
        refine safe_bind (int_safe hc hd state s) (fun a _ => ?_)
        obtain ⟨dist, state, s⟩ := a
        dsimp only
        obtain ⟨s', t', a, b, c', d'⟩ := Lz77.startCopy_rel ⟨z.minLength, mult⟩ hs.1 h0' len dist
        rw [a] at b
        injection b with b
        subst b
        rw [a, req_some, ok_bind]
        have hlt : s'.toCopy < 2 ^ 32 := by rw [d']; exact Lz77.wadd_lt _ _
        split
        · refine ⟨⟨c'.num, rfl, c'.copyPos, c'.next, rfl, ?_⟩, (by decide : (0:Nat) < 2 ^ 32)⟩
          rcases c'.win with w | ⟨w1, w2, _⟩
          · left; exact w
          · right; exact ⟨w1, w2, by simp⟩
        · exact copy_safe (st := ⟨state, s', s⟩) ⟨c', hlt⟩ (by dsimp only; omega)
      · unfold readLit
        refine safe_bind (P := fun _ => True) (safe_req ⟨_, List.getElem?_eq_getElem (hc.cluster h hh), trivial⟩) (fun cfg _ => ?_)
        refine safe_bind safe_any (fun a _ => ?_)
        obtain ⟨v, s⟩ := a
        dsimp only
        obtain ⟨s', t', a, b, c'⟩ := Lz77.push_rel hs.1 h0' v
        rw [a] at b
        injection b with b
        subst b
        rw [a, req_some, ok_bind]
        refine ⟨c', ?_⟩
        rw [Lz77.push_eq] at a
        injection a with a
        show s'.toCopy < 2 ^ 32
        rw [← a]; exact hs.2

theorem values_safe {n : Nat} {c : Code} (hc : CodeOk n c) (mult : Nat) : ∀ (xs : List Nat) (st : St), (∀ x ∈ xs, x < c.map.length) → LzInv st.lz →
    (readValues c mult xs st).Safe fun r => r.1.length = xs.length
  | [], st, _, _ => rfl
  | x :: xs, st, hx, hs => by
    rw [readValues]
    refine safe_bind (P := fun h => h ∈ c.map) (safe_req ⟨c.map[x]'(hx x (by simp)), List.getElem?_eq_getElem _, List.getElem_mem _⟩) (fun h hh => ?_)
    refine safe_bind (value_safe hc mult hh st hs) (fun a ha => ?_)
    obtain ⟨v, st⟩ := a
    refine safe_bind (values_safe hc mult xs st (fun y hy => hx y (by simp [hy])) ha) (fun a ha => ?_)
    exact congrArg Nat.succ ha

theorem decode_safe {n : Nat} {c : Code} (hc : CodeOk n c) (mult : Nat) (xs : List Nat) (hx : ∀ x ∈ xs, x < c.map.length) (s : List Bool) :
    (decode c mult xs s).Safe fun r => r.1.length = xs.length := by
  have hst : (start c.tables s).Safe fun st => LzInv st.lz := by
    unfold start
    split
    · exact safe_bind safe_any (fun _ _ => ⟨Lz77.start_rel, (by decide : (0:Nat) < 2 ^ 32)⟩)
    · exact ⟨Lz77.start_rel, (by decide : (0:Nat) < 2 ^ 32)⟩
  exact safe_bind hst (fun st h => values_safe hc mult xs st hx h)

theorem symbols_safe {header} {n : Nat} (hh : ∀ s, (header (decide (n ≤ 2)) 1 s).Safe fun r : Code × List Bool => CodeOk 1 r.1) (s : List Bool) :
    (readMapSymbols header n s).Safe fun r => r.1.length = n := by
  unfold readMapSymbols
  refine safe_bind (hh s) (fun a ha => ?_)
  obtain ⟨c, s⟩ := a
  refine safe_bind (decode_safe ha 0 (List.replicate n 0) (fun x hx => ?_) s) (fun a ha => ?_)
  · rw [List.eq_of_mem_replicate hx, ha.map]
    split <;> omega
  · obtain ⟨vs, st⟩ := a
    dsimp only at ha ⊢
    split
    · rw [List.length_replicate] at ha; exact ha
    · trivial

/-- Three levels of nesting are enough. -/
theorem histograms_safe {env : Env} (he : EnvOk env) (n : Nat) (s : List Bool) : (decodeHistograms env n s).Safe fun r => CodeOk n r.1 := by
  have h0 : ∀ s, (readHeader env 0 true 1 s).Safe fun r => CodeOk 1 r.1 := fun s =>
    header_with_safe he (fun m h1 h2 => by rcases h2 with h2 | ⟨_, h2⟩ <;> first | omega | cases h2) s
  have h1 : ∀ d s, (readHeader env 1 d 1 s).Safe fun r => CodeOk 1 r.1 := fun d s =>
    header_with_safe he (fun m h1 h2 s => symbols_safe (fun s => by
      rw [show decide (m ≤ 2) = true by simp; omega]; exact h0 s) s) s
  exact header_with_safe he (fun m _ _ s => symbols_safe (fun s => h1 _ s) s) s

end Jxl.Stream
