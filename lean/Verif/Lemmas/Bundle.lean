import Verif.Spec.Bundle
import Verif.Lemmas.Coders
namespace Jxl.Bundle

theorem upd_self (e : Env) (f v : Nat) : upd e f v f = v := by simp [upd]
theorem upd_other (e : Env) (f v g : Nat) (h : g ≠ f) : upd e f v g = e g := by simp [upd, h]

theorem Agree.upd {K : List Nat} {a b : Env} (h : Agree K a b) (f : Nat) : Agree (f :: K) (upd a f (b f)) b := by
  intro g hg
  by_cases hgf : g = f
  · subst hgf; rw [upd_self]
  · rw [upd_other _ _ _ _ hgf]
    rcases List.mem_cons.mp hg with h' | h'
    · exact absurd h' hgf
    · exact h g h'

theorem Agree.map {K : List Nat} {a b : Env} (h : Agree K a b) {deps : List Nat} (hd : ∀ f ∈ deps, f ∈ K) :
    deps.map a = deps.map b := List.map_congr_left fun f hf => h f (hd f hf)

theorem foldlM_range_succ {α : Type} {m : Type → Type} [Monad m] [LawfulMonad m] (f : α → Nat → m α) (a : α) (n : Nat) :
    (List.range (n + 1)).foldlM f a = (List.range n).foldlM f a >>= fun x => f x n := by
  rw [List.range_succ, List.foldlM_append]; simp

theorem setDefault_val (dflt : Nat → Nat) (p : Prog) (e : Env) (g : Nat) (h : HasDefaults dflt p) :
    setDefault p e g = e g ∨ (Occ g p ∧ setDefault p e g = dflt g) := by
  induction p generalizing e with
  | skip => exact Or.inl rfl
  | check => exact Or.inl rfl
  | seq a b iha ihb =>
    simp only [setDefault, Occ]
    rcases ihb (setDefault a e) h.2 with h1 | ⟨h1, h2⟩
    · rcases iha e h.1 with h3 | ⟨h3, h4⟩
      · left; rw [h1, h3]
      · right; exact ⟨Or.inl h3, by rw [h1, h4]⟩
    · right; exact ⟨Or.inr h1, h2⟩
  | bits n d f =>
    simp only [setDefault, Occ]
    by_cases hg : g = f
    · subst hg; right; rw [upd_self]; exact ⟨rfl, h⟩
    · left; exact upd_other _ _ _ _ hg
  | u32 n d f =>
    simp only [setDefault, Occ]
    by_cases hg : g = f
    · subst hg; right; rw [upd_self]; exact ⟨rfl, h⟩
    · left; exact upd_other _ _ _ _ hg
  | u64 d f =>
    simp only [setDefault, Occ]
    by_cases hg : g = f
    · subst hg; right; rw [upd_self]; exact ⟨rfl, h⟩
    · left; exact upd_other _ _ _ _ hg
  | f16 d f =>
    simp only [setDefault, Occ]
    by_cases hg : g = f
    · subst hg; right; rw [upd_self]; exact ⟨rfl, h⟩
    · left; exact upd_other _ _ _ _ hg
  | enum n d f =>
    simp only [setDefault, Occ]
    by_cases hg : g = f
    · subst hg; right; rw [upd_self]; exact ⟨rfl, h⟩
    · left; exact upd_other _ _ _ _ hg
  | cond deps c p ih => exact ih e h
  | allDefault p ih => exact ih e h
  | ext f p ih =>
    simp only [setDefault, Occ]
    rcases ih (upd e f 0) h.2 with h1 | ⟨h1, h2⟩
    · by_cases hg : g = f
      · subst hg; right; rw [h1, upd_self]; exact ⟨Or.inl rfl, h.1.symm⟩
      · left; rw [h1, upd_other _ _ _ _ hg]
    · right; exact ⟨Or.inr h1, h2⟩
  | rep deps n p ih =>
    simp only [setDefault, Occ]
    generalize n (deps.map e) = k
    induction k with
    | zero => left; rfl
    | succ k ihk =>
      rw [List.range_succ, List.foldl_append]
      simp only [List.foldl_cons, List.foldl_nil]
      rcases ih k ((List.range k).foldl (fun e i => setDefault (p i) e) e) (h k) with h1 | ⟨h1, h2⟩
      · rcases ihk with h3 | ⟨h3, h4⟩
        · left; rw [h1, h3]
        · right; exact ⟨h3, by rw [h1, h4]⟩
      · right; exact ⟨⟨k, h1⟩, h2⟩

theorem known_mono (p : Prog) (e : Env) (K : List Nat) (f : Nat) (h : f ∈ K) : f ∈ known p e K := by
  induction p generalizing K with
  | skip => exact h
  | check => exact h
  | seq a b iha ihb => exact ihb _ (iha _ h)
  | cond deps c p ih => simp only [known]; split; exact ih _ h; exact h
  | allDefault p ih => exact ih _ h
  | ext f p ih => exact ih _ (by simp [h])
  | rep deps n p ih =>
    simp only [known]
    generalize n (deps.map e) = k
    induction k with
    | zero => exact h
    | succ k ihk =>
      rw [List.range_succ, List.foldl_append]
      exact ih k _ ihk
  | _ => simp [known, h]

/-- Setting the defaults restores a bundle that was recognised as all-default. -/
theorem setDefault_agree (near : Nat → Nat → Bool) (dflt : Nat → Nat) (p : Prog) (e env : Env) (K : List Nat)
    (hd : HasDefaults dflt p) (hc : Causal p e K) (ha : Agree K env e) (ho : ∀ g ∈ K, Occ g p → e g = dflt g)
    (hi : isDefault near p e = true) (hg : Good near p e) :
    Agree (known p e K) (setDefault p env) e ∧ ∀ g ∈ known p e K, g ∈ K ∨ (Occ g p ∧ e g = dflt g) := by
  induction p generalizing env K with
  | skip => exact ⟨ha, fun g h => Or.inl h⟩
  | check => exact ⟨ha, fun g h => Or.inl h⟩
  | seq a b iha ihb =>
    simp only [isDefault, Bool.and_eq_true] at hi
    obtain ⟨h1, h2⟩ := iha env K hd.1 hc.1 ha (fun g hg ho' => ho g hg (Or.inl ho')) hi.1 hg.1
    obtain ⟨h3, h4⟩ := ihb (setDefault a env) (known a e K) hd.2 hc.2 h1
      (fun g hg ho' => by
        rcases h2 g hg with h | h
        · exact ho g h (Or.inr ho')
        · exact h.2) hi.2 hg.2
    refine ⟨h3, fun g hg => ?_⟩
    rcases h4 g hg with h | ⟨h, h'⟩
    · rcases h2 g h with h | ⟨h, h'⟩
      · exact Or.inl h
      · exact Or.inr ⟨Or.inl h, h'⟩
    · exact Or.inr ⟨Or.inr h, h'⟩
  | bits n d f =>
    simp only [isDefault, beq_iff_eq] at hi
    simp only [setDefault, known, Occ]
    refine ⟨by rw [← hi]; exact ha.upd f, fun g hg => ?_⟩
    rcases List.mem_cons.mp hg with rfl | hg
    · right; exact ⟨rfl, by rw [hi]; exact hd⟩
    · left; exact hg
  | u32 n d f =>
    simp only [isDefault, beq_iff_eq] at hi
    simp only [setDefault, known, Occ]
    refine ⟨by rw [← hi]; exact ha.upd f, fun g hg => ?_⟩
    rcases List.mem_cons.mp hg with rfl | hg
    · right; exact ⟨rfl, by rw [hi]; exact hd⟩
    · left; exact hg
  | u64 d f =>
    simp only [isDefault, beq_iff_eq] at hi
    simp only [setDefault, known, Occ]
    refine ⟨by rw [← hi]; exact ha.upd f, fun g hg => ?_⟩
    rcases List.mem_cons.mp hg with rfl | hg
    · right; exact ⟨rfl, by rw [hi]; exact hd⟩
    · left; exact hg
  | f16 d f =>
    simp only [isDefault] at hi
    have hi := hg.2 hi
    simp only [setDefault, known, Occ]
    refine ⟨by rw [← hi]; exact ha.upd f, fun g hg => ?_⟩
    rcases List.mem_cons.mp hg with rfl | hg
    · right; exact ⟨rfl, by rw [hi]; exact hd⟩
    · left; exact hg
  | enum n d f =>
    simp only [isDefault, beq_iff_eq] at hi
    simp only [setDefault, known, Occ]
    refine ⟨by rw [← hi]; exact ha.upd f, fun g hg => ?_⟩
    rcases List.mem_cons.mp hg with rfl | hg
    · right; exact ⟨rfl, by rw [hi]; exact hd⟩
    · left; exact hg
  | cond deps c p ih =>
    simp only [isDefault] at hi
    simp only [known, setDefault, Occ]
    by_cases h : c (deps.map e) = true
    · rw [if_pos h] at hi ⊢
      exact ih env K hd (hc.2 h) ha ho hi (hg h)
    · rw [if_neg h]
      refine ⟨fun g hg => ?_, fun g h => Or.inl h⟩
      rcases setDefault_val dflt p env g hd with h1 | ⟨h1, h2⟩
      · rw [h1]; exact ha g hg
      · rw [h2]; exact (ho g hg h1).symm
  | allDefault p ih => exact ih env K hd hc.2 ha ho hi hg
  | ext f p ih =>
    simp only [isDefault, Bool.and_eq_true, beq_iff_eq] at hi
    simp only [known, setDefault, Occ]
    obtain ⟨h1, h2⟩ := ih (upd env f 0) (f :: K) hd.2 hc (by have := ha.upd f; rwa [hi.1] at this)
      (fun g hg ho' => by
        rcases List.mem_cons.mp hg with rfl | hg
        · rw [hi.1, hd.1]
        · exact ho g hg (Or.inr ho')) hi.2 hg.2
    refine ⟨h1, fun g hg => ?_⟩
    rcases h2 g hg with h | h
    · rcases List.mem_cons.mp h with rfl | h
      · right; exact ⟨Or.inl rfl, by rw [hi.1, hd.1]⟩
      · left; exact h
    · right; exact ⟨Or.inr h.1, h.2⟩
  | rep deps n p ih =>
    simp only [known, setDefault, Occ]
    rw [ha.map hc.1]
    have hc2 := hc.2
    simp only [isDefault, List.all_eq_true, List.mem_range] at hi
    simp only [Good] at hg
    simp only [HasDefaults] at hd
    simp only [Occ] at ho
    clear hc
    generalize n (deps.map e) = k at *
    induction k with
    | zero => exact ⟨ha, fun g h => Or.inl h⟩
    | succ k ihk =>
      obtain ⟨h1, h2⟩ := ihk (hi := fun i hi' => hi i (by omega)) (hg := fun i hi' => hg i (by omega)) (hc2 := fun i hi' => hc2 i (by omega))
      rw [List.range_succ, List.foldl_append, List.foldl_append]
      simp only [List.foldl_cons, List.foldl_nil]
      obtain ⟨h3, h4⟩ := ih k _ _ (hd k) (hc2 k (by omega)) h1 (fun g hg ho' => by
        rcases h2 g hg with h | h
        · exact ho g h ⟨k, ho'⟩
        · exact h.2) (hi k (by omega)) (hg k (by omega))
      refine ⟨h3, fun g hg => ?_⟩
      rcases h4 g hg with h | ⟨h, h'⟩
      · exact h2 g h
      · right; exact ⟨⟨k, h⟩, h'⟩

theorem RS.store_append (r : RS) (f v : Nat) (b rest : List Bool) (hs : r.s = b ++ rest) :
    r.store f (some (v, rest)) = some { r with env := upd r.env f v, s := rest, pos := r.pos + b.length } := by
  simp [RS.store, RS.adv, hs]

theorem RS.adv_append (r : RS) (b rest : List Bool) (hs : r.s = b ++ rest) :
    r.adv rest = { r with s := rest, pos := r.pos + b.length } := by
  simp [RS.adv, hs]

/-- Reading what was written, as long as no extension is present. -/
theorem readP_writeP (near : Nat → Nat → Bool) (dflt : Nat → Nat) (x : Nat) (p : Prog) (e : Env) (K : List Nat) (r : RS)
    (b rest : List Bool) (hd : HasDefaults dflt p) (hn : NoExt p e) (hw : writeP near x e p = some b)
    (hg : Good near p e) (hc : Causal p e K) (ha : Agree K r.env e) (hs : r.s = b ++ rest)
    (hx : r.after = 0 ∨ ExtFree p) :
    ∃ env', readP p r = some { r with env := env', s := rest, pos := r.pos + b.length } ∧
      Agree (known p e K) env' e := by
  induction p generalizing K r b rest with
  | skip =>
    simp only [writeP, Option.some.injEq] at hw
    subst hw
    simp only [List.nil_append] at hs
    exact ⟨r.env, by rw [readP, ← hs]; rfl, ha⟩
  | check deps c =>
    simp only [writeP] at hw
    split at hw
    · rename_i h
      simp only [Option.some.injEq] at hw
      subst hw
      simp only [List.nil_append] at hs
      refine ⟨r.env, ?_, ha⟩
      rw [readP, ha.map hc, if_pos h, ← hs]; rfl
    · cases hw
  | seq p q ihp ihq =>
    simp only [writeP, Option.bind_eq_bind] at hw
    obtain ⟨b1, e1, hw⟩ := Option.bind_eq_some_iff.mp hw
    obtain ⟨b2, e2, hw⟩ := Option.bind_eq_some_iff.mp hw
    simp only [Option.some.injEq] at hw
    subst hw
    have hx1 : r.after = 0 ∨ ExtFree p := hx.imp id (·.1)
    have hx2 : r.after = 0 ∨ ExtFree q := hx.imp id (·.2)
    obtain ⟨env1, r1, a1⟩ := ihp K r b1 (b2 ++ rest) hd.1 hn.1 e1 hg.1 hc.1 ha (by rw [hs, List.append_assoc]) hx1
    obtain ⟨env2, r2, a2⟩ := ihq (known p e K) { r with env := env1, s := b2 ++ rest, pos := r.pos + b1.length } b2 rest
      hd.2 hn.2 e2 hg.2 hc.2 a1 rfl hx2
    refine ⟨env2, ?_, a2⟩
    simp only [readP, r1, Option.bind_some, r2, List.length_append, Nat.add_assoc]
  | bits n d f =>
    simp only [writeP, writeBitsField] at hw
    split at hw
    · cases hw
    · rename_i h
      simp only [Option.some.injEq] at hw
      refine ⟨upd r.env f (e f), ?_, ha.upd f⟩
      rw [readP, hs, ← hw, rdBits_append (by omega), RS.store_append r f _ b rest hs, hw]
  | u32 enc d f =>
    simp only [writeP] at hw
    rcases hcs : U32.chooseSelector enc (e f) with _ | ⟨sel, tot⟩
    · rw [U32.write_none.mpr hcs] at hw; cases hw
    · obtain ⟨b', h1, h2, h3⟩ := U32.write_read (show e f < 2 ^ 32 from hg) hcs rest
      rw [hw] at h1; cases h1
      refine ⟨upd r.env f (e f), ?_, ha.upd f⟩
      rw [readP, hs, h3, RS.store_append r f _ b rest hs]
  | u64 d f =>
    simp only [writeP, Option.some.injEq] at hw
    refine ⟨upd r.env f (e f), ?_, ha.upd f⟩
    have := U64.write_read (e f) hg rest
    rw [hw] at this
    rw [readP, hs, this, RS.store_append r f _ b rest hs]
  | f16 d f =>
    obtain ⟨⟨h, hh, h1, h2⟩, _⟩ := hg
    simp only [writeP, F16.write, h2, Option.map_some, Option.some.injEq] at hw
    refine ⟨upd r.env f (e f), ?_, ha.upd f⟩
    rw [readP, hs, ← hw, rdBits_append hh]
    simp only [Option.map_some, h1]
    rw [hw, RS.adv_append r b rest hs]
  | enum valid d f =>
    simp only [writeP, EnumField.write, Option.bind_eq_bind] at hw
    obtain ⟨b', h1, h2⟩ := Option.bind_eq_some_iff.mp hw
    by_cases hv : EnumField.valid valid (e f) = true
    · rw [if_pos hv] at h2
      simp only [Option.some.injEq] at h2
      subst h2
      rcases hcs : U32.chooseSelector EnumField.enc (e f) with _ | ⟨sel, tot⟩
      · rw [U32.write_none.mpr hcs] at h1; cases h1
      · obtain ⟨b'', h1', h2, h3⟩ := U32.write_read (show e f < 2 ^ 32 from hg) hcs rest
        rw [h1] at h1'; cases h1'
        refine ⟨upd r.env f (e f), ?_, ha.upd f⟩
        rw [readP, hs, EnumField.read]
        simp only [h3, Option.bind_eq_bind, Option.bind_some]
        rw [if_pos hv, RS.store_append r f _ b' rest hs]
    · rw [if_neg hv] at h2; cases h2
  | cond deps c p ih =>
    simp only [writeP] at hw
    simp only [readP, known, ha.map hc.1]
    split at hw
    · rename_i h
      rw [if_pos h, if_pos h]
      exact ih K r b rest hd (hn h) hw (hg h) (hc.2 h) ha hs (hx.imp id id)
    · rename_i h
      rw [if_neg h, if_neg h]
      simp only [Option.some.injEq] at hw
      subst hw
      simp only [List.nil_append] at hs
      exact ⟨r.env, by rw [← hs]; rfl, ha⟩
  | allDefault p ih =>
    simp only [writeP] at hw
    simp only [readP, known]
    split at hw
    · rename_i h
      simp only [Option.some.injEq] at hw
      rw [hs, ← hw, rdBits_append (by decide)]
      simp only [Option.bind_some, if_true]
      rw [hw, RS.adv_append r b rest hs]
      refine ⟨setDefault p r.env, rfl, ?_⟩
      exact (setDefault_agree near dflt p e r.env K hd hc.2 ha (fun g hg ho => absurd ho (hc.1 g hg)) h hg).1
    · rename_i h
      obtain ⟨b', h1, h2⟩ := Option.map_eq_some_iff.mp hw
      rw [hs, ← h2, List.append_assoc, rdBits_append (by decide)]
      simp only [Option.bind_some]
      rw [if_neg (by decide), RS.adv_append r (bitsOf 1 0) (b' ++ rest) (by rw [hs, ← h2, List.append_assoc])]
      obtain ⟨env', r1, a1⟩ := ih K { r with s := b' ++ rest, pos := r.pos + (bitsOf 1 0).length } b' rest hd hn h1 hg hc.2 ha
        rfl (hx.imp id id)
      refine ⟨env', ?_, a1⟩
      rw [r1]; simp; omega
  | ext f p ih =>
    obtain ⟨h0, hn⟩ := hn
    rcases hx with hx | hx
    · simp only [writeP, h0, if_true] at hw
      split at hw
      · obtain ⟨b', h1, h2⟩ := Option.map_eq_some_iff.mp hw
        have hs' : r.s = U64.write 0 ++ (b' ++ rest) := by rw [hs, ← h2, List.append_assoc]
        simp only [readP, known, beginExt]
        rw [hs', U64.write_read 0 (by decide), RS.store_append r f 0 (U64.write 0) (b' ++ rest) hs']
        simp only [Option.bind_eq_bind, Option.bind_some, upd_self, if_true]
        obtain ⟨env', r1, a1⟩ := ih (f :: K)
          { r with env := upd r.env f 0, s := b' ++ rest, pos := r.pos + (U64.write 0).length } b' rest hd.2 hn h1 hg.2 hc
          (by have := ha.upd f; rwa [h0] at this) rfl (Or.inl hx)
        refine ⟨env', ?_, a1⟩
        rw [r1]
        simp only [Option.bind_some, endExt, hx, if_true]
        rw [← h2]; simp [Nat.add_assoc]
      · cases hw
    · exact absurd hx (by simp [ExtFree])
  | rep deps n p ih =>
    simp only [writeP] at hw
    simp only [readP, known, ha.map hc.1]
    have hc2 := hc.2
    simp only [Good] at hg
    simp only [HasDefaults] at hd
    simp only [NoExt] at hn
    clear hc
    generalize n (deps.map e) = k at *
    induction k generalizing b rest with
    | zero =>
      simp only [List.range_zero, List.foldlM_nil, Option.pure_def, Option.some.injEq] at hw
      subst hw
      simp only [List.nil_append] at hs
      refine ⟨r.env, ?_, ha⟩
      simp only [List.range_zero, List.foldlM_nil, Option.pure_def]
      rw [← hs]; rfl
    | succ k ihk =>
      rw [foldlM_range_succ] at hw ⊢
      simp only [Option.bind_eq_bind] at hw ⊢
      obtain ⟨b1, e1, hw⟩ := Option.bind_eq_some_iff.mp hw
      obtain ⟨b2, e2, hw⟩ := Option.map_eq_some_iff.mp hw
      subst hw
      obtain ⟨env1, r1, a1⟩ := ihk b1 (b2 ++ rest) (hw := e1) (hs := by rw [hs, List.append_assoc]) (hn := fun i hi => hn i (by omega))
        (hg := fun i hi => hg i (by omega)) (hc2 := fun i hi => hc2 i (by omega))
      rw [r1, Option.bind_some, List.range_succ, List.foldl_append]
      simp only [List.foldl_cons, List.foldl_nil]
      obtain ⟨env2, r2, a2⟩ := ih k _ { r with env := env1, s := b2 ++ rest, pos := r.pos + b1.length } b2 rest
        (hd k) (hn k (by omega)) e2 (hg k (by omega)) (hc2 k (by omega)) a1 rfl (hx.imp id (· k))
      refine ⟨env2, ?_, a2⟩
      rw [r2]; simp [Nat.add_assoc]

/-- The announced size is the size written (no extensions). -/
theorem canP_writeP (near : Nat → Nat → Bool) (x : Nat) (p : Prog) (e : Env) (c c' : CS) (b : List Bool)
    (hn : NoExt p e) (hcan : canP near e p c = some c') (hw : writeP near x e p = some b) :
    c'.n = c.n + b.length ∧ c'.after = c.after ∧ (ExtFree p → c'.exts = c.exts) := by
  induction p generalizing c c' b with
  | skip =>
    simp only [canP, writeP, Option.some.injEq] at hcan hw
    subst hcan; subst hw; simp
  | check deps g =>
    simp only [canP, writeP] at hcan hw
    split at hw
    · rw [if_pos (by assumption)] at hcan
      simp only [Option.some.injEq] at hcan hw
      subst hcan; subst hw; simp
    · cases hw
  | seq p q ihp ihq =>
    simp only [canP, writeP, Option.bind_eq_bind] at hcan hw
    obtain ⟨b1, e1, hw⟩ := Option.bind_eq_some_iff.mp hw
    obtain ⟨b2, e2, hw⟩ := Option.bind_eq_some_iff.mp hw
    obtain ⟨c1, f1, f2⟩ := Option.bind_eq_some_iff.mp hcan
    simp only [Option.some.injEq] at hw
    subst hw
    obtain ⟨g1, g2, g3⟩ := ihp c c1 b1 hn.1 f1 e1
    obtain ⟨g4, g5, g6⟩ := ihq c1 c' b2 hn.2 f2 e2
    refine ⟨by simp; omega, by rw [g5, g2], fun h => by rw [g6 h.2, g3 h.1]⟩
  | bits n d f =>
    simp only [canP, canEncodeBits, writeP, writeBitsField] at hcan hw
    split at hw
    · cases hw
    · rw [if_neg (by assumption)] at hcan
      simp only [Option.map_some, Option.some.injEq] at hcan hw
      subst hcan; subst hw; simp
  | u32 enc d f =>
    simp only [canP, writeP] at hcan hw
    obtain ⟨k, h1, h2⟩ := Option.map_eq_some_iff.mp hcan
    simp only [U32.canEncode] at h1
    obtain ⟨⟨sel, tot⟩, h3, h4⟩ := Option.map_eq_some_iff.mp h1
    have : b.length = k := by
      obtain ⟨g1, g2, g3, _⟩ := U32.chooseSelector_some h3
      simp only [U32.write, h3, Option.bind_eq_bind, Option.bind_some] at hw
      simp only at h4
      split at hw
      · rename_i hdir
        simp only [Option.some.injEq] at hw
        rw [← hw]; simp [U32.payload, hdir] at g2; simp; omega
      · split at hw
        · cases hw
        · simp only [Option.some.injEq] at hw
          rw [← hw]; simp; omega
    subst h2; simp [this]
  | u64 d f =>
    simp only [canP, writeP, Option.some.injEq] at hcan hw
    subst hcan; subst hw; simp [U64.write_length]
  | f16 d f =>
    simp only [canP, writeP, F16.write] at hcan hw
    obtain ⟨h, h1, h2⟩ := Option.map_eq_some_iff.mp hw
    split at hcan
    · simp only [Option.some.injEq] at hcan
      subst hcan; subst h2; simp
    · cases hcan
  | enum valid d f =>
    simp only [canP, writeP, EnumField.write, Option.bind_eq_bind] at hcan hw
    obtain ⟨k, h1, h2⟩ := Option.bind_eq_some_iff.mp hcan
    obtain ⟨b', h5, h6⟩ := Option.bind_eq_some_iff.mp hw
    simp only [U32.canEncode] at h1
    obtain ⟨⟨sel, tot⟩, h3, h4⟩ := Option.map_eq_some_iff.mp h1
    have : b'.length = k := by
      obtain ⟨g1, g2, g3, _⟩ := U32.chooseSelector_some h3
      simp only [U32.write, h3, Option.bind_eq_bind, Option.bind_some] at h5
      simp only at h4
      split at h5
      · rename_i hdir
        simp only [Option.some.injEq] at h5
        rw [← h5]; simp [U32.payload, hdir] at g2; simp; omega
      · split at h5
        · cases h5
        · simp only [Option.some.injEq] at h5
          rw [← h5]; simp; omega
    split at h2
    · rename_i hv
      rw [if_pos hv] at h6
      simp only [Option.some.injEq] at h2 h6
      subst h2; subst h6; simp [this]
    · cases h2
  | cond deps g p ih =>
    simp only [canP, writeP] at hcan hw
    split at hw
    · rename_i h
      rw [if_pos h] at hcan
      exact ih c c' b (hn h) hcan hw
    · rename_i h
      rw [if_neg h] at hcan
      simp only [Option.some.injEq] at hcan hw
      subst hcan; subst hw; simp
  | allDefault p ih =>
    simp only [canP, writeP] at hcan hw
    split at hw
    · rename_i h
      rw [if_pos h] at hcan
      simp only [Option.some.injEq] at hcan hw
      subst hcan; subst hw; simp
    · rename_i h
      rw [if_neg h] at hcan
      obtain ⟨b', h1, h2⟩ := Option.map_eq_some_iff.mp hw
      obtain ⟨g1, g2, g3⟩ := ih _ c' b' hn hcan h1
      subst h2
      dsimp only at g1 g2 g3
      refine ⟨by simp; omega, g2, g3⟩
  | ext f p ih =>
    obtain ⟨h0, hn⟩ := hn
    simp only [canP, writeP, h0, if_true] at hcan hw
    simp only [ne_eq, not_true_eq_false, if_false] at hcan
    split at hw
    · obtain ⟨b', h1, h2⟩ := Option.map_eq_some_iff.mp hw
      obtain ⟨g1, g2, g3⟩ := ih _ c' b' hn hcan h1
      subst h2
      refine ⟨by simp only [List.length_append, U64.write_length] at *; omega, g2, fun h => absurd h (by simp [ExtFree])⟩
    · cases hw
  | rep deps n p ih =>
    simp only [canP, writeP] at hcan hw
    simp only [NoExt] at hn
    simp only [ExtFree]
    generalize n (deps.map e) = k at *
    induction k generalizing b c' with
    | zero =>
      simp only [List.range_zero, List.foldlM_nil, Option.pure_def, Option.some.injEq] at hw hcan
      subst hw; subst hcan; simp
    | succ k ihk =>
      rw [foldlM_range_succ] at hw hcan
      simp only [Option.bind_eq_bind] at hw hcan
      obtain ⟨b1, e1, hw⟩ := Option.bind_eq_some_iff.mp hw
      obtain ⟨b2, e2, hw⟩ := Option.map_eq_some_iff.mp hw
      obtain ⟨c1, f1, f2⟩ := Option.bind_eq_some_iff.mp hcan
      subst hw
      obtain ⟨g1, g2, g3⟩ := ihk c1 b1 (fun i hi => hn i (by omega)) f1 e1
      obtain ⟨g4, g5, g6⟩ := ih k c1 c' b2 (hn k (by omega)) f2 e2
      refine ⟨by simp; omega, by rw [g5, g2], fun h => by rw [g6 (h k), g3 h]⟩

theorem NoExt_of_ExtFree (p : Prog) (e : Env) (h : ExtFree p) : NoExt p e := by
  induction p with
  | seq a b iha ihb => exact ⟨iha h.1, ihb h.2⟩
  | cond deps c p ih => exact fun _ => ih h
  | allDefault p ih => exact ih h
  | ext f p => exact absurd h (by simp [ExtFree])
  | rep deps n p ih => exact fun i _ => ih i (h i)
  | _ => trivial

theorem readSizes_zeros (k : Nat) (r : RS) (rest : List Bool)
    (hs : r.s = (List.replicate k (U64.write 0)).flatten ++ rest) (ht : r.total < 2 ^ 64) :
    readSizes k r = some { r with s := rest, pos := r.pos + 2 * k } := by
  induction k generalizing r with
  | zero => simp only [List.replicate_zero, List.flatten_nil, List.nil_append] at hs; simp [readSizes, ← hs]
  | succ k ih =>
    simp only [List.replicate_succ, List.flatten_cons, List.append_assoc] at hs
    simp only [readSizes]
    rw [hs, U64.write_read 0 (by decide)]
    simp only [Option.bind_eq_bind, Option.bind_some, Nat.add_zero]
    rw [if_pos ht, RS.adv_append r (U64.write 0) _ hs]
    dsimp only
    rw [ih { r with s := _, pos := _ } rfl ht]
    have : (U64.write 0).length = 2 := by decide
    simp [this]; omega

theorem popCount_pos {x : Nat} (h : x ≠ 0) (hx : x < 2 ^ 64) : 0 < popCount x := by
  rw [popCount, List.length_pos_iff]
  intro hf
  apply h
  apply Nat.eq_of_testBit_eq
  intro i
  rw [Nat.zero_testBit]
  by_cases hi : i < 64
  · rw [List.filter_eq_nil_iff] at hf
    simpa using hf i (by simpa using hi)
  · exact Nat.testBit_lt_two_pow (Nat.lt_of_lt_of_le hx (Nat.pow_le_pow_right (by decide) (by omega)))

end Jxl.Bundle

namespace Jxl.Bundle

theorem U64_two_le (v : Nat) : 2 ≤ U64.encodedBits v := by
  unfold U64.encodedBits
  split
  · omega
  split
  · omega
  split <;> omega

theorem U64_len0 : (U64.write 0).length = 2 := by decide

/-- A bundle ending in extensions: the newer writer's extension payload is `body` then `more`; the reader knows `body`. -/
theorem ext_main (near : Nat → Nat → Bool) (dflt : Nat → Nat) (h body more : Prog) (f : Nat) (e : Env)
    (K : List Nat) (r : RS) (c c' : CS) (x total : Nat) (b rest : List Bool)
    (hf : e f ≠ 0) (hd : HasDefaults dflt (.seq h (.ext f body))) (hn : NoExt h e) (hb : ExtFree body) (hm : ExtFree more)
    (hg : Good near (.seq h (.ext f body)) e) (hc : Causal (.seq h (.ext f body)) e K) (ha : Agree K r.env e)
    (hcan : canP near e (.seq h (.ext f (.seq body more))) c = some c') (hca : c.after = 0)
    (hx : sizes c' = some (x, total))
    (hw : writeP near x e (.seq h (.ext f (.seq body more))) = some b)
    (hr : r.after = 0) (ht : r.total = 0) (hs : r.s = b ++ rest) (hlen : r.pos + b.length < 2 ^ 64) :
    total = c.n + b.length ∧
    ∃ env' r', readP (.seq h (.ext f body)) r = some r' ∧ r'.env = env' ∧ r'.s = rest ∧ r'.ok = r.ok ∧ r'.pos = r.pos + b.length ∧
      Agree (known (.seq h (.ext f body)) e K) env' e := by
  simp only [writeP, if_neg hf, Option.bind_eq_bind] at hw
  obtain ⟨bh, w1, hw⟩ := Option.bind_eq_some_iff.mp hw
  obtain ⟨bt, w2, hw⟩ := Option.bind_eq_some_iff.mp hw
  obtain ⟨t, w3, w4⟩ := Option.map_eq_some_iff.mp w2
  obtain ⟨bb, w5, w3⟩ := Option.bind_eq_some_iff.mp w3
  obtain ⟨bm, w6, w3⟩ := Option.bind_eq_some_iff.mp w3
  simp only [Option.some.injEq] at hw w3
  simp only [canP] at hcan
  obtain ⟨c1, k1, hcan⟩ := Option.bind_eq_some_iff.mp hcan
  rw [if_pos hf] at hcan
  split at hcan
  case isFalse => cases hcan
  rename_i hcc
  obtain ⟨g1, g2, g3⟩ := canP_writeP near x h e c c1 bh hn k1 w1
  have hwt : writeP near x e (.seq body more) = some t := by simp only [writeP, w5, w6, Option.bind_eq_bind, Option.bind_some, w3]
  obtain ⟨g4, g5, g6⟩ := canP_writeP near x (.seq body more) e _ c' t
    (NoExt_of_ExtFree _ _ ⟨hb, hm⟩) (by simpa only [canP] using hcan) hwt
  have g6 := g6 ⟨hb, hm⟩
  dsimp only at g4 g5 g6 hcc
  have hpop := popCount_pos hf hg.2.1
  have hl0 : U64.encodedBits 0 = 2 := by decide
  have hlt : t.length = bb.length + bm.length := by rw [← w3]; simp
  rw [sizes, if_pos (by rw [g5]; omega), if_pos (by rw [g4, g5]; omega)] at hx
  simp only [Option.some.injEq, Prod.mk.injEq] at hx
  obtain ⟨hx, htot⟩ := hx
  have hxt : x = t.length := by rw [← hx, g4, g5]; omega
  have hrep : ((List.replicate (popCount (e f) - 1) (U64.write 0)).flatten).length = (popCount (e f) - 1) * 2 := by
    rw [List.length_flatten, List.map_replicate, U64_len0]; simp
  have hbl : b.length = bh.length + U64.encodedBits (e f) + U64.encodedBits x + (popCount (e f) - 1) * 2 + t.length := by
    rw [← hw, ← w4]
    simp only [List.length_append, U64.write_length, hrep]; omega
  refine ⟨?_, ?_⟩
  · rw [← htot, g6, hl0, hx, hbl, g4, g1]; omega
  have hx64 : x < 2 ^ 64 := by omega
  have hs1 : r.s = bh ++ (U64.write (e f) ++ (U64.write x ++ ((List.replicate (popCount (e f) - 1) (U64.write 0)).flatten ++
      (bb ++ (bm ++ rest))))) := by
    rw [hs, ← hw, ← w4, ← w3]; simp only [List.append_assoc]
  obtain ⟨env1, r1, a1⟩ := readP_writeP near dflt x h e K r bh _ hd.1 hn w1 hg.1 hc.1 ha hs1 (Or.inl hr)
  obtain ⟨k, hk⟩ : ∃ k, popCount (e f) = k + 1 := ⟨popCount (e f) - 1, by omega⟩
  rw [hk, Nat.add_sub_cancel] at hs1 r1 hbl
  have hbe : beginExt f { r with env := env1, s := (U64.write (e f) ++ (U64.write x ++ ((List.replicate k (U64.write 0)).flatten ++ (bb ++ (bm ++ rest))))), pos := r.pos + bh.length } =
      some { r with env := upd env1 f (e f), s := bb ++ (bm ++ rest), total := x, pos := r.pos + (b.length - t.length), after := r.pos + (b.length - t.length) } := by
    unfold beginExt
    rw [U64.write_read (e f) hg.2.1, RS.store_append _ f (e f) (U64.write (e f)) _ rfl]
    simp only [Option.bind_eq_bind, Option.bind_some, upd_self, if_neg hf, hk, readSizes]
    rw [U64.write_read x hx64, Option.bind_some]
    dsimp only
    rw [ht, Nat.zero_add, if_pos hx64, RS.adv_append _ (U64.write x) _ rfl]
    dsimp only
    rw [readSizes_zeros k { r with env := _, s := _, pos := _, total := x } (bb ++ (bm ++ rest)) rfl hx64, Option.bind_some]
    dsimp only
    have hp : r.pos + bh.length + (U64.write (e f)).length + (U64.write x).length + 2 * k = r.pos + (b.length - t.length) := by
      rw [hbl, U64.write_length, U64.write_length]; omega
    have h2 := U64_two_le (e f)
    rw [hp, if_pos (by omega)]
  obtain ⟨env2, r2, a2⟩ := readP_writeP near dflt x body e (f :: known h e K)
    { r with env := upd env1 f (e f), s := bb ++ (bm ++ rest), total := x, pos := r.pos + (b.length - t.length), after := r.pos + (b.length - t.length) } bb (bm ++ rest)
    hd.2.2 (NoExt_of_ExtFree _ _ hb) w5 hg.2.2 hc.2 (a1.upd f) rfl (Or.inr hb)
  refine ⟨env2, { r with env := env2, s := rest, total := x, pos := r.pos + b.length, after := r.pos + (b.length - t.length) },
    ?_, rfl, rfl, rfl, rfl, a2⟩
  simp only [readP, r1, Option.bind_some]
  rw [hbe, Option.bind_some, r2, Option.bind_some]
  simp only [endExt]
  have hpos : r.pos + (b.length - t.length) ≠ 0 := by
    have h2 := U64_two_le (e f)
    omega
  rw [if_neg hpos, if_pos (by omega), if_neg (by omega), if_pos (by simp; omega)]
  have : r.pos + (b.length - t.length) + x - (r.pos + (b.length - t.length) + bb.length) = bm.length := by omega
  rw [this, List.drop_left]
  have : r.pos + (b.length - t.length) + bb.length + bm.length = r.pos + b.length := by omega
  rw [this]

end Jxl.Bundle
