import Verif.Lemmas.AcTokensBlock
/-! Channels, passes and transforms of a group. -/
namespace Jxl.AcTokens
open CoeffOrder Spec

/-- The transform covers this place of the channel. -/
def Env.Covers (e : Env) (u : Visit) (c a b : Nat) : Prop :=
  e.sx u c ≤ a ∧ a < e.sx u c + coveredX.getD u.t 0 ∧ e.sy u c ≤ b ∧ b < e.sy u c + coveredY.getD u.t 0

/-- Both images of numbers of nonzeros agree where something has been written. -/
def Agree (e : Env) (done : List Visit) (c : Nat) (nzE nzD : NzImage) : Prop :=
  ∀ u ∈ done, e.has u c = true → ∀ a b, e.Covers u c a b → nzE a b = nzD a b

/-- The neighbours used for prediction have been written. -/
def Ready (e : Env) (done : List Visit) (v : Visit) (c : Nat) : Prop :=
  (e.sx v c ≠ 0 → ∃ u ∈ done, e.has u c = true ∧ e.Covers u c (e.sx v c - 1) (e.sy v c)) ∧
    (e.sy v c ≠ 0 → ∃ u ∈ done, e.has u c = true ∧ e.Covers u c (e.sx v c) (e.sy v c - 1))

theorem predict_agree {e : Env} {done : List Visit} {v : Visit} {c : Nat} {nzE nzD : NzImage}
    (ha : Agree e done c nzE nzD) (hr : Ready e done v c) :
    predict nzD (e.sx v c) (e.sy v c) = predict nzE (e.sx v c) (e.sy v c) := by
  have h1 : e.sx v c ≠ 0 → nzE (e.sx v c - 1) (e.sy v c) = nzD (e.sx v c - 1) (e.sy v c) := fun h => by
    obtain ⟨u, hu, h1, h2⟩ := hr.1 h
    exact ha u hu h1 _ _ h2
  have h2 : e.sy v c ≠ 0 → nzE (e.sx v c) (e.sy v c - 1) = nzD (e.sx v c) (e.sy v c - 1) := fun h => by
    obtain ⟨u, hu, h1, h2⟩ := hr.2 h
    exact ha u hu h1 _ _ h2
  unfold predict
  by_cases hx : e.sx v c = 0
  · rw [if_pos hx, if_pos hx]
    by_cases hy : e.sy v c = 0
    · rw [if_pos hy, if_pos hy]
    · rw [if_neg hy, if_neg hy, h2 hy]
  · rw [if_neg hx, if_neg hx]
    by_cases hy : e.sy v c = 0
    · rw [if_pos hy, if_pos hy, h1 hx]
    · rw [if_neg hy, if_neg hy, h1 hx, h2 hy]

theorem mark_agree {e : Env} {done : List Visit} {v : Visit} {c st : Nat} {nzE nzD : NzImage}
    (ha : Agree e done c nzE nzD) : Agree e (done ++ [v]) c (e.mark v c nzE st) (e.mark v c nzD st) := by
  intro u hu hh a b hc
  unfold Env.mark fill
  by_cases hin : e.sx v c ≤ a ∧ a < e.sx v c + coveredX.getD v.t 0 ∧ e.sy v c ≤ b ∧ b < e.sy v c + coveredY.getD v.t 0
  · rw [if_pos hin, if_pos hin]
  · rw [if_neg hin, if_neg hin]
    rcases List.mem_append.1 hu with h | h
    · exact ha u h hh a b hc
    · rw [List.mem_singleton] at h
      subst h
      exact absurd hc hin

theorem skip_agree {e : Env} {done : List Visit} {v : Visit} {c : Nat} {nzE nzD : NzImage} (hv : ¬ e.has v c = true)
    (ha : Agree e done c nzE nzD) : Agree e (done ++ [v]) c nzE nzD := by
  intro u hu hh a b hc
  rcases List.mem_append.1 hu with h | h
  · exact ha u h hh a b hc
  · rw [List.mem_singleton] at h
    subst h
    exact absurd hh hv

/-- The array after adding values to the coefficients that are not low frequencies. -/
def plus (bits base : Nat) (v : Visit) (f : Nat → Int) (co : Nat → Int) : Nat → Int := fun i =>
  if base ≤ i ∧ i - base < v.size ∧ ¬ Low v (i - base) then wrap bits (co i + f (i - base)) else co i

theorem added_plus {bits base shift : Nat} {v : Visit} {order : List Nat} {block co : Nat → Int}
    (ho : GoodOrder v.t order) :
    added bits base shift (order.drop v.covered) block co = plus bits base v (fun p => block p * 2 ^ shift) co := by
  obtain ⟨-, -, hmem, -⟩ := rest_facts ho
  rw [← covered_cxcy] at hmem
  funext i
  unfold added plus
  have : base ≤ i ∧ i - base ∈ order.drop v.covered ↔ base ≤ i ∧ i - base < v.size ∧ ¬ Low v (i - base) := by
    rw [hmem, Visit.size, Nat.mul_comm]; rfl
  by_cases h : base ≤ i ∧ i - base ∈ order.drop v.covered
  · rw [if_pos h, if_pos (this.1 h)]
  · rw [if_neg h, if_neg (fun h' => h (this.2 h'))]

theorem plus_plus (bits base : Nat) (v : Visit) (f g : Nat → Int) (co : Nat → Int) :
    plus bits base v g (plus bits base v f co) = plus bits base v (fun p => f p + g p) co := by
  funext i
  unfold plus
  by_cases h : base ≤ i ∧ i - base < v.size ∧ ¬ Low v (i - base)
  · rw [if_pos h, if_pos h, if_pos h, wrap_add, Int.add_assoc]
  · rw [if_neg h, if_neg h, if_neg h]

theorem plus_zero {bits base : Nat} {v : Visit} {co : Nat → Int} (hw : ∀ i, wrap bits (co i) = co i) :
    plus bits base v (fun _ => 0) co = co := by
  funext i
  unfold plus
  split
  · rw [Int.add_zero, hw]
  · rfl

theorem plus_range {bits base : Nat} {v : Visit} {f co : Nat → Int} (hw : ∀ i, wrap bits (co i) = co i) (i : Nat) :
    wrap bits (plus bits base v f co i) = plus bits base v f co i := by
  unfold plus
  split
  · exact wrap_wrap _ _
  · exact hw i

theorem set1_self {α : Type} (f : Nat → α) (i : Nat) : set1 f i (f i) = f := by
  funext j
  unfold set1
  split
  · next h => rw [h]
  · rfl

theorem set1_set1 {α : Type} (f : Nat → α) (i : Nat) (a b : α) : set1 (set1 f i a) i b = set1 f i b := by
  funext j
  unfold set1
  split <;> rfl

theorem set1_eq {α : Type} (f : Nat → α) (i : Nat) (a : α) : set1 f i a i = a := if_pos rfl
theorem set1_ne {α : Type} (f : Nat → α) {i j : Nat} (a : α) (h : j ≠ i) : set1 f i a j = f j := if_neg h

/-- The passes of one channel. -/
theorem passes_ok (bits : Nat) (e : Env) (v : Visit) (c base : Nat) (nz' : Nat → NzImage) (rest : Nat → List Token)
    (block : Nat → Nat → Int) : ∀ (qs : List Pass) (i : Nat) (s : DecState), (∀ k, wrap bits (s.co c k) = s.co c k) →
      (∀ (j : Nat) (q : Pass), qs[j]? = some q → ∀ co : Nat → Int, (∀ k, wrap bits (co k) = co k) →
        decBlock bits e q v c base (s.nz (i + j) c) (s.ts (i + j)) co =
          .ok (nz' (i + j), rest (i + j), plus bits base v (fun p => block (i + j) p * 2 ^ q.shift) co)) →
      decPasses bits e v c base qs i s =
        .ok ⟨fun j => if i ≤ j ∧ j < i + qs.length then set1 (s.nz j) c (nz' j) else s.nz j,
          fun j => if i ≤ j ∧ j < i + qs.length then rest j else s.ts j,
          set1 s.co c (plus bits base v (fun p => total qs i (fun j => block j p)) (s.co c))⟩ := by
  intro qs
  induction qs with
  | nil =>
    intro i s hw _
    unfold decPasses
    have h1 : (fun j => if i ≤ j ∧ j < i + ([] : List Pass).length then set1 (s.nz j) c (nz' j) else s.nz j) = s.nz := by
      funext j
      rw [if_neg (by rw [List.length_nil]; omega)]
    have h2 : (fun j => if i ≤ j ∧ j < i + ([] : List Pass).length then rest j else s.ts j) = s.ts := by
      funext j
      rw [if_neg (by rw [List.length_nil]; omega)]
    rw [h1, h2]
    unfold total
    rw [plus_zero hw, set1_self]
  | cons q qs ih =>
    intro i s hw hd
    rw [decPasses]
    have h0 := hd 0 q rfl (s.co c) hw
    rw [Nat.add_zero] at h0
    rw [h0]
    simp only [Out.bind]
    rw [ih (i + 1)]
    · rw [List.length_cons]
      congr 2
      · funext j
        by_cases hj : j = i
        · subst hj
          rw [if_neg (by omega), if_pos (by omega)]
          exact if_pos rfl
        · dsimp only
          rw [set1_ne _ _ hj]
          by_cases h : i + 1 ≤ j ∧ j < i + 1 + qs.length
          · rw [if_pos h, if_pos (by omega)]
          · rw [if_neg h, if_neg (by omega)]
      · funext j
        by_cases hj : j = i
        · subst hj
          rw [if_neg (by omega), if_pos (by omega)]
          exact if_pos rfl
        · dsimp only
          rw [set1_ne _ _ hj]
          by_cases h : i + 1 ≤ j ∧ j < i + 1 + qs.length
          · rw [if_pos h, if_pos (by omega)]
          · rw [if_neg h, if_neg (by omega)]
      · dsimp only
        rw [set1_eq, set1_set1, plus_plus]
        rfl
    · intro k
      dsimp only
      rw [set1_eq]
      exact plus_range hw k
    · intro j q' hq co hco
      have := hd (j + 1) q' hq co hco
      dsimp only
      rw [set1_ne _ _ (by omega), set1_ne _ _ (by omega)]
      rwa [show i + 1 + j = i + (j + 1) by omega]

/-- What is assumed about the transforms of a group, the passes and the coefficients. -/
structure Hyp (e : Env) (qs : List Pass) (ord : Nat → Nat → Nat → List Nat) (ac : Nat → Nat → Nat → Int) : Prop where
  map : MapOk e.cm
  pass : ∀ q ∈ qs, PassOk e.cm q
  ords : ∀ (j : Nat) (q : Pass), qs[j]? = some q → q.order = ord j
  range : ∀ j c i, -2 ^ 31 ≤ ac j c i ∧ ac j c i < 2 ^ 31

/-- What is assumed about one transform. -/
structure VHyp (e : Env) (np : Nat) (ord : Nat → Nat → Nat → List Nat) (v : Visit) : Prop where
  kind : v.t < 27
  dc : e.qdc v.bx v.by' < e.cm.numDcCtxs
  good : ∀ j, j < np → ∀ c, c < 3 → GoodOrder v.t (ord j (ordOf v.t) c)

/-- The channels of one transform. -/
theorem chans_ok {e : Env} {qs : List Pass} {ord : Nat → Nat → Nat → List Nat} {ac : Nat → Nat → Nat → Int}
    (H : Hyp e qs ord ac) {v : Visit} (V : VHyp e qs.length ord v) (done : List Visit) (off : Nat → Nat)
    (hr : ∀ c, c < 3 → e.has v c = true → Ready e done v c)
    (hz : ∀ c, c < 3 → e.has v c = true → v.covered ≠ 1 → ∀ i, i < v.size → Low v i → ∀ j, j < qs.length →
      ac j c (off c + i) = 0) :
    ∀ (cs : List Nat) (es : Nat → EncState), cs.Nodup → (∀ c ∈ cs, c < 3) →
      (∀ j, j < qs.length → ∀ c ∈ cs, (es j).off c = off c) →
      ∃ (toks : Nat → List Token) (es' : Nat → EncState),
        (∀ j, j < qs.length → encChans e (ord j) (ac j) v cs (es j) = .ok (toks j, es' j) ∧
          (∀ x ∈ toks j, x.1 < e.cm.numACContexts ∧ x.2 < 2 ^ 32) ∧
          (∀ c, (es' j).off c = if c ∈ cs ∧ e.has v c = true then (es j).off c + v.size else (es j).off c) ∧
          ∀ c, c ∉ cs → (es' j).nz c = (es j).nz c) ∧
        ∀ (bits base : Nat) (rest : Nat → List Token) (s : DecState), (∀ c k, wrap bits (s.co c k) = s.co c k) →
          (∀ j, j < qs.length → s.ts j = toks j ++ rest j) →
          (∀ j, j < qs.length → ∀ c ∈ cs, Agree e done c ((es j).nz c) (s.nz j c)) →
          ∃ s', decChans bits e qs v base cs s = .ok s' ∧
            (∀ j, j < qs.length → s'.ts j = rest j ∧
              (∀ c ∈ cs, Agree e (done ++ [v]) c ((es' j).nz c) (s'.nz j c)) ∧ ∀ c, c ∉ cs → s'.nz j c = s.nz j c) ∧
            s'.co = fun c => if c ∈ cs ∧ e.has v c = true then
              plus bits base v (fun p => total qs 0 fun j => ac j c (off c + p)) (s.co c) else s.co c := by
  intro cs
  induction cs with
  | nil =>
    intro es _ _ _
    refine ⟨fun _ => [], es, fun j hj => ⟨rfl, fun x hx => absurd hx List.not_mem_nil, fun c => ?_, fun _ _ => rfl⟩, ?_⟩
    · rw [if_neg (fun h => absurd h.1 List.not_mem_nil)]
    · intro bits base rest s hw hts ha
      refine ⟨s, rfl, fun j hj => ⟨by rw [hts j hj]; rfl, fun c hc => absurd hc List.not_mem_nil, fun _ _ => rfl⟩, ?_⟩
      funext c
      rw [if_neg (fun h => absurd h.1 List.not_mem_nil)]
  | cons c cs ih =>
    intro es hnd h3 hoff
    rw [List.nodup_cons] at hnd
    have hc3 : c < 3 := h3 c List.mem_cons_self
    by_cases hh : e.has v c = true
    · -- the block is there
      have hblk : ∀ j, ∃ (p : List Token × Nat), j < qs.length →
          (encBlock e (ord j (ordOf v.t) c) v c (fun i => ac j c (off c + i)) ((es j).nz c) =
              .ok (p.1, e.mark v c ((es j).nz c) p.2) ∧
            (∀ x ∈ p.1, x.1 < e.cm.numACContexts ∧ x.2 < 2 ^ 32) ∧
            ∀ (bits : Nat) (q : Pass) (base : Nat) (rest : List Token) (co : Nat → Int) (nzD : NzImage),
              q.order (ordOf v.t) c = ord j (ordOf v.t) c → PassOk e.cm q → (∀ i, wrap bits (co i) = co i) →
              predict nzD (e.sx v c) (e.sy v c) = predict ((es j).nz c) (e.sx v c) (e.sy v c) →
              decBlock bits e q v c base nzD (p.1 ++ rest) co =
                .ok (e.mark v c nzD p.2, rest,
                  added bits base q.shift ((ord j (ordOf v.t) c).drop v.covered) (fun i => ac j c (off c + i)) co)) := by
        intro j
        by_cases hj : j < qs.length
        · obtain ⟨toks, st, b1, b2, b3⟩ := block_round_trip (e := e) (c := c) (block := fun i => ac j c (off c + i))
            V.kind (V.good j hj c hc3) H.map V.dc (fun p => H.range j c _)
            (fun h i hi hl => hz c hc3 hh h i hi hl j hj) ((es j).nz c)
          exact ⟨(toks, st), fun _ => ⟨b1, b2, b3⟩⟩
        · exact ⟨([], 0), fun h => absurd h hj⟩
      obtain ⟨bt, hbt⟩ := Classical.axiomOfChoice hblk
      obtain ⟨toks, es', t1, t2⟩ := ih
        (fun j => ⟨set1 (es j).nz c (e.mark v c ((es j).nz c) (bt j).2), set1 (es j).off c ((es j).off c + v.size)⟩) hnd.2
        (fun c hc => h3 c (List.mem_cons_of_mem _ hc))
        (fun j hj c' hc' => by
          dsimp only
          have hcc : c' ≠ c := fun h => hnd.1 (h ▸ hc')
          rw [set1_ne _ _ hcc]
          exact hoff j hj c' (List.mem_cons_of_mem _ hc'))
      refine ⟨fun j => (bt j).1 ++ toks j, es', ?_, ?_⟩
      · intro j hj
        obtain ⟨a1, a2, a3, a4⟩ := t1 j hj
        obtain ⟨b1, b2, -⟩ := hbt j hj
        refine ⟨?_, ?_, ?_, ?_⟩
        · rw [encChans, if_pos hh, hoff j hj c List.mem_cons_self]
          rw [b1]
          simp only [Out.bind]
          rw [hoff j hj c List.mem_cons_self] at a1
          rw [a1]
        · intro x hx
          rcases List.mem_append.1 hx with h | h
          · exact b2 x h
          · exact a2 x h
        · intro c'
          rw [a3 c']
          dsimp only
          by_cases hcc : c' = c
          · subst hcc
            rw [if_neg (fun h => hnd.1 h.1), set1_eq, if_pos ⟨List.mem_cons_self, hh⟩]
          · rw [set1_ne _ _ hcc]
            by_cases hm : c' ∈ cs ∧ e.has v c' = true
            · rw [if_pos hm, if_pos ⟨List.mem_cons_of_mem _ hm.1, hm.2⟩]
            · rw [if_neg hm, if_neg (fun h => hm ⟨(List.mem_cons.1 h.1).resolve_left hcc, h.2⟩)]
        · intro c' hc'
          rw [a4 c' (fun h => hc' (List.mem_cons_of_mem _ h))]
          dsimp only
          rw [set1_ne _ _ (fun h => hc' (by rw [h]; exact List.mem_cons_self))]
      · intro bits base rest s hw hts ha
        have hp := passes_ok bits e v c base (fun j => e.mark v c (s.nz j c) (bt j).2) (fun j => toks j ++ rest j)
          (fun j p => ac j c (off c + p)) qs 0 s (hw c) (by
            intro j q hq co hco
            rw [Nat.zero_add]
            obtain ⟨hj, hjq⟩ := List.getElem?_eq_some_iff.1 hq
            obtain ⟨-, -, b3⟩ := hbt j hj
            rw [hts j hj, List.append_assoc]
            rw [b3 bits q base (toks j ++ rest j) co (s.nz j c) (by rw [H.ords j q hq])
              (H.pass q (List.mem_of_getElem? hq)) hco
              (predict_agree (ha j hj c List.mem_cons_self) (hr c hc3 hh))]
            rw [added_plus (V.good j hj c hc3)])
        rw [decChans, if_pos hh, hp]
        simp only [Out.bind]
        obtain ⟨s', d1, d2, d3⟩ := t2 bits base rest
          ⟨fun j => if 0 ≤ j ∧ j < 0 + qs.length then set1 (s.nz j) c (e.mark v c (s.nz j c) (bt j).2) else s.nz j,
            fun j => if 0 ≤ j ∧ j < 0 + qs.length then toks j ++ rest j else s.ts j,
            set1 s.co c (plus bits base v (fun p => total qs 0 fun j => ac j c (off c + p)) (s.co c))⟩
          (by
            intro c' k
            dsimp only
            by_cases hcc : c' = c
            · subst hcc
              rw [set1_eq]
              exact plus_range (hw c') k
            · rw [set1_ne _ _ hcc]; exact hw c' k)
          (by
            intro j hj
            dsimp only
            rw [if_pos (by omega)])
          (by
            intro j hj c' hc'
            dsimp only
            have hcc : c' ≠ c := fun h => hnd.1 (h ▸ hc')
            rw [set1_ne _ _ hcc, if_pos (by omega), set1_ne _ _ hcc]
            exact ha j hj c' (List.mem_cons_of_mem _ hc'))
        refine ⟨s', d1, ?_, ?_⟩
        · intro j hj
          obtain ⟨f1, f2, f3⟩ := d2 j hj
          obtain ⟨a1, a2, a3, a4⟩ := t1 j hj
          dsimp only at f3 a4
          rw [if_pos (by omega)] at f3
          refine ⟨f1, ?_, ?_⟩
          · intro c' hc'
            by_cases hcc : c' = c
            · subst hcc
              rw [f3 c' hnd.1, a4 c' hnd.1, set1_eq, set1_eq]
              exact mark_agree (ha j hj c' List.mem_cons_self)
            · exact f2 c' ((List.mem_cons.1 hc').resolve_left hcc)
          · intro c' hc'
            rw [f3 c' (fun h => hc' (List.mem_cons_of_mem _ h)),
              set1_ne _ _ (fun h => hc' (by rw [h]; exact List.mem_cons_self))]
        · rw [d3]
          funext c'
          dsimp only
          by_cases hcc : c' = c
          · subst hcc
            rw [if_neg (fun h => hnd.1 h.1), set1_eq, if_pos ⟨List.mem_cons_self, hh⟩]
          · rw [set1_ne _ _ hcc]
            by_cases hm : c' ∈ cs ∧ e.has v c' = true
            · rw [if_pos hm, if_pos ⟨List.mem_cons_of_mem _ hm.1, hm.2⟩]
            · rw [if_neg hm, if_neg (fun h => hm ⟨(List.mem_cons.1 h.1).resolve_left hcc, h.2⟩)]
    · -- the channel has no block here
      obtain ⟨toks, es', t1, t2⟩ := ih es hnd.2 (fun c hc => h3 c (List.mem_cons_of_mem _ hc))
        (fun j hj c' hc' => hoff j hj c' (List.mem_cons_of_mem _ hc'))
      have hiff : ∀ c', (c' ∈ c :: cs ∧ e.has v c' = true) ↔ (c' ∈ cs ∧ e.has v c' = true) := by
        intro c'
        constructor
        · rintro ⟨h1, h2⟩
          rcases List.mem_cons.1 h1 with rfl | h1
          · exact absurd h2 hh
          · exact ⟨h1, h2⟩
        · rintro ⟨h1, h2⟩; exact ⟨List.mem_cons_of_mem _ h1, h2⟩
      refine ⟨toks, es', ?_, ?_⟩
      · intro j hj
        obtain ⟨a1, a2, a3, a4⟩ := t1 j hj
        refine ⟨?_, a2, ?_, fun c' hc' => a4 c' (fun h => hc' (List.mem_cons_of_mem _ h))⟩
        · rw [encChans, if_neg hh]; exact a1
        · intro c'
          rw [a3 c']
          simp only [hiff]
      · intro bits base rest s hw hts ha
        obtain ⟨s', d1, d2, d3⟩ := t2 bits base rest s hw hts (fun j hj c' hc' => ha j hj c' (List.mem_cons_of_mem _ hc'))
        refine ⟨s', ?_, ?_, ?_⟩
        · rw [decChans, if_neg hh]; exact d1
        · intro j hj
          obtain ⟨f1, f2, f3⟩ := d2 j hj
          obtain ⟨a1, a2, a3, a4⟩ := t1 j hj
          refine ⟨f1, ?_, fun c' hc' => f3 c' (fun h => hc' (List.mem_cons_of_mem _ h))⟩
          intro c' hc'
          rcases List.mem_cons.1 hc' with rfl | h
          · rw [f3 c' hnd.1, a4 c' hnd.1]
            exact skip_agree hh (ha j hj c' List.mem_cons_self)
          · exact f2 c' h
        · rw [d3]
          funext c'
          simp only [hiff]

theorem decStart_zero (vs : List Visit) : decStart vs 0 = 0 := by
  unfold decStart; rw [List.take_zero]; rfl

theorem decStart_succ (v : Visit) (vs : List Visit) (i : Nat) : decStart (v :: vs) (i + 1) = v.size + decStart vs i := by
  unfold decStart
  rw [List.take_succ_cons, List.map_cons, List.sum_cons, area_eq]

theorem encStart_zero (e : Env) (vs : List Visit) (c : Nat) : encStart e vs c 0 = 0 := by
  unfold encStart; rw [List.take_zero]; rfl

theorem encStart_succ (e : Env) (v : Visit) (vs : List Visit) (c i : Nat) :
    encStart e (v :: vs) c (i + 1) = (if e.has v c = true then v.size else 0) + encStart e vs c i := by
  unfold encStart
  rw [List.take_succ_cons, List.filter_cons]
  by_cases h : e.has v c = true
  · rw [if_pos h, if_pos h, List.map_cons, List.sum_cons, area_eq]
  · rw [if_neg h, if_neg h, Nat.zero_add]

theorem decStart_le {vs : List Visit} : ∀ i, decStart vs i ≤ decStart vs vs.length := by
  induction vs with
  | nil => intro i; unfold decStart; rw [List.take_nil, List.take_nil]; exact Nat.le_refl _
  | cons v vs ih =>
    intro i
    cases i with
    | zero => rw [decStart_zero]; exact Nat.zero_le _
    | succ i => rw [List.length_cons, decStart_succ, decStart_succ]; have := ih i; omega

theorem mem120 (c : Nat) : c ∈ [1, 0, 2] ↔ c < 3 := by
  simp only [List.mem_cons, List.not_mem_nil, or_false]; omega

/-- All the transforms of a group. -/
theorem group_ok {e : Env} {qs : List Pass} {ord : Nat → Nat → Nat → List Nat} {ac : Nat → Nat → Nat → Int}
    (H : Hyp e qs ord ac) : ∀ (vs done : List Visit) (es : Nat → EncState) (off : Nat → Nat),
      (∀ v ∈ vs, VHyp e qs.length ord v) →
      (∀ j, j < qs.length → ∀ c, c < 3 → (es j).off c = off c) →
      (∀ a v b, vs = a ++ v :: b → ∀ c, c < 3 → e.has v c = true → Ready e (done ++ a) v c) →
      (∀ (i : Nat) (v : Visit), vs[i]? = some v → ∀ c, c < 3 → e.has v c = true → v.covered ≠ 1 →
        ∀ k, k < v.size → Low v k → ∀ j, j < qs.length → ac j c (off c + encStart e vs c i + k) = 0) →
      ∃ toks : Nat → List Token,
        (∀ j, j < qs.length → encGroup e (ord j) (ac j) vs (es j) = .ok (toks j) ∧
          ∀ x ∈ toks j, x.1 < e.cm.numACContexts ∧ x.2 < 2 ^ 32) ∧
        ∀ (bits base : Nat) (rest : Nat → List Token) (s : DecState), (∀ c k, wrap bits (s.co c k) = s.co c k) →
          (∀ j, j < qs.length → s.ts j = toks j ++ rest j) →
          (∀ j, j < qs.length → ∀ c, c < 3 → Agree e done c ((es j).nz c) (s.nz j c)) →
          ∃ s', decGroup bits e qs vs base s = .ok s' ∧ (∀ j, j < qs.length → s'.ts j = rest j) ∧
            (∀ (i : Nat) (v : Visit), vs[i]? = some v → ∀ c, c < 3 → ∀ k, k < v.size →
              s'.co c (base + decStart vs i + k) =
                if e.has v c = true ∧ ¬ Low v k then
                  wrap bits (s.co c (base + decStart vs i + k) +
                    total qs 0 fun j => ac j c (off c + encStart e vs c i + k))
                else s.co c (base + decStart vs i + k)) ∧
            ∀ c i, i < base ∨ base + decStart vs vs.length ≤ i → s'.co c i = s.co c i := by
  intro vs
  induction vs with
  | nil =>
    intro done es off _ _ _ _
    refine ⟨fun _ => [], fun j hj => ⟨rfl, fun x hx => absurd hx List.not_mem_nil⟩, ?_⟩
    intro bits base rest s hw hts ha
    exact ⟨s, rfl, fun j hj => by rw [hts j hj]; rfl, fun i v hv => (by rw [List.getElem?_nil] at hv; cases hv),
      fun c i _ => rfl⟩
  | cons v vs ih =>
    intro done es off hV hoff hready hz
    obtain ⟨toks1, es1, t1, t2⟩ := chans_ok H (hV v List.mem_cons_self) done off
      (fun c hc hh => by have := hready [] v vs rfl c hc hh; rwa [List.append_nil] at this)
      (fun c hc hh h1 i hi hl j hj => by
        have := hz 0 v rfl c hc hh h1 i hi hl j hj
        rwa [encStart_zero, Nat.add_zero] at this)
      [1, 0, 2] es (by decide) (fun c hc => (mem120 c).1 hc) (fun j hj c hc => hoff j hj c ((mem120 c).1 hc))
    obtain ⟨toks2, g1, g2⟩ := ih (done ++ [v]) es1 (fun c => off c + if e.has v c = true then v.size else 0)
      (fun u hu => hV u (List.mem_cons_of_mem _ hu))
      (fun j hj c hc => by
        rw [(t1 j hj).2.2.1 c]
        by_cases hh : e.has v c = true
        · rw [if_pos ⟨(mem120 c).2 hc, hh⟩, if_pos hh, hoff j hj c hc]
        · rw [if_neg (fun h => hh h.2), if_neg hh, hoff j hj c hc]; rfl)
      (fun a u b hab c hc hh => by
        have := hready (v :: a) u b (by rw [hab]; rfl) c hc hh
        rwa [List.append_assoc])
      (fun i u hu c hc hh h1 k hk hl j hj => by
        have := hz (i + 1) u hu c hc hh h1 k hk hl j hj
        rw [encStart_succ] at this
        rwa [Nat.add_assoc (off c)])
    refine ⟨fun j => toks1 j ++ toks2 j, ?_, ?_⟩
    · intro j hj
      obtain ⟨a1, a2, -, -⟩ := t1 j hj
      obtain ⟨b1, b2⟩ := g1 j hj
      refine ⟨?_, ?_⟩
      · rw [encGroup, a1]
        simp only [Out.bind]
        rw [b1]
      · intro x hx
        rcases List.mem_append.1 hx with h | h
        · exact a2 x h
        · exact b2 x h
    · intro bits base rest s hw hts ha
      obtain ⟨s1, d1, d2, d3⟩ := t2 bits base (fun j => toks2 j ++ rest j) s hw
        (fun j hj => by rw [hts j hj, List.append_assoc]) (fun j hj c hc => ha j hj c ((mem120 c).1 hc))
      have hw1 : ∀ c k, wrap bits (s1.co c k) = s1.co c k := by
        intro c k
        rw [d3]
        dsimp only
        split
        · exact plus_range (hw c) k
        · exact hw c k
      obtain ⟨s2, f1, f2, f3, f4⟩ := g2 bits (base + v.size) rest s1 hw1 (fun j hj => (d2 j hj).1)
        (fun j hj c hc => (d2 j hj).2.1 c ((mem120 c).2 hc))
      have hout : ∀ c i, i < base ∨ base + v.size ≤ i → s1.co c i = s.co c i := by
        intro c i hi
        rw [d3]
        dsimp only
        split
        · unfold plus; rw [if_neg (by omega)]
        · rfl
      refine ⟨s2, ?_, f2, ?_, ?_⟩
      · rw [decGroup, d1]
        exact f1
      · intro i u hu c hc k hk
        cases i with
        | zero =>
          cases hu
          rw [decStart_zero, encStart_zero, Nat.add_zero, Nat.add_zero, f4 c _ (Or.inl (by omega)), d3]
          dsimp only
          by_cases hh : e.has v c = true
          · rw [if_pos ⟨(mem120 c).2 hc, hh⟩]
            unfold plus
            rw [Nat.add_sub_cancel_left]
            by_cases hl : Low v k
            · rw [if_neg (fun h => h.2.2 hl), if_neg (fun h => h.2 hl)]
            · rw [if_pos ⟨by omega, hk, hl⟩, if_pos ⟨hh, hl⟩]
          · rw [if_neg (fun h => hh h.2), if_neg (fun h => hh h.1)]
        | succ i =>
          have := f3 i u hu c hc k hk
          rw [decStart_succ, encStart_succ, ← Nat.add_assoc base, ← Nat.add_assoc (off c), this,
            hout c _ (Or.inr (by omega))]
      · intro c i hi
        rw [List.length_cons, decStart_succ] at hi
        rw [f4 c i (by omega), hout c i (by omega)]

theorem passes_safe (bits : Nat) {e : Env} {v : Visit} {c : Nat} (base : Nat) (hv : v.t < 27) (hm : MapOk e.cm)
    (hdc : e.qdc v.bx v.by' < e.cm.numDcCtxs) : ∀ (qs : List Pass), (∀ q ∈ qs, PassOk e.cm q) →
      (∀ q ∈ qs, ∀ p ∈ q.order (ordOf v.t) c, p < v.size) → ∀ (i : Nat) (s : DecState),
      decPasses bits e v c base qs i s ≠ .ub := by
  intro qs
  induction qs with
  | nil => intro _ _ i s h; cases h
  | cons q qs ih =>
    intro hp ho i s
    rw [decPasses]
    have hs := block_safe bits base (s.nz i c) (s.ts i) (s.co c) hv hm hdc (hp q List.mem_cons_self)
      (ho q List.mem_cons_self)
    generalize decBlock bits e q v c base (s.nz i c) (s.ts i) (s.co c) = r at hs
    cases r with
    | ok d => exact ih (fun q hq => hp q (List.mem_cons_of_mem _ hq)) (fun q hq => ho q (List.mem_cons_of_mem _ hq)) _ _
    | fail => exact fun h => nomatch h
    | ub => exact absurd rfl hs

theorem chans_safe (bits : Nat) {e : Env} {v : Visit} (base : Nat) (hv : v.t < 27) (hm : MapOk e.cm)
    (hdc : e.qdc v.bx v.by' < e.cm.numDcCtxs) (qs : List Pass) (hp : ∀ q ∈ qs, PassOk e.cm q) :
    ∀ cs : List Nat, (∀ q ∈ qs, ∀ c ∈ cs, ∀ p ∈ q.order (ordOf v.t) c, p < v.size) → ∀ s : DecState,
      decChans bits e qs v base cs s ≠ .ub := by
  intro cs
  induction cs with
  | nil => intro _ s h; cases h
  | cons c cs ih =>
    intro ho s
    rw [decChans]
    have ih' := ih (fun q hq c hc => ho q hq c (List.mem_cons_of_mem _ hc))
    by_cases hh : e.has v c = true
    · rw [if_pos hh]
      have hs := passes_safe bits base hv hm hdc qs hp (fun q hq => ho q hq c List.mem_cons_self) 0 s
      generalize decPasses bits e v c base qs 0 s = r at hs
      cases r with
      | ok d => exact ih' _
      | fail => exact fun h => nomatch h
      | ub => exact absurd rfl hs
    · rw [if_neg hh]; exact ih' s

theorem group_safe (bits : Nat) {e : Env} (hm : MapOk e.cm) (qs : List Pass) (hp : ∀ q ∈ qs, PassOk e.cm q) :
    ∀ vs : List Visit, (∀ v ∈ vs, v.t < 27 ∧ e.qdc v.bx v.by' < e.cm.numDcCtxs ∧
        ∀ q ∈ qs, ∀ c, c < 3 → ∀ p ∈ q.order (ordOf v.t) c, p < v.size) → ∀ (off : Nat) (s : DecState),
      decGroup bits e qs vs off s ≠ .ub := by
  intro vs
  induction vs with
  | nil => intro _ off s h; cases h
  | cons v vs ih =>
    intro hv off s
    rw [decGroup]
    obtain ⟨h1, h2, h3⟩ := hv v List.mem_cons_self
    have hs := chans_safe bits off h1 hm h2 qs hp [1, 0, 2] (fun q hq c hc => h3 q hq c ((mem120 c).1 hc)) s
    generalize decChans bits e qs v off [1, 0, 2] s = r at hs
    cases r with
    | ok d => exact ih (fun u hu => hv u (List.mem_cons_of_mem _ hu)) _ _
    | fail => exact fun h => nomatch h
    | ub => exact absurd rfl hs

end Jxl.AcTokens
