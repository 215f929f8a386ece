import Verif.Lemmas.JpegTok
/-!
# The symbols of a block
-/
namespace Jxl.Jpeg

/-- The part of a coefficient a scan at bit `al` sees. -/
def tq (al : Nat) (c : Int) : Int := c.tdiv (2 ^ al : Nat)

theorem tq_natAbs (al : Nat) (c : Int) : (tq al c).natAbs = c.natAbs >>> al := by
  unfold tq; rw [Int.natAbs_tdiv, Nat.shiftRight_eq_div_pow, Int.natAbs_natCast]; rfl

theorem tq_eq (al : Nat) (c : Int) : tq al c = if c < 0 then -((c.natAbs >>> al : Nat) : Int) else ((c.natAbs >>> al : Nat) : Int) := by
  unfold tq
  rw [Nat.shiftRight_eq_div_pow]
  split
  · rename_i h
    obtain ⟨n, rfl⟩ : ∃ n : Nat, c = -(n : Int) := ⟨c.natAbs, by omega⟩
    rw [Int.neg_tdiv, Int.natAbs_neg, Int.natAbs_natCast, Int.ofNat_tdiv]
  · rename_i h
    obtain ⟨n, rfl⟩ : ∃ n : Nat, c = (n : Int) := ⟨c.natAbs, by omega⟩
    rw [Int.natAbs_natCast, Int.ofNat_tdiv]

theorem extraBits_lt (v : Int) (n : Nat) : extraBits v n < 2 ^ n := by
  unfold extraBits
  have h := Int.emod_lt_of_pos (if v < 0 then v - 1 else v) (b := ((2 ^ n : Nat) : Int)) (by
    have := Nat.two_pow_pos n; omega)
  have h0 := Int.emod_nonneg (if v < 0 then v - 1 else v) (b := ((2 ^ n : Nat) : Int)) (by
    have := Nat.two_pow_pos n; omega)
  omega

/-- The bits of a value after its symbol. -/
def valBits (v : Int) : List Bool := msb (magBits v.natAbs) (extraBits v (magBits v.natAbs))

/-- The symbols of a band in a first scan, `r` zeros being pending. -/
def firstToks : List Int → Nat → List Tok
  | [], _ => []
  | v :: vs, r =>
    if v = 0 then firstToks vs (r + 1)
    else List.replicate (r / 16) zrl ++ (16 * (r % 16) + magBits v.natAbs, valBits v) :: firstToks vs 0

/-- Zeros pending at the end of the band. -/
def zerosEnd : List Int → Nat → Nat
  | [], r => r
  | v :: vs, r => if v = 0 then zerosEnd vs (r + 1) else zerosEnd vs 0

/-- What a flush would do. -/
def CanFlush (pre : List Nat) (s : Coding) (w : Writer) (B F : List Bool) : Prop :=
  ∀ s2 w2, flush s w = some (s2, w2) → s2 = flushed s ∧ WInv pre (B ++ F) w2

/-- The effect of writing tokens: nothing, or a flush and the tokens. -/
def Em (pre : List Nat) (ac : Huff) (s : Coding) (w : Writer) (B F : List Bool) (ts : List Tok) (s' : Coding) (w' : Writer) :
    Prop :=
  (ts = [] ∧ s' = s ∧ w' = w) ∨ (ts ≠ [] ∧ s' = flushed s ∧ WInv pre (B ++ F ++ tokBits ac ts) w')

theorem canFlush_flushed {pre B w} (s : Coding) (h : WInv pre B w) : CanFlush pre (flushed s) w B [] := by
  intro s2 w2 he
  have := flush_bits h (held_flushed s) (by show 0 ≤ 0x7FFF; decide) (fun h => absurd h (by show ¬ (0 < 0); decide)) he
  have h2 : runBits (flushed s).huff (flushed s).eobRun = [] := rfl
  rw [h2] at this
  exact ⟨this.1, by simpa using this.2⟩

theorem Em.trans {pre ac s w B F t1 s1 w1 t2 s2 w2} (h1 : Em pre ac s w B F t1 s1 w1)
    (hf : CanFlush pre s w B F) (h2 : ∀ B1 F1, CanFlush pre s1 w1 B1 F1 → Em pre ac s1 w1 B1 F1 t2 s2 w2) :
    Em pre ac s w B F (t1 ++ t2) s2 w2 := by
  rcases h1 with ⟨rfl, rfl, rfl⟩ | ⟨hne, rfl, hi⟩
  · exact h2 B F hf
  · rcases h2 _ _ (canFlush_flushed s hi) with ⟨rfl, rfl, rfl⟩ | ⟨hne2, rfl, hi2⟩
    · right; rw [List.append_nil]; exact ⟨hne, rfl, hi⟩
    · right
      refine ⟨by simp [hne], rfl, ?_⟩
      rw [tokBits_append]
      simpa using hi2

theorem progAc_bits {pre ac al} : ∀ (cs : List Int) (r : Nat) (s : Coding) {w : Writer} {z s' w'} (B F : List Bool),
    (firstToks (cs.map (tq al)) r ≠ [] → CanFlush pre s w B F) → (∀ t ∈ firstToks (cs.map (tq al)) r, Coded ac t.1) →
    (∀ c ∈ cs, magBits (tq al c).natAbs ≤ 15) → progAc ac al cs r s w = some (z, s', w') →
    z = zerosEnd (cs.map (tq al)) r ∧ Em pre ac s w B F (firstToks (cs.map (tq al)) r) s' w' := by
  intro cs
  induction cs with
  | nil => intro r s w z s' w' B F _ _ _ h; cases h; exact ⟨rfl, .inl ⟨rfl, rfl, rfl⟩⟩
  | cons c cs ih =>
    intro r s w z s' w' B F hf hc hm h
    rw [progAc] at h
    simp only at h
    have hab := tq_natAbs al c
    by_cases h0 : c.natAbs >>> al = 0
    · rw [if_pos h0] at h
      have hv : tq al c = 0 := by omega
      have ht : firstToks ((c :: cs).map (tq al)) r = firstToks (cs.map (tq al)) (r + 1) := by
        rw [List.map_cons, firstToks, if_pos hv]
      rw [ht] at hc hf ⊢
      have hz : zerosEnd ((c :: cs).map (tq al)) r = zerosEnd (cs.map (tq al)) (r + 1) := by
        rw [List.map_cons, zerosEnd, if_pos hv]
      rw [hz]
      exact ih (r + 1) s B F hf hc (fun c hc => hm c (by simp [hc])) h
    · rw [if_neg h0] at h
      have hv : tq al c ≠ 0 := by omega
      simp only [Option.bind_eq_some_iff] at h
      obtain ⟨p, e1, w1, e2, w2, e3, w3, e4, e5⟩ := h
      have ht : firstToks ((c :: cs).map (tq al)) r = (List.replicate (r / 16) zrl ++
          [(16 * (r % 16) + magBits (tq al c).natAbs, valBits (tq al c))]) ++ firstToks (cs.map (tq al)) 0 := by
        rw [List.map_cons, firstToks, if_neg hv]; simp
      have hz : zerosEnd ((c :: cs).map (tq al)) r = zerosEnd (cs.map (tq al)) 0 := by
        rw [List.map_cons, zerosEnd, if_neg hv]
      rw [ht] at hc hf ⊢
      have hf := hf (by simp)
      rw [hz]
      obtain ⟨k1, k2⟩ := hf _ _ e1
      have i1 := writeZrl_bits (r / 16) k2 (fun hr => hc (0xF0, []) (by
        simp only [List.mem_append, List.mem_replicate]; exact .inl (.inl ⟨by omega, rfl⟩))) e2
      have hs : ((r % 16) <<< 4) + magBits (c.natAbs >>> al) = 16 * (r % 16) + magBits (tq al c).natAbs := by
        rw [shl4, hab]
      rw [hs] at e3
      have i2 := writeSymbol_bits i1 (hc (16 * (r % 16) + magBits (tq al c).natAbs, valBits (tq al c)) (by simp)) e3
      have hvv : (if c < 0 then -((c.natAbs >>> al : Nat) : Int) else ((c.natAbs >>> al : Nat) : Int)) = tq al c :=
        (tq_eq al c).symm
      rw [hvv, ← hab] at e4
      have hm15 := hm c (by simp)
      have i3 := (writeBits_inv i2 (by omega) (extraBits_lt _ _) e4).1
      have em1 : Em pre ac s w B F (List.replicate (r / 16) zrl ++
          [(16 * (r % 16) + magBits (tq al c).natAbs, valBits (tq al c))]) p.1 w3 := by
        right
        refine ⟨by simp, k1, ?_⟩
        rw [tokBits_append, tokBits_cons, tokBits_nil]
        simpa [valBits] using i3
      have hce : ∀ t ∈ firstToks (cs.map (tq al)) 0, Coded ac t.1 := fun t ht => hc t (by simp [ht])
      have hme : ∀ c ∈ cs, magBits (tq al c).natAbs ≤ 15 := fun c hc => hm c (by simp [hc])
      have hzz : CanFlush pre p.1 w3 (B ++ F ++ tokBits ac (List.replicate (r / 16) zrl ++
          [(16 * (r % 16) + magBits (tq al c).natAbs, valBits (tq al c))])) [] := by
        rcases em1 with ⟨h, _⟩ | ⟨_, _, h⟩
        · simp at h
        · rw [k1]; exact canFlush_flushed s h
      exact ⟨(ih 0 p.1 _ _ (fun _ => hzz) hce hme e5).1, em1.trans hf fun B1 F1 hf1 => (ih 0 p.1 _ _ (fun _ => hf1) hce hme e5).2⟩

theorem seqAc_bits {pre ac} : ∀ (cs : List Int) (r : Nat) {w : Writer} {z w'} {B : List Bool},
    WInv pre B w → (∀ t ∈ firstToks cs r, Coded ac t.1) → (∀ c ∈ cs, magBits c.natAbs ≤ 15) → r + cs.length ≤ 63 →
    seqAc ac cs r w = some (z, w') → z = zerosEnd cs r ∧ WInv pre (B ++ tokBits ac (firstToks cs r)) w' := by
  intro cs
  induction cs with
  | nil => intro r w z w' B hi _ _ _ h; cases h; exact ⟨rfl, by simpa [firstToks, tokBits] using hi⟩
  | cons c cs ih =>
    intro r w z w' B hi hc hm hr h
    rw [List.length_cons] at hr
    rw [seqAc] at h
    by_cases h0 : c = 0
    · rw [if_pos h0] at h
      rw [firstToks, if_pos h0] at hc ⊢
      rw [zerosEnd, if_pos h0]
      exact ih (r + 1) hi hc (fun c hc => hm c (by simp [hc])) (by omega) h
    · rw [if_neg h0] at h
      simp only [Option.bind_eq_some_iff] at h
      obtain ⟨w1, e1, w2, e2, e3⟩ := h
      rw [firstToks, if_neg h0] at hc ⊢
      rw [zerosEnd, if_neg h0]
      have h3 : min 3 (r / 16) = r / 16 := by omega
      have hr16 : r - 16 * (r / 16) = r % 16 := by omega
      rw [h3] at e1 e2
      rw [hr16, shl4] at e2
      have i1 := writeZrl_bits (r / 16) hi (fun hr => hc (0xF0, []) (by
        simp only [List.mem_append, List.mem_replicate]; exact .inl ⟨by omega, rfl⟩)) e1
      have i2 := writeSymbolBits_bits i1 (hc (16 * (r % 16) + magBits c.natAbs, valBits c) (by simp))
        (by have := hm c (by simp); omega) (extraBits_lt _ _) e2
      have i3 := ih 0 i2 (fun t ht => hc t (by simp [ht])) (fun c hc => hm c (by simp [hc])) (by omega) e3
      refine ⟨i3.1, ?_⟩
      rw [tokBits_append, tokBits_cons]
      simpa [valBits] using i3.2

theorem writeDc_bits {pre dc w w' B} {v : Int} (hi : WInv pre B w) (hc : Coded dc (magBits v.natAbs))
    (hm : magBits v.natAbs ≤ 15) (h : writeDc v dc w = some w') :
    WInv pre (B ++ (symBits dc (magBits v.natAbs) ++ valBits v)) w' := by
  unfold writeDc at h
  simp only [Option.bind_eq_some_iff] at h
  obtain ⟨w1, e1, e2⟩ := h
  have i1 := writeSymbol_bits hi hc e1
  by_cases h0 : magBits v.natAbs = 0
  · rw [if_pos h0] at e2
    cases e2
    have : valBits v = [] := by unfold valBits; rw [h0]; rfl
    rw [this]; simpa using i1
  · rw [if_neg h0] at e2
    have := (writeBits_inv i1 (by omega) (extraBits_lt _ _) e2).1
    simpa [valBits] using this

/-! ## Refinement -/

/-- The correction bits of coefficients that were nonzero before. -/
def corr : List Int → List Bool
  | [] => []
  | v :: vs => if v.natAbs > 1 then (v.natAbs % 2 == 1) :: corr vs else corr vs

def zerosIn : List Int → Nat
  | [] => 0
  | v :: vs => if v = 0 then zerosIn vs + 1 else zerosIn vs

/-- The symbols of a refinement band up to its last new coefficient, `r` zeros and the correction bits `bs` being
pending; runs of zeros are sent as soon as they are complete. -/
def eager : List Int → Nat → List Bool → List Tok
  | [], _, _ => []
  | v :: vs, r, bs =>
    if v = 0 then (if r = 15 then (0xF0, bs) :: eager vs 0 [] else eager vs (r + 1) bs)
    else if v.natAbs > 1 then eager vs r (bs ++ [v.natAbs % 2 == 1])
    else (16 * r + 1, decide (0 < v) :: bs) :: eager vs 0 []

/-- The same when `r` zeros are pending of which sixteens have not been sent. -/
def lazily (r : Nat) (bs : List Bool) (f : List Int) : List Tok :=
  if r < 16 then eager f r bs else (0xF0, bs) :: (List.replicate (r / 16 - 1) zrl ++ eager f (r % 16) [])

/-- The list is empty or its last entry is a new coefficient. -/
def EndsNew : List Int → Prop
  | [] => True
  | [v] => v.natAbs = 1
  | _ :: v :: vs => EndsNew (v :: vs)

def NoNew (b : List Int) : Prop := ∀ v ∈ b, v.natAbs ≠ 1

theorem EndsNew.tail {v : Int} {vs : List Int} (h : EndsNew (v :: vs)) : EndsNew vs := by
  cases vs with
  | nil => trivial
  | cons => exact h

theorem lastNew_eq (al : Nat) : ∀ (cs : List Int) (f b : List Int), cs.map (tq al) = f ++ b → EndsNew f → NoNew b →
    lastNew al cs = f.length := by
  intro cs
  induction cs with
  | nil => intro f b h _ _; have := (List.append_eq_nil_iff.mp h.symm).1; subst this; rfl
  | cons c cs ih =>
    intro f b h hf hb
    rw [lastNew]
    have hab := tq_natAbs al c
    cases f with
    | nil =>
      cases b with
      | nil => cases h
      | cons v b =>
        rw [List.map_cons] at h
        simp only [List.nil_append] at h
        injection h with h1 h2
        have := ih [] b (by simpa using h2) trivial fun v hv => hb v (by simp [hv])
        rw [List.length_nil] at this
        have hn := hb v (by simp)
        rw [← h1, hab] at hn
        rw [this, if_neg (by omega), if_neg hn]
        rfl
    | cons v f =>
      rw [List.map_cons, List.cons_append] at h
      injection h with h1 h2
      have := ih f b h2 hf.tail hb
      rw [this]
      cases f with
      | nil =>
        rw [if_neg (by simp)]
        have h1' : v.natAbs = 1 := hf
        rw [← h1, hab] at h1'
        rw [if_pos h1']; rfl
      | cons u f => rw [if_pos (by simp)]; simp

theorem refZrl_bits {pre ac} (n : Nat) : ∀ (bs : List Bool) (s : Coding) {w : Writer} {q s' w'} (B F : List Bool),
    CanFlush pre s w B F → (0 < n → Coded ac 0xF0) → refZrl ac n (bs.map bit01).reverse s w = some (q, s', w') →
    (n = 0 → q = (bs.map bit01).reverse) ∧ (0 < n → q = []) ∧
      Em pre ac s w B F (if n = 0 then [] else (0xF0, bs) :: List.replicate (n - 1) zrl) s' w' := by
  induction n with
  | zero =>
    intro bs s w q s' w' B F _ _ h
    cases h
    exact ⟨fun _ => rfl, fun h => absurd h (by omega), .inl ⟨by simp, rfl, rfl⟩⟩
  | succ n ih =>
    intro bs s w q s' w' B F hf hc h
    rw [refZrl] at h
    simp only [Option.bind_eq_some_iff] at h
    obtain ⟨p, e1, w1, e2, w2, e3, e4⟩ := h
    rw [List.reverse_reverse] at e3
    obtain ⟨k1, k2⟩ := hf _ _ e1
    have i1 := writeSymbol_bits k2 (hc (by omega)) e2
    have i2 := writeOnes_bits bs i1 e3
    have em1 : Em pre ac s w B F [(0xF0, bs)] p.1 w2 := by
      right
      refine ⟨by simp, k1, ?_⟩
      rw [tokBits_cons, tokBits_nil]; simpa using i2
    have e4' : refZrl ac n (([] : List Bool).map bit01).reverse p.1 w2 = some (q, s', w') := e4
    have hcf : CanFlush pre p.1 w2 (B ++ F ++ tokBits ac [(0xF0, bs)]) [] := by
      rcases em1 with ⟨h, _⟩ | ⟨_, _, h⟩
      · simp at h
      · rw [k1]; exact canFlush_flushed s h
    refine ⟨fun h => by omega, fun _ => ?_, ?_⟩
    · obtain ⟨a1, a2, _⟩ := ih [] p.1 _ _ hcf (fun _ => hc (by omega)) e4'
      by_cases hn : n = 0
      · rw [a1 hn]; rfl
      · exact a2 (by omega)
    · have := em1.trans hf fun B1 F1 hf1 => (ih [] p.1 B1 F1 hf1 (fun _ => hc (by omega)) e4').2.2
      have el : (if n + 1 = 0 then [] else ((0xF0, bs) : Tok) :: List.replicate (n + 1 - 1) zrl) =
          [(0xF0, bs)] ++ (if n = 0 then [] else ((0xF0, []) : Tok) :: List.replicate (n - 1) zrl) := by
        rw [if_neg (by omega)]
        cases n with
        | zero => rfl
        | succ n => rw [if_neg (by omega)]; rfl
      rw [el]; exact this

/-- After the last new coefficient everything is kept. -/
theorem refAc_back {ac : Huff} {al : Nat} : ∀ (cs : List Int) (r : Nat) (bs : List Bool) (s : Coding) {w : Writer} {z q s' w'},
    NoNew (cs.map (tq al)) → refAc ac al cs 0 r (bs.map bit01).reverse s w = some (z, q, s', w') →
    z = r + zerosIn (cs.map (tq al)) ∧ q = ((bs ++ corr (cs.map (tq al))).map bit01).reverse ∧ s' = s ∧ w' = w := by
  intro cs
  induction cs with
  | nil => intro r bs s w z q s' w' _ h; cases h; simp [zerosIn, corr]
  | cons c cs ih =>
    intro r bs s w z q s' w' hn h
    have hab := tq_natAbs al c
    have hn1 := hn (tq al c) (by simp)
    have hnt : NoNew (cs.map (tq al)) := fun v hv => hn v (by simp [hv])
    rw [refAc] at h
    simp only [Nat.zero_sub] at h
    by_cases h0 : c.natAbs >>> al = 0
    · rw [if_pos h0] at h
      have := ih (r + 1) bs s hnt h
      have hv : tq al c = 0 := by omega
      rw [List.map_cons, zerosIn, if_pos hv, corr, if_neg (by rw [hv]; decide)]
      exact ⟨by omega, this.2⟩
    · rw [if_neg h0, if_neg (by omega)] at h
      simp only [refZrl, Option.bind_some, gt_iff_lt, Nat.lt_irrefl, if_false] at h
      rw [if_pos (by omega)] at h
      have hb : c.natAbs >>> al &&& 1 = bit01 ((tq al c).natAbs % 2 == 1) := by
        rw [Nat.and_one_is_mod, ← hab]
        rcases Nat.mod_two_eq_zero_or_one (tq al c).natAbs with h | h <;> rw [h] <;> rfl
      have e : (c.natAbs >>> al &&& 1) :: (bs.map bit01).reverse =
          ((bs ++ [(tq al c).natAbs % 2 == 1]).map bit01).reverse := by simp [hb]
      rw [e] at h
      have := ih r (bs ++ [(tq al c).natAbs % 2 == 1]) s hnt h
      have hv : tq al c ≠ 0 := by omega
      rw [List.map_cons, zerosIn, if_neg hv, corr, if_pos (by omega)]
      simpa using this

theorem lazily_zero (r : Nat) (bs : List Bool) (f : List Int) : lazily r bs (0 :: f) = lazily (r + 1) bs f := by
  unfold lazily
  by_cases h : r < 16
  · rw [if_pos h, eager, if_pos rfl]
    by_cases h15 : r = 15
    · subst h15; rw [if_pos rfl, if_neg (by decide)]; rfl
    · rw [if_neg h15, if_pos (by omega)]
  · rw [if_neg h, if_neg (by omega), eager, if_pos rfl]
    congr 1
    by_cases h15 : r % 16 = 15
    · rw [if_pos h15]
      have e1 : (r + 1) / 16 - 1 = r / 16 - 1 + 1 := by omega
      have e2 : (r + 1) % 16 = 0 := by omega
      rw [e1, e2, List.replicate_succ', List.append_assoc]
      rfl
    · rw [if_neg h15]
      have e1 : (r + 1) / 16 = r / 16 := by omega
      have e2 : (r + 1) % 16 = r % 16 + 1 := by omega
      rw [e1, e2]

/-- Splitting off the runs of sixteen. -/
theorem lazily_split (r : Nat) (bs : List Bool) (f : List Int) : lazily r bs f =
    (if r / 16 = 0 then [] else ((0xF0, bs) : Tok) :: List.replicate (r / 16 - 1) zrl) ++
      eager f (r % 16) (if r / 16 = 0 then bs else []) := by
  unfold lazily
  by_cases h : r < 16
  · have h1 : r / 16 = 0 := by omega
    have h2 : r % 16 = r := by omega
    rw [if_pos h, if_pos h1, if_pos h1, h2]; rfl
  · have h1 : r / 16 ≠ 0 := by omega
    rw [if_neg h, if_neg h1, if_neg h1]; rfl

theorem lazily_lt {r : Nat} (h : r < 16) (bs : List Bool) (f : List Int) : lazily r bs f = eager f r bs := if_pos h

theorem refAc_front {pre ac al} : ∀ (cs : List Int) (f b : List Int) (r : Nat) (bs : List Bool) (s : Coding) {w : Writer}
    {z q s' w'} (B F : List Bool), f ≠ [] → cs.map (tq al) = f ++ b → EndsNew f → NoNew b → CanFlush pre s w B F →
    (∀ t ∈ lazily r bs f, Coded ac t.1) →
    refAc ac al cs f.length r (bs.map bit01).reverse s w = some (z, q, s', w') →
    z = zerosIn b ∧ q = ((corr b).map bit01).reverse ∧ Em pre ac s w B F (lazily r bs f) s' w' := by
  intro cs
  induction cs with
  | nil =>
    intro f b r bs s w z q s' w' B F hne h
    exact absurd (List.append_eq_nil_iff.mp h.symm).1 hne
  | cons c cs ih =>
    intro f b r bs s w z q s' w' B F hne heq hf hb hcf hc h
    cases f with
    | nil => exact absurd rfl hne
    | cons v f =>
      rw [List.map_cons, List.cons_append] at heq
      injection heq with h1 h2
      have hab := tq_natAbs al c
      rw [refAc] at h
      simp only [List.length_cons, Nat.add_sub_cancel] at h
      by_cases h0 : c.natAbs >>> al = 0
      · have hv : v = 0 := by omega
        subst hv
        rw [if_pos h0] at h
        have hfne : f ≠ [] := by
          intro hf0; subst hf0
          have : (0 : Int).natAbs = 1 := hf
          simp at this
        rw [lazily_zero] at hc ⊢
        exact ih f b (r + 1) bs s B F hfne h2 hf.tail hb hcf hc h
      · rw [if_neg h0, if_pos (by omega)] at h
        have hv : v ≠ 0 := by omega
        simp only [Option.bind_eq_some_iff, gt_iff_lt, Nat.zero_lt_succ, if_true] at h
        obtain ⟨x, e1, h⟩ := h
        obtain ⟨q1, s1, w1⟩ := x
        simp only at h
        rw [lazily_split] at hc ⊢
        obtain ⟨a1, a2, em1⟩ := refZrl_bits (r / 16) bs s B F hcf (fun h0 => hc (0xF0, bs) (by
          rw [if_neg (by omega)]; simp)) e1
        have hq : q1 = ((if r / 16 = 0 then bs else []).map bit01).reverse := by
          by_cases h16 : r / 16 = 0
          · rw [if_pos h16]; exact a1 h16
          · rw [if_neg h16]; exact a2 (by omega)
        generalize (if r / 16 = 0 then bs else []) = bs1 at hq hc ⊢
        have hc2 : ∀ t ∈ eager (v :: f) (r % 16) bs1, Coded ac t.1 := fun t ht => hc t (List.mem_append_right _ ht)
        obtain ⟨B1, F1, hcf1⟩ : ∃ B1 F1, CanFlush pre s1 w1 B1 F1 := by
          rcases em1 with ⟨_, rfl, rfl⟩ | ⟨_, rfl, hi⟩
          · exact ⟨B, F, hcf⟩
          · exact ⟨_, _, canFlush_flushed s hi⟩
        have key : ∀ B1 F1, CanFlush pre s1 w1 B1 F1 → z = zerosIn b ∧ q = ((corr b).map bit01).reverse ∧
            Em pre ac s1 w1 B1 F1 (eager (v :: f) (r % 16) bs1) s' w' := by
          intro B1 F1 hcf1
          by_cases hg : c.natAbs >>> al > 1
          · rw [if_pos hg] at h
            have hb1 : c.natAbs >>> al &&& 1 = bit01 (v.natAbs % 2 == 1) := by
              rw [Nat.and_one_is_mod, ← hab, h1]
              rcases Nat.mod_two_eq_zero_or_one v.natAbs with h | h <;> rw [h] <;> rfl
            have e : (c.natAbs >>> al &&& 1) :: q1 = ((bs1 ++ [v.natAbs % 2 == 1]).map bit01).reverse := by
              simp [hb1, hq]
            rw [e] at h
            have hfne : f ≠ [] := by
              intro hf0; subst hf0
              have : v.natAbs = 1 := hf
              omega
            have he : eager (v :: f) (r % 16) bs1 = lazily (r % 16) (bs1 ++ [v.natAbs % 2 == 1]) f := by
              rw [lazily_lt (by omega), eager, if_neg hv, if_pos (by omega)]
            rw [he] at hc2 ⊢
            exact ih f b (r % 16) _ s1 B1 F1 hfne h2 hf.tail hb hcf1 hc2 h
          · rw [if_neg hg] at h
            simp only [Option.bind_eq_some_iff] at h
            obtain ⟨p, e2, w2, e3, w3, e4, w4, e5, e6⟩ := h
            rw [hq, List.reverse_reverse] at e5
            obtain ⟨k1, k2⟩ := hcf1 _ _ e2
            have he : eager (v :: f) (r % 16) bs1 = [(16 * (r % 16) + 1, decide (0 < v) :: bs1)] ++ eager f 0 [] := by
              rw [eager, if_neg hv, if_neg (by omega)]; rfl
            rw [he] at hc2 ⊢
            rw [shl4] at e3
            have i1 := writeSymbol_bits k2 (hc2 (16 * (r % 16) + 1, decide (0 < v) :: bs1) (by simp)) e3
            have i2 := (writeBits_inv i1 (by decide) (by split <;> decide) e4).1
            have hsg : msb 1 (if c < 0 then 0 else 1) = [decide (0 < v)] := by
              have := tq_eq al c
              rw [h1] at this
              by_cases hcn : c < 0
              · rw [if_pos hcn] at this ⊢
                have : ¬ (0 < v) := by omega
                simp only [this, decide_false]; rfl
              · rw [if_neg hcn] at this ⊢
                have : 0 < v := by omega
                simp only [this, decide_true]; rfl
            rw [hsg] at i2
            have i3 := writeOnes_bits bs1 i2 e5
            have em2 : Em pre ac s1 w1 B1 F1 [(16 * (r % 16) + 1, decide (0 < v) :: bs1)] p.1 w4 := by
              right
              refine ⟨by simp, k1, ?_⟩
              rw [tokBits_cons, tokBits_nil]; simpa using i3
            have e6' : refAc ac al cs f.length 0 (([] : List Bool).map bit01).reverse p.1 w4 = some (z, q, s', w') := e6
            cases f with
            | nil =>
              have hbk := refAc_back cs 0 [] p.1 (by rw [h2]; exact hb) e6'
              rw [h2] at hbk
              simp only [List.nil_append, Nat.zero_add] at hbk
              refine ⟨hbk.1, hbk.2.1, ?_⟩
              rw [hbk.2.2.1, hbk.2.2.2]
              rw [eager, List.append_nil]; exact em2
            | cons u f =>
              have hc3 : ∀ t ∈ lazily 0 [] (u :: f), Coded ac t.1 := fun t ht => hc2 t (by
                rw [lazily_lt (by decide)] at ht; exact List.mem_append_right _ ht)
              have hcf2 : CanFlush pre p.1 w4 (B1 ++ F1 ++ tokBits ac [(16 * (r % 16) + 1, decide (0 < v) :: bs1)]) [] := by
                rcases em2 with ⟨h, _⟩ | ⟨_, _, h⟩
                · simp at h
                · rw [k1]; exact canFlush_flushed s1 h
              have r1 := ih (u :: f) b 0 [] p.1 _ _ (by simp) h2 hf.tail hb hcf2 hc3 e6'
              refine ⟨r1.1, r1.2.1, em2.trans hcf1 fun B2 F2 hcf3 => ?_⟩
              have := (ih (u :: f) b 0 [] p.1 _ _ (by simp) h2 hf.tail hb hcf3 hc3 e6').2.2
              rwa [lazily_lt (by decide)] at this
        exact ⟨(key B1 F1 hcf1).1, (key B1 F1 hcf1).2.1, em1.trans hcf fun B2 F2 h2 => (key B2 F2 h2).2.2⟩

end Jxl.Jpeg
