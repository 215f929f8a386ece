import Verif.Spec.Passes
import Verif.Lemmas.GroupHeader
namespace Jxl.Passes
open Jxl Jxl.Modular Jxl.Modular.GroupHeader

/-! ## Brackets -/

/-- The shift of a resolution. -/
def lg (v : Nat) : Int := if v = 1 then 0 else if v = 2 then 1 else if v = 4 then 2 else 3

/-- The least shift of the channels complete after `n` passes. -/
def level (p : Passes) (n : Nat) : Int := if n ≥ p.num then 0 else (p.down.zip p.last).foldl (fun m e => if e.2 < n then min m (lg e.1) else m) 3

theorem lg_range (v : Nat) : 0 ≤ lg v ∧ lg v ≤ 3 := by
  unfold lg
  repeat' split
  all_goals omega

theorem lg_mono {a b : Nat} (ha : a = 1 ∨ a = 2 ∨ a = 4 ∨ a = 8) (hb : b = 1 ∨ b = 2 ∨ b = 4 ∨ b = 8) (h : b < a) : lg b < lg a := by
  rcases ha with rfl | rfl | rfl | rfl <;> rcases hb with rfl | rfl | rfl | rfl <;> simp [lg] <;> omega

/-- Resolutions and passes in order, whatever pass is asked for. -/
structure Ordered (l : List (Nat × Nat)) : Prop where
  value : ∀ e ∈ l, e.1 = 1 ∨ e.1 = 2 ∨ e.1 = 4 ∨ e.1 = 8
  chain : l.Pairwise fun a b => b.1 < a.1 ∧ a.2 < b.2

theorem zip_chain : ∀ (a b : List Nat), a.Pairwise (fun x y => y < x) → b.Pairwise (fun x y => x < y) →
    (a.zip b).Pairwise fun x y => y.1 < x.1 ∧ x.2 < y.2
  | [], _, _, _ => by simp
  | _ :: _, [], _, _ => by simp
  | x :: a, y :: b, ha, hb => by
    rw [List.pairwise_cons] at ha hb
    rw [List.zip_cons_cons, List.pairwise_cons]
    exact ⟨fun e he => ⟨ha.1 _ (List.of_mem_zip he).1, hb.1 _ (List.of_mem_zip he).2⟩, zip_chain a b ha.2 hb.2⟩

theorem Passes.Good.ordered {p : Passes} (h : p.Good) : Ordered (p.down.zip p.last) :=
  ⟨fun e he => h.down.1 _ (List.of_mem_zip he).1, zip_chain _ _ h.down.2 h.last.2⟩

/-- The loop over the resolutions in `step`. -/
def setLoop (i : Nat) (l : List (Nat × Nat)) (m : Int) : Int :=
  l.foldl (fun m e => if i = e.2 then (if e.1 = 1 then 0 else if e.1 = 2 then 1 else if e.1 = 4 then 2 else if e.1 = 8 then 3 else m) else m) m

/-- The loop in `level`. -/
def minLoop (n : Nat) (l : List (Nat × Nat)) (m : Int) : Int := l.foldl (fun m e => if e.2 < n then min m (lg e.1) else m) m

theorem setLoop_later {i : Nat} : ∀ (l : List (Nat × Nat)) (m : Int), (∀ e ∈ l, i < e.2) → setLoop i l m = m
  | [], _, _ => rfl
  | e :: l, m, h => by
    have := h e (by simp)
    unfold setLoop
    rw [List.foldl_cons, if_neg (by omega)]
    exact setLoop_later l m fun e he => h e (by simp [he])

theorem minLoop_later {n : Nat} : ∀ (l : List (Nat × Nat)) (m : Int), (∀ e ∈ l, n ≤ e.2) → minLoop n l m = m
  | [], _, _ => rfl
  | e :: l, m, h => by
    have := h e (by simp)
    unfold minLoop
    rw [List.foldl_cons, if_neg (by omega)]
    exact minLoop_later l m fun e he => h e (by simp [he])

/-- One more pass: setting the shift of its resolution is taking the minimum. -/
theorem set_min {i : Nat} : ∀ (l : List (Nat × Nat)) (m : Int), Ordered l → (∀ e ∈ l, lg e.1 ≤ m) → setLoop i l (minLoop i l m) = minLoop (i + 1) l m
  | [], _, _, _ => rfl
  | e :: l, m, h, hm => by
    have hc := List.pairwise_cons.mp h.chain
    have ho : Ordered l := ⟨fun e he => h.value e (by simp [he]), hc.2⟩
    rcases Nat.lt_trichotomy e.2 i with hi | hi | hi
    · have h1 : minLoop i (e :: l) m = minLoop i l (min m (lg e.1)) := by unfold minLoop; rw [List.foldl_cons, if_pos hi]
      have h2 : minLoop (i + 1) (e :: l) m = minLoop (i + 1) l (min m (lg e.1)) := by unfold minLoop; rw [List.foldl_cons, if_pos (by omega)]
      have h3 : ∀ v, setLoop i (e :: l) v = setLoop i l v := by intro v; unfold setLoop; rw [List.foldl_cons, if_neg (by omega)]
      rw [h1, h2, h3]
      refine set_min l _ ho fun f hf => ?_
      have a := hm f (by simp [hf])
      have b := lg_mono (h.value e (by simp)) (h.value f (by simp [hf])) (hc.1 f hf).1
      omega
    · have hl : ∀ f ∈ l, i < f.2 := fun f hf => by have := (hc.1 f hf).2; omega
      have h1 : minLoop i (e :: l) m = m := minLoop_later _ _ fun f hf => by
        rcases List.mem_cons.mp hf with rfl | hf
        · omega
        · have := hl f hf; omega
      have h2 : minLoop (i + 1) (e :: l) m = minLoop (i + 1) l (min m (lg e.1)) := by unfold minLoop; rw [List.foldl_cons, if_pos (by omega)]
      have h3 : ∀ v, setLoop i (e :: l) v = setLoop i l (lg e.1) := by
        intro v
        unfold setLoop
        rw [List.foldl_cons, if_pos hi.symm]
        congr 1
        rcases h.value e (by simp) with q | q | q | q <;> rw [q] <;> rfl
      have := hm e (by simp)
      rw [h1, h2, h3, setLoop_later _ _ hl, minLoop_later _ _ (fun f hf => by have := hl f hf; omega)]
      omega
    · have hl : ∀ f ∈ e :: l, i < f.2 := fun f hf => by
        rcases List.mem_cons.mp hf with rfl | hf
        · exact hi
        · have := (hc.1 f hf).2; omega
      rw [minLoop_later _ _ (fun f hf => by have := hl f hf; omega), setLoop_later _ _ hl, minLoop_later _ _ (fun f hf => by have := hl f hf; omega)]

theorem level_lt {p : Passes} {n : Nat} (h : n < p.num) : level p n = minLoop n (p.down.zip p.last) 3 := by
  unfold level minLoop
  rw [if_neg (by omega)]

theorem level_ge {p : Passes} {n : Nat} (h : p.num ≤ n) : level p n = 0 := by
  unfold level
  rw [if_pos h]

theorem step_level {p : Passes} (h : p.Good) {i : Nat} (hi : i < p.num) : step p i (level p i) = level p (i + 1) := by
  show (if i = p.num - 1 then 0 else setLoop i (p.down.zip p.last) (level p i)) = _
  by_cases he : i = p.num - 1
  · rw [if_pos he, level_ge (by omega)]
  · rw [if_neg he, level_lt hi, level_lt (by omega)]
    exact set_min _ _ h.ordered fun e _ => (lg_range _).2

theorem level_zero {p : Passes} (h : p.Good) : level p 0 = 3 := by
  rw [level_lt h.num.1, minLoop_later _ _ fun _ _ => Nat.zero_le _]

theorem bracket_level {p : Passes} (h : p.Good) : ∀ {i : Nat}, i < p.num → bracket p i = (level p (i + 1), level p i - 1)
  | 0, hi => by
    show (step p 0 3, (2 : Int)) = _
    rw [← step_level h hi, level_zero h]
    rfl
  | i + 1, hi => by
    rw [bracket, bracket_level h (i := i) (by omega), step_level h hi]

theorem minLoop_le (n : Nat) : ∀ (l : List (Nat × Nat)) (m : Int), minLoop n l m ≤ m
  | [], m => by simp [minLoop]
  | e :: l, m => by
    have := minLoop_le n l (if e.2 < n then min m (lg e.1) else m)
    have h2 : minLoop n (e :: l) m = minLoop n l (if e.2 < n then min m (lg e.1) else m) := rfl
    rw [h2]
    split at this <;> split <;> omega

theorem minLoop_nonneg (n : Nat) : ∀ (l : List (Nat × Nat)) (m : Int), 0 ≤ m → 0 ≤ minLoop n l m
  | [], m, h => h
  | e :: l, m, h => by
    have h2 : minLoop n (e :: l) m = minLoop n l (if e.2 < n then min m (lg e.1) else m) := rfl
    rw [h2]
    refine minLoop_nonneg n l _ ?_
    have := (lg_range e.1).1
    split <;> omega

theorem minLoop_mono (n : Nat) : ∀ (l : List (Nat × Nat)) (m m' : Int), m ≤ m' → minLoop (n + 1) l m ≤ minLoop n l m'
  | [], m, m', h => h
  | e :: l, m, m', h => by
    have h1 : minLoop n (e :: l) m' = minLoop n l (if e.2 < n then min m' (lg e.1) else m') := rfl
    have h2 : minLoop (n + 1) (e :: l) m = minLoop (n + 1) l (if e.2 < n + 1 then min m (lg e.1) else m) := rfl
    rw [h1, h2]
    refine minLoop_mono n l _ _ ?_
    split <;> split <;> omega

theorem level_range (p : Passes) (n : Nat) : 0 ≤ level p n ∧ level p n ≤ 3 := by
  unfold level
  split
  · omega
  · exact ⟨minLoop_nonneg _ _ _ (by omega), minLoop_le _ _ _⟩

theorem level_succ (p : Passes) (n : Nat) : level p (n + 1) ≤ level p n := by
  by_cases h : p.num ≤ n + 1
  · rw [level_ge h]
    exact (level_range p n).1
  · rw [level_lt (by omega), level_lt (by omega)]
    exact minLoop_mono _ _ _ _ (Int.le_refl _)

theorem level_mono (p : Passes) {m n : Nat} (h : m ≤ n) : level p n ≤ level p m := by
  induction h with
  | refl => exact Int.le_refl _
  | step _ ih => exact Int.le_trans (level_succ p _) ih

/-- A shift below 3 is in exactly one pass. -/
theorem one_pass {p : Passes} (h : p.Good) {s : Int} (h0 : 0 ≤ s) (h3 : s < 3) : ∃ i < p.num, (∀ j < p.num, (bracket p j).1 ≤ s ∧ s ≤ (bracket p j).2 ↔ j = i) := by
  have hex : ∀ n, level p n ≤ s → ∃ i < n, level p (i + 1) ≤ s ∧ s < level p i := by
    intro n
    induction n with
    | zero => intro hn; rw [level_zero h] at hn; omega
    | succ n ih =>
      intro hn
      by_cases hc : level p n ≤ s
      · obtain ⟨i, hi, h2⟩ := ih hc
        exact ⟨i, by omega, h2⟩
      · exact ⟨n, by omega, hn, by omega⟩
  obtain ⟨i, hi, h1, h2⟩ := hex p.num (by rw [level_ge (Nat.le_refl _)]; exact h0)
  refine ⟨i, hi, fun j hj => ?_⟩
  rw [bracket_level h hj]
  dsimp only
  constructor
  · intro hc
    rcases Nat.lt_trichotomy j i with q | q | q
    · have := level_mono p (show j + 1 ≤ i from q); omega
    · exact q
    · have := level_mono p (show i + 1 ≤ j from q); omega
  · rintro rfl
    omega

/-- No pass has a shift of 3 or more. -/
theorem bracket_low {p : Passes} (h : p.Good) {j : Nat} (hj : j < p.num) : (bracket p j).2 < 3 := by
  rw [bracket_level h hj]
  have := (level_range p j).2
  dsimp only
  omega

/-- The same loop with resolutions. -/
theorem target_loop (n : Nat) : ∀ (l : List (Nat × Nat)) (m : Int) (r : Nat), Ordered l → 0 ≤ m → m ≤ 3 → r = 2 ^ m.toNat →
    l.foldl (fun r e => if n > e.2 then min r e.1 else r) r = 2 ^ (minLoop n l m).toNat
  | [], m, r, _, _, _, h => h
  | e :: l, m, r, ho, h0, h3, h => by
    have hc := List.pairwise_cons.mp ho.chain
    have ho' : Ordered l := ⟨fun e he => ho.value e (by simp [he]), hc.2⟩
    have h2 : minLoop n (e :: l) m = minLoop n l (if e.2 < n then min m (lg e.1) else m) := rfl
    rw [List.foldl_cons, h2]
    have hr := lg_range e.1
    refine target_loop n l _ _ ho' ?_ ?_ ?_
    · split <;> omega
    · split <;> omega
    · by_cases hn : e.2 < n
      · rw [if_pos hn, if_pos hn, h]
        have hm : m = 0 ∨ m = 1 ∨ m = 2 ∨ m = 3 := by omega
        rcases ho.value e (by simp) with q | q | q | q <;> rw [q] <;> rcases hm with rfl | rfl | rfl | rfl <;> rfl
      · rw [if_neg hn, if_neg hn, h]

theorem target_level {p : Passes} (h : p.Good) (n : Nat) : target p n = 2 ^ (level p n).toNat := by
  unfold target
  by_cases hn : n ≥ p.num
  · rw [if_pos hn, level_ge hn]; rfl
  · rw [if_neg hn, level_lt (by omega)]
    exact target_loop n _ 3 8 h.ordered (by omega) (by omega) rfl

/-! ## The header -/

theorem num_codec : Codec (U32.write numEnc) (U32.read numEnc) (fun v => 1 ≤ v ∧ v ≤ 11) :=
  u32_codec (by decide) (cover fun v h1 h2 => by
    simp only [numEnc]
    rw [rep_val 1, rep_val 2, rep_val 3, rep_off 3 4]
    simp [U32.offset, U32.extraBits, U32.bitsOffset, U32.direct, U32.val]
    omega)

theorem count_codec : Codec (U32.write countEnc) (U32.read countEnc) (fun v => 0 ≤ v ∧ v ≤ 4) :=
  u32_codec (by decide) (cover fun v h1 h2 => by
    simp only [countEnc]
    rw [rep_val 0, rep_val 1, rep_val 2, rep_off 1 3]
    simp [U32.offset, U32.extraBits, U32.bitsOffset, U32.direct, U32.val]
    omega)

theorem last_codec : Codec (U32.write lastEnc) (U32.read lastEnc) (fun v => 0 ≤ v ∧ v ≤ 7) :=
  u32_codec (by decide) (cover fun v h1 h2 => by
    simp only [lastEnc]
    rw [rep_val 0, rep_val 1, rep_val 2, rep_off 3 0]
    simp [U32.offset, U32.extraBits, U32.bitsOffset, U32.direct, U32.val]
    omega)

theorem down_back {v : Nat} (h : v = 1 ∨ v = 2 ∨ v = 4 ∨ v = 8) : ∃ b, U32.write downEnc v = some b ∧ ∀ rest, U32.read downEnc (b ++ rest) = some (v, rest) := by
  have hr : ∃ t < 4, U32.Represents (downEnc.get t) v := by
    rcases h with rfl | rfl | rfl | rfl
    · exact ⟨0, by decide, (rep_val 1 1).mpr rfl⟩
    · exact ⟨1, by decide, (rep_val 2 2).mpr rfl⟩
    · exact ⟨2, by decide, (rep_val 4 4).mpr rfl⟩
    · exact ⟨3, by decide, (rep_val 8 8).mpr rfl⟩
  obtain ⟨sel, tot, h2⟩ := Bundle.u32_ok hr
  obtain ⟨b, h3, -, -⟩ := U32.write_read (e := downEnc) (by omega) h2 []
  refine ⟨b, h3, fun rest => ?_⟩
  obtain ⟨b', h4, -, h5⟩ := U32.write_read (e := downEnc) (by omega) h2 rest
  rw [h3] at h4
  cases h4
  exact h5

theorem down_good {s t : List Bool} {v : Nat} (h : U32.read downEnc s = some (v, t)) : v = 1 ∨ v = 2 ∨ v = 4 ∨ v = 8 := by
  simp only [U32.read, Option.bind_eq_bind] at h
  obtain ⟨⟨sel, s1⟩, h1, h⟩ := Option.bind_eq_some_iff.mp h
  have hl := rdBits_lt h1
  have hs : sel = 0 ∨ sel = 1 ∨ sel = 2 ∨ sel = 3 := by omega
  rcases hs with rfl | rfl | rfl | rfl
  all_goals
    dsimp only at h
    rw [if_pos (by decide)] at h
    injection h with h
    injection h with h
    subst h
    decide

/-- Every element is in order with the one before it. -/
def InOrder (ok : Option Nat → Nat → Bool) : Option Nat → List Nat → Prop
  | _, [] => True
  | prev, v :: l => ok prev v = true ∧ InOrder ok (some v) l

theorem seq_back {e : U32.Enc} {ok : Option Nat → Nat → Bool} {Good : Nat → Prop}
    (hb : ∀ v, Good v → ∃ b, U32.write e v = some b ∧ ∀ rest, U32.read e (b ++ rest) = some (v, rest)) :
    ∀ (l : List Nat) (prev : Option Nat), (∀ v ∈ l, Good v) → InOrder ok prev l →
      ∃ b, writeSeq e ok prev l = some b ∧ ∀ rest, readSeq e ok l.length prev (b ++ rest) = some (l, rest)
  | [], _, _, _ => ⟨[], rfl, fun _ => rfl⟩
  | v :: l, prev, hg, ho => by
    obtain ⟨x, hx, hx2⟩ := hb v (hg v (by simp))
    obtain ⟨y, hy, hy2⟩ := seq_back hb l (some v) (fun w hw => hg w (by simp [hw])) ho.2
    refine ⟨x ++ y, by simp [writeSeq, hx, hy, ho.1], fun rest => ?_⟩
    simp [readSeq, hx2, hy2, ho.1]

theorem seq_good {e : U32.Enc} {ok : Option Nat → Nat → Bool} {Good : Nat → Prop}
    (hb : ∀ s v t, U32.read e s = some (v, t) → Good v) :
    ∀ (n : Nat) (prev : Option Nat) (s : List Bool) (l : List Nat) (t : List Bool), readSeq e ok n prev s = some (l, t) →
      l.length = n ∧ (∀ v ∈ l, Good v) ∧ InOrder ok prev l
  | 0, _, s, l, t, h => by
    simp only [readSeq] at h
    injection h with h
    injection h with h _
    subst h
    exact ⟨rfl, by simp, trivial⟩
  | n + 1, prev, s, l, t, h => by
    simp only [readSeq, Option.bind_eq_bind] at h
    obtain ⟨⟨v, s1⟩, h1, h⟩ := Option.bind_eq_some_iff.mp h
    dsimp only at h
    split at h
    · rename_i hok
      obtain ⟨⟨l', s2⟩, h2, h⟩ := Option.bind_eq_some_iff.mp h
      injection h with h
      injection h with h _
      subst h
      obtain ⟨i1, i2, i3⟩ := seq_good hb n (some v) s1 l' s2 h2
      refine ⟨by simp [i1], fun w hw => ?_, hok, i3⟩
      rcases List.mem_cons.mp hw with rfl | hw
      · exact hb _ _ _ h1
      · exact i2 w hw
    · cases h

theorem down_order : ∀ (l : List Nat) (prev : Option Nat), InOrder downOk prev l ↔ l.Pairwise (fun a b => b < a) ∧ ∀ p, prev = some p → ∀ v ∈ l, v < p
  | [], prev => by simp [InOrder]
  | v :: l, prev => by
    rw [InOrder, down_order l (some v), List.pairwise_cons]
    constructor
    · rintro ⟨h1, h2, h3⟩
      refine ⟨⟨h3 v rfl, h2⟩, fun p hp w hw => ?_⟩
      subst hp
      have hv : v < p := by simpa [downOk] using h1
      rcases List.mem_cons.mp hw with rfl | hw
      · exact hv
      · have := h3 v rfl w hw; omega
    · rintro ⟨⟨h1, h2⟩, h3⟩
      refine ⟨?_, h2, fun p hp => by cases hp; exact h1⟩
      rcases prev with _ | p
      · rfl
      · simpa [downOk] using h3 p rfl v (by simp)

theorem last_order (num : Nat) : ∀ (l : List Nat) (prev : Option Nat),
    InOrder (lastOk num) prev l ↔ l.Pairwise (fun a b => a < b) ∧ (∀ p, prev = some p → ∀ v ∈ l, p < v) ∧ ∀ v ∈ l, v < num
  | [], prev => by simp [InOrder]
  | v :: l, prev => by
    rw [InOrder, last_order num l (some v), List.pairwise_cons]
    constructor
    · rintro ⟨h1, h2, h3, h4⟩
      have hn : v < num := by
        rcases prev with _ | p <;> simp [lastOk] at h1 <;> omega
      refine ⟨⟨h3 v rfl, h2⟩, fun p hp w hw => ?_, fun w hw => ?_⟩
      · subst hp
        have hv : p < v := by simp [lastOk] at h1; omega
        rcases List.mem_cons.mp hw with rfl | hw
        · exact hv
        · have := h3 v rfl w hw; omega
      · rcases List.mem_cons.mp hw with rfl | hw
        · exact hn
        · exact h4 w hw
    · rintro ⟨⟨h1, h2⟩, h3, h4⟩
      refine ⟨?_, h2, fun p hp => by cases hp; exact h1, fun w hw => h4 w (by simp [hw])⟩
      have hn := h4 v (by simp)
      rcases prev with _ | p
      · simp [lastOk, hn]
      · have := h3 p rfl v (by simp)
        simp [lastOk, hn, this]

theorem passes_back {p : Passes} (h : p.Good) : ∃ b, write p = some b ∧ ∀ rest, read (b ++ rest) = some (p, rest) := by
  obtain ⟨num, shift, down, last⟩ := p
  obtain ⟨⟨n1, n2⟩, h1, ⟨s1, s2⟩, ⟨c1, c2, c3⟩, ⟨d1, d2⟩, ⟨l1, l2⟩⟩ := h
  dsimp only at *
  obtain ⟨a, ha, ha2⟩ := num_codec.back num ⟨n1, n2⟩
  by_cases hone : num = 1
  · obtain ⟨rfl, rfl, rfl⟩ := h1 hone
    subst hone
    refine ⟨a, by simp [write, ha], fun rest => ?_⟩
    simp [read, ha2]
  · obtain ⟨b, hb, hb2⟩ := count_codec.back down.length ⟨by omega, c1⟩
    obtain ⟨c, hc, hc2⟩ := all_back (bits_codec 2) shift fun v hv => s2 v hv
    obtain ⟨d, hd, hd2⟩ := seq_back (e := downEnc) (ok := downOk) (fun v hv => down_back hv) down none d1 ((down_order _ _).mpr ⟨d2, by simp⟩)
    obtain ⟨e, he, he2⟩ := seq_back (e := lastEnc) (ok := lastOk num) (Good := fun v => 0 ≤ v ∧ v ≤ 7) (fun v hv => last_codec.back v hv) last none
      (fun v hv => by have := l1 v hv; omega) ((last_order _ _ _).mpr ⟨l2, by simp, fun v hv => (l1 v hv).1⟩)
    refine ⟨a ++ (b ++ (c ++ (d ++ e))), ?_, fun rest => ?_⟩
    · simp only [write, Option.bind_eq_bind, ha, Option.bind_some, hb, hc, hd, he]
      rw [if_neg (by omega), if_neg hone, if_neg (by omega)]
    · rw [s1] at hc2
      rw [c3] at he2
      simp only [read, Option.bind_eq_bind, List.append_assoc, ha2, Option.bind_some]
      rw [if_neg (by omega), if_neg hone, hb2, Option.bind_some]
      dsimp only
      rw [if_neg (by omega), hc2, Option.bind_some]
      dsimp only
      rw [hd2, Option.bind_some]
      dsimp only
      rw [he2, Option.bind_some]

theorem passes_good {s t : List Bool} {p : Passes} (h : read s = some (p, t)) : p.Good := by
  simp only [read, Option.bind_eq_bind] at h
  obtain ⟨⟨num, s1⟩, h1, h⟩ := Option.bind_eq_some_iff.mp h
  dsimp only at h
  obtain ⟨n1, n2⟩ := num_codec.good _ _ _ h1
  rw [if_neg (by omega)] at h
  split at h
  · injection h with h
    injection h with h _
    subst h
    exact ⟨⟨by decide, by decide⟩, fun _ => ⟨rfl, rfl, rfl⟩, ⟨rfl, by simp⟩, ⟨by decide, by decide, rfl⟩, ⟨by simp, by simp⟩, ⟨by simp, by simp⟩⟩
  · rename_i hone
    obtain ⟨⟨count, s2⟩, h2, h⟩ := Option.bind_eq_some_iff.mp h
    dsimp only at h
    split at h
    · cases h
    · rename_i hcnt
      obtain ⟨⟨shift, s3⟩, h3, h⟩ := Option.bind_eq_some_iff.mp h
      obtain ⟨⟨down, s4⟩, h4, h⟩ := Option.bind_eq_some_iff.mp h
      obtain ⟨⟨last, s5⟩, h5, h⟩ := Option.bind_eq_some_iff.mp h
      injection h with h
      injection h with h _
      subst h
      obtain ⟨a1, a2⟩ := all_good (bits_codec 2) _ _ _ _ h3
      obtain ⟨b1, b2, b3⟩ := seq_good (fun s v t h => down_good h) _ _ _ _ _ h4
      obtain ⟨c1, c2, c3⟩ := seq_good (fun s v t h => last_codec.good s v t h) _ _ _ _ _ h5
      obtain ⟨c4, -, c5⟩ := (last_order _ _ _).mp c3
      exact ⟨⟨n1, n2⟩, fun h => absurd h hone, ⟨a1, a2⟩, ⟨by dsimp only; omega, by dsimp only; omega, by dsimp only; omega⟩, ⟨b2, ((down_order _ _).mp b3).1⟩,
        ⟨fun v hv => ⟨c5 v hv, by have := c2 v hv; omega⟩, c4⟩⟩

end Jxl.Passes
