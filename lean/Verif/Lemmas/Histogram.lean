import Verif.Model.Histogram
/-! Lemmas for C13: the storage of histograms. -/
namespace Jxl.Histo

theorem rd_append {n v : Nat} (h : v < 2 ^ n) (s : List Bool) : rd n (bitsOf n v ++ s) = (v, s) := by
  have hl : (bitsOf n v).length = n := bitsOf_length n v
  unfold rd
  rw [List.take_left' hl, List.drop_left' hl, ofBits_bitsOf_lt h]

theorem readVarLen8_store {n : Nat} (h : n < 256) (s : List Bool) : readVarLen8 (storeVarLen8 n ++ s) = (n, s) := by
  unfold storeVarLen8
  by_cases h0 : n = 0
  · subst h0
    rw [if_pos rfl]; unfold readVarLen8; rw [rd_append (by decide)]; rfl
  · rw [if_neg h0, List.append_assoc, List.append_assoc]
    have h1 := Nat.log2_self_le h0
    have h2 := Nat.lt_log2_self (n := n)
    have h3 : n.log2 < 2 ^ 3 := (Nat.log2_lt h0).2 (by omega)
    rw [Nat.pow_succ] at h2
    unfold readVarLen8
    rw [rd_append (by decide)]
    dsimp only
    rw [if_pos rfl, rd_append h3]
    dsimp only
    rw [rd_append (by omega)]
    dsimp only
    by_cases hz : n.log2 = 0
    · rw [if_pos hz]
      rw [hz] at h1 h2 ⊢
      simp at h1 h2 ⊢
      omega
    · rw [if_neg hz]
      exact Prod.ext (by dsimp only; omega) rfl

/-! ## Operations -/

/-- One decoded step of the width code: a width, or a run of the previous count. -/
inductive Op where
  | lit (v : Nat)
  | run (n : Nat)

def opBits : Op → List Bool
  | .lit v => widthBits v
  | .run n => widthBits 13 ++ storeVarLen8 (n - 5)

/-- The operations in a stream. -/
def parseOps (length : Nat) : Nat → Nat → List Bool → List Op × List Bool
  | 0, _, s => ([], s)
  | k + 1, i, s =>
    if i < length then
      match huff.getD (rd 7 s).1 (0, 0) with
      | (n, v) =>
        if v = 13 then
          match readVarLen8 (s.drop n) with
          | (r, s) => (.run (r + 5) :: (parseOps length k (i + r + 4) s).1, (parseOps length k (i + r + 4) s).2)
        else (.lit v :: (parseOps length k (i + 1) (s.drop n)).1, (parseOps length k (i + 1) (s.drop n)).2)
    else ([], s)

/-- The arrays hold the operations. -/
inductive Desc (L : Logs) (length : Nat) : Nat → List Op → Prop
  | stop {i} : length ≤ i → Desc L length i []
  | lit {i v ops} : i < length → L.same.getD i 0 = 0 → L.logs.getD i 0 = v → Desc L length (i + 1) ops → Desc L length i (.lit v :: ops)
  | run {i n ops} : i < length → 5 ≤ n → L.same.getD i 0 = n → (∀ j, i < j → j < i + n - 1 → L.same.getD j 0 = 0) →
      Desc L length (i + n - 1) ops → Desc L length i (.run n :: ops)

/-- The position of the first largest width. -/
def omitOf : List Op → Nat → Nat × Option Nat → Nat × Option Nat
  | [], _, m => m
  | .lit v :: ops, i, m => omitOf ops (i + 1) (if v > m.1 then (v, some i) else m)
  | .run n :: ops, i, m => omitOf ops (i + n - 1) m

theorem getD_set_self {l : List Nat} {i v : Nat} (h : i < l.length) : (l.set i v).getD i 0 = v := by
  simp [h]

theorem getD_set_ne {l : List Nat} {i j v : Nat} (h : i ≠ j) : (l.set i v).getD j 0 = l.getD j 0 := by
  simp [List.getD_eq_getElem?_getD, List.getElem?_set_ne h]

theorem getD_set_eq {l : List Nat} {i j v : Nat} (hj : i < l.length) : (l.set i v).getD j 0 = if i = j then v else l.getD j 0 := by
  by_cases h : i = j
  · subst h; rw [if_pos rfl, getD_set_self hj]
  · rw [if_neg h, getD_set_ne h]

theorem readLogs_parse (length k : Nat) : ∀ (i : Nat) (L : Logs) (s : List Bool), length ≤ i + k →
    L.logs.length = length → L.same.length = length → (∀ j, i ≤ j → L.same.getD j 0 = 0) →
    ∃ L', readLogs length k i L s = (L', (parseOps length k i s).2) ∧ Desc L' length i (parseOps length k i s).1 ∧
      (∀ j, j < i → L'.same.getD j 0 = L.same.getD j 0 ∧ L'.logs.getD j 0 = L.logs.getD j 0) ∧
      (L'.omitLog, L'.omitPos) = omitOf (parseOps length k i s).1 i (L.omitLog, L.omitPos) := by
  induction k with
  | zero => intro i L s hk _ _ _; exact ⟨L, rfl, .stop (by omega), fun _ _ => ⟨rfl, rfl⟩, rfl⟩
  | succ k ih =>
    intro i L s hk hl hs hz
    rw [readLogs, parseOps]
    by_cases hi : i < length
    · rw [if_pos hi, if_pos hi]
      generalize huff.getD (rd 7 s).1 (0, 0) = e
      obtain ⟨n, v⟩ := e
      dsimp only
      by_cases hv : v = 13
      · rw [if_pos hv, if_pos hv]
        generalize readVarLen8 (s.drop n) = e2
        obtain ⟨r, s2⟩ := e2
        dsimp only
        obtain ⟨L', h1, h2, h3, h4⟩ := ih (i + r + 4) { L with logs := L.logs.set i v, same := L.same.set i (r + 5) } s2 (by omega)
          (by simpa using hl) (by simpa using hs)
          (by intro j hj; dsimp only; rw [getD_set_ne (by omega)]; exact hz j (by omega))
        refine ⟨L', h1, ?_, ?_, h4⟩
        · refine .run hi (by omega) ?_ ?_ h2
          · rw [(h3 i (by omega)).1]; exact getD_set_self (by omega)
          · intro j h5 h6
            rw [(h3 j (by omega)).1]; dsimp only; rw [getD_set_ne (by omega)]; exact hz j (by omega)
        · intro j hj
          obtain ⟨h5, h6⟩ := h3 j (by omega)
          dsimp only at h5 h6
          rw [getD_set_ne (by omega)] at h5 h6
          exact ⟨h5, h6⟩
      · rw [if_neg hv, if_neg hv]
        have key : ∀ (ol : Nat) (op : Option Nat), ∃ L', readLogs length k (i + 1) ⟨L.logs.set i v, L.same, ol, op⟩ (s.drop n) = (L', (parseOps length k (i + 1) (s.drop n)).2) ∧
            Desc L' length i (.lit v :: (parseOps length k (i + 1) (s.drop n)).1) ∧
            (∀ j, j < i → L'.same.getD j 0 = L.same.getD j 0 ∧ L'.logs.getD j 0 = L.logs.getD j 0) ∧
            (L'.omitLog, L'.omitPos) = omitOf (parseOps length k (i + 1) (s.drop n)).1 (i + 1) (ol, op) := by
          intro ol op
          obtain ⟨L', h1, h2, h3, h4⟩ := ih (i + 1) ⟨L.logs.set i v, L.same, ol, op⟩ (s.drop n) (by omega)
            (by simpa using hl) hs (fun j hj => hz j (by omega))
          refine ⟨L', h1, ?_, ?_, h4⟩
          · refine .lit hi ?_ ?_ h2
            · rw [(h3 i (by omega)).1]; exact hz i (by omega)
            · rw [(h3 i (by omega)).2]; exact getD_set_self (by omega)
          · intro j hj
            obtain ⟨h5, h6⟩ := h3 j (by omega)
            dsimp only at h5 h6
            rw [getD_set_ne (by omega)] at h6
            exact ⟨h5, h6⟩
        by_cases hm : v > L.omitLog
        · rw [if_pos hm]
          obtain ⟨L', h1, h2, h3, h4⟩ := key v (some i)
          refine ⟨L', h1, h2, h3, ?_⟩
          rw [h4]; simp [omitOf, hm]
        · rw [if_neg hm]
          obtain ⟨L', h1, h2, h3, h4⟩ := key L.omitLog L.omitPos
          refine ⟨L', h1, h2, h3, ?_⟩
          rw [h4]; simp [omitOf, hm]
    · rw [if_neg hi, if_neg hi]
      exact ⟨L, rfl, .stop (by omega), fun _ _ => ⟨rfl, rfl⟩, rfl⟩

/-! ## The second loop, by operations -/

/-- Store `c` at `k` positions from `i`. -/
def runPut : Nat → Nat → Nat → List Nat × Nat → List Nat × Nat
  | 0, _, _, a => a
  | k + 1, i, c, a => runPut k (i + 1) c (a.1.set i c, a.2 + c)

def litStep (shift om i v : Nat) (a : List Nat × Nat) (s : List Bool) : (List Nat × Nat) × List Bool :=
  if i = om ∨ v = 0 then (a, s)
  else if shift = 0 ∨ v = 1 then ((a.1.set i (2 ^ (v - 1)), a.2 + 2 ^ (v - 1)), s)
  else
    ((a.1.set i (2 ^ (v - 1) + (rd (precision (v - 1) shift) s).1 * 2 ^ (v - 1 - precision (v - 1) shift)),
      a.2 + (2 ^ (v - 1) + (rd (precision (v - 1) shift) s).1 * 2 ^ (v - 1 - precision (v - 1) shift))), (rd (precision (v - 1) shift) s).2)

def fillOps (shift om length : Nat) : List Op → Nat → List Nat × Nat → List Bool → (List Nat × Nat) × List Bool
  | [], _, a, s => (a, s)
  | .lit v :: ops, i, a, s => fillOps shift om length ops (i + 1) (litStep shift om i v a s).1 (litStep shift om i v a s).2
  | .run n :: ops, i, a, s =>
    fillOps shift om length ops (i + n - 1) (runPut (min (n - 1) (length - i)) i (if i > 0 then a.1.getD (i - 1) 0 else 0) a) s

theorem startRun_zero {L : Logs} {i : Nat} (a : Acc) (h : L.same.getD i 0 = 0) : startRun L i a = a := by
  unfold startRun; rw [if_neg (by rw [h]; simp)]

theorem startRun_run {L : Logs} {i n : Nat} (a : Acc) (h : L.same.getD i 0 = n) (hn : 5 ≤ n) :
    startRun L i a = { a with numsame := n - 1, prev := if i > 0 then a.counts.getD (i - 1) 0 else 0 } := by
  unfold startRun; rw [if_pos (by rw [h]; omega), h]

/-- Inside a run. -/
theorem fill_run (L : Logs) (shift om : Nat) (m : Nat) : ∀ (k i : Nat) (a : Acc) (s : List Bool), m ≤ k → m ≤ a.numsame →
    (∀ j, i ≤ j → j < i + m → L.same.getD j 0 = 0) →
    fill L shift om k i a s = fill L shift om (k - m) (i + m)
      ⟨(runPut m i a.prev (a.counts, a.total)).1, a.prev, a.numsame - m, (runPut m i a.prev (a.counts, a.total)).2⟩ s := by
  induction m with
  | zero => intro k i a s _ _ _; simp [runPut]
  | succ m ih =>
    intro k i a s hk hn hz
    obtain ⟨k, rfl⟩ : ∃ k', k = k' + 1 := ⟨k - 1, by omega⟩
    rw [fill]
    have e : fillStep L shift om i a s = ({ put a i a.prev with numsame := a.numsame - 1 }, s) := by
      unfold fillStep
      rw [startRun_zero a (hz i (by omega) (by omega))]
      dsimp only
      rw [if_pos (by omega)]
    rw [e]
    dsimp only
    rw [ih k (i + 1) _ s (by omega) (by dsimp only; omega) (fun j h1 h2 => hz j (by omega) (by omega))]
    simp only [put, runPut]
    congr 1
    · omega
    · omega
    · congr 1; omega

theorem fill_desc (L : Logs) (shift om length : Nat) {i : Nat} {ops : List Op} (hd : Desc L length i ops) :
    ∀ (a : Acc) (s : List Bool), a.numsame = 0 →
      ∃ a', fill L shift om (length - i) i a s = (a', (fillOps shift om length ops i (a.counts, a.total) s).2) ∧
        (a'.counts, a'.total) = (fillOps shift om length ops i (a.counts, a.total) s).1 := by
  induction hd with
  | @stop i h =>
    intro a s ha
    rw [show length - i = 0 by omega]
    exact ⟨a, rfl, rfl⟩
  | @lit i v ops hi hs hl hd ih =>
    intro a s ha
    rw [show length - i = (length - (i + 1)) + 1 by omega, fill, fillOps]
    have e : ∃ a1, fillStep L shift om i a s = (a1, (litStep shift om i v (a.counts, a.total) s).2) ∧ a1.numsame = 0 ∧
        (a1.counts, a1.total) = (litStep shift om i v (a.counts, a.total) s).1 := by
      unfold fillStep litStep
      rw [startRun_zero a hs]
      dsimp only
      rw [if_neg (by omega), hl]
      by_cases h1 : i = om ∨ v = 0
      · simp [h1, ha]
      · rw [if_neg h1, if_neg h1]
        by_cases h2 : shift = 0 ∨ v = 1
        · simp [h2, ha, put]
        · rw [if_neg h2, if_neg h2]
          simp [put, ha]
    obtain ⟨a1, h1, h2, h3⟩ := e
    rw [h1]
    dsimp only
    obtain ⟨a2, h4, h5⟩ := ih a1 _ h2
    rw [h4, h3]
    exact ⟨a2, rfl, by rw [h5, h3]⟩
  | @run i n ops hi hn hs hz hd ih =>
    intro a s ha
    rw [show length - i = (length - i - 1) + 1 by omega, fill, fillOps]
    have e : fillStep L shift om i a s =
        (⟨a.counts.set i (if i > 0 then a.counts.getD (i - 1) 0 else 0), (if i > 0 then a.counts.getD (i - 1) 0 else 0), n - 1 - 1, a.total + (if i > 0 then a.counts.getD (i - 1) 0 else 0)⟩, s) := by
      unfold fillStep
      rw [startRun_run a hs hn]
      dsimp only
      rw [if_pos (by omega)]
      rfl
    rw [e]
    dsimp only
    generalize (if i > 0 then a.counts.getD (i - 1) 0 else 0) = p
    rw [fill_run L shift om (min (n - 1) (length - i) - 1) _ (i + 1) _ s (by omega) (by dsimp only; omega)
      (fun j h1 h2 => hz j (by omega) (by omega))]
    dsimp only
    have er : runPut (min (n - 1) (length - i)) i p (a.counts, a.total) =
        runPut (min (n - 1) (length - i) - 1) (i + 1) p (a.counts.set i p, a.total + p) := by
      rw [show min (n - 1) (length - i) = (min (n - 1) (length - i) - 1) + 1 by omega, runPut]
      simp
    rw [er]
    by_cases hle : n - 1 ≤ length - i
    · have h1 : length - i - 1 - (min (n - 1) (length - i) - 1) = length - (i + n - 1) := by omega
      have h2 : i + 1 + (min (n - 1) (length - i) - 1) = i + n - 1 := by omega
      rw [h1, h2]
      obtain ⟨a2, h4, h5⟩ := ih ⟨(runPut (min (n - 1) (length - i) - 1) (i + 1) p (a.counts.set i p, a.total + p)).1, p, n - 1 - 1 - (min (n - 1) (length - i) - 1),
        (runPut (min (n - 1) (length - i) - 1) (i + 1) p (a.counts.set i p, a.total + p)).2⟩ s (by dsimp only; omega)
      exact ⟨a2, h4, h5⟩
    · have h1 : length - i - 1 - (min (n - 1) (length - i) - 1) = 0 := by omega
      rw [h1, fill]
      have h2 : ops = [] := by
        cases hd with
        | stop _ => rfl
        | lit h _ _ _ => omega
        | run h _ _ _ _ => omega
      subst h2
      exact ⟨_, rfl, rfl⟩

/-! ## Accepted histograms -/

theorem sum_set {l : List Nat} {i c : Nat} (hi : i < l.length) : (l.set i c).sum + l.getD i 0 = l.sum + c := by
  induction l generalizing i with
  | nil => simp at hi
  | cons x l ih =>
    cases i with
    | zero => simp; omega
    | succ i => simp only [List.set_cons_succ, List.sum_cons, List.getD_cons_succ]; have := ih (i := i) (by simpa using hi); omega

theorem runPut_spec (k : Nat) : ∀ (i c : Nat) (a : List Nat × Nat), i + k ≤ a.1.length → (∀ j, i ≤ j → a.1.getD j 0 = 0) → a.2 = a.1.sum →
    (runPut k i c a).2 = (runPut k i c a).1.sum ∧ (runPut k i c a).1.length = a.1.length ∧
    (∀ j, (runPut k i c a).1.getD j 0 = if i ≤ j ∧ j < i + k then c else a.1.getD j 0) := by
  induction k with
  | zero =>
    intro i c a _ _ h
    refine ⟨h, rfl, ?_⟩
    intro j; rw [if_neg (by omega)]; rfl
  | succ k ih =>
    intro i c a hl hz h
    rw [runPut]
    have hs := sum_set (l := a.1) (i := i) (c := c) (by omega)
    rw [hz i (by omega)] at hs
    obtain ⟨h1, h2, h3⟩ := ih (i + 1) c (a.1.set i c, a.2 + c) (by simp; omega)
      (by intro j hj; dsimp only; rw [getD_set_ne (by omega)]; exact hz j (by omega)) (by dsimp only; omega)
    refine ⟨h1, by rw [h2]; simp, ?_⟩
    intro j
    rw [h3 j]
    dsimp only
    rw [getD_set_eq (by omega)]
    by_cases h4 : i = j
    · subst h4; rw [if_neg (by omega), if_pos rfl, if_pos (by omega)]
    · rw [if_neg h4]
      by_cases h5 : i + 1 ≤ j ∧ j < i + 1 + k
      · rw [if_pos h5, if_pos (by omega)]
      · rw [if_neg h5, if_neg (by omega)]

/-- The omitted position is not in a run. -/
def Clear (om : Nat) : List Op → Nat → Prop
  | [], _ => True
  | .lit _ :: ops, i => Clear om ops (i + 1)
  | .run n :: ops, i => (om < i ∨ i + n - 1 ≤ om) ∧ Clear om ops (i + n - 1)

theorem litStep_spec {shift om i v : Nat} {a : List Nat × Nat} {s : List Bool} (hl : i < a.1.length)
    (hz : ∀ j, i ≤ j → a.1.getD j 0 = 0) (ht : a.2 = a.1.sum) :
    (litStep shift om i v a s).1.2 = (litStep shift om i v a s).1.1.sum ∧ (litStep shift om i v a s).1.1.length = a.1.length ∧
    (∀ j, j ≠ i → (litStep shift om i v a s).1.1.getD j 0 = a.1.getD j 0) ∧
    (i = om → (litStep shift om i v a s).1.1.getD i 0 = 0) := by
  have key : ∀ c, a.2 + c = (a.1.set i c).sum := by
    intro c
    have := sum_set (c := c) hl
    rw [hz i (by omega)] at this; omega
  unfold litStep
  by_cases h1 : i = om ∨ v = 0
  · rw [if_pos h1]; exact ⟨ht, rfl, fun _ _ => rfl, fun _ => hz i (by omega)⟩
  · rw [if_neg h1]
    by_cases h2 : shift = 0 ∨ v = 1
    · rw [if_pos h2]
      exact ⟨key _, by simp, fun j hj => getD_set_ne (by omega), fun h => absurd (Or.inl h) h1⟩
    · rw [if_neg h2]
      exact ⟨key _, by simp, fun j hj => getD_set_ne (by omega), fun h => absurd (Or.inl h) h1⟩

theorem fillOps_sum (L : Logs) (shift om length : Nat) {i : Nat} {ops : List Op} (hd : Desc L length i ops) :
    ∀ (a : List Nat × Nat) (s : List Bool), Clear om ops i → a.1.length = length → (∀ j, i ≤ j → a.1.getD j 0 = 0) → a.2 = a.1.sum → a.1.getD om 0 = 0 →
      (fillOps shift om length ops i a s).1.2 = (fillOps shift om length ops i a s).1.1.sum ∧
      (fillOps shift om length ops i a s).1.1.length = length ∧ (fillOps shift om length ops i a s).1.1.getD om 0 = 0 := by
  induction hd with
  | stop h => intro a s _ h1 _ h2 h3; exact ⟨h2, h1, h3⟩
  | @lit i v ops hi hs hl hd ih =>
    intro a s hc h1 h2 h3 h4
    rw [fillOps]
    obtain ⟨p1, p2, p3, p4⟩ := litStep_spec (shift := shift) (om := om) (v := v) (s := s) (by omega) h2 h3
    refine ih _ _ hc (by omega) ?_ p1 ?_
    · intro j hj; rw [p3 j (by omega)]; exact h2 j (by omega)
    · by_cases h : i = om
      · subst h; exact p4 rfl
      · rw [p3 om (by omega)]; exact h4
  | @run i n ops hi hn hs hz hd ih =>
    intro a s hc h1 h2 h3 h4
    rw [fillOps]
    obtain ⟨p1, p2, p3⟩ := runPut_spec (min (n - 1) (length - i)) i (if i > 0 then a.1.getD (i - 1) 0 else 0) a (by omega) h2 h3
    refine ih _ _ hc.2 (by omega) ?_ p1 ?_
    · intro j hj; rw [p3 j, if_neg (by omega)]; exact h2 j (by omega)
    · rw [p3 om, if_neg (by have := hc.1; omega)]; exact h4

theorem omitOf_cases (ops : List Op) : ∀ (i : Nat) (m : Nat × Option Nat), (∀ x, Op.run x ∈ ops → 5 ≤ x) →
    (omitOf ops i m).2 = m.2 ∨ ∃ o, i ≤ o ∧ (omitOf ops i m).2 = some o := by
  induction ops with
  | nil => intro i m _; exact .inl rfl
  | cons op ops ih =>
    intro i m hr
    cases op with
    | lit v =>
      rw [omitOf]
      rcases ih (i + 1) (if v > m.1 then (v, some i) else m) (fun x h => hr x (List.mem_cons_of_mem _ h)) with h | ⟨o, h1, h2⟩
      · by_cases hm : v > m.1
        · rw [if_pos hm] at h ⊢; exact .inr ⟨i, by omega, h⟩
        · rw [if_neg hm] at h ⊢; exact .inl h
      · exact .inr ⟨o, by omega, h2⟩
    | run n =>
      rw [omitOf]
      have := hr n (by simp)
      rcases ih (i + n - 1) m (fun x h => hr x (List.mem_cons_of_mem _ h)) with h | ⟨o, h1, h2⟩
      · exact .inl h
      · exact .inr ⟨o, by omega, h2⟩

theorem omitOf_clear (ops : List Op) (om : Nat) : ∀ (i : Nat) (m : Nat × Option Nat), (∀ x, Op.run x ∈ ops → 5 ≤ x) →
    (∀ o, m.2 = some o → o < i) → (omitOf ops i m).2 = some om → Clear om ops i := by
  induction ops with
  | nil => intro i m _ _ _; exact trivial
  | cons op ops ih =>
    intro i m hr hm h
    have hr' : ∀ x, Op.run x ∈ ops → 5 ≤ x := fun x hx => hr x (List.mem_cons_of_mem _ hx)
    cases op with
    | lit v =>
      rw [omitOf] at h
      refine ih (i + 1) _ hr' ?_ h
      intro o ho
      by_cases hv : v > m.1
      · rw [if_pos hv] at ho; simp at ho; omega
      · rw [if_neg hv] at ho; have := hm o ho; omega
    | run n =>
      have hn := hr n (by simp)
      rw [omitOf] at h
      refine ⟨?_, ih (i + n - 1) m hr' (fun o ho => by have := hm o ho; omega) h⟩
      rcases omitOf_cases ops (i + n - 1) m hr' with h1 | ⟨o, h1, h2⟩
      · rw [h1] at h; exact .inl (hm om h)
      · rw [h2] at h; injection h with h; exact .inr (by omega)

theorem desc_runs {L : Logs} {length i : Nat} {ops : List Op} (hd : Desc L length i ops) : ∀ x, Op.run x ∈ ops → 5 ≤ x := by
  induction hd with
  | stop _ => simp
  | lit _ _ _ _ ih => intro x hx; simp at hx; exact ih x hx
  | run _ h _ _ _ ih =>
    intro x hx; simp at hx
    rcases hx with rfl | hx
    · exact h
    · exact ih x hx

theorem omitOf_lt {L : Logs} {length i : Nat} {ops : List Op} (hd : Desc L length i ops) : ∀ (m : Nat × Option Nat),
    (∀ o, m.2 = some o → o < length) → ∀ o, (omitOf ops i m).2 = some o → o < length := by
  induction hd with
  | stop _ => intro m h; exact h
  | @lit i v ops h _ _ _ ih =>
    intro m hm
    rw [omitOf]
    refine ih _ ?_
    intro o ho
    by_cases hv : v > m.1
    · rw [if_pos hv] at ho; simp at ho; omega
    · rw [if_neg hv] at ho; exact hm o ho
  | run _ _ _ _ _ ih => intro m hm; rw [omitOf]; exact ih m hm

/-- The initial arrays. -/
def logs0 (n : Nat) : Logs := { logs := List.replicate n 1, same := List.replicate n 0, omitLog := 0, omitPos := none }

theorem getD_replicate_zero (n j : Nat) : (List.replicate n 0).getD j 0 = 0 := by
  rw [List.getD_eq_getElem?_getD, List.getElem?_replicate]; split <;> rfl

/-- The general decoder, by operations. -/
theorem readGeneral_ops {shift : Nat} {s s' : List Bool} {c : List Nat} (h : readGeneral shift s = some (c, s')) :
    ∃ n s1 om, readVarLen8 s = (n, s1) ∧ (omitOf (parseOps (n + 3) (n + 3) 0 s1).1 0 (0, none)).2 = some om ∧
      c = (fillOps shift om (n + 3) (parseOps (n + 3) (n + 3) 0 s1).1 0 (List.replicate (n + 3) 0, 0) (parseOps (n + 3) (n + 3) 0 s1).2).1.1.set om
        (4096 - (fillOps shift om (n + 3) (parseOps (n + 3) (n + 3) 0 s1).1 0 (List.replicate (n + 3) 0, 0) (parseOps (n + 3) (n + 3) 0 s1).2).1.2) ∧
      (fillOps shift om (n + 3) (parseOps (n + 3) (n + 3) 0 s1).1 0 (List.replicate (n + 3) 0, 0) (parseOps (n + 3) (n + 3) 0 s1).2).1.2 < 4096 ∧
      ∃ L, Desc L (n + 3) 0 (parseOps (n + 3) (n + 3) 0 s1).1 := by
  unfold readGeneral at h
  generalize he : readVarLen8 s = e at h
  obtain ⟨n, s1⟩ := e
  dsimp only at h
  obtain ⟨L, h1, h2, _, h4⟩ := readLogs_parse (n + 3) (n + 3) 0 (logs0 (n + 3)) s1 (by omega) (by simp [logs0]) (by simp [logs0])
    (fun j _ => getD_replicate_zero _ j)
  rw [show (⟨List.replicate (n + 3) 1, List.replicate (n + 3) 0, 0, none⟩ : Logs) = logs0 (n + 3) from rfl, h1] at h
  dsimp only at h
  have h6 := congrArg Prod.snd h4
  dsimp only at h6
  cases hom : L.omitPos with
  | none => rw [hom] at h; exact absurd h (by simp)
  | some om =>
    rw [hom] at h
    dsimp only at h
    by_cases hc : om + 1 < n + 3 ∧ L.logs.getD (om + 1) 0 = 13
    · rw [if_pos hc] at h; exact absurd h (by simp)
    · rw [if_neg hc] at h
      obtain ⟨a, h7, h8⟩ := fill_desc L shift om (n + 3) h2 ⟨List.replicate (n + 3) 0, 0, 0, 0⟩ (parseOps (n + 3) (n + 3) 0 s1).2 rfl
      rw [Nat.sub_zero] at h7
      rw [h7] at h
      dsimp only at h h8
      by_cases ht : 4096 ≤ a.total
      · rw [if_pos ht] at h; exact absurd h (by simp)
      · rw [if_neg ht] at h
        injection h with h; injection h with h9 h10
        refine ⟨n, s1, om, rfl, ?_, ?_, ?_, L, h2⟩
        · rw [← hom, h6]; rfl
        · rw [← h8]; exact h9.symm
        · rw [← h8]; simpa using ht

theorem readGeneral_sum {shift : Nat} {s s' : List Bool} {c : List Nat} (h : readGeneral shift s = some (c, s')) : c.sum = 4096 := by
  obtain ⟨n, s1, om, h1, h2, h3, h4, L, h5⟩ := readGeneral_ops h
  have hcl := omitOf_clear _ om 0 (0, none) (desc_runs h5) (by simp) h2
  have hlt := omitOf_lt h5 (0, none) (by simp) om h2
  obtain ⟨h6, h7, h8⟩ := fillOps_sum L shift om (n + 3) h5 (List.replicate (n + 3) 0, 0) (parseOps (n + 3) (n + 3) 0 s1).2 hcl (by simp)
    (fun j _ => getD_replicate_zero _ j) (by simp) (getD_replicate_zero _ om)
  have := sum_set (c := 4096 - (fillOps shift om (n + 3) (parseOps (n + 3) (n + 3) 0 s1).1 0 (List.replicate (n + 3) 0, 0) (parseOps (n + 3) (n + 3) 0 s1).2).1.2)
    (l := (fillOps shift om (n + 3) (parseOps (n + 3) (n + 3) 0 s1).1 0 (List.replicate (n + 3) 0, 0) (parseOps (n + 3) (n + 3) 0 s1).2).1.1) (i := om) (by omega)
  rw [h3]
  omega

theorem sum_map_lt (n r q : Nat) : ((List.range n).map fun i => if i < r then q + 1 else q).sum = n * q + min n r := by
  induction n with
  | zero => simp
  | succ n ih =>
    rw [List.range_succ, List.map_append, List.sum_append, ih]
    simp only [List.map_cons, List.map_nil, List.sum_cons, List.sum_nil]
    rw [Nat.succ_mul]
    split <;> omega

theorem flat_sum {n : Nat} (h : 0 < n) (t : Nat) : (flat n t).sum = t := by
  unfold flat
  rw [sum_map_lt]
  have := Nat.mod_lt t h
  have := Nat.div_add_mod t n
  omega

theorem rd_lt (n : Nat) (s : List Bool) : (rd n s).1 < 2 ^ n := by
  unfold rd
  have := ofBits_lt (s.take n)
  exact Nat.lt_of_lt_of_le this (Nat.pow_le_pow_right (by omega) (List.length_take_le _ _))

theorem readSmall_sum {s s' : List Bool} {c : List Nat} (h : readSmall s = some (c, s')) : c.sum = 4096 := by
  unfold readSmall at h
  generalize rd 1 s = e at h
  obtain ⟨two, s1⟩ := e
  dsimp only at h
  generalize readVarLen8 s1 = e at h
  obtain ⟨a, s2⟩ := e
  dsimp only at h
  by_cases ht : two = 0
  · rw [if_pos ht] at h
    injection h with h; injection h with h _
    have := sum_set (l := List.replicate (a + 1) 0) (i := a) (c := 4096) (by simp)
    rw [getD_replicate_zero] at this
    rw [← h]
    simpa using this
  · rw [if_neg ht] at h
    generalize readVarLen8 s2 = e at h
    obtain ⟨b, s3⟩ := e
    dsimp only at h
    by_cases hab : a = b
    · rw [if_pos hab] at h; exact absurd h (by simp)
    · rw [if_neg hab] at h
      have hlt := rd_lt 12 s3
      generalize rd 12 s3 = e at h hlt
      obtain ⟨x, s4⟩ := e
      dsimp only at h hlt
      injection h with h; injection h with h _
      have h1 := sum_set (l := List.replicate (max a b + 1) 0) (i := a) (c := x) (by simp; omega)
      have h2 := sum_set (l := (List.replicate (max a b + 1) 0).set a x) (i := b) (c := 4096 - x) (by simp; omega)
      rw [getD_replicate_zero] at h1
      rw [getD_set_ne hab, getD_replicate_zero] at h2
      have h3 : (List.replicate (max a b + 1) 0).sum = 0 := by simp
      rw [← h]
      omega

theorem read_sum {s s' : List Bool} {c : List Nat} (h : read s = some (c, s')) : c.sum = 4096 := by
  unfold read at h
  generalize rd 1 s = e at h
  obtain ⟨simple, s1⟩ := e
  dsimp only at h
  by_cases h1 : simple = 1
  · rw [if_pos h1] at h; exact readSmall_sum h
  · rw [if_neg h1] at h
    generalize rd 1 s1 = e at h
    obtain ⟨fl, s2⟩ := e
    dsimp only at h
    by_cases h2 : fl = 1
    · rw [if_pos h2] at h
      generalize readVarLen8 s2 = e at h
      obtain ⟨n, s3⟩ := e
      dsimp only at h
      by_cases h3 : n + 1 > 4096
      · rw [if_pos h3] at h; exact absurd h (by simp)
      · rw [if_neg h3] at h
        injection h with h; injection h with h _
        rw [← h]; exact flat_sum (by omega) _
    · rw [if_neg h2] at h
      obtain ⟨⟨shift, s3⟩, _, h4⟩ := Option.bind_eq_some_iff.1 h
      exact readGeneral_sum h4

end Jxl.Histo
