import Verif.Lemmas.ModularCode
/-!
# When the encoder does not refuse
-/
namespace Jxl.Modular
open Jxl.MaTree Jxl.Props

/-- Samples of 31 bits. -/
def Mid (v : Px) : Prop := -1073741824 ≤ v.toInt ∧ v.toInt < 1073741824
def MidI (v : Int) : Prop := -1073741824 ≤ v ∧ v < 1073741824

/-- All samples a position refers to. -/
structure PosMid (p : Pos) : Prop where
  n1 : ∀ v ∈ p.n1, Mid v
  n2 : ∀ v ∈ p.n2, Mid v
  cur : ∀ v ∈ p.cur, Mid v

theorem at_mid {l : List Px} (hl : ∀ v ∈ l, Mid v) {i : Nat} {z : Int} (h : at? l i = some z) : MidI z := by
  unfold at? at h
  simp only [Option.map_eq_some_iff] at h
  obtain ⟨v, h1, rfl⟩ := h
  exact hl v (List.mem_of_getElem? h1)

theorem nbEdge_mid {p : Pos} (hp : PosMid p) {n : Nb} (h : nbEdge p = some n) : MidI n.left ∧ MidI n.top ∧ MidI n.topleft := by
  unfold nbEdge at h
  simp only [Option.bind_eq_some_iff, Option.map_eq_some_iff] at h
  obtain ⟨l, h1, t, h2, tl, h3, tr, -, ll, -, tt, -, trr, -, rfl⟩ := h
  have hl : MidI l := by
    unfold leftAt at h1
    split at h1
    · exact at_mid hp.cur h1
    · split at h1
      · exact at_mid hp.n1 h1
      · injection h1 with h1; subst h1; unfold MidI; omega
  refine ⟨hl, ?_, ?_⟩
  · unfold topAt at h2
    split at h2
    · exact at_mid hp.n1 h2
    · injection h2 with h2; subst h2; exact hl
  · unfold topleftAt at h3
    split at h3
    · exact at_mid hp.n1 h3
    · injection h3 with h3; subst h3; exact hl

theorem clampedGradient_mid {a b c : Int} (ha : MidI a) (hb : MidI b) : MidI (clampedGradient a b c) := by
  unfold MidI clampedGradient at *
  dsimp only
  split
  · omega
  · split
    · omega
    · rw [i32_of_range (by omega) (by omega)]; omega

theorem tokSub_mid {a : Sel} {px v : Px} {u : Bool} (ha : MidI a.guess) (hp : Mid px) (h : tokSub a px = some (v, u)) : u = false := by
  unfold tokSub at h
  simp only [Option.some.injEq, Prod.mk.injEq] at h
  unfold Mid MidI at *
  rw [← h.2, decide_eq_false_iff_not, i32_of_range (by omega) (by omega)]
  simp

/-- The loop never reports an overflow for such samples. -/
def Accepts {σ : Type} (P : Path σ) (tok : Sel → Px → Option (Px × Bool)) : Prop :=
  ∀ p s a s' px v u, PosMid p → Mid px → P.step p s = some (a, s') → tok a px = some (v, u) → u = false

theorem row_accepts {σ : Type} {P : Path σ} {tok : Sel → Px → Option (Px × Bool)} (hA : Accepts P tok) {w y : Nat} {n1 n2 : List Px} (h1 : ∀ v ∈ n1, Mid v) (h2 : ∀ v ∈ n2, Mid v) :
    ∀ (rest cur : List Px) (s : σ) (o : List Tok × Bool × σ), (∀ v ∈ rest, Mid v) → (∀ v ∈ cur, Mid v) → encRow P tok w y n1 n2 rest cur s = some o → o.2.1 = false := by
  intro rest
  induction rest with
  | nil => intro cur s o _ _ h; simp only [encRow, Option.some.injEq] at h; subst h; rfl
  | cons p rest ih =>
    intro cur s o hr hc h
    rw [encRow] at h
    simp only [Option.bind_eq_some_iff, Option.map_eq_some_iff] at h
    obtain ⟨a, e1, t, e2, s2, -, q, e3, rfl⟩ := h
    have hp := hr p (List.mem_cons_self ..)
    have k1 := hA _ _ a.1 a.2 p t.1 t.2 ⟨h1, h2, hc⟩ hp e1 e2
    have k2 := ih (cur ++ [p]) s2 q (fun v hv => hr v (List.mem_cons_of_mem _ hv)) (by
      intro v hv
      rcases List.mem_append.mp hv with h | h
      · exact hc v h
      · simp at h; subst h; exact hp) e3
    dsimp only
    rw [k1, k2]; rfl

theorem rows_accept {σ : Type} {P : Path σ} {tok : Sel → Px → Option (Px × Bool)} (hA : Accepts P tok) {w : Nat} :
    ∀ (rows : List (List Px)) (y : Nat) (n1 n2 : List Px) (s : σ) (o : List Tok × Bool), (∀ l ∈ rows, ∀ v ∈ l, Mid v) → (∀ v ∈ n1, Mid v) → (∀ v ∈ n2, Mid v) → encRows P tok w rows y n1 n2 s = some o → o.2 = false := by
  intro rows
  induction rows with
  | nil => intro y n1 n2 s o _ _ _ h; simp only [encRows, Option.some.injEq] at h; subst h; rfl
  | cons r rows ih =>
    intro y n1 n2 s o hr h1 h2 h
    rw [encRows] at h
    simp only [Option.bind_eq_some_iff, Option.map_eq_some_iff] at h
    obtain ⟨a, e1, b, e2, rfl⟩ := h
    have hr0 := hr r (List.mem_cons_self ..)
    have k1 := row_accepts hA h1 h2 r [] _ a hr0 (by simp) e1
    have k2 := ih (y + 1) r n1 _ b (fun l hl => hr l (List.mem_cons_of_mem _ hl)) hr0 h1 e2
    dsimp only
    rw [k1, k2]; rfl

theorem loop_accepts {σ : Type} {P : Path σ} {tok : Sel → Px → Option (Px × Bool)} (hA : Accepts P tok) {c : Channel} (hc : ∀ l ∈ c.rows, ∀ v ∈ l, Mid v) (s : σ) : encLoop P tok c s ≠ some none := by
  intro h
  unfold encLoop at h
  simp only [Option.map_eq_some_iff] at h
  obtain ⟨o, h1, h2⟩ := h
  rw [rows_accept hA c.rows 0 [] [] s o hc (by simp) (by simp) h1] at h2
  simp at h2

theorem tokDiv_accepts {σ : Type} (P : Path σ) : Accepts P tokDiv := by
  intro p s a s' px v u _ _ _ h
  unfold tokDiv at h
  dsimp only at h
  split at h
  · simp only [Option.some.injEq, Prod.mk.injEq] at h; exact h.2.symm
  · cases h

theorem tokShift_accepts {σ : Type} (P : Path σ) (k : Nat) : Accepts P (tokShift k) := by
  intro p s a s' px v u _ _ _ h
  unfold tokShift at h
  dsimp only at h
  split at h
  · simp only [Option.some.injEq, Prod.mk.injEq] at h; exact h.2.symm
  · cases h

theorem tokZero_accepts {σ : Type} (P : Path σ) : Accepts P tokZero := by
  intro p s a s' px v u _ _ _ h
  unfold tokZero at h
  simp only [Option.some.injEq, Prod.mk.injEq] at h
  exact h.2.symm

theorem gradient_accepts (ctx : Nat) : Accepts (pathGradient ctx) tokSub := by
  intro p s a s' px v u hp hx h1 h2
  have := plain_step h1
  simp only [Option.map_eq_some_iff] at this
  obtain ⟨n, hn, rfl⟩ := this
  obtain ⟨m1, m2, m3⟩ := nbEdge_mid hp hn
  exact tokSub_mid (clampedGradient_mid m2 m1) hx h2

theorem gradLut_accepts (lut : Lut) : Accepts (pathGradLut lut) tokSub := by
  intro p s a s' px v u hp hx h1 h2
  have := plain_step h1
  simp only [Option.bind_eq_some_iff, Option.map_eq_some_iff] at this
  obtain ⟨n, hn, c, -, rfl⟩ := this
  obtain ⟨m1, m2, m3⟩ := nbEdge_mid hp hn
  exact tokSub_mid (clampedGradient_mid m2 m1) hx h2

/-- Outside the loop for the weighted predictor's table, 31-bit samples are never refused. -/
theorem encNoWpLut_accepts {c : Channel} (hc : ∀ l ∈ c.rows, ∀ v ∈ l, Mid v) (skip : Bool) (hd : Wp.Header) (T : TreeCfg) (F : Filtered) (gl : Option Lut) : encNoWpLut skip hd T F c gl ≠ some none := by
  have hgen : (if (!F.useWp && !skip) = true then encLoop (pathTree T nbEdge) tokDiv c 0 else encLoop (pathTreeWp hd T nbEdge) tokDiv c (0, Wp.init c.w)) ≠ some none := by
    split
    · exact loop_accepts (tokDiv_accepts _) hc _
    · exact loop_accepts (tokDiv_accepts _) hc _
  unfold encNoWpLut
  dsimp only
  generalize (if skip = true then none else single F.nodes) = one
  generalize (if skip = true then none else gl) = gl'
  cases one with
  | none =>
    cases gl' with
    | some lut => exact loop_accepts (gradLut_accepts lut) hc _
    | none => exact hgen
  | some i =>
    dsimp only
    split
    · exact loop_accepts (gradient_accepts _) hc _
    · cases gl' with
      | some lut => exact loop_accepts (gradLut_accepts lut) hc _
      | none =>
        dsimp only
        split
        · exact loop_accepts (tokZero_accepts _) hc _
        · split
          · exact loop_accepts (tokShift_accepts _ _) hc _
          · exact hgen

end Jxl.Modular
