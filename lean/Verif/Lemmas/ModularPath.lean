import Verif.Lemmas.ModularNb
import Verif.Lemmas.MaTreeTokens
import Verif.Props.PackSigned
/-!
# Two loops that simulate a common one: what the first codes, the second reads
-/
namespace Jxl.Modular
open Jxl.MaTree (Reader unpack)

/-- The number `v` stands for the sample `p` if `a` was selected. -/
def Good (a : Sel) (p : Px) (v : Px) : Prop := BitVec.ofInt 32 (unpack v.toNat * a.mult + a.guess) = p

/-- States of the common loop for which it does not fail. -/
structure Total {τ : Type} (Q : Path τ) (I : τ → Prop) (w h : Nat) : Prop where
  row : ∀ q, I q → I (Q.row q)
  step : ∀ p q, Ok p → p.w = w → p.y < h → I q → ∃ a q', Q.step p q = some (a, q') ∧ a.mult < 2147483648 ∧ a.guess.natAbs ≤ 1099511627776 ∧
    ∀ px, ∃ q'', Q.upd p px q' = some q'' ∧ I q''

/-- `P` selects what `Q` selects; `f` translates contexts. -/
structure Sim {σ τ : Type} (P : Path σ) (Q : Path τ) (Rel : σ → τ → Prop) (f : Nat → Nat) (I : τ → Prop) (w h : Nat) : Prop where
  row : ∀ s q, Rel s q → Rel (P.row s) (Q.row q)
  step : ∀ p s q a q', Ok p → p.w = w → p.y < h → I q → Rel s q → Q.step p q = some (a, q') →
    ∃ a' s', P.step p s = some (a', s') ∧ a'.ctx = f a.ctx ∧ a'.mult = a.mult ∧ BitVec.ofInt 32 a'.guess = BitVec.ofInt 32 a.guess ∧ a'.guess.natAbs ≤ 1099511627776 ∧
      ∀ px q'', Q.upd p px q' = some q'' → ∃ s'', P.upd p px s' = some s'' ∧ Rel s'' q''

/-- The reader delivers the tokens. -/
def Delivers {ρ : Type} (R : Reader ρ) : ρ → List Tok → ρ → Prop
  | r, [], r' => r = r'
  | r, t :: ts, r' => ∃ r1, R.read r t.1 = (t.2, r1) ∧ Delivers R r1 ts r'

theorem delivers_append {ρ : Type} {R : Reader ρ} {a b : List Tok} : ∀ {r r' : ρ}, Delivers R r (a ++ b) r' → ∃ m, Delivers R r a m ∧ Delivers R m b r' := by
  induction a with
  | nil => intro r r' h; exact ⟨r, rfl, h⟩
  | cons t a ih =>
    intro r r' h
    obtain ⟨r1, h1, h2⟩ := h
    obtain ⟨m, h3, h4⟩ := ih h2
    exact ⟨m, ⟨r1, h1, h3⟩, h4⟩

theorem good_mod {a a' : Sel} {p v : Px} (h : Good a p v) (hm : a'.mult = a.mult) (hg : BitVec.ofInt 32 a'.guess = BitVec.ofInt 32 a.guess) : Good a' p v := by
  unfold Good at *
  rw [BitVec.ofInt_add] at *
  rw [hm, hg]; exact h

theorem makePixel_ok {a : Sel} {p v : Px} (h : Good a p v) (hm : a.mult < 2147483648) (hg : a.guess.natAbs ≤ 1099511627776) : makePixel v.toNat a.mult a.guess = some p := by
  have hu : (unpack v.toNat).natAbs ≤ 2147483648 := Wp.toInt_bd _
  have hp : (unpack v.toNat * (a.mult : Int)).natAbs ≤ 2147483648 * 2147483648 := by
    rw [Wp.natAbs_mul_nat]; exact Nat.mul_le_mul hu (by omega)
  unfold Good at h
  unfold makePixel
  generalize unpack v.toNat * (a.mult : Int) = z at *
  rw [Wp.chk_ok (by omega), Option.bind_some, Wp.chk_ok (by omega), Option.map_some, h]

/-- The decoder's view of tokens. -/
def view (g : Nat → Nat) (ts : List Tok) : List Tok := ts.map fun t => (g t.1, t.2)

theorem row_round_trip {σ₁ σ₂ τ ρ : Type} {P₁ : Path σ₁} {P₂ : Path σ₂} {Q : Path τ} {R₁ : σ₁ → τ → Prop} {R₂ : σ₂ → τ → Prop} {g : Nat → Nat} {I : τ → Prop} {w h : Nat}
    (hT : Total Q I w h) (h1 : Sim P₁ Q R₁ id I w h) (h2 : Sim P₂ Q R₂ g I w h) {tok : Sel → Px → Option (Px × Bool)}
    (htok : ∀ p s a s' px v u, P₁.step p s = some (a, s') → tok a px = some (v, u) → Good a px v) (R : Reader ρ) {y : Nat} {n1 n2 : List Px} (hy : y < h)
    (hn1 : 0 < y → n1.length = w) (hn2 : 1 < y → n2.length = w) :
    ∀ (rest cur : List Px) (s₁ : σ₁) (s₂ : σ₂) (q : τ) (ts : List Tok) (u : Bool) (s₁' : σ₁) (r r' : ρ), cur.length + rest.length = w → I q → R₁ s₁ q → R₂ s₂ q →
      encRow P₁ tok w y n1 n2 rest cur s₁ = some (ts, u, s₁') → Delivers R r (view g ts) r' →
      ∃ s₂' q', decRow P₂ R w y n1 n2 rest.length cur s₂ r = some (cur ++ rest, s₂', r') ∧ I q' ∧ R₁ s₁' q' ∧ R₂ s₂' q' := by
  intro rest
  induction rest with
  | nil =>
    intro cur s₁ s₂ q ts u s₁' r r' hl hI k1 k2 he hd
    rw [encRow] at he
    simp only [Option.some.injEq, Prod.mk.injEq] at he
    obtain ⟨rfl, rfl, rfl⟩ := he
    refine ⟨s₂, q, ?_, hI, k1, k2⟩
    rw [List.length_nil, decRow, List.append_nil]
    rw [show r = r' from hd]
  | cons p rest ih =>
    intro cur s₁ s₂ q ts u s₁' r r' hl hI k1 k2 he hd
    simp only [List.length_cons] at hl
    rw [encRow] at he
    generalize hpos : ({ w := w, y := y, x := cur.length, n1 := n1, n2 := n2, cur := cur } : Pos) = pos at he
    have hok : Ok pos := by subst hpos; exact ⟨by dsimp only; omega, rfl, hn1, hn2⟩
    have hpw : pos.w = w := by subst hpos; rfl
    have hpy : pos.y < h := by subst hpos; exact hy
    obtain ⟨a, q', e0, hm, hg, hupd⟩ := hT.step pos q hok hpw hpy hI
    obtain ⟨a₁, t₁, e1, c1, m1, g1, -, up1⟩ := h1.step pos s₁ q a q' hok hpw hpy hI k1 e0
    obtain ⟨a₂, t₂, e2, c2, m2, g2, b2, up2⟩ := h2.step pos s₂ q a q' hok hpw hpy hI k2 e0
    obtain ⟨q'', e3, hI'⟩ := hupd p
    obtain ⟨z₁, e4, k1'⟩ := up1 p q'' e3
    obtain ⟨z₂, e5, k2'⟩ := up2 p q'' e3
    rw [e1, Option.bind_some] at he
    dsimp only at he
    cases htk : tok a₁ p with
    | none => rw [htk] at he; cases he
    | some tv =>
      obtain ⟨v, ov⟩ := tv
      rw [htk, Option.bind_some, e4, Option.bind_some] at he
      cases her : encRow P₁ tok w y n1 n2 rest (cur ++ [p]) z₁ with
      | none => rw [her] at he; cases he
      | some o =>
        obtain ⟨ts', u', s'⟩ := o
        rw [her, Option.map_some] at he
        simp only [Option.some.injEq, Prod.mk.injEq] at he
        obtain ⟨rfl, -, rfl⟩ := he
        obtain ⟨r1, hr1, hd'⟩ := hd
        dsimp only at hr1
        have hgood := good_mod (htok _ _ _ _ _ _ _ e1 htk) (m2.trans m1.symm) (g2.trans g1.symm)
        obtain ⟨s₂', q3, hdec, hI3, k3, k4⟩ := ih (cur ++ [p]) z₁ z₂ q'' ts' u' s' r1 r' (by simp; omega) hI' k1' k2' her hd'
        refine ⟨s₂', q3, ?_, hI3, k3, k4⟩
        rw [List.length_cons, decRow]
        dsimp only
        rw [hpos, e2, Option.bind_some]
        dsimp only
        rw [show a₂.ctx = g a₁.ctx from by rw [c2, c1]; rfl, hr1]
        dsimp only
        rw [makePixel_ok hgood (by rw [m2]; exact hm) b2, Option.bind_some, e5, Option.bind_some, hdec, List.append_assoc]
        rfl

theorem rows_round_trip {σ₁ σ₂ τ ρ : Type} {P₁ : Path σ₁} {P₂ : Path σ₂} {Q : Path τ} {R₁ : σ₁ → τ → Prop} {R₂ : σ₂ → τ → Prop} {g : Nat → Nat} {I : τ → Prop} {w h : Nat}
    (hT : Total Q I w h) (h1 : Sim P₁ Q R₁ id I w h) (h2 : Sim P₂ Q R₂ g I w h) {tok : Sel → Px → Option (Px × Bool)}
    (htok : ∀ p s a s' px v u, P₁.step p s = some (a, s') → tok a px = some (v, u) → Good a px v) (R : Reader ρ) :
    ∀ (rows : List (List Px)) (y : Nat) (n1 n2 : List Px) (s₁ : σ₁) (s₂ : σ₂) (q : τ) (ts : List Tok) (u : Bool) (r r' : ρ), y + rows.length = h → (∀ l ∈ rows, l.length = w) →
      (0 < y → n1.length = w) → (1 < y → n2.length = w) → I q → R₁ s₁ q → R₂ s₂ q → encRows P₁ tok w rows y n1 n2 s₁ = some (ts, u) → Delivers R r (view g ts) r' →
      decRows P₂ R w rows.length y n1 n2 s₂ r = some (rows, r') := by
  intro rows
  induction rows with
  | nil =>
    intro y n1 n2 s₁ s₂ q ts u r r' _ _ _ _ _ _ _ he hd
    rw [encRows] at he
    simp only [Option.some.injEq, Prod.mk.injEq] at he
    obtain ⟨rfl, rfl⟩ := he
    rw [List.length_nil, decRows, show r = r' from hd]
  | cons row rows ih =>
    intro y n1 n2 s₁ s₂ q ts u r r' hl hw hn1 hn2 hI k1 k2 he hd
    simp only [List.length_cons] at hl
    rw [encRows] at he
    cases her : encRow P₁ tok w y n1 n2 row [] (P₁.row s₁) with
    | none => rw [her] at he; cases he
    | some o =>
      obtain ⟨ts1, u1, s1'⟩ := o
      rw [her, Option.bind_some] at he
      dsimp only at he
      cases hes : encRows P₁ tok w rows (y + 1) row n1 s1' with
      | none => rw [hes] at he; cases he
      | some o =>
        obtain ⟨ts2, u2⟩ := o
        rw [hes, Option.map_some] at he
        simp only [Option.some.injEq, Prod.mk.injEq] at he
        obtain ⟨rfl, -⟩ := he
        rw [view, List.map_append] at hd
        obtain ⟨m, hd1, hd2⟩ := delivers_append hd
        have hrow : row.length = w := hw row (List.mem_cons_self ..)
        obtain ⟨s2', q', hdec, hI', k1', k2'⟩ := row_round_trip hT h1 h2 htok R (by omega) hn1 hn2 row [] (P₁.row s₁) (P₂.row s₂) (Q.row q) ts1 u1 s1' r m (by simpa using hrow) (hT.row q hI) (h1.row _ _ k1) (h2.row _ _ k2) her hd1
        have := ih (y + 1) row n1 s1' s2' q' ts2 u2 m r' (by omega) (fun l hl => hw l (List.mem_cons_of_mem _ hl)) (fun _ => hrow) (fun _ => hn1 (by omega)) hI' k1' k2' hes hd2
        rw [List.length_cons, decRows]
        rw [hrow] at hdec
        rw [hdec, Option.bind_some]
        dsimp only
        rw [List.nil_append, this]
        rfl

/-- A whole channel. -/
theorem loop_round_trip {σ₁ σ₂ τ ρ : Type} {P₁ : Path σ₁} {P₂ : Path σ₂} {Q : Path τ} {R₁ : σ₁ → τ → Prop} {R₂ : σ₂ → τ → Prop} {g : Nat → Nat} {I : τ → Prop} {c d : Channel}
    (hT : Total Q I c.w c.h) (h1 : Sim P₁ Q R₁ id I c.w c.h) (h2 : Sim P₂ Q R₂ g I c.w c.h) {tok : Sel → Px → Option (Px × Bool)}
    (htok : ∀ p s a s' px v u, P₁.step p s = some (a, s') → tok a px = some (v, u) → Good a px v) (R : Reader ρ) (hc : c.Wf) (hdw : d.w = c.w) (hdh : d.h = c.h)
    {s₁ : σ₁} {s₂ : σ₂} {q : τ} (hI : I q) (k1 : R₁ s₁ q) (k2 : R₂ s₂ q) {ts : List Tok} {r r' : ρ} (he : encLoop P₁ tok c s₁ = some (some ts)) (hd : Delivers R r (view g ts) r') :
    decLoop P₂ R d s₂ r = some (c.rows, r') := by
  unfold encLoop at he
  cases hes : encRows P₁ tok c.w c.rows 0 [] [] s₁ with
  | none => rw [hes] at he; cases he
  | some o =>
    obtain ⟨ts', u⟩ := o
    rw [hes, Option.map_some] at he
    dsimp only at he
    cases u with
    | true => simp at he
    | false =>
      simp only [Bool.false_eq_true, if_false, Option.some.injEq] at he
      subst he
      have := rows_round_trip hT h1 h2 htok R c.rows 0 [] [] s₁ s₂ q ts' false r r' (by rw [hc.1]; omega) hc.2 (by omega) (by omega) hI k1 k2 hes hd
      unfold decLoop
      rw [hdw, hdh, ← hc.1]
      exact this

/-! ### The encoder's loops end without failing -/

theorem row_total {σ τ : Type} {P : Path σ} {Q : Path τ} {Rl : σ → τ → Prop} {f : Nat → Nat} {I : τ → Prop} {w h : Nat} (hT : Total Q I w h) (h1 : Sim P Q Rl f I w h) {tok : Sel → Px → Option (Px × Bool)}
    (hone : ∀ p q a q', Q.step p q = some (a, q') → a.mult = 1) (htok : ∀ a px, a.mult = 1 → ∃ t, tok a px = some t) {y : Nat} {n1 n2 : List Px} (hy : y < h)
    (hn1 : 0 < y → n1.length = w) (hn2 : 1 < y → n2.length = w) :
    ∀ (rest cur : List Px) (s : σ) (q : τ), cur.length + rest.length = w → I q → Rl s q → ∃ o q', encRow P tok w y n1 n2 rest cur s = some o ∧ o.1.length = rest.length ∧ I q' ∧ Rl o.2.2 q' := by
  intro rest
  induction rest with
  | nil => intro cur s q _ hI hk; exact ⟨_, q, rfl, rfl, hI, hk⟩
  | cons p rest ih =>
    intro cur s q hl hI hk
    simp only [List.length_cons] at hl
    rw [encRow]
    generalize hpos : ({ w := w, y := y, x := cur.length, n1 := n1, n2 := n2, cur := cur } : Pos) = pos
    have hok : Ok pos := by subst hpos; exact ⟨by dsimp only; omega, rfl, hn1, hn2⟩
    have hpw : pos.w = w := by subst hpos; rfl
    have hpy : pos.y < h := by subst hpos; exact hy
    obtain ⟨a, q', e0, -, -, hupd⟩ := hT.step pos q hok hpw hpy hI
    obtain ⟨a₁, t₁, e1, -, m1, -, -, up1⟩ := h1.step pos s q a q' hok hpw hpy hI hk e0
    obtain ⟨q'', e3, hI'⟩ := hupd p
    obtain ⟨z₁, e4, k1'⟩ := up1 p q'' e3
    obtain ⟨t, ht⟩ := htok a₁ p (m1.trans (hone _ _ _ _ e0))
    obtain ⟨o, q3, ho, hlen, hI3, k3⟩ := ih (cur ++ [p]) z₁ q'' (by simp; omega) hI' k1'
    rw [e1, Option.bind_some, ht, Option.bind_some, e4, Option.bind_some, ho]
    exact ⟨_, q3, rfl, by simp [hlen], hI3, k3⟩

theorem rows_total {σ τ : Type} {P : Path σ} {Q : Path τ} {Rl : σ → τ → Prop} {f : Nat → Nat} {I : τ → Prop} {w h : Nat} (hT : Total Q I w h) (h1 : Sim P Q Rl f I w h) {tok : Sel → Px → Option (Px × Bool)}
    (hone : ∀ p q a q', Q.step p q = some (a, q') → a.mult = 1) (htok : ∀ a px, a.mult = 1 → ∃ t, tok a px = some t) :
    ∀ (rows : List (List Px)) (y : Nat) (n1 n2 : List Px) (s : σ) (q : τ), y + rows.length = h → (∀ l ∈ rows, l.length = w) → (0 < y → n1.length = w) → (1 < y → n2.length = w) → I q → Rl s q →
      ∃ o, encRows P tok w rows y n1 n2 s = some o ∧ o.1.length = rows.length * w := by
  intro rows
  induction rows with
  | nil => intro y n1 n2 s q _ _ _ _ _ _; exact ⟨_, rfl, by simp⟩
  | cons row rows ih =>
    intro y n1 n2 s q hl hw hn1 hn2 hI hk
    simp only [List.length_cons] at hl
    have hrow : row.length = w := hw row (List.mem_cons_self ..)
    obtain ⟨o, q', ho, hlen, hI', hk'⟩ := row_total hT h1 hone htok (y := y) (by omega) hn1 hn2 row [] (P.row s) (Q.row q) (by simpa using hrow) (hT.row q hI) (h1.row _ _ hk)
    obtain ⟨o2, ho2, hlen2⟩ := ih (y + 1) row n1 o.2.2 q' (by omega) (fun l hl => hw l (List.mem_cons_of_mem _ hl)) (fun _ => hrow) (fun _ => hn1 (by omega)) hI' hk'
    rw [encRows, ho, Option.bind_some, ho2]
    refine ⟨_, rfl, ?_⟩
    simp only [List.length_append, hlen, hlen2, hrow, List.length_cons, Nat.add_mul]
    omega

theorem loop_total {σ τ : Type} {P : Path σ} {Q : Path τ} {Rl : σ → τ → Prop} {f : Nat → Nat} {I : τ → Prop} {c : Channel} (hT : Total Q I c.w c.h) (h1 : Sim P Q Rl f I c.w c.h) {tok : Sel → Px → Option (Px × Bool)}
    (hone : ∀ p q a q', Q.step p q = some (a, q') → a.mult = 1) (htok : ∀ a px, a.mult = 1 → ∃ t, tok a px = some t) (hc : c.Wf) {s : σ} {q : τ} (hI : I q) (hk : Rl s q) :
    ∃ o, encLoop P tok c s = some o ∧ ∀ ts, o = some ts → ts.length = c.h * c.w := by
  obtain ⟨o, ho, hl⟩ := rows_total hT h1 hone htok c.rows 0 [] [] s q (by rw [hc.1]; omega) hc.2 (by omega) (by omega) hI hk
  unfold encLoop
  rw [ho, Option.map_some]
  refine ⟨_, rfl, ?_⟩
  intro ts h
  split at h
  · cases h
  · injection h with h
    rw [← h, hl, hc.1]

/-! ### Residuals -/

theorem unpack_pack (v : Px) : unpack (packSigned v).toNat = v.toInt := by
  unfold unpack
  rw [show BitVec.ofNat 64 (packSigned v).toNat = (packSigned v).setWidth 64 from by
    apply BitVec.eq_of_toNat_eq
    rw [BitVec.toNat_ofNat, BitVec.toNat_setWidth]]
  rw [Props.C07_bijection.1]

theorem good_of_quot {a : Sel} {p : Px} {e : Int} (h : e * a.mult = p.toInt - a.guess) : Good a p (packSigned (BitVec.ofInt 32 e)) := by
  unfold Good
  rw [unpack_pack, BitVec.ofInt_add, BitVec.ofInt_mul, BitVec.ofInt_toInt, ← BitVec.ofInt_mul, ← BitVec.ofInt_add, h, Int.sub_add_cancel, BitVec.ofInt_toInt]

theorem tokSub_good {a : Sel} {p v : Px} {u : Bool} (hm : a.mult = 1) (h : tokSub a p = some (v, u)) : Good a p v := by
  unfold tokSub at h
  simp only [Option.some.injEq, Prod.mk.injEq] at h
  rw [← h.1]
  exact good_of_quot (by rw [hm]; simp)

theorem tokShift_good {k : Nat} {a : Sel} {p v : Px} {u : Bool} (h : tokShift k a p = some (v, u)) : Good a p v := by
  unfold tokShift at h
  dsimp only at h
  split at h
  · rename_i c
    simp only [Option.some.injEq, Prod.mk.injEq] at h
    rw [← h.1]
    exact good_of_quot c
  · cases h

theorem tokDiv_good {a : Sel} {p v : Px} {u : Bool} (h : tokDiv a p = some (v, u)) : Good a p v := by
  unfold tokDiv at h
  dsimp only at h
  split at h
  · rename_i c
    simp only [Option.some.injEq, Prod.mk.injEq] at h
    rw [← h.1]
    refine good_of_quot ?_
    have := Int.mul_tdiv_add_tmod (p.toInt - a.guess) a.mult
    rw [c.2, Int.add_zero, Int.mul_comm] at this
    exact this
  · cases h

theorem tokZero_good {a : Sel} {p v : Px} {u : Bool} (hm : a.mult = 1) (hg : a.guess = 0) (h : tokZero a p = some (v, u)) : Good a p v := by
  unfold tokZero at h
  simp only [Option.some.injEq, Prod.mk.injEq] at h
  rw [← h.1]
  unfold Good
  rw [unpack_pack, hm, hg]
  simp

theorem tokShift_total {a : Sel} (p : Px) (hm : a.mult = 1) : ∃ t, tokShift 0 a p = some t := by
  unfold tokShift
  dsimp only
  rw [if_pos (by rw [hm]; simp)]
  exact ⟨_, rfl⟩

theorem tokDiv_total {a : Sel} (p : Px) (hm : a.mult = 1) : ∃ t, tokDiv a p = some t := by
  unfold tokDiv
  dsimp only
  rw [if_pos (by rw [hm]; simp)]
  exact ⟨_, rfl⟩

end Jxl.Modular
