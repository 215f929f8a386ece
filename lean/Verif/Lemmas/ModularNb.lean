import Verif.Model.ModularChannel
import Verif.Lemmas.WeightedPred
/-!
# The ways of reading neighbours agree
-/
namespace Jxl.Modular

/-- The rows and the position fit together. -/
structure Ok (p : Pos) : Prop where
  xw : p.x < p.w
  cur : p.cur.length = p.x
  n1 : 0 < p.y → p.n1.length = p.w
  n2 : 1 < p.y → p.n2.length = p.w

/-- A sample, 0 outside. -/
def px (l : List Px) (i : Nat) : Int := (l.getD i 0).toInt

theorem at_some {l : List Px} {i : Nat} (h : i < l.length) : at? l i = some (px l i) := by
  unfold at? px
  rw [List.getElem?_eq_getElem h, List.getD_eq_getElem?_getD, List.getElem?_eq_getElem h]; rfl

theorem px_bd (l : List Px) (i : Nat) : (px l i).natAbs ≤ 2147483648 := Wp.toInt_bd _

def nbLeft (p : Pos) : Int := if 0 < p.x then px p.cur (p.x - 1) else if 0 < p.y then px p.n1 p.x else 0
def nbTop (p : Pos) : Int := if 0 < p.y then px p.n1 p.x else nbLeft p
def nbTopleft (p : Pos) : Int := if 0 < p.x ∧ 0 < p.y then px p.n1 (p.x - 1) else nbLeft p
def nbTopright (p : Pos) : Int := if p.x + 1 < p.w ∧ 0 < p.y then px p.n1 (p.x + 1) else nbTop p
def nbLeftleft (p : Pos) : Int := if 1 < p.x then px p.cur (p.x - 2) else nbLeft p
def nbToptop (p : Pos) : Int := if 1 < p.y then px p.n2 p.x else nbTop p
def nbTrr (p : Pos) : Int := if p.x + 2 < p.w ∧ 0 < p.y then px p.n1 (p.x + 2) else nbTopright p

/-- The neighbours of a position. -/
def nbPure (p : Pos) : Nb :=
  { left := nbLeft p, top := nbTop p, topleft := nbTopleft p, topright := nbTopright p, leftleft := nbLeftleft p, toptop := nbToptop p, toprightright := nbTrr p }

theorem leftAt_ok {p : Pos} (h : Ok p) : leftAt p = some (nbLeft p) := by
  have := h.cur; have := h.n1; have := h.xw
  unfold leftAt nbLeft
  by_cases c : 0 < p.x
  · rw [if_pos c, if_pos c, at_some (by omega)]
  · rw [if_neg c, if_neg c]
    by_cases d : 0 < p.y
    · rw [if_pos d, if_pos d, at_some (by omega)]
    · rw [if_neg d, if_neg d]

theorem topAt_ok {p : Pos} (h : Ok p) : topAt p (nbLeft p) = some (nbTop p) := by
  have := h.n1; have := h.xw
  unfold topAt nbTop
  by_cases d : 0 < p.y
  · rw [if_pos d, if_pos d, at_some (by omega)]
  · rw [if_neg d, if_neg d]

theorem topleftAt_ok {p : Pos} (h : Ok p) : topleftAt p (nbLeft p) = some (nbTopleft p) := by
  have := h.n1; have := h.xw
  unfold topleftAt nbTopleft
  by_cases d : 0 < p.x ∧ 0 < p.y
  · rw [if_pos d, if_pos d, at_some (by omega)]
  · rw [if_neg d, if_neg d]

theorem toprightAt_ok {p : Pos} (h : Ok p) : toprightAt p (nbTop p) = some (nbTopright p) := by
  have := h.n1; have := h.xw
  unfold toprightAt nbTopright
  by_cases d : p.x + 1 < p.w ∧ 0 < p.y
  · rw [if_pos d, if_pos d, at_some (by omega)]
  · rw [if_neg d, if_neg d]

theorem leftleftAt_ok {p : Pos} (h : Ok p) : leftleftAt p (nbLeft p) = some (nbLeftleft p) := by
  have := h.cur; have := h.xw
  unfold leftleftAt nbLeftleft
  by_cases d : 1 < p.x
  · rw [if_pos d, if_pos d, at_some (by omega)]
  · rw [if_neg d, if_neg d]

theorem toptopAt_ok {p : Pos} (h : Ok p) : toptopAt p (nbTop p) = some (nbToptop p) := by
  have := h.n2; have := h.xw
  unfold toptopAt nbToptop
  by_cases d : 1 < p.y
  · rw [if_pos d, if_pos d, at_some (by omega)]
  · rw [if_neg d, if_neg d]

theorem trrAt_ok {p : Pos} (h : Ok p) : toprightrightAt p (nbTopright p) = some (nbTrr p) := by
  have := h.n1; have := h.xw
  unfold toprightrightAt nbTrr
  by_cases d : p.x + 2 < p.w ∧ 0 < p.y
  · rw [if_pos d, if_pos d, at_some (by omega)]
  · rw [if_neg d, if_neg d]

theorem nbEdge_ok {p : Pos} (h : Ok p) : nbEdge p = some (nbPure p) := by
  unfold nbEdge
  rw [leftAt_ok h, Option.bind_some, topAt_ok h, Option.bind_some, topleftAt_ok h, Option.bind_some, toprightAt_ok h, Option.bind_some, leftleftAt_ok h, Option.bind_some, toptopAt_ok h, Option.bind_some, trrAt_ok h]
  rfl

theorem nbNec_ok {p : Pos} (h : Ok p) (hy : 1 < p.y) (hx : 2 ≤ p.x) (hw : p.x + 2 < p.w) : nbNec p = some (nbPure p) := by
  have := h.cur; have h1 := h.n1 (by omega); have := h.n2 hy
  unfold nbNec
  rw [if_neg (by omega), at_some (l := p.cur) (i := p.x - 1) (by omega), at_some (l := p.n1) (i := p.x) (by omega), at_some (l := p.n1) (i := p.x - 1) (by omega), at_some (l := p.n1) (i := p.x + 1) (by omega),
    at_some (l := p.cur) (i := p.x - 2) (by omega), at_some (l := p.n2) (i := p.x) (by omega), at_some (l := p.n1) (i := p.x + 2) (by omega)]
  simp only [Option.bind_some, Option.map_some, nbPure, nbLeft, nbTop, nbTopleft, nbTopright, nbLeftleft, nbToptop, nbTrr]
  rw [if_pos (show 0 < p.x by omega), if_pos (show 0 < p.y by omega), if_pos (show 0 < p.x ∧ 0 < p.y by omega), if_pos (show p.x + 1 < p.w ∧ 0 < p.y by omega), if_pos (show 1 < p.x by omega), if_pos hy,
    if_pos (show p.x + 2 < p.w ∧ 0 < p.y by omega)]

theorem nbMixed_ok {p : Pos} (h : Ok p) (fast : Bool) : nbMixed fast p = some (nbPure p) := by
  unfold nbMixed
  split
  · rename_i c
    exact nbNec_ok h c.2.1 c.2.2.2.1 (by omega)
  · exact nbEdge_ok h

/-- The five neighbours the weighted predictor uses. -/
def Five (a b : Nb) : Prop := a.left = b.left ∧ a.top = b.top ∧ a.topleft = b.topleft ∧ a.topright = b.topright ∧ a.toptop = b.toptop

theorem rtopAt_ok {p : Pos} (h : Ok p) (hx : 0 < p.x) : rtopAt p = some (nbTop p) := by
  have := h.cur; have := h.n1; have := h.xw
  unfold rtopAt nbTop nbLeft
  by_cases c : 0 < p.y
  · rw [if_pos c, if_pos c, at_some (by omega)]
  · rw [if_neg c, if_neg c, if_pos hx, at_some (by omega)]

theorem rtoptopAt_ok {p : Pos} (h : Ok p) (hx : 0 < p.x) : rtoptopAt p = some (nbToptop p) := by
  have := h.n2; have := h.xw
  unfold rtoptopAt nbToptop
  by_cases c : 1 < p.y
  · rw [if_pos c, if_pos c, at_some (by omega)]
  · rw [if_neg c, if_neg c, rtopAt_ok h hx]

theorem rtopleftAt_ok {p : Pos} (h : Ok p) (hx : 0 < p.x) : rtopleftAt p = some (nbTopleft p) := by
  have := h.cur; have := h.n1; have := h.xw
  unfold rtopleftAt nbTopleft nbLeft
  by_cases c : 0 < p.y
  · rw [if_pos c, if_pos ⟨hx, c⟩, at_some (by omega)]
  · rw [if_neg c, if_neg (by omega), if_pos hx, at_some (by omega)]

theorem rtoprightAt_ok {p : Pos} (h : Ok p) (hx : 0 < p.x) (hw : p.x + 1 < p.w) : rtoprightAt p = some (nbTopright p) := by
  have := h.cur; have := h.n1; have := h.xw
  unfold rtoprightAt nbTopright nbTop nbLeft
  by_cases c : 0 < p.y
  · rw [if_pos c, if_pos ⟨hw, c⟩, at_some (by omega)]
  · rw [if_neg c, if_neg (by omega), if_neg c, if_pos hx, at_some (by omega)]

theorem nbWpFast_ok {p : Pos} (h : Ok p) : ∃ n, nbWpFast p = some n ∧ Five n (nbPure p) := by
  have := h.cur; have h1 := h.n1; have := h.n2; have := h.xw
  unfold nbWpFast
  by_cases c : p.x = 0
  · rw [if_pos c]
    by_cases d : 0 < p.y
    · have e1 : rtopAt p = some (px p.n1 p.x) := by unfold rtopAt; rw [if_pos d, at_some (by omega)]
      have e2 : rtoptopAt p = some (nbToptop p) := by
        unfold rtoptopAt nbToptop
        by_cases f : 1 < p.y
        · rw [if_pos f, if_pos f, at_some (by omega)]
        · rw [if_neg f, if_neg f, e1]; unfold nbTop; rw [if_pos d]
      rw [if_pos d, if_pos d, e1, e2, Option.bind_some, Option.bind_some]
      have eL : nbLeft p = px p.n1 p.x := by unfold nbLeft; rw [if_neg (by omega), if_pos d]
      have eT : nbTop p = px p.n1 p.x := by unfold nbTop; rw [if_pos d]
      have eTL : nbTopleft p = px p.n1 p.x := by unfold nbTopleft; rw [if_neg (by omega), eL]
      by_cases f : p.x + 1 < p.w
      · rw [if_pos ⟨f, d⟩, at_some (by omega)]
        refine ⟨_, rfl, ?_⟩
        simp only [Five, nbPure, eL, eT, eTL, true_and]
        refine ⟨?_, trivial⟩
        unfold nbTopright; rw [if_pos ⟨f, d⟩]
      · rw [if_neg (by omega)]
        refine ⟨_, rfl, ?_⟩
        simp only [Five, nbPure, eL, eT, eTL, true_and]
        refine ⟨?_, trivial⟩
        unfold nbTopright; rw [if_neg (by omega), eT]
    · rw [if_neg d, if_neg d, Option.bind_some, Option.bind_some, if_neg (by omega)]
      refine ⟨_, rfl, ?_⟩
      have eL : nbLeft p = 0 := by unfold nbLeft; rw [if_neg (by omega), if_neg d]
      have eT : nbTop p = 0 := by unfold nbTop; rw [if_neg d, eL]
      simp only [Five, nbPure, eL, eT, true_and]
      unfold nbTopleft nbTopright nbToptop
      rw [if_neg (by omega), if_neg (by omega), if_neg (by omega), eL, eT]
      exact ⟨rfl, rfl, rfl⟩
  · have hx : 0 < p.x := by omega
    have eL : nbLeft p = px p.cur (p.x - 1) := by unfold nbLeft; rw [if_pos hx]
    rw [if_neg c, rtopAt_ok h hx, Option.bind_some, at_some (by omega), Option.bind_some, rtopleftAt_ok h hx, rtoptopAt_ok h hx]
    by_cases f : p.x + 1 < p.w
    · rw [if_pos f, rtoprightAt_ok h hx f, Option.bind_some, Option.bind_some]
      exact ⟨_, rfl, eL.symm, rfl, rfl, rfl, rfl⟩
    · rw [if_neg f, Option.bind_some, Option.bind_some]
      refine ⟨_, rfl, eL.symm, rfl, rfl, ?_, rfl⟩
      simp only [nbPure]
      unfold nbTopright; rw [if_neg (by omega)]

theorem nbLeft_bd (p : Pos) : (nbLeft p).natAbs ≤ 2147483648 := by
  unfold nbLeft; split
  · exact px_bd _ _
  · split
    · exact px_bd _ _
    · decide
theorem nbTop_bd (p : Pos) : (nbTop p).natAbs ≤ 2147483648 := by
  unfold nbTop; split
  · exact px_bd _ _
  · exact nbLeft_bd p
theorem nbTopleft_bd (p : Pos) : (nbTopleft p).natAbs ≤ 2147483648 := by
  unfold nbTopleft; split
  · exact px_bd _ _
  · exact nbLeft_bd p
theorem nbTopright_bd (p : Pos) : (nbTopright p).natAbs ≤ 2147483648 := by
  unfold nbTopright; split
  · exact px_bd _ _
  · exact nbTop_bd p
theorem nbLeftleft_bd (p : Pos) : (nbLeftleft p).natAbs ≤ 2147483648 := by
  unfold nbLeftleft; split
  · exact px_bd _ _
  · exact nbLeft_bd p
theorem nbToptop_bd (p : Pos) : (nbToptop p).natAbs ≤ 2147483648 := by
  unfold nbToptop; split
  · exact px_bd _ _
  · exact nbTop_bd p
theorem nbTrr_bd (p : Pos) : (nbTrr p).natAbs ≤ 2147483648 := by
  unfold nbTrr; split
  · exact px_bd _ _
  · exact nbTopright_bd p

theorem i32_bd (x : Int) : (i32 x).natAbs ≤ 2147483648 := Wp.toInt_bd _

theorem i32_of_range {x : Int} (h1 : -2147483648 ≤ x) (h2 : x < 2147483648) : i32 x = x := by
  unfold i32
  rw [BitVec.toInt_ofInt]
  apply Int.bmod_eq_of_le <;> omega

theorem ofInt_i32 (x : Int) : BitVec.ofInt 32 (i32 x) = BitVec.ofInt 32 x := by
  unfold i32; rw [BitVec.ofInt_toInt]

theorem clampedGradient_comm (a b c : Int) : clampedGradient a b c = clampedGradient b a c := by
  unfold clampedGradient
  rw [Int.min_comm, Int.max_comm, Int.add_comm a b]

theorem clampedGradient_bd {a b c : Int} (ha : a.natAbs ≤ 2147483648) (hb : b.natAbs ≤ 2147483648) : (clampedGradient a b c).natAbs ≤ 2147483648 := by
  unfold clampedGradient
  dsimp only
  split
  · omega
  · split
    · omega
    · exact i32_bd _

/-- The gradient of three equal neighbours. -/
theorem clampedGradient_same {a : Int} (h1 : -2147483648 ≤ a) (h2 : a < 2147483648) : clampedGradient a a a = a := by
  unfold clampedGradient
  dsimp only
  rw [if_neg (by omega), if_neg (by omega), i32_of_range (by omega) (by omega)]
  omega

theorem selectPred_bd {a b c : Int} (ha : a.natAbs ≤ 2147483648) (hb : b.natAbs ≤ 2147483648) : (selectPred a b c).natAbs ≤ 2147483648 := by
  unfold selectPred; dsimp only; split
  · exact ha
  · exact hb

theorem tdiv_bd (a : Int) (b : Nat) : (a.tdiv (b : Int)).natAbs ≤ a.natAbs := by
  rw [Int.natAbs_tdiv]; exact Nat.div_le_self _ _

theorem predictOne_bd (i : Nat) (p : Pos) {wp : Int} (hw : wp.natAbs ≤ 68719476736) : (predictOne i (nbPure p) wp).natAbs ≤ 68719476736 := by
  have hl := nbLeft_bd p
  have ht := nbTop_bd p
  have htl := nbTopleft_bd p
  have htr := nbTopright_bd p
  have hll := nbLeftleft_bd p
  have htt := nbToptop_bd p
  have htrr := nbTrr_bd p
  have key : ∀ z : Int, z.natAbs ≤ 2147483648 → z.natAbs ≤ 68719476736 := fun z h => by omega
  unfold predictOne
  simp only [nbPure]
  split
  · decide
  · exact key _ hl
  · exact key _ ht
  · exact Nat.le_trans (tdiv_bd _ 2) (by omega)
  · exact key _ (selectPred_bd hl ht)
  · exact key _ (clampedGradient_bd hl ht)
  · exact hw
  · exact key _ htr
  · exact key _ htl
  · exact key _ hll
  · exact Nat.le_trans (tdiv_bd _ 2) (by omega)
  · exact Nat.le_trans (tdiv_bd _ 2) (by omega)
  · exact Nat.le_trans (tdiv_bd _ 2) (by omega)
  · exact Nat.le_trans (tdiv_bd _ 16) (by omega)
  · decide

theorem predictOne_noWp {i : Nat} (h : i ≠ 6) (n : Nb) (a b : Int) : predictOne i n a = predictOne i n b := by
  unfold predictOne
  split <;> first | rfl | (exfalso; exact h rfl)

end Jxl.Modular
