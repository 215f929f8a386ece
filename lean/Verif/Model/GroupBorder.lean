import Verif.Model.FrameDim
/-!
# Model of the group border assigner (lib/jxl/dec_group_border.{h,cc})

When a group of the frame has been decoded, the decoder still cannot run the filters on the pixels near its border: they read pixels of the
neighbouring groups.  `GroupBorderAssigner` decides, from a 4-bit word per group corner updated with atomic `fetch_or`, which rectangles become
ready with the completion of a group.

The corner words are modelled as in the code: eight nibbles packed in each 32-bit word.  A completing group performs four atomic updates, one
per corner; a run of several threads is an arbitrary interleaving of these updates (`exec`), after which each group computes its rectangles from
the four values it was given (`finish`), which reads no shared state.

`none` stands for an access outside the arrays, a failed `JXL_DASSERT`, or a `size_t` subtraction that would wrap.
Simplification: sizes are natural numbers.
-/
namespace Jxl.Border
open Jxl.FrameDim

/-- Constants (dec_group_border.h:39-42). -/
def kTopLeft : Nat := 1
def kTopRight : Nat := 2
def kBottomRight : Nat := 4
def kBottomLeft : Nat := 8

/-- `counters_`: rows of words. -/
structure Mem where
  rows : List (List Nat)
deriving DecidableEq, Repr

/-- One word replaced. -/
def Mem.setWord (m : Mem) (y i w : Nat) : Mem := ⟨m.rows.set y ((m.rows.getD y []).set i w)⟩

/-- `counters_[y][i]`. -/
def Mem.word (m : Mem) (y i : Nat) : Option Nat := (m.rows[y]?).bind fun r => r[i]?

/-- The lambda `set` of `Init` (dec_group_border.cc:36-38). -/
def setCorners (x y corners : Nat) (m : Mem) : Option Mem :=
  (m.word y (x / 8)).map fun w => m.setWord y (x / 8) (w ||| (corners <<< (4 * (x &&& 7))))

/-- First loop body of `Init` (:39-42). -/
def initX (ys : Nat) (m : Option Mem) (x : Nat) : Option Mem :=
  (m.bind (setCorners x 0 (kTopLeft ||| kTopRight))).bind (setCorners x ys (kBottomLeft ||| kBottomRight))

/-- Second loop body of `Init` (:43-46). -/
def initY (xs : Nat) (m : Option Mem) (y : Nat) : Option Mem :=
  (m.bind (setCorners 0 y (kTopLeft ||| kBottomLeft))).bind (setCorners xs y (kTopRight ||| kBottomRight))

/-- `GroupBorderAssigner::Init` (:21-47). -/
def init (xs ys : Nat) : Option Mem :=
  (List.range (ys + 1)).foldl (initY xs) ((List.range (xs + 1)).foldl (initX ys)
    (some ⟨List.replicate (ys + 1) (List.replicate ((xs + 1 + 7) / 8) 0)⟩))

/-- The lambda `clear` of `ClearDone` (:50-52). -/
def clearCorner (x y corners : Nat) (m : Mem) : Option Mem :=
  (m.word y (x / 8)).map fun w => m.setWord y (x / 8) (w &&& (2 ^ 32 - 1 - (corners <<< (4 * (x &&& 7)))))

/-- `ClearDone` (:49-60). -/
def clearDone (xs : Nat) (m : Mem) (g : Nat) : Option Mem :=
  (((clearCorner (g % xs) (g / xs) kBottomRight m).bind (clearCorner (g % xs + 1) (g / xs) kBottomLeft)).bind
    (clearCorner (g % xs) (g / xs + 1) kTopRight)).bind (clearCorner (g % xs + 1) (g / xs + 1) kTopLeft)

/-- The lambda `fetch_status` of `GroupDone` (:82-90): the new memory and the value returned. -/
def fetchStatus (m : Mem) (x y bit : Nat) : Option (Mem × Nat) :=
  (m.word y (x / 8)).bind fun w =>
    if bit &&& (w >>> (4 * (x &&& 7))) ≠ 0 then none
    else some (m.setWord y (x / 8) (w ||| (bit <<< (4 * (x &&& 7)))), (bit ||| (w >>> (4 * (x &&& 7)))) &&& 15)

/-- The four updates of a group, in program order (:92-95). -/
def event (xs : Nat) (m : Mem) (g : Nat) : Nat → Option (Mem × Nat)
  | 0 => fetchStatus m (g % xs) (g / xs) kBottomRight
  | 1 => fetchStatus m (g % xs + 1) (g / xs) kBottomLeft
  | 2 => fetchStatus m (g % xs + 1) (g / xs + 1) kTopLeft
  | 3 => fetchStatus m (g % xs) (g / xs + 1) kTopRight
  | _ => none

/-- Shared words, and the statuses every running group has been given so far. -/
structure St where
  mem : Mem
  got : Nat → List Nat

/-- The next atomic update of group `g`. -/
def step (xs : Nat) (s : St) (g : Nat) : Option St :=
  (event xs s.mem g (s.got g).length).map fun r => ⟨r.1, fun g' => if g' = g then s.got g ++ [r.2] else s.got g'⟩

/-- An interleaving: the list says which group makes its next update. -/
def exec (xs : Nat) : List Nat → St → Option St
  | [], s => some s
  | g :: t, s => (step xs s g).bind (exec xs t)

/-- `available_parts_mask[px][py]` (:138-150) from the four statuses. -/
def mask (tl tr br bl px py : Nat) : Bool :=
  if px = 1 ∧ py = 1 then true
  else if px = 0 ∧ py = 0 then tl == 15
  else if px = 2 ∧ py = 0 then tr == 15
  else if px = 2 ∧ py = 2 then br == 15
  else if px = 0 ∧ py = 2 then bl == 15
  else if px = 1 ∧ py = 0 then tl &&& kTopRight != 0
  else if px = 0 ∧ py = 1 then tl &&& kBottomLeft != 0
  else if px = 2 ∧ py = 1 then tr &&& kBottomRight != 0
  else if px = 1 ∧ py = 2 then bl &&& kBottomRight != 0
  else false

/-- Inner loop body (:158-168). -/
def segStep (avail : Bool) (px : Nat) (s : Option (Nat × Nat)) : Option (Nat × Nat) :=
  s.bind fun s =>
    if avail then
      if (s.2 = 3 ∨ s.2 = px) ∧ (s.1 = 3 ↔ s.2 = 3) then some (if s.1 = 3 then px else s.1, px + 1) else none
    else some s

/-- `horizontal_segments[py]` (:153-170). -/
def rowSeg (a b c : Bool) : Option (Nat × Nat) := segStep c 2 (segStep b 1 (segStep a 0 (some (3, 3))))

/-- Arguments of the calls of `append_rect` (:171-194): `(x0, x1, y0, y1)`. -/
def idxRects (s0 s1 s2 : Nat × Nat) : List (Nat × Nat × Nat × Nat) :=
  if s0 = s1 ∧ s0 = s2 then [(s0.1, s0.2, 0, 3)]
  else if s0 = s1 then [(s0.1, s0.2, 0, 2), (s2.1, s2.2, 2, 3)]
  else if s1 = s2 then [(s0.1, s0.2, 0, 1), (s1.1, s1.2, 1, 3)]
  else [(s0.1, s0.2, 0, 1), (s1.1, s1.2, 1, 2), (s2.1, s2.2, 2, 3)]

/-- `append_rect` (:121-126). -/
def appendRect (xp yp : List Nat) (acc : Option (List Rect)) (q : Nat × Nat × Nat × Nat) : Option (List Rect) :=
  acc.bind fun l => (xp[q.1]?).bind fun a => (xp[q.2.1]?).bind fun b => (yp[q.2.2.1]?).bind fun c => (yp[q.2.2.2]?).bind fun e =>
    if b < a ∨ e < c then none
    else if b - a = 0 ∨ e - c = 0 then some l
    else if l.length < 3 then some (l ++ [⟨a, c, b - a, e - c⟩]) else none

/-- `xpos` or `ypos` (:105-118). -/
def axisPos (b0 b1 size pad : Nat) (last : Bool) : Option (List Nat) :=
  if (b0 ≠ 0 ∧ b0 * 8 < pad) ∨ (last = false ∧ b1 * 8 < pad) then none
  else some [if b0 = 0 then 0 else b0 * 8 - pad, if b0 = 0 then 0 else min size (b0 * 8 + pad), if last then size else b1 * 8 - pad,
    min size (b1 * 8 + pad)]

/-- The part of `GroupDone` after the parts mask (:153-195). -/
def collect (xp yp : List Nat) (m : Nat → Nat → Bool) : Option (List Rect) :=
  (rowSeg (m 0 0) (m 1 0) (m 2 0)).bind fun s0 => (rowSeg (m 0 1) (m 1 1) (m 2 1)).bind fun s1 =>
    (rowSeg (m 0 2) (m 1 2) (m 2 2)).bind fun s2 => (idxRects s0 s1 s2).foldl (appendRect xp yp) (some [])

/-- `block_rect` (:73-80). -/
def blockRect (d : Dims) (g : Nat) : Rect :=
  Rect.clamped (g % d.xsizeGroups * d.groupDim / 8) (g / d.xsizeGroups * d.groupDim / 8) (d.groupDim / 8) (d.groupDim / 8)
    d.xsizeBlocks d.ysizeBlocks

/-- `GroupDone` after its four atomic updates returned `st` (:97-195): the rectangles to finalise. -/
def finish (d : Dims) (padx pady g : Nat) (st : List Nat) : Option (List Rect) :=
  (axisPos (blockRect d g).x0 ((blockRect d g).x0 + (blockRect d g).xs) d.xsize padx (d.xsizeGroups == g % d.xsizeGroups + 1)).bind fun xp =>
    (axisPos (blockRect d g).y0 ((blockRect d g).y0 + (blockRect d g).ys) d.ysize pady (d.ysizeGroups == g / d.xsizeGroups + 1)).bind fun yp =>
      collect xp yp (mask (st.getD 0 0) (st.getD 1 0) (st.getD 2 0) (st.getD 3 0))

end Jxl.Border
