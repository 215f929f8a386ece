import Verif.Spec.Lz77
/-!
# Model of the LZ77 part of the entropy decoder (lib/jxl/dec_ans.h, dec_ans.cc)

The decoder takes tokens and hybrid integers from the bit stream; what they amount to (a literal, or a length and a distance
code) is an `Op`, and the bit stream is the endless sequence of them (reading past the end yields zero bits, never nothing).
Counters are `uint32_t`.  Outcome `none` is undefined behaviour: an access outside the window, or the use of a window entry that
was never written.
-/
namespace Jxl.Lz77

/-- `kWindowSize` (dec_ans.h:122). -/
def W : Nat := 1048576

/-- Addition and subtraction of `uint32_t`. -/
def wadd (a b : Nat) : Nat := (a + b) % 2 ^ 32
@[inherit_doc wadd] def wsub (a b : Nat) : Nat := (a + 2 ^ 32 - b) % 2 ^ 32

/-- The decoder's parameters: `lz77_min_length_` and `distance_multiplier` (dec_ans.cc:392-419). -/
structure Params where
  minLen : Nat
  mult : Nat

/-- `SpecialDistance` (dec_ans.h:141-145).  `int` arithmetic; `multiplier` is an image width, far below 2^28. -/
def specialDistance (i mult : Nat) : Nat :=
  let e := specialTable.getD i (0, 0)
  let dist := e.1 + mult * e.2
  (if dist > 1 then dist else 1).toNat

/-- `num_special_distances_` (dec_ans.cc:415). -/
def numSpecial (mult : Nat) : Nat := if mult = 0 then 0 else 120

/-- The distance of a distance code (dec_ans.h:307-311). -/
def decodeDistance (mult d : Nat) : Nat :=
  if d < numSpecial mult then specialDistance d mult else d + 1 - numSpecial mult

/-- The decoder (dec_ans.h:474-488) and how far it is in the bit stream.  `win` is the window, `none` where it was never
written; `bad` records `MarkUnhealthy`. -/
structure State where
  win : Nat → Option Nat
  num : Nat
  toCopy : Nat
  copyPos : Nat
  next : Nat
  bad : Bool

/-- A fresh decoder; the window's memory is not initialised (dec_ans.cc:378-419). -/
def start : State := { win := fun _ => none, num := 0, toCopy := 0, copyPos := 0, next := 0, bad := false }

/-- Reading `lz77_window_[i]`. -/
def load (w : Nat → Option Nat) (i : Nat) : Option Nat := if i < W then w i else none

/-- Writing `lz77_window_[i]`, a `uint32_t`. -/
def store (w : Nat → Option Nat) (i v : Nat) : Option (Nat → Option Nat) :=
  if i < W then some (fun j => if j = i then some (v % 2 ^ 32) else w j) else none

/-- `memset(lz77_window_, 0, n * sizeof(uint32_t))`. -/
def fill (w : Nat → Option Nat) (n : Nat) : Option (Nat → Option Nat) :=
  if n ≤ W then some (fun j => if j < n then some 0 else w j) else none

/-- Appending a value to the window: `lz77_window_[(num_decoded_++) & kWindowMask] = v`. -/
def push (s : State) (v : Nat) : Option State :=
  (store s.win (s.num &&& (W - 1)) v).map fun w => { s with win := w, num := wadd s.num 1 }

/-- One value of a copy (dec_ans.h:291-294, 340-343). -/
def copyStep (s : State) : Option (Nat × State) :=
  (load s.win (s.copyPos &&& (W - 1))).bind fun v =>
    (push { s with copyPos := wadd s.copyPos 1, toCopy := wsub s.toCopy 1 } v).map fun t => (v, t)

/-- The clamped distance (dec_ans.h:312-317). -/
def clampDistance (d num : Nat) : Nat :=
  let d := if d > num then num else d
  if d > W then W else d

/-- The start of a copy (dec_ans.h:300-323): length, distance and, at the very beginning, zeros to copy from. -/
def startCopy (p : Params) (s : State) (len dist : Nat) : Option State :=
  let n := wadd len p.minLen
  let d := clampDistance (decodeDistance p.mult dist) s.num
  let s := { s with toCopy := n, copyPos := wsub s.num d }
  if d = 0 then (fill s.win (min n W)).map fun w => { s with win := w } else some s

/-- `ReadHybridUintClusteredInlined<true>` (dec_ans.h:287-353): the value read. -/
def read (p : Params) (ops : Nat → Op) (s : State) : Option (Nat × State) :=
  if s.toCopy > 0 then copyStep s
  else match ops s.next with
    | .lit v => (push { s with next := s.next + 1 } v).map fun t => (v, t)
    | .copy len dist =>
      (startCopy p { s with next := s.next + 1 } len dist).bind fun t =>
        if t.toCopy < p.minLen then some (0, { t with toCopy := 0, bad := true })
        else copyStep t

/-- `n` values, and the decoder afterwards. -/
def readN (p : Params) (ops : Nat → Op) : Nat → State → Option (List Nat × State)
  | 0, s => some ([], s)
  | n + 1, s => (read p ops s).bind fun (v, t) => (readN p ops n t).map fun (vs, u) => (v :: vs, u)

/-! ## Checkpoints (dec_ans.h:411-458) -/

/-- `kMaxCheckpointInterval`. -/
def interval : Nat := 512

/-- `Checkpoint`; the ANS state and the bit reader's position are stood for by `next`, the bit reader's health by `bad`. -/
structure Checkpoint where
  num : Nat
  toCopy : Nat
  copyPos : Nat
  next : Nat
  bad : Bool
  saved : Nat → Option Nat

/-- `memcpy(dst + to, src + from, n)`, of 32-bit entries, where the arrays hold `szD` and `szS` entries. -/
def memcpy (dst : Nat → Option Nat) (szD to : Nat) (src : Nat → Option Nat) (szS from_ n : Nat) : Option (Nat → Option Nat) :=
  if to + n ≤ szD ∧ from_ + n ≤ szS then some (fun j => if to ≤ j ∧ j < to + n then src (from_ + (j - to)) else dst j)
  else none

/-- `Save` (dec_ans.h:420-441). -/
def save (s : State) : Option Checkpoint :=
  let a := s.num &&& (W - 1)
  let b := (s.num + interval) &&& (W - 1)
  let empty : Nat → Option Nat := fun _ => none
  let c : (Nat → Option Nat) → Checkpoint := fun v =>
    { num := s.num, toCopy := s.toCopy, copyPos := s.copyPos, next := s.next, bad := s.bad, saved := v }
  if b > a then (memcpy empty interval 0 s.win W a (b - a)).map c
  else (memcpy empty interval 0 s.win W a (W - a)).bind fun v => (memcpy v interval (W - a) s.win W 0 b).map c

/-- `Restore` (dec_ans.h:442-458), the bit reader having been put back as well. -/
def restore (c : Checkpoint) (s : State) : Option State :=
  let a := c.num &&& (W - 1)
  let b := (c.num + interval) &&& (W - 1)
  let t : (Nat → Option Nat) → State := fun w =>
    { s with win := w, num := c.num, toCopy := c.toCopy, copyPos := c.copyPos, next := c.next, bad := c.bad }
  if b > a then (memcpy s.win W a c.saved interval 0 (b - a)).map t
  else (memcpy s.win W a c.saved interval 0 (W - a)).bind fun w => (memcpy w W 0 c.saved interval (W - a) b).map t

end Jxl.Lz77
