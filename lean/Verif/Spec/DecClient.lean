import Verif.Model.DecInput
/-!
# How the decoder's input layer is used

A ghost record of the interaction: what the caller has supplied, how many codestream bytes the
parser has consumed or skipped in total, and the discipline the call sites in decode.cc keep:

* the parser asks for more input only after it has looked at all that is there
  (decode.cc:1018, 1047, 1109, 1118, 1314, 1516: always after `GetCodestreamInput` in the same
  call);
* after consuming past the end of the last span it looks again before consuming or asking again
  (decode.cc:1053, 1064, 1091, 1135, 1216, 1318, 1337, 1402, 1439 and `SkipCurrentFrame`, 910).
-/
namespace Jxl.DecInput

structure Client where
  /-- all bytes given by the caller -/
  supplied : List UInt8 := []
  /-- number of codestream bytes consumed or skipped -/
  used : Nat := 0
  /-- bytes of the last span not yet consumed -/
  rem : Nat := 0
  /-- consumed past the end of the last span -/
  over : Bool := false
  /-- a span was obtained and no input arrived since -/
  fresh : Bool := false
deriving DecidableEq

/-- The uses of the input layer that occur. -/
def Legal (c : Client) (s : Dec) : Op → Prop
  | .more _ => True
  | .tick _ => True
  | .get => s.stage = .codestream
  | .advance _ => c.over = false ∧
      ((s.stage = .codestream ∧ s.headerSize = 0) ∨ s.stage = .header ∨ s.copy ≠ [] ∨
        (s.stage ≠ .start ∧ s.inp = []))
  | .request => c.over = false ∧ c.fresh = true

/-- The record after an operation with outcome `r`. -/
def Client.next (c : Client) (o : Op) (r : Res) : Client :=
  match o with
  | .more xs => { c with supplied := c.supplied ++ xs, fresh := false }
  | .tick _ => c
  | .get => match r with
    | .span l _ => { c with rem := l.length, over := false, fresh := true }
    | _ => { c with fresh := false }
  | .advance n =>
    { c with
      used := c.used + n
      rem := c.rem - n
      over := decide (c.rem < n) }
  | .request => { c with fresh := false }

/-- The decoder's state after a step that did not end the session. -/
def Res.state : Res → Option Dec
  | .ok s => some s
  | .span _ s => some s
  | .need s => some s
  | _ => none

/-- All states of all sessions. -/
inductive Reach : Dec → Client → Prop
  | init : Reach {} {}
  | step {s c s'} (o : Op) (r : Res) : Reach s c → Legal c s o → DecInput.step o s = some r →
      r.state = some s' → Reach s' (c.next o r)

end Jxl.DecInput
