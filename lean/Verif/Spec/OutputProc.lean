/-
What the encoder's output means, with no buffers in sight: a file whose bytes
are written once each, at any position at or after the finalised one.
-/
import Verif.Model.OutputProc

namespace Jxl.OutProc

/-- A partially written file. -/
structure File where
  cell : Nat → Option Nat
  pos : Nat
  fin : Nat

def File.empty : File := ⟨fun _ => none, 0, 0⟩

/-- The bytes `bs` written at the current position. -/
def File.put (f : File) (bs : List Nat) : File :=
  { f with
    cell := fun i => if f.pos ≤ i ∧ i < f.pos + bs.length then bs[i - f.pos]? else f.cell i,
    pos := f.pos + bs.length }

/-- `[a, a + n)` has not been written. -/
def File.Free (f : File) (n : Nat) : Prop :=
  ∀ i, f.pos ≤ i → i < f.pos + n → f.cell i = none

/-- What each operation does to the file. -/
def File.next (f : File) : Op → File
  | .data _ _ bs => f.put bs
  | .put bs => f.put bs
  | .seek p => { f with pos := p }
  | .finalize => { f with fin := f.pos }

/-- The rules of `encode_internal.h` for users of the wrapper: nothing is
written twice, no seeking before the finalised position, nothing is finalised
before it is written. A copying loop which insists on `mn` bytes of room needs
that room up to its last piece. -/
def File.Ok (f : File) : Op → Prop
  | .data mn pick bs =>
    0 < mn ∧ f.Free (bs.length + mn - 1) ∧
      ∀ r size, 0 < r → mn ≤ size → 0 < pick r size ∧ pick r size ≤ r ∧ pick r size ≤ size
  | .put bs => bs ≠ [] ∧ f.Free bs.length
  | .seek p => f.fin ≤ p
  | .finalize => ∀ i, i < f.pos → f.cell i ≠ none

def File.run (f : File) : List Op → File
  | [] => f
  | op :: ops => (f.next op).run ops

def File.OkAll (f : File) : List Op → Prop
  | [] => True
  | op :: ops => f.Ok op ∧ (f.next op).OkAll ops

/-- No seeking into the part which is written without gaps from the start: an
output processor without `seek` has that part already. -/
def File.OkSeek (f : File) : Op → Prop
  | .seek p => ∀ q, (∀ i, i < q → f.cell i ≠ none) → q ≤ p
  | _ => True

def File.OkSeeks (f : File) : List Op → Prop
  | [] => True
  | op :: ops => f.OkSeek op ∧ (f.next op).OkSeeks ops

def File.OkSeekQueue (f : File) : List (List Op) → Prop
  | [] => True
  | it :: q => f.OkSeeks it ∧ (f.run it).OkSeekQueue q

/-- Everything written has been finalised. -/
def File.Closed (f : File) : Prop := ∀ i, f.fin ≤ i → f.cell i = none

/-- The queue of inputs follows the rules, and every input finalises what it
wrote. -/
def File.OkQueue (f : File) : List (List Op) → Prop
  | [] => True
  | it :: q => f.OkAll it ∧ (f.run it).Closed ∧ (f.run it).OkQueue q

def File.runQueue (f : File) : List (List Op) → File
  | [] => f
  | it :: q => (f.run it).runQueue q

/-- `bs` are the first bytes of the file. -/
def File.Starts (f : File) (bs : List Nat) : Prop :=
  ∀ i, i < bs.length → f.cell i = bs[i]?

end Jxl.OutProc
