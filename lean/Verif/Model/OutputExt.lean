/-
The encoder's output side with a `JxlEncoderOutputProcessor`: the caller
implements callbacks which lend out buffers, take them back and optionally seek.

* `lib/include/jxl/encode.h` lines 727-822 (the interface)
* `lib/jxl/encode.cc` lines 110-168 (`GetBuffer`), 170-189, 218-276
  (`ReleaseBuffer`), 279-339 (`FlushOutput`), 341-358
  (`AppendBufferToExternalProcessor`), 2664-2676 (`JxlEncoderFlushInput`)

The map and the operations are those of `Model/OutputProc.lean`.  `none` stands
for a failed `JXL_ENSURE`, for memory errors, for a loop which does not end, and
for a breach of the documented protocol of the callbacks (a second buffer, a
release without a buffer, a seek or a write before the finalised position).
-/
import Verif.Model.OutputProc

namespace Jxl.OutProc

/-- The caller's side: the bytes received by position, the current position, the
size of the buffer lent out, the position last announced as finalised, and the
sizes `get_buffer` is going to answer with (`0`: null, a stop request). -/
structure User where
  cells : Nat → Option Nat
  pos : Nat
  lent : Option Nat
  told : Nat
  ans : Nat → Nat

def User.init (ans : Nat → Nat) : User := ⟨fun _ => none, 0, none, 0, ans⟩

/-- `get_buffer`. -/
def User.get (u : User) : Option (User × Nat) :=
  match u.lent with
  | some _ => none
  | none =>
    some ({ u with lent := if u.ans 0 = 0 then none else some (u.ans 0),
                   ans := fun k => u.ans (k + 1) }, u.ans 0)

/-- `release_buffer` after `xs` was written into the buffer. -/
def User.release (u : User) (xs : List Nat) : Option User :=
  match u.lent with
  | none => none
  | some n =>
    if xs.length ≤ n ∧ (u.told ≤ u.pos ∨ xs = []) then
      some { u with
        cells := fun i =>
          if u.pos ≤ i ∧ i < u.pos + xs.length then xs[i - u.pos]? else u.cells i,
        pos := u.pos + xs.length, lent := none }
    else none

/-- `seek`. -/
def User.seek (u : User) (p : Nat) : Option User :=
  if u.lent = none ∧ u.told ≤ p then some { u with pos := p } else none

/-- `set_finalized_position`. -/
def User.setFin (u : User) (p : Nat) : Option User :=
  if u.lent = none ∧ u.told ≤ p then some { u with told := p } else none

/-- The wrapper with an external processor.  `sk`: the processor has `seek`. -/
structure XSt where
  bufs : List Buf
  pos : Nat
  fin : Nat
  out : Nat
  stop : Bool
  sk : Bool
  usr : User

def XSt.init (sk : Bool) (ans : Nat → Nat) : XSt := ⟨[], 0, 0, 0, false, sk, User.init ans⟩

/-- `AppendBufferToExternalProcessor` (encode.cc:341-358). -/
def appendExt (s : XSt) (xs : List Nat) : Option (XSt × Bool) :=
  s.usr.get.bind fun r =>
    if r.2 = 0 then some ({ s with usr := r.1, stop := true }, false)
    else
      (r.1.release (xs.take (min r.2 xs.length))).bind fun u =>
        some ({ s with usr := u, out := s.out + min r.2 xs.length }, true)

/-- One turn of the loop of `FlushOutput` (encode.cc:287-337); `false` if the
caller asked to stop. -/
def xflushStep (s : XSt) : Option (XSt × Bool) :=
  match s.bufs with
  | [] => none
  | b :: rest =>
    if s.out < b.start then none
    else if b.written = 0 then none
    else
      (if b.owned ≠ [] then
        if b.start + b.written ≤ s.out then none
        else if b.owned.length < min (b.start + b.written) s.fin - b.start then none
        else
          appendExt s ((b.owned.drop (s.out - b.start)).take
            (min (b.start + b.written) s.fin - s.out))
      else if min (b.start + b.written) s.fin < s.out then none
      else some ({ s with out := min (b.start + b.written) s.fin }, true)).bind fun r =>
        if r.2 = false then some r
        else
          (if r.1.sk then some r.1.usr else r.1.usr.setFin r.1.out).bind fun u =>
            some ({ r.1 with
              bufs := if b.start + b.written = r.1.out then rest else b :: rest,
              usr := u }, true)

/-- The loop of `FlushOutput`. -/
def xflushLoop : Nat → XSt → Option XSt
  | 0, s => if s.out < s.fin then none else some s
  | fuel + 1, s =>
    if s.out < s.fin then
      (xflushStep s).bind fun r => if r.2 then xflushLoop fuel r.1 else some r.1
    else some s

def xflush (s : XSt) : Option XSt := xflushLoop (s.fin - s.out) s

/-- `SetFinalizedPosition` (encode.cc:180-189). -/
def xfinalize (s : XSt) : Option XSt :=
  (if s.sk then s.usr.setFin s.pos else some s.usr).bind fun u =>
    xflush { s with usr := u, fin := s.pos }

/-- `Seek` (encode.cc:170-178). -/
def xseek (s : XSt) (p : Nat) : Option XSt :=
  (if s.sk then s.usr.seek p else some s.usr).bind fun u =>
    if p < s.fin then none
    else some { s with usr := u, out := if s.sk then p else s.out, pos := p }

/-- The loop which hands an internal buffer to a processor with `seek`
(encode.cc:262-271). -/
def xappendLoop : Nat → List Nat → XSt → Option (XSt × Bool)
  | 0, xs, s => if xs = [] then some (s, true) else none
  | fuel + 1, xs, s =>
    if xs = [] then some (s, true)
    else
      (appendExt s xs).bind fun r =>
        if r.2 = false then some r
        else xappendLoop fuel (xs.drop (r.1.out - s.out)) r.1

/-- The check on the next entry in `ReleaseBuffer` (encode.cc:234-238). -/
def nextOk (bufs : List Buf) (p n : Nat) : Bool :=
  match nextKey p bufs with
  | none => true
  | some k => decide (p + n ≤ k)

/-- `GetBuffer`, writing and `ReleaseBuffer` when the caller's buffer is used:
`u` has lent a buffer of `size` bytes, `xs` is written. -/
def xdirect (s : XSt) (u : User) (size : Nat) (xs : List Nat) : Option (XSt × Option Nat) :=
  if size < xs.length then none
  else if xs = [] then (u.release []).bind fun u => some ({ s with usr := u }, some 0)
  else if nextOk (emplace ⟨s.pos, 0, []⟩ s.bufs) s.pos xs.length = false then none
  else
    (u.release xs).bind fun u =>
      let s' : XSt := { s with
        bufs := modify s.pos (fun b => { b with written := xs.length })
          (emplace ⟨s.pos, 0, []⟩ s.bufs),
        pos := s.pos + xs.length, usr := u }
      if s.sk then
        if s.out + xs.length = s'.pos ∧ s.fin ≤ s.out + xs.length then
          some ({ s' with out := s.out + xs.length }, some xs.length)
        else none
      else
        (xfinalize s').bind fun s'' =>
          if s''.out = s''.fin ∧ s''.out = s''.pos then some (s'', some xs.length) else none

/-- The same when an internal buffer is used; `bs size` is written. -/
def xown (s : XSt) (mn req : Nat) (bs : Nat → List Nat) : Option (XSt × Option Nat) :=
  (allocSize (nextKey s.pos (emplace ⟨s.pos, 0, []⟩ s.bufs)) s.pos mn (max mn req)).bind
    fun n =>
      if n < (bs n).length then none
      else if bs n = [] then (s.usr.release []).bind fun u => some ({ s with usr := u }, some 0)
      else if nextOk (emplace ⟨s.pos, 0, []⟩ s.bufs) s.pos (bs n).length = false then none
      else
        let own := overwrite (resize [] n) 0 (bs n)
        let s' : XSt := { s with
          bufs := modify s.pos (fun b => { b with written := (bs n).length, owned := own })
            (emplace ⟨s.pos, 0, []⟩ s.bufs),
          pos := s.pos + (bs n).length }
        if s.sk then
          (s.usr.seek s.pos).bind fun u =>
            (xappendLoop (bs n).length (bs n) { s' with usr := u, out := s.pos }).bind fun r =>
              if r.2 then
                some ({ r.1 with
                  bufs := modify s.pos (fun b => { b with owned := [] }) r.1.bufs },
                  some (bs n).length)
              else some (r.1, some (bs n).length)
        else some (s', some (bs n).length)

/-- `GetBuffer` (encode.cc:110-168), writing, `ReleaseBuffer`
(encode.cc:218-276).  The second component is `none` when `GetBuffer` reports
`kNotEnoughBytes`. -/
def xpiece (s : XSt) (mn req : Nat) (bs : Nat → List Nat) : Option (XSt × Option Nat) :=
  if mn = 0 then none
  else if s.stop then some (s, none)
  else if s.sk ∧ s.out ≠ s.pos then none
  else if s.pos < s.out then none
  else if s.pos = s.out then
    s.usr.get.bind fun r =>
      if r.2 = 0 then some ({ s with usr := r.1, stop := true }, none)
      else if r.2 < mn then
        (r.1.release []).bind fun u => xown { s with usr := u } mn req bs
      else xdirect s r.1 r.2 (bs r.2)
  else xown s mn req bs

/-- `AppendData` and the like; `false` when `GetBuffer` failed. -/
def xappendData (mn : Nat) (pick : Nat → Nat → Nat) :
    Nat → List Nat → XSt → Option (XSt × Bool)
  | 0, bs, s => if bs = [] then some (s, true) else none
  | fuel + 1, bs, s =>
    if bs = [] then some (s, true)
    else
      (xpiece s mn bs.length (fun size => bs.take (pick bs.length size))).bind fun r =>
        match r.2 with
        | none => some (r.1, false)
        | some k => xappendData mn pick fuel (bs.drop k) r.1

def xstep (s : XSt) : Op → Option (XSt × Bool)
  | .data mn pick bs => xappendData mn pick bs.length bs s
  | .put bs => (xpiece s bs.length 0 (fun _ => bs)).map fun r => (r.1, r.2.isSome)
  | .seek p => (xseek s p).map fun s => (s, true)
  | .finalize => (xfinalize s).map fun s => (s, true)

/-- Operations in order, up to the first failure. -/
def xrunOps : List Op → XSt → Option (XSt × Bool)
  | [], s => some (s, true)
  | op :: ops, s => (xstep s op).bind fun r => if r.2 then xrunOps ops r.1 else some r

/-- `JxlEncoderFlushInput` (encode.cc:2664-2676): `true` is
`JXL_ENC_SUCCESS`. -/
def flushInput : List (List Op) → XSt → Option (XSt × Bool)
  | [], s => some (s, true)
  | it :: q, s => (xrunOps it s).bind fun r => if r.2 then flushInput q r.1 else some r

end Jxl.OutProc
