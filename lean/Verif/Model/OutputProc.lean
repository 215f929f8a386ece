/-
The encoder's output side: pieces are produced at arbitrary positions (a box is
written before its header is known), and handed to the caller through whatever
output buffers the caller offers to `JxlEncoderProcessOutput`.

* `lib/jxl/encode.cc` lines 110-168 (`GetBuffer`), 170-178 (`Seek`), 180-189
  (`SetFinalizedPosition`), 191-199 (`SetAvailOut`), 218-276 (`ReleaseBuffer`),
  279-339 (`FlushOutput`), 394-436 (`AppendBox`), 2695-2715
  (`JxlEncoderProcessOutput`)
* `lib/jxl/encode_internal.h` lines 446-540 (the wrapper), 542-598
  (`JxlOutputProcessorBuffer`), 601-614 (`AppendData`)

Here no external output processor is set: the caller's memory is the buffer of
the current `JxlEncoderProcessOutput` call.  `none` stands for a failed
`JXL_ENSURE`, for a read or write outside a buffer, for an unsigned subtraction
below zero, and for a loop which does not end.  Positions are natural numbers
(64-bit wrap-around of stream positions is not modelled); memory allocation
always succeeds.
-/
namespace Jxl.OutProc

/-- `InternalBuffer` with its key in `internal_buffers_`
(encode_internal.h:493-503).  `owned = []` is `owned_data.empty()`: the bytes
are in the caller's memory. -/
structure Buf where
  start : Nat
  written : Nat
  owned : List Nat
deriving Repr, DecidableEq

/-- The wrapper (encode_internal.h:505-526) and the caller's current buffer:
`win` is that buffer, `*next_out_` points `used` bytes into it and `*avail_out_`
is `win.length - used`.  `held` is `has_buffer_`. -/
structure St where
  bufs : List Buf
  pos : Nat
  fin : Nat
  out : Nat
  win : List Nat
  used : Nat
  held : Bool
deriving Repr, DecidableEq

/-- A new wrapper: no buffer offered yet (`avail_out_ == nullptr`, which every
function treats like a buffer of size 0: `GetBuffer` allocates and
`FlushOutput` does nothing). -/
def St.init : St := ⟨[], 0, 0, 0, [], 0, false⟩

/-- `*avail_out_`. -/
def St.avail (s : St) : Nat := s.win.length - s.used

/-- `std::map::emplace` on a map kept as a list sorted by key: an existing entry
stays. -/
def emplace (b : Buf) : List Buf → List Buf
  | [] => [b]
  | x :: xs =>
    if b.start < x.start then b :: x :: xs
    else if b.start = x.start then x :: xs
    else x :: emplace b xs

/-- Key of the entry after the one at `p`. -/
def nextKey (p : Nat) (l : List Buf) : Option Nat :=
  (l.find? (fun x => decide (p < x.start))).map Buf.start

/-- Modify the entry with key `p`. -/
def modify (p : Nat) (f : Buf → Buf) (l : List Buf) : List Buf :=
  l.map (fun x => if x.start = p then f x else x)

/-- `memcpy(l + off, bs, bs.size())`. -/
def overwrite (l : List Nat) (off : Nat) (bs : List Nat) : List Nat :=
  l.take off ++ bs ++ l.drop (off + bs.length)

/-- `PaddedBytes::resize`: the new bytes are not initialised (0 here). -/
def resize (l : List Nat) (n : Nat) : List Nat :=
  l.take n ++ List.replicate (n - l.length) 0

/-- Where a `JxlOutputProcessorBuffer` points: `some off` is `off` bytes into
the caller's buffer, `none` is the internal buffer at the current position. -/
structure Handle where
  direct : Option Nat
  size : Nat
deriving Repr, DecidableEq

/-- The size of an internal buffer (encode.cc:157-163). -/
def allocSize (next : Option Nat) (pos mn req : Nat) : Option Nat :=
  match next with
  | none => some req
  | some k => if mn ≤ min req (k - pos) then some (min req (k - pos)) else none

/-- `JxlEncoderOutputProcessorWrapper::GetBuffer` (encode.cc:110-168) without
external processor. -/
def getBuffer (s : St) (mn req : Nat) : Option (St × Handle) :=
  if mn = 0 then none
  else if s.held then none
  else if s.pos < s.out then none
  else if mn + (s.pos - s.out) < s.avail then
    some ({ s with bufs := emplace ⟨s.pos, 0, []⟩ s.bufs, held := true },
          ⟨some (s.used + (s.pos - s.out)), s.avail - (s.pos - s.out)⟩)
  else
    (allocSize (nextKey s.pos (emplace ⟨s.pos, 0, []⟩ s.bufs)) s.pos mn
        (max mn req)).bind fun n =>
      some ({ s with
              bufs := modify s.pos (fun b => { b with owned := resize b.owned n })
                (emplace ⟨s.pos, 0, []⟩ s.bufs),
              held := true },
            ⟨none, n⟩)

/-- `JxlOutputProcessorBuffer::append` on a fresh buffer (encode_internal.h:
584-588): the copy, and the check that it fitted. -/
def append (s : St) (h : Handle) (bs : List Nat) : Option St :=
  if bs.length ≤ h.size then
    match h.direct with
    | some off =>
      if off + bs.length ≤ s.win.length then
        some { s with win := overwrite s.win off bs }
      else none
    | none =>
      some { s with
        bufs := modify s.pos (fun b => { b with owned := overwrite b.owned 0 bs })
          s.bufs }
  else none

/-- `JxlEncoderOutputProcessorWrapper::ReleaseBuffer` (encode.cc:218-276)
without external processor. -/
def releaseBuffer (s : St) (n : Nat) : Option St :=
  if s.held = false then none
  else if s.bufs.all (fun b => b.start != s.pos) then none
  else if n = 0 then
    some { s with bufs := s.bufs.filter (fun b => b.start != s.pos), held := false }
  else
    match nextKey s.pos s.bufs with
    | some k =>
      if s.pos + n ≤ k then
        some { s with
          bufs := modify s.pos (fun b => { b with written := n }) s.bufs,
          pos := s.pos + n, held := false }
      else none
    | none =>
      some { s with
        bufs := modify s.pos (fun b => { b with written := n }) s.bufs,
        pos := s.pos + n, held := false }

/-- Get a buffer, write `bs`, let the buffer go. -/
def piece (s : St) (mn req : Nat) (bs : Nat → List Nat) : Option (St × Nat) :=
  (getBuffer s mn req).bind fun r =>
    (append r.1 r.2 (bs r.2.size)).bind fun s' =>
      (releaseBuffer s' (bs r.2.size).length).bind fun s'' =>
        some (s'', (bs r.2.size).length)

/-- The copying loops: `AppendData` (encode_internal.h:601-614) and
`JxlFastLosslessOutputAlignedSection` (enc_fast_lossless.cc:884-900) with
`mn = 1` and `pick = min`; `JxlFastLosslessOutputFrame`
(enc_fast_lossless.cc:4416-4434) with `mn = 32` and `pick` the amount
`JxlFastLosslessWriteOutput` produces.  `fuel` bounds the iterations. -/
def appendData (mn : Nat) (pick : Nat → Nat → Nat) :
    Nat → List Nat → St → Option St
  | 0, bs, s => if bs = [] then some s else none
  | fuel + 1, bs, s =>
    if bs = [] then some s
    else
      (piece s mn bs.length (fun size => bs.take (pick bs.length size))).bind
        fun r => appendData mn pick fuel (bs.drop r.2) r.1

/-- `JxlEncoderOutputProcessorWrapper::Seek` (encode.cc:170-178). -/
def seek (s : St) (p : Nat) : Option St :=
  if s.held then none
  else if p < s.fin then none
  else some { s with pos := p }

/-- One iteration of `FlushOutput` (encode.cc:287-337). -/
def flushStep (s : St) : Option St :=
  match s.bufs with
  | [] => none
  | b :: rest =>
    if s.out < b.start then none
    else if b.written = 0 then none
    else if b.owned ≠ [] then
      if b.start + b.written ≤ s.out then none
      else
        let n := min (min (b.start + b.written) s.fin - s.out) s.avail
        if b.owned.length < (s.out - b.start) + n then none
        else
          some { s with
            win := overwrite s.win s.used ((b.owned.drop (s.out - b.start)).take n),
            used := s.used + n, out := s.out + n,
            bufs := if b.start + b.written = s.out + n then rest else b :: rest }
    else
      if min (b.start + b.written) s.fin < s.out then none
      else
        let n := min (b.start + b.written) s.fin - s.out
        if s.avail < n then none
        else
          some { s with
            used := s.used + n, out := s.out + n,
            bufs := if b.start + b.written = s.out + n then rest else b :: rest }

/-- The loop of `FlushOutput` (encode.cc:285-338). -/
def flushLoop : Nat → St → Option St
  | 0, s => if s.out < s.fin ∧ 0 < s.avail then none else some s
  | fuel + 1, s =>
    if s.out < s.fin ∧ 0 < s.avail then (flushStep s).bind (flushLoop fuel)
    else some s

/-- `FlushOutput`: the loop makes at most one step per byte. -/
def flush (s : St) : Option St :=
  if s.held then none else flushLoop (s.fin - s.out) s

/-- `JxlEncoderOutputProcessorWrapper::SetFinalizedPosition`
(encode.cc:180-189). -/
def finalize (s : St) : Option St :=
  if s.held then none else flush { s with fin := s.pos }

/-- `JxlEncoderOutputProcessorWrapper::SetAvailOut` (encode.cc:191-199). -/
def setAvailOut (s : St) (w : List Nat) : Option St :=
  flush { s with win := w, used := 0 }

/-- What the encoder does with its output: one copying loop, one exact piece
(`GetBuffer(n)` and `n` bytes: the box headers and the early header box),
`Seek`, `SetFinalizedPosition`. -/
inductive Op where
  | data (mn : Nat) (pick : Nat → Nat → Nat) (bs : List Nat)
  | put (bs : List Nat)
  | seek (p : Nat)
  | finalize

def step (s : St) : Op → Option St
  | .data mn pick bs => appendData mn pick bs.length bs s
  | .put bs => (piece s bs.length 0 (fun _ => bs)).map Prod.fst
  | .seek p => seek s p
  | .finalize => finalize s

/-- `ProcessOneEnqueuedInput` as far as the output goes: its operations in
order. -/
def runOps : List Op → St → Option St
  | [], s => some s
  | op :: ops, s => (step s op).bind (runOps ops)

/-- The loop of `JxlEncoderProcessOutput` (encode.cc:2705-2709); returns the
inputs still queued. -/
def processLoop : List (List Op) → St → Option (St × List (List Op))
  | [], s => some (s, [])
  | it :: q, s =>
    if s.avail = 0 then some (s, it :: q)
    else (runOps it s).bind (processLoop q)

/-- `JxlEncoderProcessOutput` (encode.cc:2695-2715) with an output buffer `w`:
the bytes produced (the caller's buffer up to the new `*next_out`), whether the
result is `JXL_ENC_SUCCESS` rather than `JXL_ENC_NEED_MORE_OUTPUT`, the new
state and the queue. -/
def processOutput (s : St) (q : List (List Op)) (w : List Nat) :
    Option (List Nat × Bool × St × List (List Op)) :=
  (setAvailOut s w).bind fun s1 =>
    (processLoop q s1).bind fun r =>
      some (r.1.win.take r.1.used,
        (r.2.isEmpty && !decide (r.1.out < r.1.fin)), r.1, r.2)

/-- A sequence of `JxlEncoderProcessOutput` calls with the given buffers: the
bytes produced by all calls, and the result of the last call (`last` if there
is none). -/
def drain : Bool → St → List (List Op) → List (List Nat) → Option (List Nat × Bool)
  | last, _, _, [] => some ([], last)
  | _, s, q, w :: ws =>
    (processOutput s q w).bind fun r =>
      (drain r.2.1 r.2.2.1 r.2.2.2 ws).bind fun t => some (r.1 ++ t.1, t.2)

/-- `JxlEncoder::AppendBox` (encode.cc:394-436) at position `p` with the header
bytes `hdr` and contents written by `body`: the operations on the output. -/
def appendBox (p : Nat) (hdr : List Nat) (body : List Op) (len : Nat) : List Op :=
  [.seek (p + hdr.length)] ++ body ++
    [.seek p, .put hdr, .seek (p + hdr.length + len), .finalize]

/-- `AppendData` as an operation. -/
def Op.copy (bs : List Nat) : Op := .data 1 min bs

/-- `CopyOutput` (encode.cc:201-216): the output vector is the window, doubled
when full.  `n` is the current size of the vector. -/
def copyOutput : Nat → Nat → List Nat → St → Option (List Nat)
  | 0, _, _, _ => none
  | fuel + 1, n, acc, s =>
    if s.out < s.fin then
      (flush s).bind fun s1 =>
        if s1.avail = 0 then
          copyOutput fuel (2 * n) (acc ++ s1.win.take s1.used)
            { s1 with win := List.replicate n 0, used := 0 }
        else copyOutput fuel n acc s1
    else some (acc ++ s.win.take s.used)

/-- `CopyOutput` from its start; every turn of the loop but the last writes a
byte. -/
def copyOut (s : St) : Option (List Nat) :=
  copyOutput (s.fin - s.out + 2) 64 [] { s with win := List.replicate 64 0, used := 0 }

end Jxl.OutProc
