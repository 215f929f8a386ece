import Verif.Model.Coders
import Verif.Model.F16
/-!
# Model of field bundles and their visitors (lib/jxl/fields.h, fields.cc, enc_fields.cc)

A `VisitFields` member function is a program `Prog` over numbered fields; the bundle object is an environment `Env`
(floats are IEEE patterns, booleans 0/1).  Conditions, checks and repetition counts name the fields they depend on.
The same program is interpreted by each visitor.

Simplifications:
* `mutable bool all_default` is not stored: `CanEncodeVisitor::AllDefault` (fields.cc:311-316) overwrites it with
  `Bundle::AllDefault(fields)` immediately before the write visitor reads it, and the reader uses it only to branch.
* A failing write visitor goes on and reports failure at the end; the model stops at once (the bits are discarded).
* `AllDefaultVisitor::F16` compares floats up to 1E-6 (fields.cc:138-141); the comparison is a parameter `near`.
* `JXL_DASSERT`s on nesting depth and begin/end pairing are built into the syntax.
-/
namespace Jxl.Bundle

abbrev Env := Nat → Nat

def upd (e : Env) (f v : Nat) : Env := fun g => if g = f then v else e g

inductive Prog where
  | skip
  | seq (a b : Prog)
  /-- `visitor->Bits(n, dflt, &f)`; `Bool` is `bits 1`. -/
  | bits (n dflt f : Nat)
  | u32 (enc : U32.Enc) (dflt f : Nat)
  | u64 (dflt f : Nat)
  | f16 (dflt f : Nat)
  /-- `visitor->Enum(dflt, &f)`; `valid` is `EnumBits`. -/
  | enum (valid dflt f : Nat)
  /-- `if (visitor->Conditional(c)) { p }` -/
  | cond (deps : List Nat) (c : List Nat → Bool) (p : Prog)
  /-- `if (!c) return JXL_FAILURE(...)` -/
  | check (deps : List Nat) (c : List Nat → Bool)
  /-- `if (visitor->AllDefault(*this, &all_default)) { visitor->SetDefault(this); return true; } p` -/
  | allDefault (p : Prog)
  /-- `visitor->BeginExtensions(&f); p; return visitor->EndExtensions();` -/
  | ext (f : Nat) (p : Prog)
  /-- a loop over a count computed from earlier fields -/
  | rep (deps : List Nat) (n : List Nat → Nat) (p : Nat → Prog)

open Prog

/-- `AllDefaultVisitor` (fields.cc:116-153): every visited field equals its default. -/
def isDefault (near : Nat → Nat → Bool) : Prog → Env → Bool
  | .skip, _ => true
  | .seq a b, e => isDefault near a e && isDefault near b e
  | .bits _ d f, e => e f == d
  | .u32 _ d f, e => e f == d
  | .u64 d f, e => e f == d
  | .f16 d f, e => near (e f) d
  | .enum _ d f, e => e f == d
  | .cond deps c p, e => if c (deps.map e) then isDefault near p e else true
  | .check _ _, _ => true
  | .allDefault p, e => isDefault near p e
  | .ext f p, e => e f == 0 && isDefault near p e
  | .rep deps n p, e => (List.range (n (deps.map e))).all fun i => isDefault near (p i) e

/-- `SetDefaultVisitor` (fields.cc:76-114): conditionals are always taken. -/
def setDefault : Prog → Env → Env
  | .skip, e => e
  | .seq a b, e => setDefault b (setDefault a e)
  | .bits _ d f, e => upd e f d
  | .u32 _ d f, e => upd e f d
  | .u64 d f, e => upd e f d
  | .f16 d f, e => upd e f d
  | .enum _ d f, e => upd e f d
  | .cond _ _ p, e => setDefault p e
  | .check _ _, e => e
  | .allDefault p, e => setDefault p e
  | .ext f p, e => setDefault p (upd e f 0)
  | .rep deps n p, e => (List.range (n (deps.map e))).foldl (fun e i => setDefault (p i) e) e

/-- The 1-bits of the extensions mask (loop over `remaining & (remaining - 1)`): their number. -/
def popCount (x : Nat) : Nat := ((List.range 64).filter fun i => x.testBit i).length

/-- Counters of `CanEncodeVisitor` (fields.cc:357-363): `encoded_bits_`, `pos_after_ext_`, `extensions_`. -/
structure CS where
  n : Nat := 0
  after : Nat := 0
  exts : Nat := 0

/-- `CanEncodeVisitor` (fields.cc:275-327); `none` when a field cannot be encoded. -/
def canP (near : Nat → Nat → Bool) (e : Env) : Prog → CS → Option CS
  | .skip, c => some c
  | .seq a b, c => (canP near e a c).bind (canP near e b)
  | .bits n _ f, c => (canEncodeBits n (e f)).map fun k => { c with n := c.n + k }
  | .u32 enc _ f, c => (U32.canEncode enc (e f)).map fun k => { c with n := c.n + k }
  | .u64 _ f, c => some { c with n := c.n + U64.encodedBits (e f) }
  | .f16 _ f, c => if F16.canEncode (e f) then some { c with n := c.n + 16 } else none
  | .enum valid _ f, c =>
    (U32.canEncode EnumField.enc (e f)).bind fun k =>
      if EnumField.valid valid (e f) then some { c with n := c.n + k } else none
  | .cond deps g p, c => if g (deps.map e) then canP near e p c else some c
  | .check deps g, c => if g (deps.map e) then some c else none
  | .allDefault p, c => if isDefault near p e then some { c with n := c.n + 1 } else canP near e p { c with n := c.n + 1 }
  | .ext f p, c =>
    let c := { c with n := c.n + U64.encodedBits (e f), exts := e f }
    if e f ≠ 0 then
      if c.after = 0 ∧ c.n ≠ 0 then canP near e p { c with after := c.n } else none
    else canP near e p c
  | .rep deps n p, c => (List.range (n (deps.map e))).foldlM (fun c i => canP near e (p i) c) c

/-- `CanEncodeVisitor::GetSizes` (fields.cc:330-356): extension bits and total bits. -/
def sizes (c : CS) : Option (Nat × Nat) :=
  if c.after ≠ 0 then
    if c.n ≥ c.after then
      some (c.n - c.after, c.n + U64.encodedBits (c.n - c.after) + (popCount c.exts - 1) * U64.encodedBits 0)
    else none
  else some (0, c.n)

/-- `WriteVisitor` (enc_fields.cc:27-75); `x` is `extension_bits_`. -/
def writeP (near : Nat → Nat → Bool) (x : Nat) (e : Env) : Prog → Option (List Bool)
  | .skip => some []
  | .seq a b => do
    let s ← writeP near x e a
    let t ← writeP near x e b
    some (s ++ t)
  | .bits n _ f => writeBitsField n (e f)
  | .u32 enc _ f => U32.write enc (e f)
  | .u64 _ f => some (U64.write (e f))
  | .f16 _ f => F16.write (e f)
  | .enum valid _ f => EnumField.write valid (e f)
  | .cond deps g p => if g (deps.map e) then writeP near x e p else some []
  | .check deps g => if g (deps.map e) then some [] else none
  | .allDefault p => if isDefault near p e then some (bitsOf 1 1) else (writeP near x e p).map (bitsOf 1 0 ++ ·)
  | .ext f p =>
    if e f = 0 then
      if x = 0 then (writeP near x e p).map (U64.write 0 ++ ·) else none
    else
      (writeP near x e p).map fun t =>
        U64.write (e f) ++ U64.write x ++ (List.replicate (popCount (e f) - 1) (U64.write 0)).flatten ++ t
  | .rep deps n p =>
    (List.range (n (deps.map e))).foldlM (fun s i => (writeP near x e (p i)).map (s ++ ·)) []

/-- `Bundle::Write` (enc_fields.cc:78-90): the bits written and the size of the allotment. -/
def write (near : Nat → Nat → Bool) (p : Prog) (e : Env) : Option (List Bool × Nat) := do
  let c ← canP near e p {}
  let (x, total) ← sizes c
  let b ← writeP near x e p
  some (b, total)

/-- State of `ReadVisitor` (fields.cc:259-269) and its bit reader: remaining bits and bits consumed. -/
structure RS where
  env : Env
  s : List Bool
  pos : Nat
  total : Nat := 0
  after : Nat := 0
  ok : Bool := true

/-- Consume what a coder consumed. -/
def RS.adv (r : RS) (s : List Bool) : RS := { r with s := s, pos := r.pos + (r.s.length - s.length) }

/-- Store a value that was read. -/
def RS.store (r : RS) (f : Nat) (x : Option (Nat × List Bool)) : Option RS :=
  x.map fun (v, s) => { r.adv s with env := upd r.env f v }

/-- Sizes of the extensions present (fields.cc:206-217): one U64 per 1-bit; overflow is an error. -/
def readSizes : Nat → RS → Option RS
  | 0, r => some r
  | k + 1, r => do
    let (v, s) ← U64.read r.s
    if r.total + v < 2 ^ 64 then readSizes k { r.adv s with total := r.total + v } else none

/-- `ReadVisitor::BeginExtensions` (fields.cc:201-222). -/
def beginExt (f : Nat) (r : RS) : Option RS := do
  let r ← r.store f (U64.read r.s)
  if r.env f = 0 then some r
  else
    let r ← readSizes (popCount (r.env f)) r
    if r.pos ≠ 0 then some { r with after := r.pos } else none

/-- `ReadVisitor::EndExtensions` (fields.cc:224-255). -/
def endExt (r : RS) : Option RS :=
  if r.after = 0 then some r
  else if r.after + r.total < 2 ^ 64 then
    if r.pos > r.after + r.total then none
    else
      let rem := r.after + r.total - r.pos
      if rem ≤ r.s.length then some { r with s := r.s.drop rem, pos := r.pos + rem } else none
  else none

/-- `ReadVisitor` (fields.cc:155-273); `none` is "not enough bytes" or failure. -/
def readP : Prog → RS → Option RS
  | .skip, r => some r
  | .seq a b, r => (readP a r).bind (readP b)
  | .bits n _ f, r => r.store f (rdBits n r.s)
  | .u32 enc _ f, r => r.store f (U32.read enc r.s)
  | .u64 _ f, r => r.store f (U64.read r.s)
  | .f16 _ f, r =>
    (rdBits 16 r.s).map fun (x, s) =>
      match F16.decode x with
      | some v => { r.adv s with env := upd r.env f v }
      | none => { r.adv s with ok := false }
  | .enum valid _ f, r => r.store f (EnumField.read valid r.s)
  | .cond deps g p, r => if g (deps.map r.env) then readP p r else some r
  | .check deps g, r => if g (deps.map r.env) then some r else none
  | .allDefault p, r =>
    (rdBits 1 r.s).bind fun (x, s) =>
      if x = 1 then some { r.adv s with env := setDefault p r.env } else readP p (r.adv s)
  | .ext f p, r => (beginExt f r).bind fun r => (readP p r).bind endExt
  | .rep deps n p, r => (List.range (n (deps.map r.env))).foldlM (fun r i => readP (p i) r) r

/-- `Bundle::Read` (fields.cc:392-396): the bundle starts with the values in `e` (from its constructor). -/
def read (p : Prog) (e : Env) (s : List Bool) (pos : Nat) : Option (Env × List Bool) := do
  let r ← readP p { env := e, s := s, pos := pos }
  if r.ok then some (r.env, r.s) else none

end Jxl.Bundle
