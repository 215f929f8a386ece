/-!
# Model of the memory manager and of buffer ownership (lib/jxl/memory_manager_internal.cc, lib/jxl/padded_bytes.h)

Managers and addresses are numbers; a null pointer is `none`.  Freeing something that is not allocated from that manager at that moment is
undefined behaviour: `none`.  Contents and alignment are left out (see C32 and the `PaddedBytes` model).
-/
namespace Jxl.MemMgr

/-- The two function pointers of `JxlMemoryManager`. -/
structure Funcs where
  alloc : Option Nat
  free : Option Nat
  deriving DecidableEq, Repr

/-- The library's own functions `MemoryManagerDefaultAlloc` / `MemoryManagerDefaultFree` (memory_manager_internal.cc:26-30). -/
def defaultFunc : Nat := 0

/-- `*self = *memory_manager`, or all zero (memory_manager_internal.cc:44-48). -/
def given : Option Funcs → Funcs
  | some m => m
  | none => ⟨none, none⟩

/-- `MemoryManagerInit` (memory_manager_internal.cc:42-57): the functions that will be called. -/
def init (m : Option Funcs) : Option (Nat × Nat) :=
  let self := given m
  if self.alloc.isNone != self.free.isNone then none
  else some (self.alloc.getD defaultFunc, self.free.getD defaultFunc)

inductive Event
  | alloc (m p : Nat)
  | free (m p : Nat)
  deriving DecidableEq, Repr

/-- What the managers know. -/
structure World where
  live : List (Nat × Nat) := []
  log : List Event := []
  deriving Repr

/-- `memory_manager->free(opaque, p)` -/
def World.free (w : World) (m : Nat) : Option Nat → Option World
  | none => none
  | some p => if (m, p) ∈ w.live then some ⟨w.live.erase (m, p), w.log ++ [.free m p]⟩ else none

/-- `AlignedMemory` (memory_manager_internal.h:128-132). -/
structure AM where
  allocation : Option Nat := none
  mgr : Option Nat := none
  address : Option Nat := none
  deriving DecidableEq, Repr

/-- `AlignedMemory::Create` (memory_manager_internal.cc:103-121) without padding before; `ans` is what the manager answers if asked. -/
def create (w : World) (mgr : Option Nat) (size : Nat) (ans : Option Nat) : World × Option AM :=
  if size + 2048 ≥ 2 ^ 64 then (w, none)
  else
    match mgr, ans with
    | none, _ => (w, none)
    | some _, none => (w, none)
    | some m, some p => (⟨(m, p) :: w.live, w.log ++ [.alloc m p]⟩, some ⟨some p, some m, some p⟩)

/-- Move constructor (memory_manager_internal.cc:148-153): new object and what is left of the old one. -/
def moveCtor (other : AM) : AM × AM := (other, { other with mgr := none })

/-- `if (memory_manager_ && allocation_) free` (memory_manager_internal.cc:157-159). -/
def release (w : World) (a : AM) : Option World :=
  match a.mgr with
  | none => some w
  | some m => if a.allocation.isSome then w.free m a.allocation else some w

/-- Move assignment between different objects (memory_manager_internal.cc:155-165). -/
def moveAssign (w : World) (self other : AM) : Option (World × AM × AM) :=
  (release w self).map fun w => (w, other, { other with mgr := none })

/-- Destructor (memory_manager_internal.cc:167-170). -/
def destroy (w : World) (a : AM) : Option World :=
  match a.mgr with
  | none => some w
  | some m => w.free m a.allocation

/-- `PaddedBytes` (padded_bytes.h:213-217). -/
structure Buf where
  mm : Option Nat
  size : Nat := 0
  capacity : Nat := 0
  data : AM := {}
  deriving DecidableEq, Repr

/-- `change_capacity` (padded_bytes.h:182-211).  The temporary `new_data` is destroyed at the end.  `(world, buffer, success)` -/
def changeCapacity (w : World) (b : Buf) (newCapacity : Nat) (ans : Option Nat) : Option (World × Buf × Bool) :=
  let newCapacity := max 64 newCapacity
  if newCapacity + 8 ≥ 2 ^ 64 then some (w, b, false)
  else
    match create w b.mm (newCapacity + 8) ans with
    | (w, none) => some (w, b, false)
    | (w, some newData) => do
      let (w, data, left) ← moveAssign w b.data newData
      let w ← destroy w left
      some (w, { b with capacity := newCapacity, data := data }, true)

/-- `reserve` (padded_bytes.h:76-87). -/
def reserve (w : World) (b : Buf) (capacity : Nat) (ans : Option Nat) : Option (World × Buf × Bool) :=
  if capacity ≤ b.capacity then some (w, b, true)
  else if b.capacity + b.capacity / 2 ≥ 2 ^ 64 then some (w, b, false)
  else changeCapacity w b (max capacity (b.capacity + b.capacity / 2)) ans

/-- `resize` (padded_bytes.h:95-99). -/
def resize (w : World) (b : Buf) (size : Nat) (ans : Option Nat) : Option (World × Buf) :=
  (reserve w b size ans).map fun (w, b, ok) => (w, if ok then { b with size := size } else b)

/-- A variable: an `AlignedMemory` (as in an image plane) or a `PaddedBytes`. -/
inductive Var
  | raw (a : AM)
  | buf (b : Buf)
  deriving DecidableEq, Repr

def Var.am : Var → AM
  | .raw a => a
  | .buf b => b.data

/-- The manager's memory and the variables within their lifetime. -/
structure State where
  w : World := {}
  vars : Nat → Option Var := fun _ => none

def State.put (s : State) (v : Nat) (x : Option Var) : State := { s with vars := fun u => if u = v then x else s.vars u }

inductive Op
  /-- `AlignedMemory v;` -/
  | rawNew (v : Nat)
  /-- `AlignedMemory v = AlignedMemory::Create(m, size)` -/
  | rawCreate (v : Nat) (m : Option Nat) (size : Nat) (ans : Option Nat)
  /-- `AlignedMemory v(std::move(u))` -/
  | rawMove (v u : Nat)
  /-- `v = std::move(u)` -/
  | rawAssign (v u : Nat)
  /-- `PaddedBytes v(m)` -/
  | bufNew (v : Nat) (m : Option Nat)
  | bufMove (v u : Nat)
  | bufAssign (v u : Nat)
  | bufSwap (v u : Nat)
  | bufResize (v size : Nat) (ans : Option Nat)
  | bufShrink (v : Nat) (ans : Option Nat)
  /-- end of lifetime -/
  | destroy (v : Nat)
  deriving DecidableEq, Repr

/-- The allocator never hands out an address that is in use. -/
def fresh (w : World) : Option Nat → Bool
  | none => true
  | some p => w.live.all fun x => x.2 != p

/-- `std::swap` of two `AlignedMemory` objects: a move construction, two move assignments and a destruction. -/
def swapAM (w : World) (a b : AM) : Option (World × AM × AM) := do
  let (tmp, a) := moveCtor a
  let (w, a, b) ← moveAssign w a b
  let (w, b, tmp) ← moveAssign w b tmp
  let w ← destroy w tmp
  some (w, a, b)

/-- One operation.  What the language rules out (a constructor on a living object, a use of a dead one) and what the allocator's contract
rules out (an address in use) is left without effect. -/
def step (s : State) : Op → Option State
  | .rawNew v => if (s.vars v).isNone then some (s.put v (some (.raw {}))) else some s
  | .rawCreate v m size ans =>
    if (s.vars v).isNone ∧ fresh s.w ans then
      match create s.w m size ans with
      | (w, none) => some { s with w := w }
      | (w, some a) => some ({ s with w := w }.put v (some (.raw a)))
    else some s
  | .rawMove v u =>
    match s.vars v, s.vars u with
    | none, some (.raw a) => some ((s.put u (some (.raw (moveCtor a).2))).put v (some (.raw (moveCtor a).1)))
    | _, _ => some s
  | .rawAssign v u =>
    if v = u then some s
    else
      match s.vars v, s.vars u with
      | some (.raw a), some (.raw b) => (moveAssign s.w a b).map fun (w, a, b) => ({ s with w := w }.put u (some (.raw b))).put v (some (.raw a))
      | _, _ => some s
  | .bufNew v m => if (s.vars v).isNone then some (s.put v (some (.buf { mm := m }))) else some s
  | .bufMove v u =>
    match s.vars v, s.vars u with
    | none, some (.buf b) =>
      some ((s.put u (some (.buf { b with size := 0, capacity := 0, data := (moveCtor b.data).2 }))).put v (some (.buf { b with data := (moveCtor b.data).1 })))
    | _, _ => some s
  | .bufAssign v u =>
    if v = u then some s
    else
      match s.vars v, s.vars u with
      | some (.buf a), some (.buf b) =>
        (moveAssign s.w a.data b.data).map fun (w, d, left) =>
          ({ s with w := w }.put u (some (.buf { b with size := 0, capacity := 0, data := left }))).put v (some (.buf { b with data := d }))
      | _, _ => some s
  | .bufSwap v u =>
    if v = u then some s
    else
      match s.vars v, s.vars u with
      | some (.buf a), some (.buf b) =>
        (swapAM s.w a.data b.data).map fun (w, d, e) =>
          ({ s with w := w }.put u (some (.buf { a with data := e }))).put v (some (.buf { b with data := d }))
      | _, _ => some s
  | .bufResize v size ans =>
    match s.vars v with
    | some (.buf b) => if fresh s.w ans then (resize s.w b size ans).map fun (w, b) => { s with w := w }.put v (some (.buf b)) else some s
    | _ => some s
  | .bufShrink v ans =>
    match s.vars v with
    | some (.buf b) =>
      if fresh s.w ans then (changeCapacity s.w b b.size ans).map fun (w, b, _) => { s with w := w }.put v (some (.buf b)) else some s
    | _ => some s
  | .destroy v =>
    match s.vars v with
    | some x => (destroy s.w x.am).map fun w => { s with w := w }.put v none
    | none => some s

def run (s : State) (ops : List Op) : Option State := ops.foldlM step s

/-- `JxlDecoderCreate` / `JxlEncoderCreate` (decode.cc:843-858, encode.cc:2028-2047) as far as memory goes: the managers' functions and the
address of the object. -/
def createObject (m : Option Funcs) (ans : Option Nat) : Option ((Nat × Nat) × Nat) := do
  let fns ← init m
  let p ← ans
  some (fns, p)

end Jxl.MemMgr
