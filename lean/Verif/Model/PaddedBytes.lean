/-!
# Model of `PaddedBytes` (lib/jxl/padded_bytes.h)

`mem` is the whole allocation (`capacity_ + 8` bytes, `[]` when nothing is allocated yet).  Freshly allocated
memory has arbitrary contents: every operation that can reallocate takes an `Alloc` oracle, `none` when the user's
allocator fails and otherwise a function giving the initial contents.  Status failures leave the buffer as the code
leaves it.  Appending a range that aliases the buffer itself is not modelled.
-/
namespace Jxl

/-- Result of one call of the memory manager. -/
abbrev Alloc := Option (Nat → UInt8)

/-- `size_t` is 64 bits wide. -/
def sizeMax : Nat := 2 ^ 64

structure PaddedBytes where
  mem : List UInt8 := []
  size : Nat := 0
  cap : Nat := 0
deriving DecidableEq

namespace PaddedBytes

/-- `change_capacity` (padded_bytes.h:190-220).  `false` is a failure status. -/
def changeCapacity (b : PaddedBytes) (a : Alloc) (newCap : Nat) : Bool × PaddedBytes :=
  let newCap := max 64 newCap
  if newCap + 8 < sizeMax then
    match a with
    | none => (false, b)
    | some g =>
      let fresh := (List.range (newCap + 8)).map g
      let mem :=
        if b.mem = [] then fresh.set 0 0
        else (b.mem.take b.size ++ fresh.drop b.size).set b.size 0
      (true, { b with mem := mem, cap := newCap })
  else (false, b)

/-- `reserve` (padded_bytes.h:79-88). -/
def reserve (b : PaddedBytes) (a : Alloc) (capacity : Nat) : Bool × PaddedBytes :=
  if capacity ≤ b.cap then (true, b)
  else if b.cap + b.cap / 2 < sizeMax then b.changeCapacity a (max capacity (b.cap + b.cap / 2))
  else (false, b)

/-- `resize(size)` (padded_bytes.h:96-100). -/
def resize (b : PaddedBytes) (a : Alloc) (size : Nat) : Bool × PaddedBytes :=
  match b.reserve a size with
  | (true, b) => (true, { b with size := size })
  | (false, b) => (false, b)

/-- `memset`/`memcpy` of `data` at offset `off`. -/
def blit (mem : List UInt8) (off : Nat) (data : List UInt8) : List UInt8 :=
  mem.take off ++ data ++ mem.drop (off + data.length)

/-- `resize(size, value)` (padded_bytes.h:103-110). -/
def resizeFill (b : PaddedBytes) (a : Alloc) (size : Nat) (value : UInt8) : Bool × PaddedBytes :=
  let old := b.size
  match b.resize a size with
  | (true, b) =>
    (true, if old < b.size then { b with mem := blit b.mem old (List.replicate (b.size - old) value) } else b)
  | (false, b) => (false, b)

/-- `push_back` (padded_bytes.h:113-120). -/
def pushBack (b : PaddedBytes) (a : Alloc) (x : UInt8) : Bool × PaddedBytes :=
  match (if b.size = b.cap then b.reserve a (b.cap + 1) else (true, b)) with
  | (true, b) => (true, { b with mem := b.mem.set b.size x, size := b.size + 1 })
  | (false, b) => (false, b)

/-- `append(begin, end)` (padded_bytes.h:169-180); `data` is the range. -/
def append (b : PaddedBytes) (a : Alloc) (data : List UInt8) : Bool × PaddedBytes :=
  if data.length > 0 then
    let old := b.size
    if old + data.length < sizeMax then
      match b.resize a (old + data.length) with
      | (true, b) => (true, { b with mem := blit b.mem old data })
      | (false, b) => (false, b)
    else (false, b)
  else (true, b)

/-- `shrink_to_fit` (padded_bytes.h:90). -/
def shrinkToFit (b : PaddedBytes) (a : Alloc) : Bool × PaddedBytes := b.changeCapacity a b.size

/-- The bytes `[data(), data() + size())`. -/
def contents (b : PaddedBytes) : List UInt8 := b.mem.take b.size

inductive Op where
  | reserve (a : Alloc) (n : Nat)
  | shrink (a : Alloc)
  | resize (a : Alloc) (n : Nat)
  | fill (a : Alloc) (n : Nat) (v : UInt8)
  | push (a : Alloc) (v : UInt8)
  | append (a : Alloc) (data : List UInt8)

def step (b : PaddedBytes) : Op → Bool × PaddedBytes
  | .reserve a n => b.reserve a n
  | .shrink a => b.shrinkToFit a
  | .resize a n => b.resize a n
  | .fill a n v => b.resizeFill a n v
  | .push a v => b.pushBack a v
  | .append a d => b.append a d

def run (b : PaddedBytes) : List Op → List Bool × PaddedBytes
  | [] => ([], b)
  | op :: ops =>
    let (s, b) := b.step op
    let (ss, b) := b.run ops
    (s :: ss, b)

end PaddedBytes
end Jxl
