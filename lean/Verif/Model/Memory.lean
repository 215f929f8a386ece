/-!
# Model of size computations and aligned allocation (lib/jxl/base/common.h, lib/jxl/memory_manager_internal.cc, lib/jxl/image.cc)

All sizes and addresses are natural numbers below 2^64; additions and multiplications wrap explicitly.
-/
namespace Jxl.Memory

def w64 (x : Nat) : Nat := x % 2 ^ 64

/-- `SafeAdd` (common.h:42-45): the sum, or `none` for `false`. -/
def safeAdd (a b : Nat) : Option Nat :=
  let sum := w64 (a + b)
  if sum ≥ a then some sum else none

/-- `SafeMul` (common.h:47-53). -/
def safeMul (a b : Nat) : Option Nat :=
  if a = 0 ∨ b = 0 then some 0
  else if b > (2 ^ 64 - 1) / a then none
  else some (w64 (a * b))

/-- `SafeRoundUpTo` (common.h:81-92). -/
def safeRoundUpTo (what align : Nat) : Option Nat :=
  if align < 2 then some what
  else if what % align = 0 then some what
  else safeAdd what (align - what % align)

/-- `kAlignment`, `kNumAlignmentGroups`, `kAlias` (memory_manager_internal.h:22-33). -/
def kAlignment : Nat := 2 * 64
def kNumAlignmentGroups : Nat := 16
def kAlias : Nat := kNumAlignmentGroups * kAlignment

/-- First part of `BytesPerRow` (memory_manager_internal.cc:66-82): the bytes that may be touched in a row.  `vec` is `MaxVectorSize()`. -/
def validBytes (vec xsize sizeofT : Nat) : Option Nat :=
  match safeMul xsize sizeofT with
  | none => none
  | some v => if vec ≠ 0 then (if vec ≥ sizeofT then safeAdd v (vec - sizeofT) else none) else some v

/-- The power-of-two test of `BytesPerRow` (memory_manager_internal.cc:85). -/
def powerOfTwoTest (align : Nat) : Bool := align &&& (align - 1) == 0

/-- `BytesPerRow` (memory_manager_internal.cc:59-104). -/
def bytesPerRow (vec xsize sizeofT : Nat) : Option Nat :=
  if xsize = 0 then some 0
  else
    match validBytes vec xsize sizeofT with
    | none => none
    | some v =>
      let align := max vec kAlignment
      if powerOfTwoTest align then
        match safeRoundUpTo v align with
        | none => none
        | some b => if b % kAlias = 0 then safeAdd b align else some b
      else none

/-- Size asked from the allocator by `AlignedMemory::Create` (memory_manager_internal.cc:106-114). -/
def allocationSize (size prePadding : Nat) : Option Nat :=
  if prePadding ≤ kAlias then
    match safeAdd size prePadding with
    | none => none
    | some s => safeAdd s kAlias
  else none

/-- The address handed out (memory_manager_internal.cc:124-149); `counter` is the value of the allocation counter. -/
def alignedAddress (counter allocation prePadding : Nat) : Nat :=
  let group := (counter % 2 ^ 32) &&& (kNumAlignmentGroups - 1)
  let offset := kAlignment * group
  let address := w64 (allocation + prePadding)
  let aligned := w64 ((address - address % kAlias) + offset)
  if aligned < address then w64 (aligned + kAlias) else aligned

/-- What a plane is made of. -/
structure Plane where
  xsize : Nat
  ysize : Nat
  sizeofT : Nat
  bytesPerRow : Nat
  /-- size requested from the allocator and start of the pixels; `none` for an empty plane -/
  mem : Option (Nat × Nat)

/-- `PlaneBase::Allocate` (image.cc:67-93): `alloc` gives the address for a requested size, or fails.  The multiplication `pre_padding * sizeof_t_`
wraps. -/
def allocate (vec counter : Nat) (alloc : Nat → Option Nat) (xsize ysize sizeofT prePadding : Nat) : Option Plane :=
  match bytesPerRow vec xsize sizeofT with
  | none => none
  | some bpr =>
    if xsize = 0 ∨ ysize = 0 then some { xsize, ysize, sizeofT, bytesPerRow := bpr, mem := none }
    else
      match safeMul ysize bpr with
      | none => none
      | some total =>
        match allocationSize total (w64 (prePadding * sizeofT)) with
        | none => none
        | some n =>
          match alloc n with
          | none => none
          | some a =>
            some { xsize, ysize, sizeofT, bytesPerRow := bpr, mem := some (n, alignedAddress counter a (w64 (prePadding * sizeofT))) }

end Jxl.Memory
