/-!
# Model of the ANS alias table (lib/jxl/ans_common.cc, ans_common.h)

`ANS_LOG_TAB_SIZE` is 12 and `ANS_TAB_SIZE` is 4096 (ans_params.h).  Arrays are lists, an access outside is `none`, and so is
a failing `JXL_ENSURE`.  The stacks have their top at the head.  Stores into the 8- and 16-bit fields are reduced modulo
2^8 and 2^16.  The branch-free 64-bit load of `Lookup` is modelled by the fields it extracts.
-/
namespace Jxl.Alias

/-- `AliasTable::Entry` (ans_common.h:92-101). -/
structure Entry where
  cutoff : Nat
  right : Nat
  freq0 : Nat
  offsets1 : Nat
  freqXor : Nat
deriving DecidableEq, Inhabited

/-- Dropping trailing zeros (ans_common.cc:23-25). -/
def popZeros (d : List Nat) : List Nat := (d.reverse.dropWhile (· == 0)).reverse

/-- `uint32_t` subtraction. -/
def sub32 (x y : Nat) : Nat := (x + 2 ^ 32 - y) % 2 ^ 32
/-- Store into a `uint8_t`. -/
def u8 (x : Nat) : Nat := x % 2 ^ 8
/-- Store into a `uint16_t`. -/
def u16 (x : Nat) : Nat := x % 2 ^ 16

/-- State of the construction. -/
structure St where
  cutoffs : List Nat
  under : List Nat
  over : List Nat
  a : List Entry

/-- First loop (ans_common.cc:69-76): push index `i` on the right stack. -/
def classify (entrySize : Nat) : List Nat → Nat → List Nat → List Nat → List Nat × List Nat
  | [], _, under, over => (under, over)
  | c :: cs, i, under, over =>
    if c > entrySize then classify entrySize cs (i + 1) under (i :: over)
    else if c < entrySize then classify entrySize cs (i + 1) (i :: under) over
    else classify entrySize cs (i + 1) under over

/-- The reassignment loop (ans_common.cc:82-101). -/
def reassign (entrySize : Nat) : Nat → St → Option St
  | 0, _ => none
  | fuel + 1, st =>
    match st.over with
    | [] => some st
    | o :: over =>
      match st.under with
      | [] => none
      | u :: under => do
        let cu ← st.cutoffs[u]?
        let co ← st.cutoffs[o]?
        let by' := entrySize - cu
        let co' := sub32 co by'
        let e ← st.a[u]?
        let cutoffs := st.cutoffs.set o co'
        let a := st.a.set u { e with right := u8 o, offsets1 := u16 co' }
        if co' < entrySize then reassign entrySize fuel ⟨cutoffs, o :: under, over, a⟩
        else if co' > entrySize then reassign entrySize fuel ⟨cutoffs, under, o :: over, a⟩
        else reassign entrySize fuel ⟨cutoffs, under, over, a⟩

/-- One iteration of the last loop (ans_common.cc:102-123). -/
def finishEntry (entrySize : Nat) (dist : List Nat) (i c : Nat) (e : Entry) : Entry :=
  let e := if c = entrySize then { e with right := u8 i, offsets1 := 0, cutoff := 0 }
    else { e with offsets1 := u16 (e.offsets1 + 2 ^ 16 - u16 c), cutoff := u8 c }
  let freq0 := dist.getD i 0
  let freq1 := dist.getD e.right 0
  { e with freq0 := u16 freq0, freqXor := u16 (freq1 ^^^ freq0) }

/-- The last loop (ans_common.cc:102-123) over the table. -/
def finish (entrySize : Nat) (dist : List Nat) : List Nat → List Entry → Nat → List Entry
  | c :: cs, e :: es, i => finishEntry entrySize dist i c e :: finish entrySize dist cs es (i + 1)
  | _, _, _ => []

/-- The search for a symbol of frequency 4096 (ans_common.cc:42-49); `none` is the failing `JXL_ENSURE`. -/
def findSingle : List Nat → Nat → Option Nat → Option (Option Nat)
  | [], _, r => some r
  | v :: vs, i, r => if v = 4096 then (if r = none then findSingle vs (i + 1) (some i) else none) else findSingle vs (i + 1) r

/-- `InitAliasTable` (ans_common.cc:17-125) with `log_range = 12`; the table memory is `a0` (arbitrary contents). -/
def initTable (dist : List Nat) (logAlpha : Nat) (a0 : List Entry) : Option (List Entry) := do
  let tableSize := 2 ^ logAlpha
  if tableSize ≤ 4096 then
    let dist := popZeros dist
    let dist := if dist = [] then [4096] else dist
    if dist.length ≤ tableSize then
      let entrySize := 4096 >>> logAlpha
      let single ← findSingle dist 0 none
      if dist.sum = 4096 then
        match single with
        | some s =>
          if s < 2 ^ 8 then
            some ((List.range tableSize).map fun i => ⟨0, s, 0, u16 (entrySize * i), 4096⟩)
          else none
        | none =>
          let cutoffs := dist ++ List.replicate (tableSize - dist.length) 0
          let (under, over) := classify entrySize dist 0 [] []
          let under := ((List.range (tableSize - dist.length)).map (· + dist.length)).reverse ++ under
          let st ← reassign entrySize (under.length + over.length + 1) ⟨cutoffs, under, over, a0⟩
          some (finish entrySize dist st.cutoffs st.a 0)
      else none
    else none
  else none

/-- `AliasTable::Lookup` (ans_common.h:112-154): symbol, offset, frequency. -/
def lookup (table : List Entry) (logAlpha value : Nat) : Option (Nat × Nat × Nat) :=
  let i := value >>> (12 - logAlpha)
  let pos := value &&& (2 ^ (12 - logAlpha) - 1)
  (table[i]?).map fun e =>
    let greater := pos ≥ e.cutoff
    (if greater then e.right else i, (if greater then e.offsets1 else 0) + pos, e.freq0 ^^^ (if greater then e.freqXor else 0))

end Jxl.Alias
