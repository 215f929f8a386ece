import Verif.Model.BitParser
import Verif.Model.Lehmer
/-!
# Model of the hybrid integer coding (lib/jxl/dec_ans.h: HybridUintConfig; dec_ans.cc; enc_ans.cc)
-/
namespace Jxl.Hybrid

/-- `HybridUintConfig` (dec_ans.h:67-105); `split_token` is `1 << split_exponent`. -/
structure Config where
  splitExp : Nat
  msb : Nat
  lsb : Nat
deriving DecidableEq

/-- `split_token` -/
abbrev Config.splitToken (c : Config) : Nat := 2 ^ c.splitExp

/-- `HybridUintConfig::Encode` (dec_ans.h:72-90): token, number of extra bits, extra bits.  `uint32_t` arithmetic. -/
def encode (c : Config) (value : Nat) : Nat × Nat × Nat :=
  if value < c.splitToken then (value, 0, 0)
  else
    let n := Nat.log2 value
    let m := value - 2 ^ n
    let token := (c.splitToken + ((n - c.splitExp) <<< (c.msb + c.lsb)) + ((m >>> (n - c.msb)) <<< c.lsb) +
      (m &&& (2 ^ c.lsb - 1))) % 2 ^ 32
    let nbits := n - c.msb - c.lsb
    (token, nbits, (value >>> c.lsb) &&& (2 ^ nbits - 1))

/-- `ReadHybridUintConfig` (dec_ans.h:226-257).  The result is truncated to 32 bits. -/
def read (c : Config) (token : Nat) (s : List Bool) : Option (Nat × List Bool) :=
  if token < c.splitToken then some (token, s)
  else
    let nbits := (c.splitExp - (c.msb + c.lsb) + ((token - c.splitToken) >>> (c.msb + c.lsb))) % 2 ^ 32 &&& 31
    let low := token &&& (2 ^ c.lsb - 1)
    let token := token >>> c.lsb
    (rdBits nbits s).map fun (bits, s) =>
      (((((2 ^ c.msb ||| (token &&& (2 ^ c.msb - 1))) <<< nbits ||| bits) <<< c.lsb) ||| low) % 2 ^ 32, s)

/-- `EncodeUintConfig` (enc_ans.cc:1022-1035). -/
def writeConfig (logAlpha : Nat) (c : Config) : List Bool :=
  bitsOf (Lehmer.ceilLog2 (logAlpha + 1)) c.splitExp ++
  if c.splitExp = logAlpha then []
  else bitsOf (Lehmer.ceilLog2 (c.splitExp + 1)) c.msb ++ bitsOf (Lehmer.ceilLog2 (c.splitExp - c.msb + 1)) c.lsb

/-- `DecodeUintConfig` (dec_ans.cc:272-295). -/
def readConfig (logAlpha : Nat) (s : List Bool) : Option (Config × List Bool) := do
  let (e, s) ← rdBits (Lehmer.ceilLog2 (logAlpha + 1)) s
  if e ≠ logAlpha then
    let (m, s) ← rdBits (Lehmer.ceilLog2 (e + 1)) s
    if m > e then none
    else
      let (l, s) ← rdBits (Lehmer.ceilLog2 (e - m + 1)) s
      if l + m > e then none else some (⟨e, m, l⟩, s)
  else some (⟨e, 0, 0⟩, s)

end Jxl.Hybrid
