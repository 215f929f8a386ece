/-!
# Model of lib/jxl/pack_signed.h
-/
namespace Jxl

/-- `PackSigned` (pack_signed.h:18-22): `(uint32(value) << 1) ^ ((uint32(~value) >> 31) - 1)`. -/
def packSigned (v : BitVec 32) : BitVec 32 := (v <<< 1) ^^^ (((~~~v) >>> 31) - 1#32)

/-- `UnpackSigned` (pack_signed.h:29-34) with a 64-bit `size_t` argument; the result is truncated to `int32_t`. -/
def unpackSigned (v : BitVec 64) : BitVec 32 := ((v >>> 1) ^^^ (((~~~v) &&& 1#64) - 1#64)).setWidth 32

end Jxl
