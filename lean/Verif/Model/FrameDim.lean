/-!
# Model of frame dimensions and group rectangles (lib/jxl/frame_dimensions.h, lib/jxl/base/rect.h)

Simplification: sizes are natural numbers (the code uses `size_t`; frame sizes are below 2^31, so nothing wraps).
-/
namespace Jxl.FrameDim

/-- `DivCeil` (common.h:71-73). -/
def divCeil (a b : Nat) : Nat := (a + b - 1) / b

/-- `RectT<size_t>` (rect.h:27-172). -/
structure Rect where
  x0 : Nat
  y0 : Nat
  xs : Nat
  ys : Nat
deriving DecidableEq, Repr

/-- `ClampedSize` (rect.h:161-165). -/
def clampedSize (begin sizeMax end_ : Nat) : Nat :=
  if begin + sizeMax ≤ end_ then sizeMax else if end_ > begin then end_ - begin else 0

/-- Six-argument constructor (rect.h:31-36). -/
def Rect.clamped (xb yb xm ym xe ye : Nat) : Rect :=
  { x0 := xb, y0 := yb, xs := clampedSize xb xm xe, ys := clampedSize yb ym ye }

structure Dims where
  xsize : Nat
  ysize : Nat
  xsizeUpsampled : Nat
  ysizeUpsampled : Nat
  xsizeUpsampledPadded : Nat
  ysizeUpsampledPadded : Nat
  xsizePadded : Nat
  ysizePadded : Nat
  xsizeBlocks : Nat
  ysizeBlocks : Nat
  xsizeGroups : Nat
  ysizeGroups : Nat
  xsizeDcGroups : Nat
  ysizeDcGroups : Nat
  numGroups : Nat
  numDcGroups : Nat
  groupDim : Nat
  dcGroupDim : Nat
deriving DecidableEq, Repr

/-- `FrameDimensions::Set` (frame_dimensions.h:34-62). -/
def set (xpx ypx groupSizeShift maxH maxV : Nat) (modular : Bool) (upsampling : Nat) : Dims :=
  let groupDim := (256 >>> 1) <<< groupSizeShift
  let xsize := divCeil xpx upsampling
  let ysize := divCeil ypx upsampling
  let xblocks := divCeil xsize (8 <<< maxH) <<< maxH
  let yblocks := divCeil ysize (8 <<< maxV) <<< maxV
  let xpad := if modular then xsize else xblocks * 8
  let ypad := if modular then ysize else yblocks * 8
  let xg := divCeil xsize groupDim
  let yg := divCeil ysize groupDim
  let xdg := divCeil xblocks groupDim
  let ydg := divCeil yblocks groupDim
  { xsize, ysize, xsizeUpsampled := xpx, ysizeUpsampled := ypx, xsizeUpsampledPadded := xpad * upsampling,
    ysizeUpsampledPadded := ypad * upsampling, xsizePadded := xpad, ysizePadded := ypad, xsizeBlocks := xblocks, ysizeBlocks := yblocks,
    xsizeGroups := xg, ysizeGroups := yg, xsizeDcGroups := xdg, ysizeDcGroups := ydg, numGroups := xg * yg, numDcGroups := xdg * ydg,
    groupDim, dcGroupDim := groupDim * 8 }

/-- `GroupRect` (frame_dimensions.h:64-70). -/
def Dims.groupRect (d : Dims) (g : Nat) : Rect :=
  Rect.clamped (g % d.xsizeGroups * d.groupDim) (g / d.xsizeGroups * d.groupDim) d.groupDim d.groupDim d.xsize d.ysize

/-- `BlockGroupRect` (frame_dimensions.h:72-79). -/
def Dims.blockGroupRect (d : Dims) (g : Nat) : Rect :=
  Rect.clamped (g % d.xsizeGroups * (d.groupDim >>> 3)) (g / d.xsizeGroups * (d.groupDim >>> 3)) (d.groupDim >>> 3) (d.groupDim >>> 3)
    d.xsizeBlocks d.ysizeBlocks

/-- `DCGroupRect` (frame_dimensions.h:81-88). -/
def Dims.dcGroupRect (d : Dims) (g : Nat) : Rect :=
  Rect.clamped (g % d.xsizeDcGroups * d.groupDim) (g / d.xsizeDcGroups * d.groupDim) d.groupDim d.groupDim d.xsizeBlocks d.ysizeBlocks

end Jxl.FrameDim
