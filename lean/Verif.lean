import Verif.Props.BitIO
import Verif.Props.Headers
import Verif.Props.F16
import Verif.Props.Bundle
import Verif.Props.SizeHeader
import Verif.Props.PackSigned
import Verif.Props.Lehmer
import Verif.Props.Toc
import Verif.Props.HybridUint
import Verif.Props.Alias
import Verif.Props.Ans
import Verif.Props.Rct
import Verif.Props.Signature
import Verif.Props.VarInt
import Verif.Props.Box
import Verif.Props.FrameDim
import Verif.Props.Memory
import Verif.Props.Orientation
import Verif.Props.ContextMap
import Verif.Props.SkipFrames
import Verif.Props.MemoryManager
import Verif.Props.Squeeze
import Verif.Props.Histogram
import Verif.Props.Huffman
import Verif.Props.Lz77
import Verif.Props.BoxContent
import Verif.Props.MaTree
import Verif.Props.FlatTree
import Verif.Props.ThreadPool
import Verif.Props.JpegBits
import Verif.Props.JpegScanSafe
import Verif.Props.CoeffOrder
import Verif.Props.Palette
import Verif.Props.OutputProc
import Verif.Props.OutputExt
import Verif.Props.GroupBorder
import Verif.Props.HuffmanSimple
import Verif.Props.FlatFlags
import Verif.Props.FrameSlots
import Verif.Props.DecInput
import Verif.Props.JxlpOrder
import Verif.Props.WeightedPred
import Verif.Props.ModularChannel
import Verif.Props.Icc
import Verif.Props.AcStrategy
import Verif.Props.AcTokens
import Verif.Props.JpegHuff
import Verif.Props.JpegParse
import Verif.Props.JpegMarkers
import Verif.Props.HuffmanBuilt
import Verif.Props.EntropyStream
import Verif.Props.JpegRecon
import Verif.Props.JpegMeta
import Verif.Props.JpegWhole
import Verif.Props.JpegCoeff
import Verif.Props.FastCode
import Verif.Props.FastPrefix
import Verif.Props.FastChannel
import Verif.Props.FastPixels
import Verif.Props.TreeStream
import Verif.Props.GroupHeader
import Verif.Props.ModularStream
import Verif.Props.FastPalette
import Verif.Props.FastFrame
import Verif.Props.FastPaletteFrame
import Verif.Props.Passes
import Verif.Props.PatchTree
import Verif.Props.PatchDict
import Verif.Props.Splines
import Verif.Props.BlockCtx
import Verif.Props.FrameParams
import Verif.Props.QuantTables
import Verif.Props.GlobalSection
import Verif.Props.Rect
