{"id": "C01", "title": "Bit stream write/read round trip", "statement": "Writing any sequence of fields (each with its width, at most 56 bits, and a value that fits) to the bit writer, padding to a byte boundary and reading the produced bytes back with the same widths returns exactly the same values, consumes exactly the written number of bits, the final padding check succeeds and closing the reader reports success.", "quantifier": "every finite sequence of (width, value) pairs, of any length, starting from an empty writer", "why_tests_cant": "the number of field sequences and bit alignments is infinite; carry-over between bytes and the reader's 64-bit refill depend on the whole history of earlier widths", "anchors": ["lib/jxl/enc_bit_writer.cc: BitWriter::Write, ZeroPadToByte", "lib/jxl/dec_bit_reader.h: BitReader::{Refill,PeekBits,Consume,ReadBits,JumpToByteBoundary,Close,TotalBitsConsumed}"]}
{"id": "C02", "title": "Truncated input is detected, and never read out of bounds", "statement": "For any input buffer and any sequence of reads and skips, the bit reader returns the bits of the buffer followed by zeros, never touches a byte outside the buffer, and afterwards reports 'all reads within bounds' exactly when the total number of consumed bits does not exceed 8 times the buffer length; closing it fails exactly when the input was over-read and bits were consumed after the last such check.", "quantifier": "every byte buffer (including empty), every sequence of ReadBits/SkipBits/JumpToByteBoundary operations", "why_tests_cant": "over-reads depend on buffer length modulo 8, on the fast path/slow path switch of the refill and on the complete history of widths", "anchors": ["lib/jxl/dec_bit_reader.h: Refill, SkipBits, AllReadsWithinBounds, Close", "lib/jxl/dec_bit_reader.cc: BoundsCheckedRefill"]}
{"id": "C03", "title": "Variable-length header integers round trip", "statement": "For each header integer coding (fixed bits, 4-way U32 distributions, U64, enums) every value that the encoder claims it can encode is written in exactly the announced number of bits and is read back unchanged, and values it claims it cannot encode are refused; U64 accepts all 2^64 values, every U32 selector written is the one the reader follows.", "quantifier": "every U32 distribution quadruple, every 32-bit value, every 64-bit value, every enum of at most 64 values", "why_tests_cant": "2^64 values, and 2^128 distribution quadruples", "anchors": ["lib/jxl/fields.cc: BitsCoder, U32Coder, U64Coder, CanEncode, Read", "lib/jxl/enc_fields.cc: U32Coder::Write, U64Coder::Write, ChooseSelector", "lib/jxl/field_encodings.h"]}
{"id": "C04", "title": "Half-float header values round trip", "statement": "Every finite half-precision value (except negative zero) written as a header float is read back bit-exactly, infinities and NaNs in a stream are refused by the reader, values outside the range are refused by the writer.", "quantifier": "every 16-bit pattern; every 32-bit float pattern on the writer side", "why_tests_cant": "the writer's truncation and subnormal paths quantify over 2^32 inputs, and the composite claim relates two independent conversion algorithms", "anchors": ["lib/jxl/fields.cc: F16Coder::Read", "lib/jxl/enc_fields.cc: F16Coder::Write", "lib/jxl/fields.cc: F16Coder::CanEncode"]}
{"id": "C05", "title": "Image dimensions survive the size header", "statement": "Every image size from 1x1 up to 2^30 x 2^30 that is set on a size header, written and read back yields exactly the same width and height, whichever compact form (small multiple of 8, aspect ratio, explicit) was chosen; preview sizes likewise.", "quantifier": "every pair (width, height) with 1 <= width, height <= 2^30", "why_tests_cant": "2^60 pairs; the aspect-ratio form recomputes the width from the height with truncating division", "anchors": ["lib/jxl/headers.cc: SizeHeader::Set, SizeHeader::VisitFields, FixedAspectRatios, PreviewHeader"]}
{"id": "C06", "title": "Header bundles are read back as written, and unknown extensions are skipped", "statement": "Any header bundle built from the field visitors (conditionals, nested bundles, defaults, extensions) that can be encoded is read back field by field unchanged from its bits; a reader that does not know some extension fields skips precisely their announced bits, so everything after the bundle is read unchanged; the announced size equals the number of bits written.", "quantifier": "every bundle description (any nesting and conditional structure) and every assignment of field values accepted by the encoder, any trailing bits", "why_tests_cant": "quantifies over all header layouts and values, present and future", "anchors": ["lib/jxl/fields.h: VisitorBase, Visitor, Bundle", "lib/jxl/fields.cc: ReadVisitor, CanEncodeVisitor, Bundle::Read", "lib/jxl/enc_fields.cc: WriteVisitor, Bundle::Write"]}
{"id": "C07", "title": "Signed residual mapping is a bijection", "statement": "Mapping signed 32-bit residuals to unsigned and back is the identity in both directions, and small magnitudes map to small codes (|v| bounded gives code bounded).", "quantifier": "every 32-bit value", "why_tests_cant": "all 2^32 values in both directions, plus the order statement", "anchors": ["lib/jxl/pack_signed.h: PackSigned, UnpackSigned"]}
{"id": "C08", "title": "Permutation coding round trips and never yields a non-permutation", "statement": "Encoding any permutation as a Lehmer code and decoding it gives back the permutation; any Lehmer code accepted by the decoder decodes to a permutation of the right size (each index exactly once), codes out of range are refused; the two directions are mutually inverse.", "quantifier": "every permutation of every size; every code sequence of every size", "why_tests_cant": "n! permutations for each n; decoder uses an order-statistics tree whose correctness depends on every prefix", "anchors": ["lib/jxl/lehmer_code.h: ComputeLehmerCode, DecodeLehmerCode", "lib/jxl/coeff_order.cc: ReadPermutation", "lib/jxl/enc_coeff_order.cc: TokenizePermutation"]}
{"id": "C09", "title": "Table of contents: sections are disjoint, in order and cover the frame", "statement": "For every list of section sizes and every (optional) permutation, the offsets computed by the decoder place the sections back to back in file order, disjointly, covering exactly the sum of the sizes, and the section found at logical index i has the size and the position the encoder wrote for i; totals that overflow 64 bits are refused.", "quantifier": "every number of sections, all sizes, all permutations", "why_tests_cant": "unbounded number of sections and all permutations", "anchors": ["lib/jxl/toc.cc: ReadToc, ReadGroupOffsets", "lib/jxl/enc_toc.cc: WriteGroupOffsets"]}
{"id": "C10", "title": "Hybrid integer coding round trips for every configuration", "statement": "For every valid hybrid-integer configuration every 32-bit value is split into a token, a bit count and extra bits from which the reader rebuilds precisely that value; distinct values never share token and extra bits; the configuration itself survives its own header coding.", "quantifier": "every configuration (split exponent, msb, lsb) allowed by the format, every 32-bit value", "why_tests_cant": "2^32 values times all configurations", "anchors": ["lib/jxl/dec_ans.h: HybridUintConfig, ReadHybridUintConfig", "lib/jxl/ans_params / enc_ans.cc: EncodeUintConfig", "lib/jxl/dec_ans.cc: DecodeUintConfig"]}
{"id": "C11", "title": "ANS alias table is an exact partition of the state space", "statement": "For every normalised distribution (sum 4096) the alias table built by the decoder maps the 4096 slots to (symbol, offset) pairs such that each symbol s with frequency f(s) is hit by exactly f(s) slots, with offsets 0..f(s)-1 each exactly once, and reports the frequency f(s); symbols of frequency zero are never produced.", "quantifier": "every distribution of total 4096 over at most 2^log_alpha_size symbols, for every log_alpha_size from 5 to 8", "why_tests_cant": "astronomically many distributions; the overfull/underfull bucket process is history dependent", "anchors": ["lib/jxl/ans_common.cc: InitAliasTable", "lib/jxl/ans_common.h: AliasTable::Lookup"]}
{"id": "C12", "title": "ANS entropy coding is lossless", "statement": "Any sequence of symbols of non-zero frequency encoded with the ANS encoder (in reverse, 16-bit renormalisation, reciprocal multiplication instead of division) and decoded with the ANS decoder gives the same sequence and leaves the decoder in the final check state; the arithmetic never overflows 64 bits.", "quantifier": "every symbol sequence, every family of normalised distributions selected per position", "why_tests_cant": "unbounded sequences; correctness of the reciprocal depends on every 32-bit state", "anchors": ["lib/jxl/enc_ans.h: ANSCoder::PutSymbol", "lib/jxl/enc_ans.cc: WriteTokens, BuildInfoTable", "lib/jxl/dec_ans.h: ReadSymbolANSWithoutRefill, CheckANSFinalState"]}
{"id": "C13", "title": "Histogram headers round trip and always give a normalised distribution", "statement": "Every normalised distribution the encoder stores (flat, one or two symbols, or general with a precision shift) is rebuilt identically by the decoder; every distribution that the decoder accepts from arbitrary bits sums to exactly 4096.", "quantifier": "every distribution representable by the encoder; every bit stream on the decoder side", "why_tests_cant": "the space of distributions and of bit streams is unbounded in practice", "anchors": ["lib/jxl/dec_ans.cc: ReadHistogram", "lib/jxl/enc_ans.cc: EncodeHistogram, EncodeCounts"]}
{"id": "C14", "title": "Context maps and move-to-front round trip", "statement": "Move-to-front coding of any byte sequence followed by the decoder's inverse is the identity; a decoded context map only names clusters that exist and leaves no cluster unused, whatever the input.", "quantifier": "every byte sequence of any length; every bit stream on the decoder side", "why_tests_cant": "unbounded sequences", "anchors": ["lib/jxl/enc_context_map.cc: MoveToFrontTransform", "lib/jxl/inverse_mtf-inl.h: InverseMoveToFrontTransform", "lib/jxl/dec_context_map.cc: DecodeContextMap, VerifyContextMap"]}
{"id": "C15", "title": "Prefix codes: table lookup decodes exactly the canonical code", "statement": "For every complete set of code lengths (at most 15) the two-level lookup table decodes every concatenation of the code words written by the encoder into the original symbols; no table entry is left unset and no read of the table is out of bounds; incomplete or over-subscribed length sets are refused.", "quantifier": "every Kraft-complete length vector up to length 15 and alphabet up to 2^15, every symbol sequence", "why_tests_cant": "the set of length vectors is astronomically large, reversed-bit table filling is error prone at the boundaries", "anchors": ["lib/jxl/huffman_table.cc: BuildHuffmanTable", "lib/jxl/dec_huffman.cc: ReadFromBitStream, ReadSymbol", "lib/jxl/enc_huffman_tree.cc: ConvertBitDepthsToSymbols"]}
{"id": "C16", "title": "LZ77 copies reproduce the encoder's sequence and never touch memory outside the window", "statement": "For any decoded token sequence, the circular-window LZ77 decoder outputs what the unbounded-history specification outputs (copying from the given distance, overlapping copies included) and every window access is in bounds, even for distances larger than what has been decoded.", "quantifier": "every token sequence of up to 2^32 values (the window wraps around), every distance multiplier; memory safety for any number of values", "why_tests_cant": "wrap-around behaviour after more than 2^20 symbols and every overlap pattern", "anchors": ["lib/jxl/dec_ans.h: ANSSymbolReader::ReadHybridUintClusteredInlined, SaveCheckpoint, RestoreCheckpoint"]}
{"id": "C17", "title": "Reversible colour transforms are lossless", "statement": "Applying any of the 42 reversible colour transforms to three channels and then the inverse transform returns the original samples for every three sample values, and decoding accepts exactly the transform ids that the encoder can produce.", "quantifier": "all 42 transform types, all triples of 32-bit samples (with the wrap-around the code uses)", "why_tests_cant": "2^96 sample triples per type", "anchors": ["lib/jxl/modular/transform/enc_rct.cc: FwdRct", "lib/jxl/modular/transform/rct.cc: InvRCT, InvRCTRow"]}
{"id": "C18", "title": "Squeeze (Haar-like) transform is lossless", "statement": "Squeezing a row or column of any length and unsqueezing returns the original samples, for every sample sequence whose intermediate values fit, including odd lengths; the vectorised inverse computes the same values as the scalar one whenever no 32-bit overflow occurs.", "quantifier": "every sequence of samples, every length", "why_tests_cant": "prediction of each residual uses previously reconstructed samples, so errors would depend on arbitrary history", "anchors": ["lib/jxl/modular/transform/enc_squeeze.cc: FwdHSqueeze, FwdVSqueeze", "lib/jxl/modular/transform/squeeze.cc: InvHSqueeze, InvVSqueeze, FastUnsqueeze", "lib/jxl/modular/transform/squeeze.h: SmoothTendency"]}
{"id": "C19", "title": "Palette decoding never reads outside the palette and reproduces indexed colours", "statement": "For every palette, bit depth and index (negative, explicit, implicit cube, beyond) the palette decoder reads only inside the palette image, and indices of explicit palette entries return exactly the stored colour.", "quantifier": "every index value (all of int32), every palette size, every bit depth", "why_tests_cant": "2^32 index values times palette sizes; the implicit colour cubes use modular index arithmetic", "anchors": ["lib/jxl/modular/transform/palette.h: GetPaletteValue", "lib/jxl/modular/transform/palette.cc: InvPalette, MetaPalette"]}
{"id": "C20", "title": "Lossless modular channel coding round trips", "statement": "For every image channel of 32-bit samples, every decision tree with multiplier 1 and every choice of predictors, the residual tokens produced by the encoder decode to exactly the same samples, unless the encoder refuses with a residual overflow.", "quantifier": "every channel size and content, every tree, every predictor", "why_tests_cant": "each prediction depends on all earlier pixels; trees and images are unbounded", "anchors": ["lib/jxl/modular/encoding/enc_encoding.cc: EncodeModularChannelMAANS", "lib/jxl/modular/encoding/encoding.cc: DecodeModularChannelMAANS", "lib/jxl/modular/encoding/context_predict.h"]}
{"id": "C21", "title": "Decision tree shortcuts agree with the decision tree", "statement": "Evaluating the specialised forms of a decision tree (tree filtered for the static channel/stream properties, two-level flattened nodes, single-property lookup table) selects the same context, predictor, offset and multiplier as walking the original tree.", "quantifier": "every well-formed tree, every property vector", "why_tests_cant": "unbounded trees; the flattening changes the shape and the indexing of the tree", "anchors": ["lib/jxl/modular/encoding/encoding.cc: FilterTree, TreeToLookupTable", "lib/jxl/modular/encoding/context_predict.h: MATreeLookup::Lookup"]}
{"id": "C22", "title": "A decoded decision tree is always well formed", "statement": "Whatever tokens arrive, the tree decoder either fails or returns a tree in which every child index is in bounds and larger than its parent, so evaluation terminates; each leaf has a distinct context and multiplier and predictor within the allowed ranges; the size limit is respected.", "quantifier": "every token stream", "why_tests_cant": "every bit stream is an input (hostile files)", "anchors": ["lib/jxl/modular/encoding/dec_ma.cc: DecodeTree, ValidateTree"]}
{"id": "C23", "title": "ICC profile compression round trips", "statement": "Every ICC profile the encoder accepts is reproduced byte for byte by the decoder, or the profile belongs to an explicitly characterised class that the decoder refuses; the decoder never reads or writes out of bounds on any input.", "quantifier": "every byte string up to the size limit", "why_tests_cant": "all byte strings; command prediction depends on tag tables with 32-bit wrap-around arithmetic", "anchors": ["lib/jxl/enc_icc_codec.cc: PredictICC", "lib/jxl/icc_codec.cc: UnpredictICC", "lib/jxl/icc_codec_common.cc: ICCPredictHeader, LinearPredictICCValue"]}
{"id": "C24", "title": "The thread pools run every task exactly once, in every schedule", "statement": "Whatever the interleaving of worker threads, a parallel run over a task range calls the function exactly once for each task in the range, with a thread id within the announced number of threads, and returns only after all the calls have finished; nothing outside the range is called.", "quantifier": "every number of workers, every task range (below the 32-bit wrap-around limit), every interleaving of the atomic steps", "why_tests_cant": "schedules are not controllable by tests", "anchors": ["lib/threads/thread_parallel_runner_internal.cc: RunRange, Runner", "lib/threads/resizable_parallel_runner.cc: Run, DequeueTasks, WorkerBody"]}
{"id": "C25", "title": "Every pixel is finalised exactly once, for every order of group completion", "statement": "For every frame size and every order in which groups complete (including concurrent completion seen as an interleaving of the atomic corner updates), the rectangles handed to the renderer are disjoint and together cover the frame exactly once, and a rectangle is handed out only after every group contributing pixels to its border has completed.", "quantifier": "every frame dimension, every permutation/interleaving of group completions, every admissible padding", "why_tests_cant": "number of completion orders is factorial in the number of groups", "anchors": ["lib/jxl/dec_group_border.cc: GroupBorderAssigner::Init, GroupDone"]}
{"id": "C26", "title": "Groups tile the frame", "statement": "For every frame size and group size shift, the group rectangles are disjoint and cover the frame; the number of groups, DC groups and blocks announced by the frame dimensions agrees with the tiling; chroma-subsampled and upsampled dimensions are consistent (padded size is a multiple of the block size and at least the real size).", "quantifier": "all frame sizes, all group size shifts, all upsampling factors and chroma shifts", "why_tests_cant": "unbounded sizes", "anchors": ["lib/jxl/frame_dimensions.h: FrameDimensions::Set, GroupRect, BlockGroupRect, DCGroupRect", "lib/jxl/base/rect.h"]}
{"id": "C27", "title": "Container box headers round trip and parsing cannot run backwards", "statement": "Any box header that the encoder writes (short, extended 64-bit, unbounded) is parsed by the decoder to the same type, content size and header length; every accepted header has total size 0 or at least the header size and an end position that does not wrap; the parser asks for more input exactly when the header is incomplete.", "quantifier": "every box type and every content size; every byte prefix", "why_tests_cant": "2^64 sizes and every input truncation", "anchors": ["lib/jxl/encode.cc: WriteBoxHeader", "lib/jxl/decode.cc: ParseBoxHeader"]}
{"id": "C28", "title": "Decoding is independent of how the input is split into chunks", "statement": "For every file and every way of feeding it to the decoder in pieces (each time releasing the unconsumed rest and providing it again), the codestream bytes seen by the codestream parser are those of the file's codestream boxes, in order, without loss, duplication or reordering.", "quantifier": "every container byte stream, every sequence of chunk sizes, every amount consumed or skipped by the codestream parser", "why_tests_cant": "exponentially many chunkings, state is carried between calls in several counters", "anchors": ["lib/jxl/decode.cc: JxlDecoder::{AdvanceInput,AdvanceCodestream,RequestMoreInput,GetCodestreamInput}, HandleBoxes, JxlDecoderSetInput, JxlDecoderReleaseInput"]}
{"id": "C29", "title": "Out-of-order partial codestream boxes are reassembled in index order", "statement": "When partial codestream boxes arrive in any order with distinct indices, the reassembled codestream is the concatenation of their payloads in index order, duplicates are refused, and version-0 files accept only the in-order arrangement.", "quantifier": "every permutation of boxes, every payload", "why_tests_cant": "factorially many arrival orders", "anchors": ["lib/jxl/decode.cc: HandleBoxes (kPartialCodestream, kBufferingJxlp), InjectNextBufferedJxlpBox"]}
{"id": "C30", "title": "Box contents are delivered completely whatever the buffer sizes", "statement": "For an uncompressed box of any size, and for any sequence of input chunks and output buffers, the concatenation of what the box-content decoder writes is a prefix of the box contents, it is the complete contents when the decoder reports the box complete, and it never writes past the given buffer.", "quantifier": "every box contents, every sequence of (input chunk, output capacity) calls", "why_tests_cant": "unbounded sequences of buffer sizes", "anchors": ["lib/jxl/box_content_decoder.cc: JxlBoxContentDecoder::Process"]}
{"id": "C31", "title": "Skipping frames keeps every frame that is still needed", "statement": "When the user skips ahead to a frame after a rewind, the set of frames marked as required contains every earlier frame whose pixels can reach (through any chain of references via the storage slots) the target frame or any later frame.", "quantifier": "every sequence of frames with arbitrary saved-as and reference masks, every target index", "why_tests_cant": "reference chains of arbitrary length", "anchors": ["lib/jxl/decode.cc: GetFrameDependencies, JxlDecoderSkipFrames"]}
{"id": "C32", "title": "Size computations never wrap", "statement": "Row strides and allocation sizes computed for any dimensions either are refused or are mathematically exact: at least the requested payload, aligned, never a multiple of 2 KiB, and the aligned address handed out lies inside the allocation with room for the payload.", "quantifier": "all 64-bit dimensions and element sizes, all addresses returned by the allocator", "why_tests_cant": "overflow corner cases at 2^64 cannot be exercised by allocating", "anchors": ["lib/jxl/base/common.h: SafeAdd, SafeMul, SafeRoundUpTo", "lib/jxl/memory_manager_internal.cc: BytesPerRow, AlignedMemory"]}
{"id": "C33", "title": "Signature detection is monotone", "statement": "The signature check answers 'not enough bytes' exactly when the given bytes are a proper prefix of a valid signature, never changes a definite answer when more bytes arrive, and recognises each of the two valid signatures whatever follows.", "quantifier": "every byte string and every extension of it", "why_tests_cant": "all byte strings of all lengths", "anchors": ["lib/jxl/decode.cc: JxlSignatureCheck, ReadSignature"]}
{"id": "C34", "title": "Encoder output is independent of the output buffer sizes", "statement": "Pulling the encoder output through any sequence of output buffer sizes yields the same byte stream; output writes with seek back (box sizes patched in later) never alter bytes already finalised.", "quantifier": "every sequence of produced pieces, positions, finalisations and output buffer sizes", "why_tests_cant": "unbounded interleavings of produced output and consumer buffer sizes", "anchors": ["lib/jxl/encode.cc: JxlEncoderOutputProcessorWrapper::{GetBuffer,ReleaseBuffer,Seek,SetFinalizedPosition,CopyOutput,FlushOutput}"]}
{"id": "C35", "title": "Variable-length integers of the container and ICC formats round trip", "statement": "Every 64-bit value encoded as base-128 varint is decoded to itself, consuming exactly the bytes written, whatever follows; the decoder never reads past the end of its input and never runs past ten bytes.", "quantifier": "every 64-bit value, every trailing data, every truncated input", "why_tests_cant": "2^64 values", "anchors": ["lib/jxl/icc_codec_common.cc/icc_codec.cc: DecodeVarInt", "lib/jxl/enc_icc_codec.cc: EncodeVarInt"]}
{"id": "C36", "title": "JPEG bit streams: byte stuffing and padding are reversible", "statement": "The entropy-coded segment writer used for JPEG reconstruction emits a 0x00 after every 0xFF data byte and the JPEG reader drops it, so the bit sequence read equals the bit sequence written for any sequence of codes.", "quantifier": "every sequence of (length, bits) writes", "why_tests_cant": "unbounded sequences", "anchors": ["lib/jxl/jpeg/dec_jpeg_data_writer.cc: JpegBitWriter", "lib/jxl/jpeg/enc_jpeg_data_reader.cc: BitReaderState"]}
{"id": "C37", "title": "Image orientation is undone exactly", "statement": "For each of the 8 orientations and every image size, writing the decoded pixels with the orientation undone is a bijection of pixel positions that matches the geometric definition of the orientation, and the reported dimensions match.", "quantifier": "all 8 orientations, all sizes, all pixel positions", "why_tests_cant": "all image sizes", "anchors": ["lib/jxl/render_pipeline/stage_write.cc: WriteToOutputStage", "lib/jxl/image_metadata.h: oriented_xsize, oriented_ysize"]}
{"id": "C38", "title": "Memory manager contract", "statement": "Memory taken through a user-supplied memory manager is returned exactly once through the matching free function, for any sequence of buffer moves, resizes and destruction, and a manager that defines only one of alloc/free is refused.", "quantifier": "every sequence of construct/move/assign/destroy operations on buffers", "why_tests_cant": "unbounded operation histories including self-moves and failing allocations", "anchors": ["lib/jxl/memory_manager_internal.cc: MemoryManagerInit, AlignedMemory move constructor, move assignment, destructor"]}
{"id": "C39", "title": "Growable byte buffers behave like a vector", "statement": "Any sequence of append, push, resize and reserve operations on the padded byte buffer leaves the contents that the same operations leave on an abstract byte list, whatever reallocation happens.", "quantifier": "every operation history", "why_tests_cant": "unbounded histories with reallocation at data dependent points", "anchors": ["lib/jxl/padded_bytes.h: PaddedBytes"]}
{"id": "C40", "title": "Coefficient orders are permutations", "statement": "For every transform size the natural coefficient order visits each coefficient exactly once with the low-frequency coefficients first, and the inverse lookup table is its inverse; therefore any custom order decoded from a stream is a permutation as well.", "quantifier": "all transform sizes of the format, every decoded custom permutation", "why_tests_cant": "the largest transform has 65536 coefficients, and the claim about decoded orders ranges over all streams", "anchors": ["lib/jxl/ac_strategy.cc: CoeffOrderAndLut", "lib/jxl/coeff_order.cc: DecodeCoeffOrders"]}
{"id": "C41", "title": "Frame index box lists the marked frames", "statement": "Parsing the contents of the frame index box produced by the encoder gives, in order, one entry per frame marked for indexing, with the right time unit, codestream offset difference, tick duration until the next marked frame and frame count until the next marked frame.", "quantifier": "all lists of frames with their offsets, durations and marks", "why_tests_cant": "lists are unbounded and the entries are differences of cumulative values, so errors only show for particular combinations of marks", "anchors": ["lib/jxl/encode_internal.h: JxlEncoderFrameIndexBox", "lib/jxl/encode.cc: EncodeFrameIndexBox"]}
{"id": "C42", "title": "Histogram normalisation succeeds on every histogram", "statement": "For every histogram of up to 256 symbols the encoder's normalisation yields counts that sum to 4096 and are positive exactly on the symbols that occur, at the chosen precision, without reading outside its tables.", "quantifier": "every histogram, every precision shift, whatever the rounding of the logarithm tables", "why_tests_cant": "the failing histograms need more than a hundred rare symbols next to medium ones; random histograms do not show them", "anchors": ["lib/jxl/enc_ans.cc: ANSEncodingHistogram::RebalanceHistogram, allowed_counts"]}
{"id": "C43", "title": "LZ77 compression of a token sequence is undone by decoding", "statement": "Whatever matches an LZ77 encoder chooses (run lengths or hash map, any cost estimates), decoding what it writes gives back the token values it was given.", "quantifier": "every token sequence, every distance multiplier, every bucket size and every cost estimate", "why_tests_cant": "the failing sequences are longer than the 2^20-entry window and repeat after more than that: a test would need a profile or group of over a million tokens", "anchors": ["lib/jxl/enc_lz77.cc: ApplyLZ77_RLE, LZ77HashMap, ApplyLZ77_LZ77", "lib/jxl/dec_ans.h: ANSSymbolReader::ReadHybridUintClusteredInlined"]}
{"id": "C44", "title": "A decision tree written by the encoder is read back", "statement": "For every decision tree with entries in the ranges of the format, decoding the symbols the encoder writes for it gives a tree with the same splits, predictors, offsets and multipliers, numbered as the encoder numbers it, consuming exactly those symbols; it is refused exactly when it is too tall or has a leaf no properties can select.", "quantifier": "every tree of any size and shape, any symbols following it", "why_tests_cant": "trees are unbounded; the array is rewritten from depth first to breadth first order and the contexts are renumbered on the way", "anchors": ["lib/jxl/modular/encoding/enc_ma.cc: TokenizeTree", "lib/jxl/modular/encoding/dec_ma.cc: DecodeTree, ValidateTree"]}
{"id": "C45", "title": "Rebuilding a JPEG never writes outside its output chunk", "statement": "While the scans of a JPEG file are rebuilt from decoded coefficients, every byte is stored inside the output chunk allocated for it, for sequential scans, first progressive scans and refinement scans.", "quantifier": "all coefficient blocks, Huffman tables, restart intervals, reset points, extra zero runs and padding bits the decoder accepts, scans of any length", "why_tests_cant": "the failing refinement scans need a long run of blocks with only correction bits, then a new coefficient, at one particular position of a 16384 byte chunk", "anchors": ["lib/jxl/jpeg/dec_jpeg_data_writer.cc: DoEncodeScan, EncodeDCTBlockSequential, EncodeDCTBlockProgressive, EncodeRefinementBits, Flush, BufferEndOfBand, Reserve"]}
{"id": "C46", "title": "Output callbacks receive exactly the file", "statement": "With an output processor, the encoder keeps to the documented protocol of the callbacks (one buffer at a time, no seek or write before the finalised position), the bytes received form the file, everything before the announced finalised position has been written, and if the caller asks to stop the library returns an error.", "quantifier": "every sequence of produced pieces, every sequence of buffer sizes the callbacks answer with, a stop request at any of them, processors with and without seek", "why_tests_cant": "the stop request has to come at the one callback made while buffered data is flushed; the number of answers is unbounded", "anchors": ["lib/include/jxl/encode.h: JxlEncoderOutputProcessor, JxlEncoderFlushInput", "lib/jxl/encode.cc: JxlEncoderOutputProcessorWrapper::{GetBuffer,ReleaseBuffer,Seek,SetFinalizedPosition,FlushOutput,AppendBufferToExternalProcessor}"]}
{"id": "C47", "title": "The weighted predictor cannot overflow or leave its buffers", "statement": "While a channel is encoded or decoded, the error-correcting predictor performs no signed overflow, no invalid shift and no access outside its tables and error buffers, and the property it delivers is a 32-bit number.", "quantifier": "every header that can be read from a file, every channel width, every sequence of 32-bit samples of any length", "why_tests_cant": "errors accumulate over the whole image in wrapping 32-bit counters, so extreme states need long adversarial sample sequences", "anchors": ["lib/jxl/modular/encoding/context_predict.h: weighted::State::{Predict,UpdateErrors,ErrorWeight,WeightedAverage}"]}
{"id": "C48", "title": "Layouts of transforms are exact tilings and survive coding", "statement": "The decoder accepts a description of which transform covers which blocks only if the transforms cover every block of the region exactly once, stay inside the image and never cross a group boundary; it never stores outside the image, whatever the stream says. Every such tiling written by the encoder is read back with the same quantizers and filter strengths. In every group, encoder and decoder then visit the same transforms in the same order, and their coefficients fill exactly the area of the group.", "quantifier": "every region and image size, every list of transform kinds and quantizers of any length, every valid tiling", "why_tests_cant": "the number of tilings is astronomically large and overlaps of large transforms need specially crafted lists; visiting order bugs only show for particular neighbours", "anchors": ["lib/jxl/dec_modular.cc: ModularFrameDecoder::DecodeAcMetadata", "lib/jxl/enc_modular.cc: ModularFrameEncoder::AddACMetadata", "lib/jxl/ac_strategy.h: AcStrategyImage::SetNoBoundsCheck", "lib/jxl/dec_group.cc: DecodeGroupImpl"]}
{"id": "C49", "title": "Quantized coefficients survive coding in any number of passes", "statement": "The quantized coefficients of a group, split into the passes of any mode the encoder offers and coded pass by pass, are restored exactly by the decoder, apart from the low frequencies, which travel with the DC image: for every layout of transforms, chroma subsampling, coefficient order and context map, and whatever the work buffers of both sides contained before. Each value is coded in a context that exists. Whatever the stream contains, the decoder never leaves its context tables, the context map or the block, and refuses numbers of nonzeros that do not add up. Storing the coefficients in 16 bits is chosen only if they fit.", "quantifier": "every group layout, subsampling, order, context map, number of passes, 32-bit coefficient array; every token stream for safety", "why_tests_cant": "contexts depend on neighbouring blocks, remaining nonzeros and position: a disagreement needs particular combinations of transforms and counts; coefficients that reach the limits of 16 bits are rare", "anchors": ["lib/jxl/enc_entropy_coder.cc: TokenizeCoefficients, NumNonZeroExceptLLF", "lib/jxl/dec_group.cc: DecodeACVarBlock, GetBlockFromBitstream::LoadBlock", "lib/jxl/ac_context.h: BlockCtxMap", "lib/jxl/enc_progressive_split.cc: ProgressiveSplitter::SplitACCoefficients", "lib/jxl/dec_ans.cc: ANSCode::UpdateMaxNumBits"]}
{"id": "C50", "title": "JPEG Huffman tables: symbols are read for exactly the codes the writer will emit", "statement": "For every Huffman table (DHT) of a JPEG file that the lossless transcoder accepts, whatever tables were loaded into the same slot before: building the lookup table stays inside its 1024 entries; reading a symbol from arbitrary entropy-coded bytes stays inside the table; a symbol read (below 256) has consumed precisely the bits that the JPEG writer will later emit for it; wherever the writer has emitted the codes of some symbols, these symbols are read back; bit patterns owned by no code are reported as invalid. The writer uses the code assignment of ITU-T T.81 Annex C with codes of 1 to 16 bits.", "quantifier": "all DHT contents (counts, values), all earlier contents of the slot, all entropy-coded byte strings, all sequences of tables", "why_tests_cant": "The table layout depends on up to 257 code lengths; the memory bound and the agreement of two independently built tables hold for every length distribution, which no set of files can cover.", "anchors": ["lib/jxl/jpeg/enc_jpeg_huffman_decode.cc:18-103", "lib/jxl/jpeg/enc_jpeg_data_reader.cc:209-287", "lib/jxl/jpeg/enc_jpeg_data_reader.cc:475-491", "lib/jxl/jpeg/dec_jpeg_data_writer.cc:280-319"]}
{"id": "C51", "title": "Scans of a JPEG file are rebuilt byte for byte", "statement": "When a JPEG file is taken apart for lossless recompression, the coefficients at the end of the file together with the recorded reset points, extra zero runs and padding bits suffice to rebuild the entropy-coded bytes of every scan exactly: for every accepted file, rebuilding is not refused and gives each scan byte for byte as it stood in the file, for sequential, first and refinement scans in any order, with restart markers, any Huffman tables and any padding.", "quantifier": "all byte strings, all sequences of scans (modes, bands, bit positions, components, restart positions, Huffman tables), all blocks", "why_tests_cant": "the bytes of a scan depend on the unbounded history of blocks (runs of ends of band, buffered refinement bits) and every scan is written from coefficients that later scans have changed; equal bytes have to come out for every one of the many encodings a foreign encoder may have chosen", "anchors": ["lib/jxl/jpeg/enc_jpeg_data_reader.cc: DecodeDCTBlock, RefineDCTBlock, ProcessRestart, ProcessScan, BitReaderState", "lib/jxl/jpeg/dec_jpeg_data_writer.cc: DoEncodeScan, EncodeDCTBlockSequential, EncodeDCTBlockProgressive, EncodeRefinementBits, Flush, JumpToByteBoundary"]}
{"id": "C52", "title": "A JPEG file is rebuilt byte for byte", "statement": "A JPEG file that was read for lossless transcoding (headers, tables, scans, restart intervals, comments and application data, stray bytes between markers, bytes after the end of the image) and written again from the data that was read gives exactly the bytes of the original file, for every file the reader accepts; two different files never lead to the same data.", "quantifier": "all byte strings the JPEG reader accepts: baseline and progressive, any number and order of marker segments, tables, components, sampling factors and scans", "why_tests_cant": "the file is a long interplay of markers where any segment may be repeated, left out, empty or redefined between scans; the writer has only lists in order of appearance, so one segment read differently from how it is counted shifts all later ones, and such combinations are not in any corpus", "anchors": ["lib/jxl/jpeg/enc_jpeg_data_reader.cc: ReadJpeg, ProcessSOF, ProcessSOS, ProcessDHT, ProcessDQT, ProcessDRI, ProcessAPP, ProcessCOM, FixupIndexes, FindNextMarker, ProcessScan", "lib/jxl/jpeg/dec_jpeg_data_writer.cc: WriteJpeg, SerializeSection, EncodeSOF, EncodeSOS, EncodeDHT, EncodeDQT, EncodeDRI, EncodeAPP, EncodeCOM, EncodeInterMarkerData, EncodeScan"]}
{"id": "C53", "title": "Reading any bytes as a JPEG file is safe", "statement": "Reading arbitrary bytes as a JPEG file for transcoding always ends, after a number of rounds bounded by the length of the input, in acceptance or refusal; it never reads outside the input, the Huffman lookup tables, the coefficient blocks or the lists of components and tables, also when segments are truncated, repeated, out of order or contradict each other.", "quantifier": "all byte strings", "why_tests_cant": "the states in which a later segment finds the tables and positions left by earlier damaged ones are unbounded, and giving back unread bytes before stuffed zeros moves the position backwards, which only a proof over all histories can show to be harmless", "anchors": ["lib/jxl/jpeg/enc_jpeg_data_reader.cc: ReadJpeg, BitReaderState, ReadSymbol, DecodeDCTBlock, RefineDCTBlock, ProcessRestart, ProcessScan", "lib/jxl/jpeg/enc_jpeg_huffman_decode.cc: BuildJpegHuffmanTable"]}
{"id": "C54", "title": "Prefix codes chosen by the encoder are read back by the decoder", "statement": "For every table of symbol counts, the encoder succeeds in choosing a prefix code and writing its description; if at least two symbols occur, the code is complete, its words have at most 15 bits, and exactly the symbols that occur have words. The decoder accepts the description whatever follows it, stops right behind it, and decodes every sequence of symbols that occur from the bits the encoder writes for it.", "quantifier": "all alphabets of up to 32768 symbols, all counts, all sequences of symbols that occur, all following data", "why_tests_cant": "the shape of the code depends on all counts; the depth limit is reached, and the smallest counts are raised round after round, only for extremely skewed counts; the description has five forms with run lengths written in several digits, a second-level code and early termination, whose combinations no corpus covers", "anchors": ["lib/jxl/enc_huffman_tree.cc: CreateHuffmanTree, WriteHuffmanTree, WriteHuffmanTreeRepetitions, WriteHuffmanTreeRepetitionsZeros", "lib/jxl/enc_huffman.cc: BuildAndStoreHuffmanTree, StoreHuffmanTree, StoreSimpleHuffmanTree", "lib/jxl/dec_huffman.cc: HuffmanDecodingData::ReadFromBitStream, ReadHuffmanCodeLengths, ReadSimpleCode"]}
{"id": "C55", "title": "A whole entropy-coded stream is read back as written, and any bits are read safely", "statement": "The values an encoder puts into an entropy-coded stream - with or without LZ77 copies, with ANS or prefix codes, with any clustering of contexts, with a context map that may itself be an entropy-coded stream - are exactly the values the decoder reads from it, for several token streams sharing one header; the decoder stops exactly after the last bit and its final check succeeds. Conversely, from arbitrary bits the decoder either refuses or reads a code with which every later read is inside its tables, the recursion through context maps stays at most three deep, and announced alphabets above the limit are refused.", "quantifier": "all choices of the encoder that fit the format, all sequences of values and contexts, all following data; all bit strings", "why_tests_cant": "header, context map, integer codings, codes and tokens each shift the position of everything behind them and the stream of the context map repeats the whole structure inside; combinations of LZ77, nesting, clusters of one symbol, and empty or full tables are far more than any corpus holds", "anchors": ["lib/jxl/dec_ans.cc: DecodeHistograms, DecodeANSCodes, DecodeUintConfigs, ANSSymbolReader", "lib/jxl/dec_ans.h: ReadSymbol, ReadHybridUintClustered, CheckANSFinalState", "lib/jxl/dec_context_map.cc: DecodeContextMap", "lib/jxl/enc_ans.cc: BuildAndEncodeHistograms, WriteTokens, BuildAndStoreANSEncodingData", "lib/jxl/enc_context_map.cc: EncodeContextMap"]}
{"id": "C56", "title": "JPEG reconstruction data are read back and any bits are judged exactly", "statement": "When a JPEG file is recompressed, the data from which it will be rebuilt (marker order, segment sizes and kinds, Huffman tables, scan parameters, reset points, extra zero runs, padding bits) are read back by the decoder exactly as written, whatever follows them. From arbitrary bits the decoder never accesses an array out of bounds, and it accepts exactly the data that are sound: one end marker at the end, as many segments as markers, indices within their tables, symbols distinct and ending with the reserved one, block numbers increasing, and no table used before it is defined.", "quantifier": "all reconstruction data, all following bits; all bit strings", "why_tests_cant": "more than a dozen lists whose lengths come from one another, differences of unsigned numbers, a bit set over symbols and a check that replays the marker order; files with unusual marker orders or more than 4 GiB after the end are not in any corpus", "anchors": ["lib/jxl/jpeg/jpeg_data.cc: JPEGData::VisitFields", "lib/jxl/jpeg/jpeg_data.h: JPEGData, JPEGHuffmanCode, JPEGScanInfo", "lib/jxl/fields.cc: U32Coder, BitsCoder", "lib/jxl/jpeg/enc_jpeg_data.cc: EncodeJPEGData", "lib/jxl/jpeg/dec_jpeg_data.cc: DecodeJPEGData"]}
{"id": "C57", "title": "The metadata of a recompressed JPEG file are rebuilt exactly", "statement": "When a JPEG file is recompressed losslessly, its application segments (with the parts of a colour profile, Exif and XMP data taken out and stored as the profile of the image and as boxes), its comments, the bytes between markers and the bytes after its end come back byte for byte. The profile of the image is the concatenation of the parts exactly if these are complete, in order and agree on their number. Whatever types, sizes, contents, profile and boxes a file holds, the decoder stays within the segments, and the segments it accepts have right length fields and the sizes that were announced.", "quantifier": "all lists of segments, comments, bytes between markers and after the end; all profiles and boxes; all stored types, sizes and contents", "why_tests_cant": "three functions of the encoder decide independently which segments are profile, Exif or XMP data, and the decoder fills segments in five passes; disagreements appear only for malformed numberings, repeated or empty segments", "anchors": ["lib/jxl/jpeg/enc_jpeg_data.cc: EncodeJPEGData, DetectIccProfile, DetectBlobs, ParseChunkedMarker, SetColorEncodingFromJpegData, SetBlobsFromJpegData", "lib/jxl/jpeg/dec_jpeg_data.cc: DecodeJPEGData", "lib/jxl/jpeg/jpeg_data.cc: SetJPEGDataFromICC", "lib/jxl/decode_to_jpeg.cc: JxlToJpegDecoder::SetExif, SetXmp, ExifBoxContentSize, XmlBoxContentSize", "lib/jxl/encode.cc: JxlEncoderAddJPEGFrame"]}
{"id": "C58", "title": "A JPEG file recompressed to JPEG XL comes back byte for byte", "statement": "A JPEG file that the encoder accepts for lossless recompression is written again by the decoder with exactly the same bytes: from the stored reconstruction data, the compressed metadata, the colour profile, the Exif and XMP boxes, and the sizes, sampling modes, quantization tables and coefficients of the codestream. Parsing, storing, reading back and writing are composed end to end, including tables that only repeat others, zero padding between the two parts of the reconstruction box, and the sizes of the components in blocks. The encoder stays within its arrays whatever bytes it is given.", "quantifier": "all byte strings as input, all compressors that can be undone, all substitute profiles", "why_tests_cant": "each stage is tested on its own files, but the agreement of a dozen stages, each with its own idea of orders of components, transposed tables and unused tables, shows only for complete files with unusual structure", "anchors": ["lib/jxl/jpeg/enc_jpeg_data.cc: EncodeJPEGData, SetChromaSubsamplingFromJpegData, SetColorTransformFromJpegData", "lib/jxl/enc_frame.cc: MakeFrameHeader, ComputeJPEGTranscodingData", "lib/jxl/dec_frame.cc: FrameDecoder::InitFrame, ProcessACGlobal", "lib/jxl/frame_header.h: JpegOrder, YCbCrChromaSubsampling", "lib/jxl/jpeg/dec_jpeg_data.cc: DecodeJPEGData", "lib/jxl/jpeg/dec_jpeg_data_writer.cc: WriteJpeg", "lib/jxl/jpeg/enc_jpeg_data_reader.cc: ReadJpeg"]}
{"id": "C59", "title": "The coefficients of a JPEG file are carried exactly", "statement": "When a JPEG file is recompressed, each coefficient the decoder hands to the JPEG writer is the one that was in the file: whether or not the encoder predicts chroma from luma, for every colour map, every quantization table that the encoder accepts, and whatever the floating-point operations on DC coefficients do within their error bounds. The encoder's arithmetic on coefficients does not overflow.", "quantifier": "all blocks, all tables and maps, all roundings within the stated bounds", "why_tests_cant": "DC coefficients travel as floating-point products with a step stored in half precision and are rounded on the way; a test sees the tables and coefficients of its files, while the step that is off by one needs one particular pair of table entry and coefficient", "anchors": ["lib/jxl/enc_frame.cc: ComputeJPEGTranscodingData", "lib/jxl/enc_modular.cc: ModularFrameEncoder::AddVarDCTDC", "lib/jxl/enc_quant_weights.cc: DequantMatricesSetCustomDC, DequantMatricesEncodeDC", "lib/jxl/enc_fields.cc: F16Coder::Write", "lib/jxl/dec_group.cc: DecodeGroupImpl", "lib/jxl/chroma_from_luma.h: RatioJPEG"]}
{"id": "C60", "title": "The fast lossless encoder finds best code lengths", "statement": "For all frequencies of symbols and all limits on the lengths of their words that leave a complete prefix code at all, the fast lossless encoder chooses a complete code with lengths within the limits, giving words to just the symbols that occur, such that no other such code makes the coded message shorter. Its sums do not overflow and its shifts are defined.", "quantifier": "all frequencies with a sum below 2^59, all limits up to 15 bits", "why_tests_cant": "optimality is a statement about all other codes; the search switches between 32-bit and 64-bit costs and marks unreachable states with a cost that a reachable state can have too, which shows only for particular frequencies and limits", "anchors": ["lib/jxl/enc_fast_lossless.cc: PrefixCode::ComputeCodeLengthsNonZeroImpl", "lib/jxl/enc_fast_lossless.cc: PrefixCode::ComputeCodeLengthsNonZero", "lib/jxl/enc_fast_lossless.cc: PrefixCode::ComputeCodeLengths"]}
{"id": "C61", "title": "Prefix codes of the fast lossless encoder are read back", "statement": "For every bit depth and all counts the fast lossless encoder can arrive at, it finds a prefix code for values and lengths of copies without undefined behaviour. Whatever it writes after the header of that code, the decoder reads the header and then, from the words the encoder writes, exactly the symbols that were written. Every word of a value has at most eight bits, and at 14 bits and more the words of the largest values differ pairwise in the last bit only, as the vector code assumes.", "quantifier": "all bit depths from 1 to 16, all counts with a sum below 2^59, all sequences of symbols that were counted", "why_tests_cant": "codes depend on the counts of sampled rows; the vector code and the header rely on facts about all the codes the search may return, and an assertion that checks them is not in release builds", "anchors": ["lib/jxl/enc_fast_lossless.cc: PrefixCode::PrefixCode", "lib/jxl/enc_fast_lossless.cc: PrefixCode::WriteTo", "lib/jxl/enc_fast_lossless.cc: PrefixCode::ComputeCanonicalCode", "lib/jxl/enc_fast_lossless.cc: BitWriter::Write", "lib/jxl/dec_huffman.cc: HuffmanDecodingData::ReadFromBitStream"]}
{"id": "C62", "title": "The residuals of the fast lossless encoder, runs of zeros included, are read back by the decoder", "statement": "With the codes the fast lossless encoder makes for four channels, the header of the pixel data is accepted by the decoder and read to its exact end, and every section written afterwards (one to four channels, each as values and as runs of zeros that may continue from row to row) is decoded into the same residuals in the contexts of the channels, ending exactly at the last bit and without an error. No call of the bit writer has a value that does not fit or more than 56 bits, whatever lies in memory behind the rows.", "quantifier": "all counters the encoder can make from samples, all four ranges of bit depths, all numbers of channels up to four, all rows of any widths with residuals within the symbols of the channel's code, groups of up to 65536 values per channel, all chunk sizes, all memory contents behind the rows, all continuations of the stream", "why_tests_cant": "a run is kept pending over chunks and rows and its first value is written apart from the copy; lengths below 32 come from a cache in narrower types; a run of one to seven zeros must never be pending because the length would wrap around", "anchors": ["lib/jxl/enc_fast_lossless.cc:387-394", "lib/jxl/enc_fast_lossless.cc:611-620", "lib/jxl/enc_fast_lossless.cc:2646-2676", "lib/jxl/enc_fast_lossless.cc:2960-3000", "lib/jxl/enc_fast_lossless.cc:3035-3062", "lib/jxl/enc_fast_lossless.cc:3109-3175", "lib/jxl/dec_ans.cc:341-375", "lib/jxl/dec_ans.h:285-353"]}
{"id": "C63", "title": "A group coded by the fast lossless encoder is decoded to the caller's samples", "statement": "For an image of any bit depth from 1 to 16 with one to four channels, any group of pixels handed to the fast lossless encoder, in a buffer with any row stride and either byte order, is written without reading outside the buffer and without arithmetic overflow. The decoder, given the code header and the prediction tree the encoder uses, decodes the group and ends exactly at its last bit, and after the colour transform is undone it holds the samples of the buffer. The vector code computes the same residuals as the scalar code.", "quantifier": "all bit depths from 1 to 16, one to four channels, all groups of up to 256 by 256 pixels, all buffers, strides, positions and byte orders, all counters the encoder can make from samples, all memory contents behind the rows, all chunk sizes, all previous contents of the decoder's channels, all continuations of the stream", "why_tests_cant": "losslessness rests on 16-bit arithmetic of residuals and of luma and chroma not overflowing for any neighbouring samples, on sixteen-bit chroma needing the wider type, and on runs of zeros agreeing with the pixel order of the decoder; tests see a few images", "anchors": ["lib/jxl/enc_fast_lossless.cc: WriteACSection", "lib/jxl/enc_fast_lossless.cc: ProcessImageArea", "lib/jxl/enc_fast_lossless.cc: ChannelRowProcessor::ProcessChunk", "lib/jxl/enc_fast_lossless.cc: FillRowRGB8", "lib/jxl/enc_fast_lossless.cc: StoreYCoCg", "lib/jxl/modular/encoding/encoding.cc: DecodeModularChannelMAANS", "lib/jxl/modular/transform/rct.cc: InvRCT"]}
{"id": "C64", "title": "A prediction tree in the stream is read back", "statement": "A prediction tree of the encoder, written as an entropy-coded stream with any choice of clusters, codings of integers, LZ77 copies and ANS or prefix codes, is read by the decoder up to exactly its last bit as the array the encoder uses, which holds the same tree. Reading a tree from any bits is defined and gives only well-formed trees within the limits. If the stream uses ANS and LZ77 and no leaf is written as such, the decoder may refuse it.", "quantifier": "all trees within the format's ranges, of height at most 2046 and with no leaf that cannot be selected; all size limits; all sound choices of the entropy coder, also for the nested streams of context maps; all memory contents; for reading, all bit sequences and limits", "why_tests_cant": "the decoder guards against endless trees by looking at a histogram, and whether that can hit a valid tree depends on which leaves LZ77 copies; tests only see the trees the heuristics build", "anchors": ["lib/jxl/modular/encoding/dec_ma.cc: DecodeTree", "lib/jxl/modular/encoding/enc_ma.cc: TokenizeTree", "lib/jxl/dec_ans.cc: DecodeANSCodes", "lib/jxl/enc_modular.cc: EncodeGlobalInfo"]}
{"id": "C65", "title": "The header of a modular image is read back", "statement": "The header in front of a modular image (use of the frame's tree, parameters of the weighted predictor, list of transforms) is written only if all its numbers are in the ranges of the format, and is then read back unchanged up to exactly its last bit, whatever follows. From any bits the decoder accepts only headers in these ranges: at most 273 transforms of the three kinds that exist, colour transform types below 42, predictors below 14, and what it accepted can be written again with the same meaning.", "quantifier": "all headers with any numbers, all bit sequences, all continuations of the stream", "why_tests_cant": "each of eleven fields has its own code with four cases and offsets; a gap or an overlap at a boundary concerns single values in thousands", "anchors": ["lib/jxl/modular/encoding/encoding.h: GroupHeader::VisitFields", "lib/jxl/modular/transform/transform.cc: Transform::VisitFields", "lib/jxl/modular/transform/squeeze_params.cc: SqueezeParams::VisitFields", "lib/jxl/modular/encoding/context_predict.h: Header::VisitFields"]}
{"id": "C66", "title": "A whole modular image is read back", "statement": "A modular image compressed on its own (header, transforms applied one after the other, decision tree, entropy code, samples) is decompressed to the image before all transforms, and exactly the bits of the stream are consumed. The decompressor is given only the sizes and shifts of the channels; neither their earlier contents nor the contents of uninitialised memory nor what follows the stream changes the result.", "quantifier": "all images, all lists of colour transforms, lossless palettes and squeezes, all trees, all choices of the two entropy coders, all continuations of the stream, all earlier memory contents", "why_tests_cant": "the parts are tested together only with the choices the encoder happens to make; the result must not depend on how transforms, trees and codes combine", "anchors": ["lib/jxl/modular/encoding/enc_encoding.cc: ModularGenericCompress", "lib/jxl/modular/encoding/encoding.cc: ModularGenericDecompress, ModularDecode, ValidateChannelDimensions", "lib/jxl/modular/transform/transform.cc: Transform::MetaApply, Transform::Inverse", "lib/jxl/modular/modular_image.cc: Image::undo_transforms"]}
{"id": "C67", "title": "The palette of the fast lossless encoder sends every pixel as its own colour", "statement": "When the fast lossless encoder looks for a palette in an image of eight bits per sample, it reads only bytes of the caller's rows. If it decides for a palette, the palette has at most 512 colours, none twice, and every pixel of the image is sent as an index whose stored colour is the colour of the pixel.", "quantifier": "all images of any size with one to four channels of eight bits, all strides and buffer contents, all orders of the palette", "why_tests_cant": "colours are told apart by a hash of 16 bits; whether two colours of an image share a place, and whether this is noticed, depends on particular colours and on the order of the pixels", "anchors": ["lib/jxl/enc_fast_lossless.cc: pixel_hash", "lib/jxl/enc_fast_lossless.cc: detect_palette", "lib/jxl/enc_fast_lossless.cc: LLPrepare", "lib/jxl/enc_fast_lossless.cc: FillRowPalette", "lib/jxl/enc_fast_lossless.cc: PrepareDCGlobalPalette"]}
{"id": "C68", "title": "The sections of the fast lossless encoder are decoded to the caller's image", "statement": "Without a palette, the fast lossless encoder writes an image of at most 256 by 256 pixels as one section, and a larger image as a first section and one section for each group of 256 by 256 pixels. The decoder of frames, which knows only the size of the image and the number of channels, reads from these bits the quantisation of low frequencies, the prediction tree, the entropy code, the headers of the modular images and the samples, consumes each section up to its last bit (the first one of a large image up to the padding of its last byte), and shows for each group the samples of the caller's buffer.", "quantifier": "all bit depths from 1 to 16, one to four channels, all image sizes, groups, buffers, strides and byte orders, all counters the encoder can make from samples, all memory contents, all continuations of the stream, groups in any order", "why_tests_cant": "the encoder writes tree, headers and transforms as literal bit patterns that were derived by hand, and moves the header between sections depending on the size of the image; the decoder moves the undoing of transforms between the whole image and its groups by another rule, and both must agree for every size and depth", "anchors": ["lib/jxl/enc_fast_lossless.cc: PrepareDCGlobalCommon", "lib/jxl/enc_fast_lossless.cc: PrepareDCGlobal", "lib/jxl/enc_fast_lossless.cc: WriteACSection", "lib/jxl/enc_fast_lossless.cc: LLProcess", "lib/jxl/dec_modular.cc: ModularFrameDecoder::DecodeGlobalInfo", "lib/jxl/dec_modular.cc: ModularFrameDecoder::DecodeGroup", "lib/jxl/quant_weights.cc: DequantMatrices::DecodeDC"]}
{"id": "C69", "title": "Images with a palette from the fast lossless encoder are decoded to the caller's image", "statement": "When the fast lossless encoder uses a palette, it writes the announcement of the palette, the colours and, for each group of 256 by 256 pixels, the indices of the pixels. The decoder of frames, which knows only the size of the image and the number of channels, reads the first section (up to the padding of its last byte if there are several), decodes the colours, copies the indices of each group into the full image, and, with the palette undone, shows exactly the pixels of the caller's buffer.", "quantifier": "all images of eight bits with one to four channels for which a palette is chosen, all sizes, buffers and strides, all orders of equal luma, all counters the encoder can make from samples, all memory contents, all continuations of the sections, groups in any order", "why_tests_cant": "colours and indices go through other literal headers, other counters and another layout of channels than images without palette; the index channel has another number, hence another code, in an image of one group than in a larger one; only images with few colours take this path, and one wrong index shows a wrong colour", "anchors": ["lib/jxl/enc_fast_lossless.cc: PrepareDCGlobalPalette", "lib/jxl/enc_fast_lossless.cc: ProcessImageAreaPalette", "lib/jxl/enc_fast_lossless.cc: WriteACSectionPalette", "lib/jxl/enc_fast_lossless.cc: LLPrepare", "lib/jxl/dec_modular.cc: ModularFrameDecoder::DecodeGlobalInfo", "lib/jxl/dec_modular.cc: ModularFrameDecoder::DecodeGroup", "lib/jxl/modular/transform/palette.cc: InvPalette"]}
{"id": "C70", "title": "Every sample of a modular frame is coded in exactly one section", "statement": "The passes that a frame header announces are read back as written and satisfy the rules of the format. Whatever channels and transforms a frame has, if the decoder accepts the first section, then every sample of every channel that is not coded there is coded in exactly one of the other sections: those of the low frequencies, and those of the groups in each pass. When all of them have come, in any order, the image is complete. After a number of passes exactly those channels are complete that are scaled down at least as much as the resolution announced for that number of passes. No two sections use the same stream number in the prediction tree.", "quantifier": "all image sizes, all group sizes, upsamplings and subsamplings, all passes the header admits, all first sections the decoder accepts with any sequence of transforms, all orders of the sections, repeated sections included", "why_tests_cant": "whether a sample is skipped or coded twice depends on how shifts of squeezed channels, the rounding of group borders, the brackets of the passes and the limit of the first section meet; only images of several groups with progressive passes show it, and encoder and decoder share the same rule, so a round trip of common settings hides gaps", "anchors": ["lib/jxl/frame_header.cc: Passes::VisitFields", "lib/jxl/frame_header.h: Passes::GetDownsamplingBracket", "lib/jxl/frame_header.h: Passes::GetDownsamplingTargetForCompletedPasses", "lib/jxl/dec_modular.cc: ModularFrameDecoder::DecodeGroup", "lib/jxl/dec_modular.cc: ModularFrameDecoder::DecodeGlobalInfo", "lib/jxl/dec_modular.h: ModularStreamId", "lib/jxl/dec_frame.cc: FrameDecoder::ProcessDCGroup", "lib/jxl/dec_frame.cc: FrameDecoder::ProcessACGroup", "lib/jxl/modular/encoding/encoding.cc: ValidateChannelDimensions", "lib/jxl/enc_modular.cc: ModularFrameEncoder::PrepareStreamParams"]}
{"id": "C71", "title": "For every row exactly the patches that cover it are drawn, in order", "statement": "After a patch dictionary has been read, the decoder looks up for each row of the frame which patches to draw. For every row the lookup delivers the patches that cover that row, each exactly once and in the order of the dictionary, and none for rows no patch covers; building and using the index never touches anything outside its arrays.", "quantifier": "all lists of patches of any length with any overlaps, all rows, whatever order sorting leaves equal keys in", "why_tests_cant": "the lookup is an interval tree over sorted arrays that are cut and sorted again in place; a mistake at the border of a node is seen only where patches start or end at exactly the row of a node, and later patches are drawn over earlier ones only where they overlap", "anchors": ["lib/jxl/dec_patch_dictionary.cc: PatchDictionary::ComputePatchTree", "lib/jxl/dec_patch_dictionary.cc: PatchDictionary::GetPatchesForRow"]}
{"id": "C72", "title": "The dictionary of patches is read back as written", "statement": "A dictionary of patches that the encoder writes for a frame is read back up to its last bit, and draws the same rectangles of the same saved frames at the same places, in the same order, each blended with the colours and every extra channel as the encoder said. Whatever bits are read as a dictionary, reading is defined, and every accepted patch lies within the frame, comes from within a saved frame, has a blending for every channel and names only alpha channels that exist.", "quantifier": "all dictionaries in the ranges of the format with any number of patches, sources and extra channels, all sound choices of the entropy coder, all memory contents, all earlier frames of the image, all bit strings", "why_tests_cant": "places are coded relative to the patch before, sources are renumbered and blendings lie in one array with a stride; a confusion needs several patches and several frames with patches of different blendings, which the encoder's own search for patches never produces", "anchors": ["lib/jxl/dec_patch_dictionary.cc: PatchDictionary::Decode", "lib/jxl/dec_patch_dictionary.cc: PatchDictionary::GetReferences", "lib/jxl/dec_patch_dictionary.cc: PatchDictionary::AddOneRow", "lib/jxl/enc_patch_dictionary.cc: PatchDictionaryEncoder::Encode", "lib/jxl/dec_frame.cc: FrameDecoder::ProcessDCGlobal"]}
{"id": "C73", "title": "Splines are read back as written, and their control points without overflow", "statement": "Splines given to the encoder are read back up to the last bit with the same control points, coefficients and quantisation. Whatever bits are read as splines, reading is defined, and what is accepted has at most one control point for two pixels and only numbers in range. The control points computed from accepted splines are the ones whose second differences were read, they are in range and no two successive ones are equal; computing them is defined for all accepted splines.", "quantifier": "all lists of curves of any number and length in the range of the format, all sound choices of the entropy coder, all memory contents, all bit strings, all sizes of the picture", "why_tests_cant": "control points are coded as differences of differences in a chain of additions with checks between them, and the encoder never looks for splines itself; only hand-made streams reach the limits", "anchors": ["lib/jxl/splines.cc: Splines::Decode", "lib/jxl/splines.cc: QuantizedSpline::Decode", "lib/jxl/splines.cc: QuantizedSpline::Create", "lib/jxl/splines.cc: QuantizedSpline::Dequantize", "lib/jxl/splines.cc: Splines::InitializeDrawCache", "lib/jxl/enc_splines.cc: EncodeSplines"]}
{"id": "C74", "title": "The map of block contexts is read back, and no lookup leaves it", "statement": "Any map of block contexts that fits the format is stored and read back up to the last bit, in each form its entries can take. Whatever bits are read as such a map, reading is defined, and what is accepted is within the limits of the format. With an accepted map the context of every block, for any DC values, any quantisation, every coefficient order and channel, is looked up inside the map and is one of at most sixteen. Blocks in different intervals of any threshold, of different orders or channels, never share an entry, so any assignment of contexts can be expressed.", "quantifier": "all maps within the limits, all sound choices of the entropy coder, all memory contents, all bit strings, all DC values and quantisations, all thresholds whether sorted or not", "why_tests_cant": "the encoder only produces a few kinds of maps, with sorted thresholds; the product of five sizes limits the map, and the index mixes six digits with three orders of the channels, in two files", "anchors": ["lib/jxl/entropy_coder.cc: DecodeBlockCtxMap", "lib/jxl/enc_context_map.cc: EncodeBlockCtxMap", "lib/jxl/ac_context.h: BlockCtxMap::Context", "lib/jxl/compressed_dc.cc: DequantDC"]}
{"id": "C75", "title": "The parameters of a whole frame are read back, and none is out of range", "statement": "The quantiser, the colour correlation and the noise table of a frame are read back as they were written: the first two exactly if they are representable in the format, the noise at most half a step away (exactly if it consists of whole steps). A quantiser or noise table that does not fit is refused when written. Whatever bits are read, the divisors among the parameters are not zero and all values lie in the ranges of the format. The encoder reserves enough bits for what it writes.", "quantifier": "all quantisers of 32 bits, all correlations whose base values are half-precision numbers up to 4, all noise tables of non-negative values, all bit strings, any following bits", "why_tests_cant": "the encoder uses one colour factor and few base values, so most forms are never written; the noise is limited by a constant chosen to be just below a rounding step; the number of reserved bits was counted by hand", "anchors": ["lib/jxl/quantizer.cc: QuantizerParams::VisitFields", "lib/jxl/enc_fields.cc: WriteQuantizerParams", "lib/jxl/chroma_from_luma.cc: ColorCorrelation::DecodeDC", "lib/jxl/enc_chroma_from_luma.cc: ColorCorrelationEncodeDC", "lib/jxl/enc_noise.cc: EncodeNoise", "lib/jxl/dec_noise.cc: DecodeNoise"]}
{"id": "C76", "title": "Quantisation tables are read back, and what must not be zero is not", "statement": "The quantisation tables of a frame, in each of their forms, and the factors of its lowest frequencies are read back exactly as they were written if they are representable in the format. Whatever bits are read, the tables have the right number of weights, only tables of one block have the special forms, every weight is a half-precision number in its unit, the plain weights and multipliers (except those of the corner transforms, which are tested later) are not zero, the first band of each channel is positive, and the factors are positive and at least 1e-8, so they have a finite inverse.", "quantifier": "all seventeen tables in any mixture of forms and all numbers of bands, all weights of the format without negative zeros, all factors of the format, all bit strings, any following bits; tables given pixel by pixel by any coding that is itself read back", "why_tests_cant": "the encoder only uses the predefined tables and those of JPEG files, so six of the eight forms are never written; weights have different units depending on their place, and the checks differ between forms", "anchors": ["lib/jxl/quant_weights.cc: DequantMatrices::Decode", "lib/jxl/quant_weights.cc: DequantMatrices::DecodeDC", "lib/jxl/quant_weights.cc: DecodeDctParams", "lib/jxl/enc_quant_weights.cc: DequantMatricesEncode", "lib/jxl/enc_quant_weights.cc: DequantMatricesEncodeDC", "lib/jxl/enc_quant_weights.cc: EncodeQuant"]}
{"id": "C77", "title": "The global section of a frame is read back as a whole", "statement": "For every combination of patches, splines, noise and DCT blocks, the part of a frame's global section before its modular images is written, and the decoder reads from it, up to exactly the last bit, the same patches, curves, factors, quantiser, block contexts and colour correlation, and the noise up to half a step. What the header does not select is absent (an earlier noise table is kept, patches and splines of earlier frames are not). Whatever bits the section has, reading it is defined, and what is accepted can be used: patches can be drawn, splines are in range, no divisor is zero, block contexts are within their table. Both also hold for any sequence of frames of an image, of which each is read with what the earlier ones left.", "quantifier": "all frame headers' selections, all contents within the format, all sound choices of the entropy coder for every stream, any memory contents, any state left by earlier frames, all bit strings, any following bits", "why_tests_cant": "there are sixteen combinations of parts, each with its own entropy coding; a part that reads one bit too many only shows in those that follow it; tests use few combinations and hardly any sequences of frames", "anchors": ["lib/jxl/dec_frame.cc: FrameDecoder::ProcessDCGlobal", "lib/jxl/dec_frame.cc: DecodeGlobalDCInfo", "lib/jxl/enc_frame.cc: EncodeGlobalDCInfo", "lib/jxl/enc_frame.cc: EncodeGroups"]}
{"id": "C78", "title": "Rectangle operations select exactly the intended pixels", "statement": "Intersecting two rectangles gives exactly their common pixels, cropping to an image exactly those within it, a rectangle is reported to be inside another exactly if all its pixels are, translation moves every pixel by the offset, extending a rectangle by a border within a parent gives exactly the pixels of the parent that are at most the border away, enlarging by powers of two gives exactly the pixels that come from the rectangle and is undone by reducing, and reducing gives exactly the pixels that some pixel of the rectangle falls on or is refused if the rectangle does not start at a multiple.", "quantifier": "all rectangles with unsigned or signed 64-bit positions, empty ones included, and all borders, offsets and factors below 2^31", "why_tests_cant": "rectangles at the borders of an image, empty intersections and negative positions are rare combinations of sixteen numbers; unsigned arithmetic goes wrong silently", "anchors": ["lib/jxl/base/rect.h: RectT::Intersection", "lib/jxl/base/rect.h: RectT::Crop", "lib/jxl/base/rect.h: RectT::IsInside", "lib/jxl/base/rect.h: RectT::Extend", "lib/jxl/base/rect.h: RectT::CeilShiftRight", "lib/jxl/base/rect.h: RectT::ShiftLeft"]}
